import Verif.Proofs.State
import Verif.Proofs.Order
/-!
# The part of a problem that can be fulfilled

`part P` is what the code schedules, for any input whose bits are distinct nodes.
-/

namespace Verif

open Spec Problem

/-- The bits kept in the layers before layer `i`. -/
def kept (P : Problem) (i : Nat) : List Nat := before (part P) i

theorem keep_layer (o : OrderGraph) : ∀ (known : List Nat) (first : Bool) (i : Nat),
    (Problem.keep known first o)[i]? = o[i]?.map fun layer =>
      if first = true ∧ i = 0 then layer.map fun e => (e.1, []) else
        layer.filter fun e => decide (e.2 ≠ [] ∧ e.2.Nodup ∧
          ∀ d ∈ e.2, d ∈ known ++ ((Problem.keep known first o).take i).flatten.map (·.1)) := by
  induction o with
  | nil => intro known first i; simp [Problem.keep]
  | cons l o ih =>
    intro known first i
    cases i with
    | zero =>
      cases first <;> simp [Problem.keep]
    | succ i =>
      simp only [Problem.keep, List.getElem?_cons_succ, List.take_succ_cons, List.flatten_cons,
        List.map_append, ih, Nat.add_one_ne_zero, and_false, ↓reduceIte, Bool.false_eq_true, false_and,
        List.append_assoc]

theorem part_layer (P : Problem) (i : Nat) : (part P).order[i]? = P.order[i]?.map fun layer =>
    if i = 0 then layer.map fun e => (e.1, []) else
      layer.filter fun e => decide (e.2 ≠ [] ∧ e.2.Nodup ∧ ∀ d ∈ e.2, d ∈ kept P i) := by
  have := keep_layer P.order [] true i
  simpa [part, kept, before] using this

/-- Where an entry of the part comes from. -/
theorem part_entry {P : Problem} {i : Nat} {l' : List (Nat × List Nat)} {e : Nat × List Nat}
    (hl : (part P).order[i]? = some l') (he : e ∈ l') :
    ∃ layer ds, P.order[i]? = some layer ∧ (e.1, ds) ∈ layer ∧ effDeps P i ds = e.2 ∧
      ((i = 0 ∧ e.2 = []) ∨ (i ≠ 0 ∧ e.2 = ds ∧ ds ≠ [] ∧ ds.Nodup ∧ ∀ d ∈ ds, d ∈ kept P i)) := by
  have hl' := hl
  rw [part_layer] at hl
  cases ho : P.order[i]? with
  | none => simp [ho] at hl
  | some layer =>
    simp only [ho, Option.map_some, Option.some.injEq] at hl
    subst hl
    split at he
    · rename_i hi
      obtain ⟨x, hx, rfl⟩ := List.mem_map.1 he
      exact ⟨layer, x.2, rfl, hx, by simp [effDeps, hi], Or.inl ⟨hi, rfl⟩⟩
    · rename_i hi
      simp only [List.mem_filter, decide_eq_true_eq] at he
      obtain ⟨h1, h2, h3, h4⟩ := he
      refine ⟨layer, e.2, rfl, h1, ?_, Or.inr ⟨hi, rfl, h2, h3, h4⟩⟩
      have hr : realDeps P i e.2 = e.2 := by
        unfold realDeps
        rw [List.filter_eq_self.2, List.dedup_eq_self.2 h3]
        intro d hd
        obtain ⟨j, hj, l, hl, x, hx, hxd⟩ := mem_before.1 (h4 d hd)
        rw [part_layer] at hl
        cases hoj : P.order[j]? with
        | none => simp [hoj] at hl
        | some lj =>
          simp only [hoj, Option.map_some, Option.some.injEq] at hl
          subst hl
          have : ∃ y ∈ lj, y.1 = x.1 := by
            split at hx
            · obtain ⟨y, hy, rfl⟩ := List.mem_map.1 hx; exact ⟨y, hy, rfl⟩
            · exact ⟨x, (List.mem_filter.1 hx).1, rfl⟩
          obtain ⟨y, hy, hyx⟩ := this
          simpa using mem_before.2 ⟨j, hj, lj, hoj, y, hy, by rw [hyx, hxd]⟩
      simp [effDeps, hi, hr, h2]

theorem part_bits_sublist (P : Problem) : ((part P).bits).Sublist P.bits := by
  have key : ∀ (o : OrderGraph) (known : List Nat) (first : Bool),
      ((Problem.keep known first o).flatten.map (·.1)).Sublist (o.flatten.map (·.1)) := by
    intro o
    induction o with
    | nil => intro known first; simp [Problem.keep]
    | cons l o ih =>
      intro known first
      simp only [Problem.keep, List.flatten_cons, List.map_append]
      refine List.Sublist.append ?_ (ih _ _)
      cases first
      · exact List.filter_sublist.map _
      · simp only [↓reduceIte, List.map_map]; exact List.Sublist.refl _
  exact key _ _ _

/-- The part is well-formed. -/
theorem Spec.Problem.Loose.part_wf {P : Problem} (hP : P.Loose) : (part P).WF := by
  refine ⟨(part_bits_sublist P).nodup hP.bits_nodup,
    fun b hb => hP.bits_lt b ((part_bits_sublist P).subset hb), hP.nbrs_lt, ?_, hP.size⟩
  intro i layer hl e he
  obtain ⟨_, ds, _, _, _, h | h⟩ := part_entry hl he
  · simp [h]
  · obtain ⟨h1, h2, h3, h4, h5⟩ := h
    subst h2
    exact ⟨by simp [h1, h3], h4, fun d hd => mem_before.1 (h5 d hd)⟩

/-- A kept bit has the same dependencies in the part. -/
theorem part_needs {P : Problem} (hP : P.Loose) {b : Nat} (hb : b ∈ (part P).bits) (d : Nat) :
    (part P).Needs b d ↔ (eff P).Needs b d := by
  have hn := hP.part_wf.bits_nodup
  have hn' : (eff P).bits.Nodup := hP.lax.bits_nodup
  obtain ⟨e, he, rfl⟩ := List.mem_map.1 hb
  obtain ⟨i, l, hl, hel⟩ := mem_entries_iff.1 he
  obtain ⟨layer, ds, h1, h2, h3, _⟩ := part_entry hl hel
  have he' : (e.1, e.2) ∈ (eff P).entries := mem_eff_entries.2 ⟨i, layer, ds, h1, h2, h3.symm⟩
  rw [needs_iff hn, needs_iff hn', depsOf, depsOf, (get_entries hn).2 he, (get_entries hn').2 he']

/-- A bit is kept if its effective dependencies are kept. -/
theorem part_of_deps {P : Problem} (hP : P.Loose) {b : Nat} (hb : b ∈ (eff P).bits)
    (hd : ∀ d, (eff P).Needs b d → d ∈ (part P).bits) : b ∈ (part P).bits := by
  have hn' : (eff P).bits.Nodup := hP.lax.bits_nodup
  rw [eff_bits] at hb
  obtain ⟨e, he, rfl⟩ := List.mem_map.1 hb
  obtain ⟨i, l, hl, hel⟩ := mem_entries_iff.1 he
  have he' : (e.1, effDeps P i e.2) ∈ (eff P).entries := mem_eff_entries.2 ⟨i, l, e.2, hl, hel, rfl⟩
  have hd' : ∀ d ∈ effDeps P i e.2, d ∈ (part P).bits := fun d h => hd d ⟨_, he', h⟩
  by_cases hi : i = 0
  · refine List.mem_map.2 ⟨(e.1, []), mem_entries_iff.2 ⟨i, _, by rw [part_layer, hl]; rfl, ?_⟩, rfl⟩
    simp only [if_pos hi]
    exact List.mem_map.2 ⟨e, hel, rfl⟩
  · refine List.mem_map.2 ⟨e, mem_entries_iff.2 ⟨i, _, by rw [part_layer, hl]; rfl, ?_⟩, rfl⟩
    simp only [if_neg hi, List.mem_filter, decide_eq_true_eq]
    -- there are no numbers that are not nodes
    have hno : (if e.2 = [] then 1 else e.2.length - (realDeps P i e.2).length) = 0 := by
      apply Classical.byContradiction
      intro h0
      have : P.n ∈ effDeps P i e.2 := by
        simp only [effDeps, hi, ↓reduceIte, List.mem_append, List.mem_range'_1]
        right
        omega
      have := hP.part_wf.bits_lt _ (hd' _ this)
      exact Nat.lt_irrefl _ this
    have hne : e.2 ≠ [] := by
      intro h; rw [if_pos h] at hno; omega
    rw [if_neg hne] at hno
    have hle1 : (e.2.filter fun d => decide (d ∈ before P i)).length ≤ e.2.length :=
      List.length_filter_le _ _
    have hsub : (realDeps P i e.2).Sublist (e.2.filter fun d => decide (d ∈ before P i)) :=
      List.dedup_sublist _
    have hle2 := hsub.length_le
    have hall : e.2.filter (fun d => decide (d ∈ before P i)) = e.2 :=
      List.filter_sublist.eq_of_length (by omega)
    have hdd : realDeps P i e.2 = e.2 := by
      rw [hsub.eq_of_length (by omega), hall]
    have hnd : e.2.Nodup := by rw [← hdd]; exact List.nodup_dedup _
    refine ⟨hel, hne, hnd, ?_⟩
    intro d hde
    have hbef : d ∈ before P i := by
      rw [← hall] at hde
      simpa using (List.mem_filter.1 hde).2
    obtain ⟨j, hj, lj, hlj, x, hx, rfl⟩ := mem_before.1 hbef
    have hdp : x.1 ∈ (part P).bits := hd' _ (by
      simp only [effDeps, hi, ↓reduceIte, List.mem_append]
      left; rw [hdd]; exact hde)
    obtain ⟨y, hy, hyx⟩ := List.mem_map.1 hdp
    obtain ⟨k, lk, hlk, hyk⟩ := mem_entries_iff.1 hy
    obtain ⟨lay, ds, g1, g2, _⟩ := part_entry hlk hyk
    have hkj : k = j := layer_unique hP.bits_nodup g1 hlj g2 hx hyx
    exact mem_before.2 ⟨k, by omega, lk, hlk, y, hyk, hyx⟩

/-- The schedules of the input that cannot be continued are the valid schedules of the part. -/
theorem maximal_part {P : Problem} (hP : P.Loose) {S : Schedule} : Maximal (eff P) S ↔ (part P).Valid S := by
  have hsub : ∀ b ∈ (part P).bits, b ∈ (eff P).bits := by
    intro b hb; rw [eff_bits]; exact (part_bits_sublist P).subset hb
  constructor
  · rintro ⟨hpre, hnone⟩
    have h1 : ∀ k, ∀ b ∈ (S.take k).flatten, b ∈ (part P).bits := by
      intro k
      induction k with
      | zero => simp
      | succ k ih =>
        by_cases hk : k < S.length
        · have hs : S[k]? = some S[k] := by simp [hk]
          have hp := prefix_take hpre (k + 1)
          rw [take_succ_of_getElem? hs] at hp ⊢
          obtain ⟨_, _, _, hr⟩ := prefix_of_snoc hp
          intro b hb
          rw [List.flatten_append, List.mem_append] at hb
          rcases hb with hb | hb
          · exact ih b hb
          · have := hr b (by simpa using hb)
            exact part_of_deps hP this.bit fun d hd => ih d (this.deps d hd)
        · rw [List.take_of_length_le (by omega)]
          rw [List.take_of_length_le (by omega)] at ih
          exact ih
    have h1' : ∀ b ∈ S.flatten, b ∈ (part P).bits := by
      intro b hb
      exact h1 S.length b (by rwa [List.take_length])
    have hpre' : Prefix (part P) S := by
      refine ⟨hpre.nonempty, hpre.nodup, h1', ?_⟩
      intro i s hs b hb d hd
      exact hpre.deps i s hs b hb d ((part_needs hP (h1' b (mem_flatten_iff.2 ⟨i, s, hs, hb⟩)) d).1 hd)
    apply hpre'.valid hP.part_wf.bits_nodup
    intro b hb
    apply Classical.byContradiction
    intro hn
    obtain ⟨r, hr⟩ := exists_ready hP.part_wf S.flatten hb hn
    exact hnone r ⟨hsub r hr.bit, hr.fresh, fun d hd => hr.deps d ((part_needs hP hr.bit d).2 hd)⟩
  · intro hv
    have hp := hv.prefix hP.part_wf.bits_nodup
    refine ⟨⟨hp.nonempty, hp.nodup, fun b hb => hsub b (hp.sub b hb), ?_⟩, ?_⟩
    · intro i s hs b hb d hd
      exact hp.deps i s hs b hb d ((part_needs hP (hp.sub b (mem_flatten_iff.2 ⟨i, s, hs, hb⟩)) d).2 hd)
    · intro b hb
      have : b ∈ (part P).bits := part_of_deps hP hb.bit fun d hd => hv.perm.mem_iff.1 (hb.deps d hd)
      exact hb.fresh (hv.perm.mem_iff.2 this)

/-- A well-formed problem is its own part. -/
theorem part_of_wf {P : Problem} (hP : P.WF) : part P = P := by
  obtain ⟨g, o⟩ := P
  have key : ∀ i, (part ⟨g, o⟩).order[i]? = o[i]? ∧ ∀ d, d ∈ kept ⟨g, o⟩ i ↔ d ∈ before ⟨g, o⟩ i := by
    intro i
    induction i using Nat.strongRecOn with
    | ind i ih =>
      have hk : ∀ d, d ∈ kept ⟨g, o⟩ i ↔ d ∈ before ⟨g, o⟩ i := by
        intro d
        simp only [kept, mem_before]
        constructor
        · rintro ⟨j, hj, l, hl, r⟩
          rw [(ih j hj).1] at hl
          exact ⟨j, hj, l, hl, r⟩
        · rintro ⟨j, hj, l, hl, r⟩
          exact ⟨j, hj, l, by rw [(ih j hj).1]; exact hl, r⟩
      refine ⟨?_, hk⟩
      rw [part_layer]
      cases ho : o[i]? with
      | none => rfl
      | some layer =>
        simp only [Option.map_some, Option.some.injEq]
        split
        · rename_i hi
          conv_rhs => rw [← List.map_id layer]
          apply List.map_congr_left
          intro e he
          have := ((hP.layers i layer ho e he).1).1 hi
          rw [← this]; rfl
        · rename_i hi
          rw [List.filter_eq_self]
          intro e he
          obtain ⟨h1, h2, h3⟩ := hP.layers i layer ho e he
          rw [decide_eq_true_eq]
          exact ⟨fun h => hi (h1.2 h), h2, fun d hd => (hk d).2 (mem_before.2 (h3 d hd))⟩
  have : (part ⟨g, o⟩).order = o := List.ext_getElem? fun i => (key i).1
  cases h : part ⟨g, o⟩
  have hg : (part ⟨g, o⟩).graph = g := rfl
  rw [h] at this hg
  simp only at this hg
  rw [this, hg]

end Verif
