import Verif.Proofs.Focus
import Verif.Proofs.Run
/-!
# The mode without search
-/

namespace Verif

open Spec Search

/-- Every step measures all ready bits. -/
def Greedy (P : Problem) (p : Schedule) : Prop :=
  ∀ (k : Nat) (s : List Nat), p[k]? = some s → ∀ b, Ready P (p.take k).flatten b ↔ b ∈ s

theorem greedy_snoc {P : Problem} {p : Schedule} {s : List Nat} (h : Greedy P p)
    (hs : ∀ b, Ready P p.flatten b ↔ b ∈ s) : Greedy P (p ++ [s]) := by
  intro k s' hk b
  rcases Nat.lt_trichotomy k p.length with hlt | rfl | hgt
  · rw [List.getElem?_append_left hlt] at hk
    rw [List.take_append_of_le_length (by omega)]
    exact h k s' hk b
  · simp only [List.getElem?_concat_length, Option.some.injEq] at hk
    subst hk
    rw [List.take_left' rfl]
    exact hs b
  · rw [List.getElem?_eq_none (by simp; omega)] at hk
    simp at hk

/-- A greedy schedule is ahead of every other one. -/
theorem greedy_ahead {P : Problem} {p : Schedule} (h : Greedy P p) {S : Schedule}
    (hS : Prefix P S) : ∀ k, k ≤ p.length → ∀ b ∈ (S.take k).flatten, b ∈ (p.take k).flatten := by
  intro k
  induction k with
  | zero => intro _ b hb; simp at hb
  | succ k ih =>
    intro hk b hb
    have hpk : p[k]? = some p[k] := by simp [show k < p.length by omega]
    rw [take_succ_of_getElem? hpk, List.flatten_append, List.mem_append]
    by_cases hSk : k < S.length
    · have hs : S[k]? = some S[k] := by simp [hSk]
      have hpre := prefix_take hS (k + 1)
      rw [take_succ_of_getElem? hs] at hb hpre
      obtain ⟨_, _, _, hr⟩ := prefix_of_snoc hpre
      rw [List.flatten_append, List.mem_append] at hb
      rcases hb with hb | hb
      · exact Or.inl (ih (by omega) b hb)
      · have hb' : b ∈ S[k] := by simpa using hb
        have h1 := hr b hb'
        by_cases hin : b ∈ (p.take k).flatten
        · exact Or.inl hin
        · right
          have : Ready P (p.take k).flatten b := ⟨h1.bit, hin, fun d hd => ih (by omega) d (h1.deps d hd)⟩
          simpa using (h k p[k] hpk b).1 this
    · rw [List.take_of_length_le (by omega)] at hb
      left
      apply ih (by omega)
      rw [List.take_of_length_le (by omega)]
      exact hb

theorem timeOptimalLoop_spec {P : Problem} (hP : Lax P) :
    ∀ (fuel : Nat) (p : Schedule) (s : Scheduler (List Nat)), StateFor P p s → Greedy P p →
    unmeasured P p < fuel →
    ∃ p', (∀ prof, timeOptimalLoop prof fuel s p (P.peak p) = .ok (some (p', P.peak p'))) ∧
      Maximal P p' ∧ Greedy P p' := by
  intro fuel
  induction fuel with
  | zero => intro p s _ _ h; omega
  | succ fuel ih =>
    intro p s hs hg hf
    by_cases hm : s.time.measurable = []
    · refine ⟨p, ?_, (leaf_maximal hs).1 hm, hg⟩
      intro prof
      simp [timeOptimalLoop, hm, pure, Except.pure]
    · have hfs := focus_spec hP set_init_list hs s.time.measurable
      cases hfs with
      | tooLong h => exact absurd h (Nat.lt_irrefl _)
      | reject h hbad => exact absurd ⟨hs.time.set_nodup, fun b hb => hb⟩ hbad
      | accept h hsub s' e e' hs' =>
        rw [addStep, if_neg hm] at hs'
        have hg' : Greedy P (p ++ [s.time.measurable]) :=
          greedy_snoc hg fun b => (hs.time.set_mem b).symm
        have hlen := List.length_pos_iff.2 hm
        have hle := nodup_length_le_bits hs'.pre.nodup hs'.pre.sub
        obtain ⟨p', f1, f2, f3⟩ := ih _ s' hs' hg' (by
          unfold unmeasured at hf ⊢
          simp only [List.flatten_append, List.flatten_cons, List.flatten_nil, List.append_nil,
            List.length_append] at hle ⊢
          omega)
        refine ⟨p', ?_, f2, f3⟩
        intro prof
        have hmax : max (P.peak p) s'.space.maxMemory = P.peak (p ++ [s.time.measurable]) := by
          rw [leaf_max hs', Nat.max_eq_right]
          exact peak_le_append P _ _
        have hm' : s.time.measurable.isEmpty = false := by simpa using hm
        simp only [timeOptimalLoop, hm', e prof, bind, Except.bind, hmax]
        simpa using f1 prof

/-- The mode without search: one path, valid, greedy, with exact costs, never a panic. -/
theorem getTimeOptimal_loose {P : Problem} (hP : P.Loose) :
    ∃ S, (∀ prof fuel, P.bits.length < fuel →
        getTimeOptimal prof fuel P.graph P.order = .ok (some [⟨S.length, P.peak S, S⟩])) ∧
      Maximal (eff P) S ∧ Greedy (eff P) S := by
  obtain ⟨set, deps, look, e1, e2⟩ := mkState_loose (T := List Nat) hP set_init_list rfl
    (dependencyBufferNew P.graph.length) (by simp [dependencyBufferNew, Problem.n])
  have key : ∀ fuel, P.bits.length < fuel → ∃ p', (∀ prof, timeOptimalLoop prof fuel
      ⟨⟨MeasurableSet.init set, deps, look⟩, Graph.new P.graph⟩ [] 0 =
        .ok (some (p', P.peak p'))) ∧ Maximal (eff P) p' ∧ Greedy (eff P) p' := by
    intro fuel hf
    exact timeOptimalLoop_spec hP.lax fuel [] _ e2 (by intro k s h; simp at h)
      (by simpa [unmeasured, eff_bits] using hf)
  have mono : ∀ (prof : Profile) (f : Nat) (d : Nat) (s : Scheduler (List Nat)) (p : Steps) (m : Nat)
      (r : Steps × Nat), timeOptimalLoop prof f s p m = .ok (some r) →
      timeOptimalLoop prof (f + d) s p m = .ok (some r) := by
    intro prof f d
    induction f with
    | zero => intro s p m r h; simp [timeOptimalLoop, pure, Except.pure] at h
    | succ f ih =>
      intro s p m r h
      rw [show f + 1 + d = (f + d) + 1 by omega]
      simp only [timeOptimalLoop] at h ⊢
      split at h
      · rename_i hm; rw [if_pos hm]; exact h
      · rename_i hm
        rw [if_neg hm]
        simp only [bind, Except.bind] at h ⊢
        cases hf : s.focusInplace prof s.time.measurable with
        | error e => simp [hf] at h
        | ok x =>
          obtain ⟨s', r'⟩ := x
          simp only [hf] at h ⊢
          cases r' with
          | error e => simp at h
          | ok u => exact ih _ _ _ _ h
  obtain ⟨S, f1, f2, f3⟩ := key (P.bits.length + 1) (by omega)
  refine ⟨S, ?_, f2, f3⟩
  intro prof fuel hf
  obtain ⟨d, rfl⟩ : ∃ d, fuel = (P.bits.length + 1) + d := ⟨fuel - (P.bits.length + 1), by omega⟩
  have := mono prof _ d _ _ _ _ (f1 prof)
  simp [getTimeOptimal, e1, this, bind, Except.bind, pure, Except.pure]

theorem getTimeOptimal_spec {P : Problem} (hP : P.WF) :
    ∃ S, (∀ prof fuel, P.bits.length < fuel →
        getTimeOptimal prof fuel P.graph P.order = .ok (some [⟨S.length, P.peak S, S⟩])) ∧
      P.Valid S ∧ Greedy P S := by
  obtain ⟨S, h1, h2, h3⟩ := getTimeOptimal_loose hP.loose
  rw [eff_of_wf hP] at h2 h3
  exact ⟨S, h1, (maximal_iff hP).1 h2, h3⟩

theorem greedy_min {P : Problem} (hP : P.WF) {p S : Schedule} (hp : P.Valid p) (hg : Greedy P p)
    (hS : P.Valid S) : p.length ≤ S.length := by
  apply Classical.byContradiction
  intro hn
  have hlt : S.length < p.length := by omega
  have hpk : p[S.length]? = some p[S.length] := by simp [hlt]
  have hpre := prefix_take (hp.prefix hP.bits_nodup) (S.length + 1)
  rw [take_succ_of_getElem? hpk] at hpre
  obtain ⟨_, hne, _, hr⟩ := prefix_of_snoc hpre
  obtain ⟨b, hb⟩ := List.exists_mem_of_ne_nil _ hne
  have h1 := hr b hb
  apply h1.fresh
  apply greedy_ahead hg (hS.prefix hP.bits_nodup) S.length (by omega)
  rw [List.take_length]
  exact hS.perm.mem_iff.2 h1.bit

theorem greedy_earliest {P : Problem} (hP : P.WF) {p S : Schedule} (hp : P.Valid p) (hg : Greedy P p)
    (hS : P.Valid S) {i j : Nat} {s t : List Nat} {b : Nat} (hi : p[i]? = some s) (hb : b ∈ s)
    (hj : S[j]? = some t) (hb' : b ∈ t) : i ≤ j := by
  apply Classical.byContradiction
  intro hn
  have hi' := (List.getElem?_eq_some_iff.1 hi).1
  have h1 : b ∈ (S.take (j + 1)).flatten := by
    refine mem_flatten_iff.2 ⟨j, t, ?_, hb'⟩
    rw [List.getElem?_take, if_pos (by omega)]
    exact hj
  have h2 := greedy_ahead hg (hS.prefix hP.bits_nodup) (j + 1) (by omega) b h1
  have hpre := prefix_take (hp.prefix hP.bits_nodup) (i + 1)
  rw [take_succ_of_getElem? hi] at hpre
  obtain ⟨_, _, _, hr⟩ := prefix_of_snoc hpre
  apply (hr b hb).fresh
  obtain ⟨k, u, hk, hbu⟩ := mem_flatten_iff.1 h2
  rw [List.getElem?_take] at hk
  split at hk
  · refine mem_flatten_iff.2 ⟨k, u, ?_, hbu⟩
    rw [List.getElem?_take, if_pos (by omega)]
    exact hk
  · simp at hk

/-- If every bit of layer `k + 1` depends on a bit of layer `k`, the greedy steps are the layers. -/
theorem greedy_layers {P : Problem} (hP : P.WF) {p : Schedule} (hg : Greedy P p)
    (tight : ∀ k layer layer', P.order[k]? = some layer → P.order[k + 1]? = some layer' →
      ∀ e' ∈ layer', ∃ e ∈ layer, e.1 ∈ e'.2) :
    ∀ k, k ≤ p.length → (∀ b, b ∈ (p.take k).flatten ↔
      ∃ j layer e, j < k ∧ P.order[j]? = some layer ∧ e ∈ layer ∧ e.1 = b) := by
  intro k
  induction k with
  | zero => intro _ b; simp
  | succ k ih =>
    intro hk b
    have ih := ih (by omega)
    have hpk : p[k]? = some p[k] := by simp [show k < p.length by omega]
    rw [take_succ_of_getElem? hpk, List.flatten_append, List.mem_append, ih b]
    have hmem : b ∈ [p[k]].flatten ↔ b ∈ p[k] := by simp
    rw [hmem, ← hg k p[k] hpk b]
    constructor
    · rintro (⟨j, layer, e, hj, h1, h2, h3⟩ | hr)
      · exact ⟨j, layer, e, by omega, h1, h2, h3⟩
      · obtain ⟨e, he, rfl⟩ := List.mem_map.1 hr.bit
        rw [mem_entries_iff] at he
        obtain ⟨i, l, hl, hel⟩ := he
        refine ⟨i, l, e, ?_, hl, hel, rfl⟩
        apply Classical.byContradiction
        intro hik
        -- `e` is in a layer behind `k`, so it depends on a bit of the layer before it
        obtain ⟨i', rfl⟩ : ∃ i', i = i' + 1 := ⟨i - 1, by omega⟩
        have hlt := (List.getElem?_eq_some_iff.1 hl).1
        have hl' : P.order[i']? = some P.order[i'] := by simp [show i' < P.order.length by omega]
        obtain ⟨d, hd, hde⟩ := tight i' _ _ hl' hl e hel
        have hneed : P.Needs e.1 d.1 := ⟨e.2, mem_entries_iff.2 ⟨i' + 1, l, hl, hel⟩, hde⟩
        obtain ⟨j, layer, f, hj, h1, h2, h3⟩ := (ih d.1).1 (hr.deps d.1 hneed)
        have := layer_unique hP.bits_nodup h1 hl' h2 hd h3
        omega
    · rintro ⟨j, layer, e, hj, h1, h2, rfl⟩
      by_cases hjk : j < k
      · exact Or.inl ⟨j, layer, e, hjk, h1, h2, rfl⟩
      · right
        have : j = k := by omega
        subst this
        refine ⟨List.mem_map.2 ⟨e, mem_entries_iff.2 ⟨j, layer, h1, h2⟩, rfl⟩, ?_, ?_⟩
        · rw [ih]
          rintro ⟨i, l, f, hi, g1, g2, g3⟩
          have := layer_unique hP.bits_nodup g1 h1 g2 h2 g3
          omega
        · rintro d ⟨ds, hds, hd⟩
          obtain ⟨i, l, g1, g2⟩ := mem_entries_iff.1 hds
          have := layer_unique hP.bits_nodup g1 h1 g2 h2 rfl
          subst this
          obtain ⟨_, _, h5⟩ := hP.layers i l g1 _ g2
          obtain ⟨j', hj', l', g4, f, g5, g6⟩ := h5 d hd
          exact (ih d).2 ⟨j', l', f, hj', g4, g5, g6⟩

end Verif
