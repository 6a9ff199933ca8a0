import Verif.Proofs.Sweep
/-!
# The number of paths of independent bits
-/

namespace Verif

open Spec Search

theorem length_splits {α : Type} (k : Nat) (s : List α) :
    (splits k s).length = s.length.choose k := by
  rw [← map_split_combs k s 0, List.length_map, length_combs, List.length_range']

/-- The contribution of one item to the number of paths. -/
def itemCount (a : Nat → Nat) (x : List Nat × List Nat) : Nat :=
  if x.2 = [] then 0 else a x.1.length

theorem sum_items {a : Nat → Nat}
    (ha : ∀ n, a (n + 1) = ((List.range (n + 1)).map fun k => (n + 1).choose k * a k).sum)
    (s : List Nat) (hs : s ≠ []) : ((items s).map (itemCount a)).sum = a s.length := by
  rw [items_eq, List.map_append, List.sum_append, List.map_flatMap]
  have h1 : ([(s, ([] : List Nat))].map (itemCount a)).sum = 0 := by simp [itemCount]
  rw [h1, Nat.add_zero]
  obtain ⟨n, hn⟩ : ∃ n, s.length = n + 1 := by
    have := List.length_pos_iff.2 hs
    exact ⟨s.length - 1, by omega⟩
  have key : ∀ ks : List Nat, (∀ k ∈ ks, k < s.length) →
      (ks.flatMap fun k => (splits k s).map (itemCount a)).sum =
        (ks.map fun k => s.length.choose k * a k).sum := by
    intro ks
    induction ks with
    | nil => intro _; rfl
    | cons k ks ih =>
      intro hk
      rw [List.flatMap_cons, List.sum_append, ih fun j hj => hk j (List.mem_cons_of_mem _ hj),
        List.map_cons, List.sum_cons]
      congr 1
      have h2 : (splits k s).map (itemCount a) = List.replicate (splits k s).length (a k) := by
        rw [List.eq_replicate_iff]
        refine ⟨by simp, ?_⟩
        intro x hx
        obtain ⟨⟨l, m⟩, hlm, rfl⟩ := List.mem_map.1 hx
        obtain ⟨h3, h4, _⟩ := mem_splits hlm
        have hm : m ≠ [] := by
          intro h0
          subst h0
          have := h4.length_eq
          have := hk k List.mem_cons_self
          simp only [List.append_nil] at *
          omega
        simp [itemCount, hm, h3]
      rw [h2, List.sum_replicate_nat, length_splits]
  rw [key _ (fun k hk => List.mem_range.1 hk), hn, ha n]

theorem Below.count {P : Problem} {a : Nat → Nat} (h0 : a 0 = 1)
    (ha : ∀ n, a (n + 1) = ((List.range (n + 1)).map fun k => (n + 1).choose k * a k).sum)
    (hfree : ∀ b d, ¬ P.Needs b d) {p : Schedule}
    {s : Scheduler Partitioner} {r : List (Schedule × Nat)} (h : Below P (fun _ => false) p s r) :
    StateFor P p s → IterOK s → r.length = ((Verif.rem s).map (itemCount a)).sum := by
  induction h with
  | done h =>
    intro _ _
    rcases h.rem with h | h <;> simp [h, itemCount]
  | skip h hs => simp at hs
  | @child p s s' c l m rc r h hs hc hr ihc ihr =>
    intro hst hit
    have i1 := ihc h.child h.fresh.iterOK
    have i2 := ihr h.state' h.iter'
    rw [h.rem, List.map_cons, List.sum_cons, List.length_append, List.length_append, i2]
    congr 1
    rw [itemCount, if_neg h.ne]
    -- the measurable set of the child is the kept part
    have hperm : (c.time.measurable.set).Perm l := by
      obtain ⟨gone, hg⟩ := hit.rem
      have hmem : (l, m) ∈ items s.time.measurable.set := by
        rw [← hg, h.rem]
        exact List.mem_append_right _ List.mem_cons_self
      obtain ⟨h1, h2, h3⟩ := mem_items hmem
      have hn : (l ++ m).Nodup := h1.nodup_iff.2 hst.time.set_nodup
      refine (List.perm_ext_iff_of_nodup h.child.time.set_nodup (List.nodup_append.1 hn).1).2 ?_
      intro b
      rw [h.child.time.set_mem b]
      have hs1 : b ∈ s.time.measurable.set ↔ Ready P p.flatten b := hst.time.set_mem b
      have hlm : b ∈ s.time.measurable.set ↔ b ∈ l ∨ b ∈ m := by
        rw [← h1.mem_iff, List.mem_append]
      constructor
      · intro hr
        have hf : b ∉ p.flatten ∧ b ∉ m := by
          have := hr.fresh
          rw [List.flatten_append, List.mem_append, not_or] at this
          exact ⟨this.1, by simpa using this.2⟩
        rcases hlm.1 (hs1.2 ⟨hr.bit, hf.1, fun d hd => (hfree b d hd).elim⟩) with h | h
        · exact h
        · exact (hf.2 h).elim
      · intro hb
        have hr := hs1.1 (hlm.2 (Or.inl hb))
        refine ⟨hr.bit, ?_, fun d hd => (hfree b d hd).elim⟩
        have : b ∉ m := fun hbm => (List.nodup_append.1 hn).2.2 b hb b hbm rfl
        intro hb'
        rw [List.flatten_append, List.mem_append] at hb'
        rcases hb' with hb' | hb'
        · exact hr.fresh hb'
        · exact this (by simpa using hb')
    rw [h.fresh.rem] at i1
    by_cases hl : c.time.measurable.set = []
    · have : l = [] := by
        have := hperm.length_eq
        rw [hl] at this
        exact List.eq_nil_of_length_eq_zero this.symm
      subst this
      rw [i1, hl, leafOf, if_pos hl]
      simp [items, splits, itemCount, h0]
    · rw [i1, sum_items ha _ hl, leafOf, if_neg hl, hperm.length_eq]
      rfl

end Verif
