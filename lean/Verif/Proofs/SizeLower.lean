import Verif.Proofs.Size
/-!
# The number of iterations a search needs at least
-/

namespace Verif

open Spec Search

/-- A search cannot skip `S`: every beginning of `S` has a smaller peak than all the schedules that are not longer than
the beginning has to become. -/
def Needed (P : Problem) (S : Schedule) : Prop :=
  S ≠ [] ∧ ∀ k, 0 < k → k ≤ S.length → ∀ V, P.Valid V → V.length ≤ P.atLeast (S.take k) → P.peak (S.take k) < P.peak V

theorem Needed.take {P : Problem} {S : Schedule} (h : Needed P S) {j : Nat} (hj : 0 < j) : Needed P (S.take j) := by
  have hpos := List.length_pos_iff.2 h.1
  refine ⟨List.length_pos_iff.1 (by rw [List.length_take]; omega), fun k hk hle V hV hl => ?_⟩
  rw [List.length_take] at hle
  rw [List.take_take, Nat.min_eq_left (by omega)] at hl ⊢
  exact h.2 k hk (by omega) V hV hl

theorem StepEq.atLeast (P : Problem) {S T : Schedule} (h : StepEq S T) : P.atLeast S = P.atLeast T := by
  have h1 : P.blocked S = P.blocked T := by
    unfold Problem.blocked
    congr 1
    apply List.filter_congr
    intro e _
    congr 1
    funext d
    simp only [List.contains_eq_mem, h.mem_flatten d]
  unfold Problem.atLeast
  rw [h1, h.flatten_perm.length_eq, h.length_eq]

theorem StepEq.needed {P : Problem} {S T : Schedule} (h : StepEq T S) (hS : Needed P S) : Needed P T := by
  have hlen := h.length_eq
  have hpos := List.length_pos_iff.2 hS.1
  refine ⟨List.length_pos_iff.1 (by omega), fun k hk hle V hV hl => ?_⟩
  rw [(h.take k).peak P]
  rw [(h.take k).atLeast P] at hl
  exact hS.2 k hk (by omega) V hV hl

section

open Classical in
/-- How many of the schedules in a list cannot be skipped. -/
noncomputable def needs (P : Problem) (r : List Schedule) : Nat := (r.filter fun S => decide (Needed P S)).length

theorem needs_nil (P : Problem) : needs P [] = 0 := rfl

theorem needs_append (P : Problem) (a b : List Schedule) : needs P (a ++ b) = needs P a + needs P b := by
  simp [needs]

theorem needs_cons_le (P : Problem) (S : Schedule) (r : List Schedule) : needs P (S :: r) ≤ needs P r + 1 := by
  unfold needs
  rw [List.filter_cons]
  split <;> simp

theorem needs_eq_zero {P : Problem} {r : List Schedule} (h : ∀ S ∈ r, ¬ Needed P S) : needs P r = 0 := by
  unfold needs
  rw [List.length_eq_zero_iff, List.filter_eq_nil_iff]
  intro S hS
  simpa using h S hS

end

/-- The iterations that a search cannot avoid, level by level. -/
inductive Atleast (P : Problem) : List (Schedule × Scheduler Partitioner) → Nat → Prop
  | nil : Atleast P [] 0
  | cons {lv : Schedule × Scheduler Partitioner} {ls : List (Schedule × Scheduler Partitioner)} {r : List Schedule} {n : Nat}
      (h : Tree P lv.1 lv.2 r) (hn : Atleast P ls n) : Atleast P (lv :: ls) (1 + 2 * needs P r + n)

theorem LInv.skip_not_needed {P : Problem} (hP : P.WF) {l : Loc} {p0 : Schedule} (hl : LInv P p0 (best0 P) l)
    {p : Schedule} {m : List Nat} {c : Scheduler Partitioner} (hc : StateFor P (p ++ [m]) c) {bound : Nat}
    (hb : l.best[minimumPathLength c.time p]? = some bound) (hle : bound ≤ c.space.maxMemory) :
    ¬ Needed P (p ++ [m]) := by
  intro hn
  have hpk : c.space.maxMemory = P.peak (p ++ [m]) := hc.space.max
  have hlt := (List.getElem?_eq_some_iff.1 hb).1
  rw [hl.ok.best] at hlt
  have h1 := at0_of_getElem? hb
  have h2 := peak_lt_max hP (p ++ [m])
  rcases hl.b2 (minimumPathLength c.time p) with h | ⟨t', m', S, h3, h4, h5⟩
  · rw [at0_replicate, if_pos hlt] at h
    omega
  · obtain ⟨s1, s2, s3⟩ := hl.sound t' m' S h4
    have := hn.2 (p ++ [m]).length (by simp) (Nat.le_refl _) S ((maximal_iff hP).1 s1)
      (by rw [List.take_length, s2, ← minimumPathLength_eq hP hc]; exact h3)
    rw [List.take_length] at this
    omega

theorem IterStep.atleast {P : Problem} (hP : P.WF) {p0 : Schedule} {l l' : Loc} {stop : Bool}
    (h : IterStep P True l l' stop) (hl : LInv P p0 (best0 P) l) {n : Nat}
    (hn : Atleast P (levels l.path l.sweep.current l.sweep.stack) n) :
    (stop = true → n = 1) ∧ (stop = false → ∃ n', n ≤ n' + 1 ∧
      Atleast P (levels l'.path l'.sweep.current l'.sweep.stack) n') := by
  cases h with
  | stop hst hx =>
    refine ⟨fun _ => ?_, fun h => by simp at h⟩
    rw [hst, levels] at hn
    cases hn with
    | cons h hn =>
      cases hn
      rw [h.of_none hx, needs_nil]
  | backLeaf hst hx hleaf hlen =>
    refine ⟨fun h => by simp at h, fun _ => ?_⟩
    rw [hst, levels] at hn
    cases hn with
    | cons h hn =>
      rw [h.of_none hx, needs_nil]
      exact ⟨_, by omega, hn⟩
  | backInner hst hx hleaf =>
    refine ⟨fun h => by simp at h, fun _ => ?_⟩
    rw [hst, levels] at hn
    cases hn with
    | cons h hn =>
      rw [h.of_none hx, needs_nil]
      exact ⟨_, by omega, hn⟩
  | @skip s' c k m bound hx hb hd =>
    refine ⟨fun h => by simp at h, fun _ => ?_⟩
    obtain ⟨tl, htl⟩ := levels_split l.path l.sweep.stack
    rw [htl] at hn
    simp only [htl]
    cases hn with
    | cons h hn =>
      obtain ⟨rc, r', rfl, h1, h2⟩ := h.of_some hx
      have hnot := hl.skip_not_needed hP hx.child hb (hd trivial)
      refine ⟨_, ?_, .cons h2 hn⟩
      rw [← List.cons_append, needs_append, needs_eq_zero (r := (l.path ++ [m]) :: rc)]
      · omega
      · intro S hS hneed
        rcases List.mem_cons.1 hS with rfl | hS
        · exact hnot hneed
        · have := (h1.sound S hS).2.1
          exact hnot (this ▸ hneed.take (j := (l.path ++ [m]).length) (by simp))
  | @push s' c k m bound hx hb hlt =>
    refine ⟨fun h => by simp at h, fun _ => ?_⟩
    obtain ⟨tl, htl⟩ := levels_split l.path l.sweep.stack
    rw [htl] at hn
    simp only [levels, List.dropLast_concat, htl]
    cases hn with
    | cons h hn =>
      obtain ⟨rc, r', rfl, h1, h2⟩ := h.of_some hx
      refine ⟨_, ?_, .cons h1 (.cons h2 hn)⟩
      have := needs_cons_le P (l.path ++ [m]) (rc ++ r')
      rw [needs_append] at this
      simp only at this ⊢
      omega

/-- A search that is not interrupted goes on at least so long. -/
theorem searchLoop_atleast {P : Problem} (hP : P.WF) {p0 : Schedule} (prof : Profile) {timer : Nat → Bool}
    (ht : ∀ k, timer k = false) : ∀ (fuel k : Nat) (l : Loc) (n : Nat), LInv P p0 (best0 P) l →
      Atleast P (levels l.path l.sweep.current l.sweep.stack) n → fuel < n →
      searchLoop prof timer fuel k l = .ok none := by
  intro fuel
  induction fuel with
  | zero => intro k l n _ _ _; rfl
  | succ fuel ih =>
    intro k l n hl hn hlt
    obtain ⟨l1, stop, e1, e2⟩ := searchIter_spec hP.lax hl.ok
    rw [searchLoop, e1 prof]
    simp only [bind, Except.bind]
    obtain ⟨a1, a2⟩ := e2.atleast hP hl hn
    cases stop with
    | true =>
      have := a1 rfl
      omega
    | false =>
      obtain ⟨n', h1, h2⟩ := a2 rfl
      rw [if_neg (by simp), ht k, if_neg (by simp)]
      exact ih _ _ n' (e2.inv hl).1 h2 (by omega)

/-- Enough different schedules that cannot be skipped are in a list that contains all of them. -/
theorem length_le_needs {P : Problem} {r K : List Schedule} (hK : ∀ S ∈ K, Needed P S)
    (hd : K.Pairwise fun a b => ¬ StepEq a b) (hr : ∀ S ∈ K, ∃ T ∈ r, StepEq T S) : K.length ≤ needs P r := by
  classical
  have hf : ∀ S : Schedule, ∃ T, S ∈ K → T ∈ r ∧ StepEq T S := by
    intro S
    by_cases hS : S ∈ K
    · obtain ⟨T, h1, h2⟩ := hr S hS
      exact ⟨T, fun _ => ⟨h1, h2⟩⟩
    · exact ⟨S, fun hn => (hS hn).elim⟩
  choose f hf using hf
  have hnd : (K.map f).Nodup := by
    rw [List.Nodup, List.pairwise_map]
    refine hd.imp_of_mem ?_
    intro a b ha hb hne heq
    refine hne ?_
    have h3 := (hf a ha).2.symm
    have h2 := (hf b hb).2
    rw [heq] at h3
    unfold StepEq at *
    rw [List.forall₂_iff_get] at h2 h3 ⊢
    refine ⟨h3.1.trans h2.1, fun i hi hj => ?_⟩
    have hk : i < (f b).length := by rw [h2.1]; exact hj
    exact (h3.2 i hi hk).trans (h2.2 i hk hj)
  have hsub : K.map f ⊆ r.filter fun S => decide (Needed P S) := by
    intro T hT
    obtain ⟨S, hS, rfl⟩ := List.mem_map.1 hT
    rw [List.mem_filter]
    exact ⟨(hf S hS).1, by simpa using (hf S hS).2.needed (hK S hS)⟩
  have := (List.subperm_of_subset hnd hsub).length_le
  rw [List.length_map] at this
  unfold needs
  exact this

end Verif
