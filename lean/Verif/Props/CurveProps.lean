import Verif.Proofs.Curve
import Verif.Props.Run
/-!
# What the returned costs mean, and how the trade-off curve depends on the input
-/

namespace Verif

open Spec Search Search.Threaded Example

section

variable {F σ : Type} [FloatOps F] {P : Problem} {env : Env F σ} {args : Args F} {out : List Path}

/-! ## C04: initialisation strategies -/

/-- When each node is initialised: `A v = some k` means "immediately before the measurements of step
`k`", `none` means never. -/
abbrev Strategy := Nat → Option Nat

/-- Rules 1 and 2 of the README: when a node is measured, it and all its neighbours have been
initialised. -/
def Strategy.Obeys (A : Strategy) (P : Problem) (S : Schedule) : Prop :=
  ∀ (k : Nat) (s : List Nat), S[k]? = some s → ∀ u ∈ s, ∀ v, v = u ∨ v ∈ P.nbrs u →
    ∃ a, A v = some a ∧ a ≤ k

/-- Node `v` occupies memory during step `k`: initialised and not measured in an earlier step. -/
def Strategy.occupied (A : Strategy) (S : Schedule) (k v : Nat) : Bool :=
  (match A v with | some a => decide (a ≤ k) | none => false) && !(S.take k).flatten.contains v

/-- The peak memory of a schedule with the given initialisation times. -/
def Strategy.peak (A : Strategy) (P : Problem) (S : Schedule) : Nat :=
  ((List.range S.length).map fun k => ((List.range P.n).filter (A.occupied S k)).length).foldr max 0

/-- Initialise every node in the step in which it is needed first. -/
def lazyInit (P : Problem) (S : Schedule) : Strategy := fun v =>
  (List.range S.length).find? fun k =>
    let s := S.getD k []
    s.contains v || s.any fun u => (P.nbrs u).contains v

theorem touched_iff {S : Schedule} {k : Nat} (hk : k < S.length) (Q : Nat → Prop) :
    (∃ u ∈ (S.take (k + 1)).flatten, Q u) ↔ ∃ j, j ≤ k ∧ ∃ u ∈ S.getD j [], Q u := by
  constructor
  · rintro ⟨u, hu, hq⟩
    obtain ⟨s, hs, hus⟩ := List.mem_flatten.1 hu
    obtain ⟨j, hj, rfl⟩ := List.getElem_of_mem hs
    simp only [List.length_take] at hj
    refine ⟨j, by omega, u, ?_, hq⟩
    rw [List.getElem_take] at hus
    rw [List.getD_eq_getElem?_getD, List.getElem?_eq_getElem (by omega)]
    exact hus
  · rintro ⟨j, hj, u, hu, hq⟩
    rw [List.getD_eq_getElem?_getD, List.getElem?_eq_getElem (by omega)] at hu
    refine ⟨u, List.mem_flatten.2 ⟨S[j], ?_, hu⟩, hq⟩
    rw [List.mem_take_iff_getElem]
    exact ⟨j, by omega, rfl⟩

theorem lazyInit_spec (P : Problem) (S : Schedule) (v k : Nat) (hk : k < S.length) :
    (∃ a, lazyInit P S v = some a ∧ a ≤ k) ↔
      ∃ j, j ≤ k ∧ ∃ u ∈ S.getD j [], v = u ∨ v ∈ P.nbrs u := by
  have htest : ∀ j, (let s := S.getD j []
      s.contains v || s.any fun u => (P.nbrs u).contains v) = true ↔
      ∃ u ∈ S.getD j [], v = u ∨ v ∈ P.nbrs u := by
    intro j
    simp only [Bool.or_eq_true, List.contains_iff_mem, List.any_eq_true]
    constructor
    · rintro (h | ⟨u, h1, h2⟩)
      · exact ⟨v, h, Or.inl rfl⟩
      · exact ⟨u, h1, Or.inr h2⟩
    · rintro ⟨u, h1, rfl | h2⟩
      · exact Or.inl h1
      · exact Or.inr ⟨u, h1, h2⟩
  constructor
  · rintro ⟨a, ha, hak⟩
    unfold lazyInit at ha
    have := List.find?_some ha
    exact ⟨a, hak, (htest a).1 this⟩
  · rintro ⟨j, hj, h⟩
    cases hl : lazyInit P S v with
    | none =>
      unfold lazyInit at hl
      rw [List.find?_eq_none] at hl
      exact (hl j (List.mem_range.2 (by omega)) ((htest j).2 h)).elim
    | some a =>
      refine ⟨a, rfl, ?_⟩
      unfold lazyInit at hl
      rw [List.find?_range_eq_some] at hl
      obtain ⟨_, _, h3⟩ := hl
      by_contra hlt
      have := h3 j (by omega)
      rw [(htest j).2 h] at this
      simp at this

/-- **C04** No way of choosing when each node is initialised that obeys the rules needs less memory than
the reported space, and there is one that needs exactly that. -/
theorem C04_least_memory (hP : P.WF) (he : env.OK)
    (h : run env P.graph P.order args = .ok (some out)) : ∀ p ∈ out,
    (∀ A : Strategy, A.Obeys P p.steps → p.space ≤ A.peak P p.steps) ∧
    ∃ A : Strategy, A.Obeys P p.steps ∧ A.peak P p.steps = p.space := by
  intro p hp
  rw [((run_sound hP he h).valid p hp).2.2]
  generalize p.steps = S
  refine ⟨?_, lazyInit P S, ?_, ?_⟩
  · intro A hA
    refine foldr_max_le fun x hx => ?_
    obtain ⟨k, hk, rfl⟩ := List.mem_map.1 hx
    have hk' := List.mem_range.1 hk
    refine Nat.le_trans ?_ (le_foldr_max (List.mem_map.2 ⟨k, hk, rfl⟩))
    apply length_filter_le_of_imp
    intro v _ hv
    rw [inMemory_iff] at hv
    obtain ⟨h1, h2⟩ := hv
    have h3 : ∃ u ∈ (S.take (k + 1)).flatten, v = u ∨ v ∈ P.nbrs u := by
      rcases h1 with h1 | ⟨u, h1, h2⟩
      · exact ⟨v, h1, Or.inl rfl⟩
      · exact ⟨u, h1, Or.inr h2⟩
    obtain ⟨j, hj, u, hu, hq⟩ := (touched_iff hk' _).1 h3
    rw [List.getD_eq_getElem?_getD, List.getElem?_eq_getElem (by omega)] at hu
    obtain ⟨a, ha, hak⟩ := hA j S[j] (List.getElem?_eq_getElem (by omega)) u hu v hq
    simp only [Strategy.occupied, ha, Bool.and_eq_true, decide_eq_true_eq, Bool.not_eq_true',
      ← Bool.not_eq_true, List.contains_iff_mem]
    exact ⟨by omega, h2⟩
  · intro k s hs u hu v hv
    have hk := (List.getElem?_eq_some_iff.1 hs).1
    refine (lazyInit_spec P S v k hk).2 ⟨k, Nat.le_refl _, u, ?_, hv⟩
    rw [List.getD_eq_getElem?_getD, hs]
    exact hu
  · unfold Strategy.peak Problem.peak
    congr 1
    apply List.map_congr_left
    intro k hk
    have hk' := List.mem_range.1 hk
    unfold Problem.memAt
    congr 1
    apply List.filter_congr
    intro v _
    rw [Bool.eq_iff_iff, inMemory_iff]
    have h1 : (v ∈ (S.take (k + 1)).flatten ∨ ∃ u ∈ (S.take (k + 1)).flatten, v ∈ P.nbrs u) ↔
        ∃ a, lazyInit P S v = some a ∧ a ≤ k := by
      rw [lazyInit_spec P S v k hk', ← touched_iff hk']
      constructor
      · rintro (h1 | ⟨u, h1, h2⟩)
        · exact ⟨v, h1, Or.inl rfl⟩
        · exact ⟨u, h1, Or.inr h2⟩
      · rintro ⟨u, h1, rfl | h2⟩
        · exact Or.inl h1
        · exact Or.inr ⟨u, h1, h2⟩
    rw [h1]
    simp only [Strategy.occupied, Bool.and_eq_true, Bool.not_eq_true', ← Bool.not_eq_true,
      List.contains_iff_mem]
    refine and_congr ?_ Iff.rfl
    cases lazyInit P S v <;> simp

/-- Initialising everything at once obeys the rules for the second path of the star and needs 4 instead
of 3. -/
example : Strategy.Obeys (fun _ => some 0) star [[2, 3], [1, 0]] ∧
    Strategy.peak (fun _ => some 0) star [[2, 3], [1, 0]] = 4 ∧
    (⟨2, 3, [[2, 3], [1, 0]]⟩ : Path) ∈
      [⟨1, 4, [[1, 2, 3, 0]]⟩, ⟨2, 3, [[2, 3], [1, 0]]⟩, ⟨3, 2, [[3], [2], [1, 0]]⟩] ∧
    run (demo 1000 []) star.graph star.order { doSearch := true } =
      .ok (some [⟨1, 4, [[1, 2, 3, 0]]⟩, ⟨2, 3, [[2, 3], [1, 0]]⟩, ⟨3, 2, [[3], [2], [1, 0]]⟩]) :=
  ⟨fun _ _ _ _ _ _ _ => ⟨0, rfl, Nat.zero_le _⟩, by decide +kernel, by simp, star_run⟩

/-! ## C42: serialising -/

/-- **C42** Splitting a step of a valid schedule into two consecutive steps gives a valid schedule that
needs at most the same memory. -/
theorem C42_split {A B : Schedule} {s s1 s2 : List Nat}
    (h : P.Valid (A ++ s :: B)) (hs : s.Perm (s1 ++ s2)) (h1 : s1 ≠ []) (h2 : s2 ≠ []) :
    P.Valid (A ++ s1 :: s2 :: B) ∧ P.peak (A ++ s1 :: s2 :: B) ≤ P.peak (A ++ s :: B) :=
  ⟨Valid.split h hs h1 h2, peak_split hs⟩

example : star.Valid ([] ++ [1, 2, 3, 0] :: []) ∧ [1, 2, 3, 0].Perm ([2, 3] ++ [1, 0]) ∧
    star.peak ([] ++ [2, 3] :: [1, 0] :: []) < star.peak ([] ++ [1, 2, 3, 0] :: []) :=
  ⟨valid_of_check (by decide +kernel), by decide, by decide +kernel⟩

/-- **C42** The least space returned by the exhaustive search is attained by a schedule that measures
one qubit at a time. -/
theorem C42_serial (hP : P.WF) (hb : P.bits ≠ []) (he : env.OK) (hx : Exhaustive env args)
    (h : run env P.graph P.order args = .ok (some out)) :
    ∃ l, out.getLast? = some l ∧ ∃ S, P.Valid S ∧ (∀ s ∈ S, s.length = 1) ∧ P.peak S = l.space := by
  obtain ⟨_, l, _, hl, _, _, hmin⟩ := C10_first_last hP hb he hx h
  obtain ⟨v1, _, v3⟩ := (run_sound hP he h).valid l (List.mem_of_getLast? hl)
  obtain ⟨S, h1, h2, h3⟩ := exists_serial _ l.steps v1 (Nat.le_refl _)
  exact ⟨l, hl, S, h1, h2, Nat.le_antisymm (v3 ▸ h3) (hmin S h1)⟩

example : star.WF ∧ star.bits ≠ [] ∧ Exhaustive (demo 1000 []) { doSearch := true } ∧
    star.peak [[1], [2], [3], [0]] = 2 :=
  ⟨star_wf, by decide, ⟨rfl, by decide, rfl, Or.inl rfl⟩, by decide +kernel⟩

end

/-! ## C39, C40: dependence on the input -/

section

variable {F σ F' σ' : Type} [FloatOps F] [FloatOps F'] {P P' : Problem} {env : Env F σ} {args : Args F}
  {env' : Env F' σ'} {args' : Args F'} {out out' : List Path}

/-- **C39** The trade-off curve depends only on the number of nodes, the set of qubits to measure, who is
a neighbour of whom and who depends on whom, and not on the names of the nodes. -/
theorem C39_representation (hP : P.WF) (hP' : P'.WF) (hb : P.bits ≠ []) {f : Nat → Nat}
    (hf : Renaming f P P') (he : env.OK) (he' : env'.OK) (hx : Exhaustive env args)
    (hx' : Exhaustive env' args') (h : run env P.graph P.order args = .ok (some out))
    (h' : run env' P'.graph P'.order args' = .ok (some out')) :
    out.map (fun p => (p.time, p.space)) = out'.map fun p => (p.time, p.space) := by
  have hb' : P'.bits ≠ [] := by
    intro h0
    have := hf.bits
    rw [h0] at this
    have := this.symm.eq_nil
    simp only [List.map_eq_nil_iff] at this
    exact hb this
  obtain ⟨g, hg⟩ := hf.symm hP
  have hach : ∀ t m, Achievable P t m ↔ Achievable P' t m := fun t m =>
    ⟨hf.achievable hP hP', hg.achievable hP' hP⟩
  have hpar : ∀ t m, ParetoOptimal P t m ↔ ParetoOptimal P' t m := fun t m => by
    simp only [ParetoOptimal, hach]
  have strict : ∀ {P : Problem} {o : List Path}, Sound P o →
      (o.map fun p => (p.time, p.space)).Pairwise fun a b => a.1 < b.1 := fun hs =>
    List.pairwise_map.2 (hs.strict.imp fun h => h.1)
  refine eq_of_strict (strict (run_sound hP he h)) (strict (run_sound hP' he' h')) ?_
  rintro ⟨t, m⟩
  have h1 := C09_pareto hP hb he hx h t m
  have h2 := C09_pareto hP' hb' he' hx' h' t m
  rw [← hpar t m] at h2
  have conv : ∀ o : List Path, (t, m) ∈ o.map (fun p => (p.time, p.space)) ↔
      ∃ p ∈ o, p.time = t ∧ p.space = m := fun o => by simp [List.mem_map]
  rw [conv, conv, h1, h2]

/-- The star with other names (0 ↔ 2), other list orders and a repeated neighbour. -/
example : Renaming (fun v => if v = 0 then 2 else if v = 2 then 0 else v) star
      ⟨[[2, 2], [2], [3, 1, 0, 1], [2]], [[(2, []), (3, []), (0, []), (1, [])]]⟩ ∧
    (⟨[[2, 2], [2], [3, 1, 0, 1], [2]], [[(2, []), (3, []), (0, []), (1, [])]]⟩ : Problem).WF ∧
    run (demo 1000 []) [[2, 2], [2], [3, 1, 0, 1], [2]] [[(2, []), (3, []), (0, []), (1, [])]]
      { doSearch := true } =
    .ok (some [⟨1, 4, [[2, 3, 0, 1]]⟩, ⟨2, 3, [[0, 1], [2, 3]]⟩, ⟨3, 2, [[1], [0], [2, 3]]⟩]) := by
  refine ⟨⟨rfl, ?_, ?_, ?_, ?_, ?_⟩, wf_of_check (by decide +kernel), by decide +kernel⟩
  · decide +kernel
  · have : ∀ u, u < 4 → ∀ v, v < 4 → ((if u = 0 then 2 else if u = 2 then 0 else u) =
        if v = 0 then 2 else if v = 2 then 0 else v) → u = v := by decide +kernel
    exact fun u v hu hv => this u hu v hv
  · decide +kernel
  · have : ∀ u, u < 4 → ∀ v, v < 4 → (v ∈ Example.star.nbrs u ↔
        (if v = 0 then 2 else if v = 2 then 0 else v) ∈
          (⟨[[2, 2], [2], [3, 1, 0, 1], [2]], []⟩ : Problem).nbrs
            (if u = 0 then 2 else if u = 2 then 0 else u)) := by decide +kernel
    exact fun u v hu hv => this u hu v hv
  · intro b d hb hd
    constructor
    · rintro ⟨ds, h1, h2⟩
      simp [Example.star, Problem.entries] at h1
      rcases h1 with ⟨_, rfl⟩ | ⟨_, rfl⟩ | ⟨_, rfl⟩ | ⟨_, rfl⟩ <;> simp at h2
    · rintro ⟨ds, h1, h2⟩
      simp [Problem.entries] at h1
      rcases h1 with ⟨_, rfl⟩ | ⟨_, rfl⟩ | ⟨_, rfl⟩ | ⟨_, rfl⟩ <;> simp at h2

/-- **C40** With more edges or more dependencies, no run in any mode returns a path that is not weakly
dominated by a path the exhaustive search returns for the original problem. -/
theorem C40_monotone (hP : P.WF) (hP' : P'.WF) (hb : P.bits ≠ []) (hE : Extension P P') (he : env.OK)
    (he' : env'.OK) (hx : Exhaustive env args) (h : run env P.graph P.order args = .ok (some out))
    (h' : run env' P'.graph P'.order args' = .ok (some out')) :
    ∀ p' ∈ out', ∃ p ∈ out, p.time ≤ p'.time ∧ p.space ≤ p'.space := by
  intro p' hp'
  obtain ⟨v1, v2, v3⟩ := (run_sound hP' he' h').valid p' hp'
  obtain ⟨p, hp, h1, h2⟩ := C07_exhaustive hP hb he hx h p'.steps (hE.valid v1)
  exact ⟨p, hp, by omega, Nat.le_trans h2 (v3 ▸ hE.peak p'.steps)⟩

/-- The star with one more edge and one dependency. -/
example : Extension star ⟨[[1, 2, 3], [0, 2], [0, 1], [0]], [[(1, []), (2, []), (3, [])], [(0, [1])]]⟩ ∧
    run (demo 1000 []) [[1, 2, 3], [0, 2], [0, 1], [0]] [[(1, []), (2, []), (3, [])], [(0, [1])]]
      { doSearch := true } =
    .ok (some [⟨2, 3, [[1, 2], [3, 0]]⟩]) := by
  refine ⟨⟨rfl, by decide, ?_, ?_⟩, by decide +kernel⟩
  · intro u v h
    match u, h with
    | 0, h => exact h
    | 1, h => simp [Example.star, Problem.nbrs] at h ⊢; exact Or.inl h
    | 2, h => simp [Example.star, Problem.nbrs] at h ⊢; exact Or.inl h
    | 3, h => exact h
    | n + 4, h => simp [Example.star, Problem.nbrs] at h
  · rintro b d ⟨ds, h1, h2⟩
    simp [Example.star, Problem.entries] at h1
    rcases h1 with ⟨_, rfl⟩ | ⟨_, rfl⟩ | ⟨_, rfl⟩ | ⟨_, rfl⟩ <;> simp at h2

end

end Verif
