import Verif.Proofs.Change
import Verif.Props.CurveProps
/-!
# What a small change of the input changes
-/

namespace Verif

open Spec Search Search.Threaded Example

section

variable {F σ F' σ' : Type} [FloatOps F] [FloatOps F'] {P P' : Problem} {E D : List (Nat × Nat)}
  {env : Env F σ} {args : Args F} {out : List Path} {env' : Env F' σ'} {args' : Args F'} {out' : List Path}

/-- **C80** Every further edge costs at most one qubit of memory and no time: whatever any run in any mode returns for `P`,
the exhaustive search for `P` with further edges `E` returns something with at most `E.length` more. -/
theorem C80_edges (hE : MoreEdges E P P') (hP : P.WF) (hP' : P'.WF) (hb : P'.bits ≠ []) (he : env.OK) (he' : env'.OK)
    (hx : Exhaustive env' args') (h : run env P.graph P.order args = .ok (some out))
    (h' : run env' P'.graph P'.order args' = .ok (some out')) :
    ∀ p ∈ out, ∃ p' ∈ out', p'.time ≤ p.time ∧ p'.space ≤ p.space + E.length := by
  intro p hp
  obtain ⟨v1, v2, v3⟩ := (run_sound hP he h).valid p hp
  obtain ⟨S', s1, s2, s3⟩ := hE.schedule hP hP' v1
  obtain ⟨q, hq, h1, h2⟩ := C07_exhaustive hP' hb he' hx h' S' s1
  exact ⟨q, hq, by omega, by omega⟩

/-- **C80** One further qubit that no other qubit waits for, and whose neighbours are all measured, costs at most one step
and one qubit of memory. -/
theorem C80_qubit (hQ : OneQubit P P') (hP : P.WF) (hP' : P'.WF) (he : env.OK) (he' : env'.OK)
    (hx : Exhaustive env' args') (h : run env P.graph P.order args = .ok (some out))
    (h' : run env' P'.graph P'.order args' = .ok (some out')) :
    ∀ p ∈ out, ∃ p' ∈ out', p'.time ≤ p.time + 1 ∧ p'.space ≤ p.space + 1 := by
  intro p hp
  have hb : P'.bits ≠ [] := fun hc => by
    have := hQ.bits.length_eq
    simp [hc] at this
  obtain ⟨v1, v2, v3⟩ := (run_sound hP he h).valid p hp
  obtain ⟨S', s1, s2, s3⟩ := hQ.schedule hP hP' v1
  obtain ⟨q, hq, h1, h2⟩ := C07_exhaustive hP' hb he' hx h' S' s1
  exact ⟨q, hq, by omega, by omega⟩

/-- **C80** If it waits for no other qubit either, it costs no time. -/
theorem C80_free_qubit (hQ : OneQubit P P') (hfree : ∀ d, ¬ P'.Needs P.n d) (hP : P.WF) (hP' : P'.WF)
    (hb : P.bits ≠ []) (he : env.OK) (he' : env'.OK)
    (hx : Exhaustive env' args') (h : run env P.graph P.order args = .ok (some out))
    (h' : run env' P'.graph P'.order args' = .ok (some out')) :
    ∀ p ∈ out, ∃ p' ∈ out', p'.time ≤ p.time ∧ p'.space ≤ p.space + 1 := by
  intro p hp
  have hb' : P'.bits ≠ [] := fun hc => by
    have := hQ.bits.length_eq
    simp [hc] at this
  obtain ⟨v1, v2, v3⟩ := (run_sound hP he h).valid p hp
  obtain ⟨S', s1, s2, s3⟩ := hQ.schedule_free hP hP' hb hfree v1
  obtain ⟨q, hq, h1, h2⟩ := C07_exhaustive hP' hb' he' hx h' S' s1
  exact ⟨q, hq, by omega, by omega⟩

/-- **C80** Further dependencies `D` lengthen the shortest schedule at most by the factor `D.length + 1`: the path without
search for `P` with the further dependencies is at most that much longer than any path returned for `P`. -/
theorem C80_dependencies (hD : MoreDependencies D P P') (hP : P.WF) (hP' : P'.WF) (he : env.OK)
    (hs : args'.doSearch = false) (h : run env P.graph P.order args = .ok (some out))
    (h' : run env' P'.graph P'.order args' = .ok (some out')) :
    ∃ p', out' = [p'] ∧ ∀ p ∈ out, p'.time ≤ (D.length + 1) * p.time := by
  obtain ⟨p', h1, _, _, _, h2⟩ := C05_time_optimal hP' hs h'
  refine ⟨p', h1, fun p hp => ?_⟩
  obtain ⟨v1, v2, v3⟩ := (run_sound hP he h).valid p hp
  obtain ⟨S', s1, s2⟩ := hD.schedule hP hP' v1
  rw [v2]
  exact Nat.le_trans (h2 S' s1) s2

/-- **C80** The same for an exhaustive search: one of its paths is at most that much longer. -/
theorem C80_dependencies_search (hD : MoreDependencies D P P') (hP : P.WF) (hP' : P'.WF) (hb : P'.bits ≠ [])
    (he : env.OK) (he' : env'.OK) (hx : Exhaustive env' args') (h : run env P.graph P.order args = .ok (some out))
    (h' : run env' P'.graph P'.order args' = .ok (some out')) :
    ∀ p ∈ out, ∃ p' ∈ out', p'.time ≤ (D.length + 1) * p.time := by
  intro p hp
  obtain ⟨v1, v2, v3⟩ := (run_sound hP he h).valid p hp
  obtain ⟨S', s1, s2⟩ := hD.schedule hP hP' v1
  obtain ⟨q, hq, h1, h2⟩ := C07_exhaustive hP' hb he' hx h' S' s1
  rw [v2]
  exact ⟨q, hq, by omega⟩

end

/-! ## What has no bound -/

/-- Node 0 with the neighbours 1, …, k. -/
def hubGraph (k : Nat) : List (List Nat) := (List.range' 1 k) :: List.replicate k [0]

/-- Qubit 1 is measured before the qubits 2, …, k; nothing waits for the hub and it for nothing. -/
def hubLast (k : Nat) : Problem :=
  ⟨hubGraph k, [[(1, []), (0, [])], (List.range' 2 (k - 1)).map fun v => (v, [1])]⟩

/-- The same, and qubit 1 waits for the hub. -/
def hubFirst (k : Nat) : Problem :=
  ⟨hubGraph k, [[(0, [])], [(1, [0])], (List.range' 2 (k - 1)).map fun v => (v, [1])]⟩

theorem hub_nbrs {k u v : Nat} {o : List (List (Nat × List Nat))} :
    v ∈ (⟨hubGraph k, o⟩ : Problem).nbrs u ↔ (u = 0 ∧ 1 ≤ v ∧ v ≤ k) ∨ (1 ≤ u ∧ u ≤ k ∧ v = 0) := by
  unfold Problem.nbrs hubGraph
  cases u with
  | zero => simp [List.mem_range'_1]; omega
  | succ u =>
    by_cases hu : u < k
    · simp [List.getD_eq_getElem?_getD, hu]
    · simp [List.getD_eq_getElem?_getD, hu]

theorem hub_n {k : Nat} {o : List (List (Nat × List Nat))} : (⟨hubGraph k, o⟩ : Problem).n = k + 1 := by
  simp [Problem.n, hubGraph]

theorem hubLast_entries {k : Nat} {e : Nat × List Nat} : e ∈ (hubLast k).entries ↔
    e = (1, []) ∨ e = (0, []) ∨ (2 ≤ e.1 ∧ e.1 < 2 + (k - 1) ∧ e.2 = [1]) := by
  obtain ⟨b, ds⟩ := e
  simp [Problem.entries, hubLast, List.mem_range'_1]
  constructor
  · rintro (h | h | ⟨h1, h2⟩)
    · exact Or.inl h
    · exact Or.inr (Or.inl h)
    · exact Or.inr (Or.inr ⟨h1.1, h1.2, h2.symm⟩)
  · rintro (h | h | ⟨h1, h2, h3⟩)
    · exact Or.inl h
    · exact Or.inr (Or.inl h)
    · exact Or.inr (Or.inr ⟨⟨h1, h2⟩, h3.symm⟩)

theorem hubFirst_entries {k : Nat} {e : Nat × List Nat} : e ∈ (hubFirst k).entries ↔
    e = (0, []) ∨ e = (1, [0]) ∨ (2 ≤ e.1 ∧ e.1 < 2 + (k - 1) ∧ e.2 = [1]) := by
  obtain ⟨b, ds⟩ := e
  simp [Problem.entries, hubFirst, List.mem_range'_1]
  constructor
  · rintro (h | h | ⟨h1, h2⟩)
    · exact Or.inl h
    · exact Or.inr (Or.inl h)
    · exact Or.inr (Or.inr ⟨h1.1, h1.2, h2.symm⟩)
  · rintro (h | h | ⟨h1, h2, h3⟩)
    · exact Or.inl h
    · exact Or.inr (Or.inl h)
    · exact Or.inr (Or.inr ⟨⟨h1, h2⟩, h3.symm⟩)

theorem hub_list_nodup (k : Nat) : (0 :: 1 :: List.range' 2 (k - 1)).Nodup := by
  simp [List.nodup_range', List.mem_range'_1]

theorem hubLast_wf {k : Nat} (hk : 1 ≤ k) (hn : k + 1 < 2 ^ 64 - 1) : (hubLast k).WF := by
  refine ⟨?_, ?_, ?_, ?_, by rw [hubLast, hub_n]; exact hn⟩
  · have : (hubLast k).bits = 1 :: 0 :: List.range' 2 (k - 1) := by
      simp [Problem.bits, Problem.entries, hubLast, Function.comp_def]
    rw [this]
    exact (List.Perm.swap 0 1 _).nodup_iff.2 (hub_list_nodup k) |> fun h => by simpa using h
  · intro b hb
    obtain ⟨e, h1, rfl⟩ := List.mem_map.1 hb
    rw [hubLast, hub_n]
    rcases hubLast_entries.1 h1 with rfl | rfl | ⟨_, h2, _⟩
    · show 1 < k + 1; omega
    · show 0 < k + 1; omega
    · omega
  · intro l hl v hv
    rw [hubLast, hub_n]
    simp only [hubLast, hubGraph, List.mem_cons, List.mem_replicate] at hl
    rcases hl with rfl | ⟨_, rfl⟩
    · rw [List.mem_range'_1] at hv; omega
    · simp at hv; omega
  · intro i layer hl e he
    match i, hl with
    | 0, hl =>
      simp [hubLast] at hl
      subst hl
      simp at he
      rcases he with rfl | rfl <;> simp
    | 1, hl =>
      simp [hubLast] at hl
      subst hl
      simp at he
      obtain ⟨v, _, rfl⟩ := he
      refine ⟨by simp, by simp, fun d hd => ⟨0, by omega, _, rfl, (1, []), by simp, ?_⟩⟩
      exact (List.mem_singleton.1 hd).symm
    | i + 2, hl => simp [hubLast] at hl

theorem hubFirst_wf {k : Nat} (hk : 1 ≤ k) (hn : k + 1 < 2 ^ 64 - 1) : (hubFirst k).WF := by
  refine ⟨?_, ?_, ?_, ?_, by rw [hubFirst, hub_n]; exact hn⟩
  · have : (hubFirst k).bits = 0 :: 1 :: List.range' 2 (k - 1) := by
      simp [Problem.bits, Problem.entries, hubFirst, Function.comp_def]
    rw [this]
    exact hub_list_nodup k
  · intro b hb
    obtain ⟨e, h1, rfl⟩ := List.mem_map.1 hb
    rw [hubFirst, hub_n]
    rcases hubFirst_entries.1 h1 with rfl | rfl | ⟨_, h2, _⟩
    · show 0 < k + 1; omega
    · show 1 < k + 1; omega
    · omega
  · intro l hl v hv
    rw [hubFirst, hub_n]
    simp only [hubFirst, hubGraph, List.mem_cons, List.mem_replicate] at hl
    rcases hl with rfl | ⟨_, rfl⟩
    · rw [List.mem_range'_1] at hv; omega
    · simp at hv; omega
  · intro i layer hl e he
    match i, hl with
    | 0, hl =>
      simp [hubFirst] at hl
      subst hl
      simp at he
      subst he
      simp
    | 1, hl =>
      simp [hubFirst] at hl
      subst hl
      simp at he
      subst he
      refine ⟨by simp, by simp, fun d hd => ⟨0, by omega, _, rfl, (0, []), by simp, ?_⟩⟩
      exact (List.mem_singleton.1 hd).symm
    | 2, hl =>
      simp [hubFirst] at hl
      subst hl
      simp at he
      obtain ⟨v, _, rfl⟩ := he
      refine ⟨by simp, by simp, fun d hd => ⟨1, by omega, _, rfl, (1, [0]), by simp, ?_⟩⟩
      exact (List.mem_singleton.1 hd).symm
    | i + 3, hl => simp [hubFirst] at hl

theorem hub_more (k : Nat) : MoreDependencies [(1, 0)] (hubLast k) (hubFirst k) := by
  refine ⟨rfl, ?_, fun u v => Iff.rfl, fun b d => ?_⟩
  · have h1 : (hubLast k).bits = 1 :: 0 :: List.range' 2 (k - 1) := by
      simp [Problem.bits, Problem.entries, hubLast, Function.comp_def]
    have h2 : (hubFirst k).bits = 0 :: 1 :: List.range' 2 (k - 1) := by
      simp [Problem.bits, Problem.entries, hubFirst, Function.comp_def]
    rw [h1, h2]
    exact List.Perm.swap _ _ _
  · constructor
    · rintro ⟨ds, h1, h2⟩
      rcases hubFirst_entries.1 h1 with h | h | ⟨h3, h4, h5⟩
      · simp only [Prod.mk.injEq] at h; rw [h.2] at h2; simp at h2
      · simp only [Prod.mk.injEq] at h; rw [h.2] at h2; simp at h2; right; simp [h.1, h2]
      · exact Or.inl ⟨ds, hubLast_entries.2 (Or.inr (Or.inr ⟨h3, h4, h5⟩)), h2⟩
    · rintro (⟨ds, h1, h2⟩ | h)
      · rcases hubLast_entries.1 h1 with h | h | ⟨h3, h4, h5⟩
        · simp only [Prod.mk.injEq] at h; rw [h.2] at h2; simp at h2
        · simp only [Prod.mk.injEq] at h; rw [h.2] at h2; simp at h2
        · exact ⟨ds, hubFirst_entries.2 (Or.inr (Or.inr ⟨h3, h4, h5⟩)), h2⟩
      · simp only [List.mem_singleton, Prod.mk.injEq] at h
        obtain ⟨rfl, rfl⟩ := h
        exact ⟨[0], hubFirst_entries.2 (Or.inr (Or.inl rfl)), by simp⟩

/-- The hub last: two qubits in memory suffice. -/
theorem hubLast_schedule {k : Nat} (hk : 1 ≤ k) (hn : k + 1 < 2 ^ 64 - 1) :
    ∃ S, (hubLast k).Valid S ∧ S.length ≤ k + 1 ∧ (hubLast k).peak S ≤ 2 := by
  classical
  have hbits : ∀ v, v ∈ (hubLast k).bits → v ≤ k := fun v hv => by
    have := (hubLast_wf hk hn).bits_lt v hv
    rw [hubLast, hub_n] at this
    omega
  refine (schedule_iff_timing (hubLast_wf hk hn) _ _).2 ⟨fun v => if v = 0 then k else v - 1, ⟨?_, ?_⟩, fun j => ?_⟩
  · intro b hb
    have := hbits b hb
    split_ifs <;> omega
  · rintro b d ⟨ds, h1, h2⟩
    rcases hubLast_entries.1 h1 with h | h | ⟨h3, h4, h5⟩
    · simp only [Prod.mk.injEq] at h; rw [h.2] at h2; simp at h2
    · simp only [Prod.mk.injEq] at h; rw [h.2] at h2; simp at h2
    · simp only at h3 h4 h5
      rw [h5] at h2
      simp at h2
      subst h2
      simp
      rw [if_neg (by omega)]
      omega
  · unfold load
    refine Nat.le_trans (Finset.card_le_card (t := {0, j + 1}) ?_) Finset.card_le_two
    intro v hv
    rw [Finset.mem_filter, Finset.mem_range] at hv
    obtain ⟨h0, h1, h2⟩ := hv
    rw [hubLast, hub_n] at h0
    simp only [Finset.mem_insert, Finset.mem_singleton]
    by_cases hv0 : v = 0
    · exact Or.inl hv0
    have hvb : v ∈ (hubLast k).bits := by
      refine List.mem_map.2 ?_
      by_cases h1 : v = 1
      · exact ⟨(1, []), hubLast_entries.2 (Or.inl rfl), h1.symm⟩
      · exact ⟨(v, [1]), hubLast_entries.2 (Or.inr (Or.inr ⟨by show 2 ≤ v; omega, by show v < _; omega, rfl⟩)), rfl⟩
    have h3 := h2 hvb
    simp only at h1 h3
    rw [if_neg hv0] at h3
    rcases h1 with ⟨_, h1⟩ | ⟨u, _, h4, h5⟩
    · rw [if_neg hv0] at h1
      omega
    · rcases hub_nbrs.1 h5 with ⟨rfl, _, _⟩ | ⟨_, _, rfl⟩
      · rw [if_pos rfl] at h4
        omega
      · exact absurd rfl hv0

/-- The hub first: all qubits are in memory. -/
theorem hubFirst_peak {k : Nat} {S : Schedule} (hS : (hubFirst k).Valid S) : k + 1 ≤ (hubFirst k).peak S := by
  have hne : S ≠ [] := by
    rintro rfl
    have := hS.perm.length_eq
    simp [Problem.bits, Problem.entries, hubFirst] at this
  obtain ⟨s, T, rfl⟩ := List.exists_cons_of_ne_nil hne
  have h0 : 0 ∈ s := by
    obtain ⟨b, hb⟩ := List.exists_mem_of_ne_nil s (hS.nonempty s (by simp))
    have hno : ∀ d, ¬ (hubFirst k).Needs b d := fun d hd => by
      obtain ⟨j, _, hj, _⟩ := hS.deps 0 s rfl b hb d hd
      omega
    have hbb : b ∈ (hubFirst k).bits := hS.perm.mem_iff.1 (by simp [hb])
    obtain ⟨e, h1, rfl⟩ := List.mem_map.1 hbb
    have h1' := h1
    rcases hubFirst_entries.1 h1 with rfl | rfl | ⟨_, _, h5⟩
    · exact hb
    · exact absurd ⟨[0], h1', by simp⟩ (hno 0)
    · exact absurd ⟨e.2, h1', by rw [h5]; simp⟩ (hno 1)
  refine Nat.le_trans (Nat.le_of_eq ?_) (memAt_le_peak (hubFirst k) (s :: T) 0 (by simp))
  unfold Problem.memAt
  rw [List.filter_eq_self.2]
  · rw [List.length_range, hubFirst, hub_n]
  · intro v hv
    rw [List.mem_range, hubFirst, hub_n] at hv
    rw [inMemory_iff]
    refine ⟨?_, by simp⟩
    by_cases hv0 : v = 0
    · exact Or.inl (by simp [hv0, h0])
    · exact Or.inr ⟨0, by simp [h0], hub_nbrs.2 (Or.inl ⟨rfl, by omega, by omega⟩)⟩

/-- **C80** The memory has no such bound for dependencies: with a single further one, inputs for which two qubits of memory
were enough need all of them, for every size. -/
theorem C80_space_refuted {F σ F' σ' : Type} [FloatOps F] [FloatOps F'] {env : Env F σ} {args : Args F}
    {env' : Env F' σ'} {args' : Args F'} {out out' : List Path} (k : Nat) (hk : 1 ≤ k) (hn : k + 1 < 2 ^ 64 - 1)
    (he : env.OK) (he' : env'.OK) (hx : Exhaustive env args)
    (h : run env (hubLast k).graph (hubLast k).order args = .ok (some out))
    (h' : run env' (hubFirst k).graph (hubFirst k).order args' = .ok (some out')) :
    MoreDependencies [(1, 0)] (hubLast k) (hubFirst k) ∧ (∃ p ∈ out, p.space ≤ 2) ∧ ∀ p' ∈ out', k + 1 ≤ p'.space := by
  refine ⟨hub_more k, ?_, fun p' hp' => ?_⟩
  · obtain ⟨S, s1, _, s3⟩ := hubLast_schedule hk hn
    obtain ⟨p, hp, _, h2⟩ := C07_exhaustive (hubLast_wf hk hn) (by simp [Problem.bits, Problem.entries, hubLast]) he hx h
      S s1
    exact ⟨p, hp, by omega⟩
  · obtain ⟨v1, v2, v3⟩ := (run_sound (hubFirst_wf hk hn) he' h').valid p' hp'
    rw [v3]
    exact hubFirst_peak v1

/-- The hypotheses are satisfied: four qubits, once with a run that measures the hub last and once with it first. -/
example : run (demo 1000 []) (hubLast 3).graph (hubLast 3).order { doSearch := true } =
      .ok (some [⟨2, 3, [[1], [0, 2, 3]]⟩, ⟨3, 2, [[1], [3], [0, 2]]⟩]) ∧
    run (demo 1000 []) (hubFirst 3).graph (hubFirst 3).order { doSearch := true } =
      .ok (some [⟨3, 4, [[0], [1], [2, 3]]⟩]) := by decide +kernel

/-- Two rows of two qubits become one row of four: one further edge, and in two steps one more qubit of memory. -/
example : MoreEdges [(1, 2)] ⟨[[1], [0], [3], [2]], [[(0, []), (1, []), (2, []), (3, [])]]⟩
      ⟨[[1], [0, 2], [1, 3], [2]], [[(0, []), (1, []), (2, []), (3, [])]]⟩ ∧
    run (demo 1000 []) [[1], [0], [3], [2]] [[(0, []), (1, []), (2, []), (3, [])]] { doSearch := true } =
      .ok (some [⟨1, 4, [[0, 1, 2, 3]]⟩, ⟨2, 2, [[2, 3], [0, 1]]⟩]) ∧
    run (demo 1000 []) [[1], [0, 2], [1, 3], [2]] [[(0, []), (1, []), (2, []), (3, [])]] { doSearch := true } =
      .ok (some [⟨1, 4, [[0, 1, 2, 3]]⟩, ⟨2, 3, [[2, 3], [0, 1]]⟩, ⟨3, 2, [[3], [2], [0, 1]]⟩]) := by
  refine ⟨⟨rfl, .refl _, ?_, fun b d => Iff.rfl⟩, by decide +kernel, by decide +kernel⟩
  intro u v
  match u with
  | 0 => simp [Problem.nbrs]
  | 1 => simp [Problem.nbrs]
  | 2 => simp [Problem.nbrs]; omega
  | 3 => simp [Problem.nbrs]
  | n + 4 => simp [Problem.nbrs]

/-- A ring of four qubits gets a hub: one more qubit of memory. -/
example : OneQubit ⟨[[1, 3], [0, 2], [3, 1], [2, 0]], [[(0, []), (1, []), (2, []), (3, [])]]⟩
      ⟨[[1, 3, 4], [0, 2, 4], [3, 1, 4], [2, 0, 4], [0, 1, 2, 3]], [[(0, []), (1, []), (2, []), (3, []), (4, [])]]⟩ ∧
    (∀ d, ¬ (⟨[[1, 3, 4], [0, 2, 4], [3, 1, 4], [2, 0, 4], [0, 1, 2, 3]],
      [[(0, []), (1, []), (2, []), (3, []), (4, [])]]⟩ : Problem).Needs 4 d) ∧
    run (demo 1000 []) [[1, 3], [0, 2], [3, 1], [2, 0]] [[(0, []), (1, []), (2, []), (3, [])]] { doSearch := true } =
      .ok (some [⟨1, 4, [[0, 1, 2, 3]]⟩, ⟨2, 3, [[3], [0, 1, 2]]⟩]) ∧
    run (demo 1000 []) [[1, 3, 4], [0, 2, 4], [3, 1, 4], [2, 0, 4], [0, 1, 2, 3]]
      [[(0, []), (1, []), (2, []), (3, []), (4, [])]] { doSearch := true } =
      .ok (some [⟨1, 5, [[0, 1, 2, 3, 4]]⟩, ⟨2, 4, [[3], [0, 1, 2, 4]]⟩]) := by
  refine ⟨⟨rfl, by decide, ?_, by decide, ?_⟩, ?_, by decide +kernel, by decide +kernel⟩
  · have : ∀ u, u < 4 → ∀ v, v < 4 →
        (v ∈ (⟨[[1, 3, 4], [0, 2, 4], [3, 1, 4], [2, 0, 4], [0, 1, 2, 3]], []⟩ : Problem).nbrs u ↔
          v ∈ (⟨[[1, 3], [0, 2], [3, 1], [2, 0]], []⟩ : Problem).nbrs u) := by decide +kernel
    exact fun u v hu hv => this u hu v hv
  · intro b d _
    constructor
    · rintro ⟨ds, h1, h2⟩
      simp [Problem.entries] at h1
      rcases h1 with ⟨_, rfl⟩ | ⟨_, rfl⟩ | ⟨_, rfl⟩ | ⟨_, rfl⟩ | ⟨_, rfl⟩ <;> simp at h2
    · rintro ⟨ds, h1, h2⟩
      simp [Problem.entries] at h1
      rcases h1 with ⟨_, rfl⟩ | ⟨_, rfl⟩ | ⟨_, rfl⟩ | ⟨_, rfl⟩ <;> simp at h2
  · rintro d ⟨ds, h1, h2⟩
    simp [Problem.entries] at h1
    simp_all

/-- Two pairs become one chain: one further dependency doubles the time. -/
example : MoreDependencies [(2, 1)] ⟨[[1, 3], [0, 2], [3, 1], [2, 0]], [[(0, []), (2, [])], [(1, [0]), (3, [2])]]⟩
      ⟨[[1, 3], [0, 2], [3, 1], [2, 0]], [[(0, [])], [(1, [0])], [(2, [1])], [(3, [2])]]⟩ ∧
    run (demo 1000 []) [[1, 3], [0, 2], [3, 1], [2, 0]] [[(0, []), (2, [])], [(1, [0]), (3, [2])]] { doSearch := false } =
      .ok (some [⟨2, 4, [[0, 2], [1, 3]]⟩]) ∧
    run (demo 1000 []) [[1, 3], [0, 2], [3, 1], [2, 0]] [[(0, [])], [(1, [0])], [(2, [1])], [(3, [2])]] { doSearch := false } =
      .ok (some [⟨4, 3, [[0], [1], [2], [3]]⟩]) := by
  refine ⟨⟨rfl, by decide, fun _ _ => Iff.rfl, ?_⟩, by decide +kernel, by decide +kernel⟩
  intro b d
  constructor
  · rintro ⟨ds, h1, h2⟩
    simp [Problem.entries] at h1
    rcases h1 with ⟨rfl, rfl⟩ | ⟨rfl, rfl⟩ | ⟨rfl, rfl⟩ | ⟨rfl, rfl⟩ <;> simp at h2
    · exact Or.inl ⟨[0], by decide, by simp [h2]⟩
    · exact Or.inr (by simp [h2])
    · exact Or.inl ⟨[2], by decide, by simp [h2]⟩
  · rintro (⟨ds, h1, h2⟩ | h)
    · simp [Problem.entries] at h1
      rcases h1 with ⟨rfl, rfl⟩ | ⟨rfl, rfl⟩ | ⟨rfl, rfl⟩ | ⟨rfl, rfl⟩ <;> simp at h2
      · exact ⟨[0], by decide, by simp [h2]⟩
      · exact ⟨[2], by decide, by simp [h2]⟩
    · simp only [List.mem_singleton, Prod.mk.injEq] at h
      obtain ⟨rfl, rfl⟩ := h
      exact ⟨[1], by decide, by simp⟩

end Verif
