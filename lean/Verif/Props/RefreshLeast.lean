import Verif.Props.Run
/-!
# The periodic refresh of the multi-threaded search can lose the least memory
-/

namespace Verif

open Spec Search Search.Threaded Example

/-- Qubit 0 has five neighbours, among them 1; the others come after 0, and all but one of them also after 1. Whoever begins with 0 needs six qubits in
memory, whoever begins with 1 can do with five. -/
def beginWithOne : Problem :=
  ⟨[[1, 2, 3, 4, 5], [0], [0], [0], [0], [0], [], [], [], [], [], []],
    [[(0, []), (1, [])], [(2, [0]), (3, [0, 1]), (4, [0, 1]), (5, [0, 1]), (6, [0, 1]), (7, [0, 1]), (8, [0, 1]),
      (9, [0, 1]), (10, [0, 1]), (11, [0, 1])]]⟩

theorem beginWithOne_wf : beginWithOne.WF := wf_of_check (by decide +kernel)

theorem beginWithOne_run : run (demo 0 (roundRobin 4 1600)) beginWithOne.graph beginWithOne.order
    { doSearch := true, nthreads := 4 } = .ok (some [⟨2, 10, [[0, 1], [2, 3, 4, 5, 6, 7, 8, 9, 10, 11]]⟩,
      ⟨3, 9, [[0], [1, 2], [3, 4, 5, 6, 7, 8, 9, 10, 11]]⟩,
      ⟨4, 6, [[0], [1, 2], [3, 4, 5, 9, 10, 11], [6, 7, 8]]⟩]) := by
  decide +kernel

theorem beginWithOne_possible : possible (demo 0 (roundRobin 4 1600)) beginWithOne.graph beginWithOne.order
    { doSearch := true, nthreads := 4 } = .ok true := by
  refine possible_of_run (b := []) (List.append_nil _).symm ?_ List.Pairwise.nil beginWithOne_run
  intro m hm
  simp only [demo, roundRobin, List.mem_flatMap, List.mem_map, List.mem_range] at hm
  obtain ⟨_, _, i, hi, rfl⟩ := hm
  exact hi

/-- **C28** Even the least memory can be lost: with the default arguments, four threads or more and the fair round-robin
interleaving every returned path of this problem needs six qubits or more, and
`[1], [0], [2, 3, 4, 5, 11], [6, 7, 8, 9, 10]` needs five. -/
theorem C28_least_refuted : ∀ n, 4 ≤ n → ¬ ∀ (P : Problem) (env : Env Bool Unit) (out : List Path), P.WF → P.bits ≠ [] →
    env.OK → possible env P.graph P.order { doSearch := true, nthreads := n } = .ok true →
    run env P.graph P.order { doSearch := true, nthreads := n } = .ok (some out) →
    ∀ S, P.Valid S → ∃ p ∈ out, p.space ≤ P.peak S := by
  intro n hn h
  have h1 := h beginWithOne _ _ beginWithOne_wf (by decide) (demo_ok _ _) (possible_workers (by decide) hn beginWithOne_possible)
    ((run_workers (args := { doSearch := true, nthreads := 4 }) (by decide) (by omega)).trans beginWithOne_run)
    [[1], [0], [2, 3, 4, 5, 11], [6, 7, 8, 9, 10]] (valid_of_check (by decide +kernel))
  revert h1
  decide +kernel

/-- Qubits 0 and 1 are neighbours and have the neighbours 2, 3, 4, 5; seven more qubits have none. All of them come after 0 and
1. Whoever begins with 0, with 1 or with both needs six qubits in memory. -/
def triangles : Problem :=
  ⟨[[1, 2, 3, 4, 5], [0, 2, 3, 4, 5], [0, 1], [0, 1], [0, 1], [0, 1], [], [], [], [], [], [], []],
    [[(0, []), (1, [])], [(2, [0, 1]), (3, [0, 1]), (4, [0, 1]), (5, [0, 1]), (6, [0, 1]), (7, [0, 1]), (8, [0, 1]),
      (9, [0, 1]), (10, [0, 1]), (11, [0, 1]), (12, [0, 1])]]⟩

theorem triangles_wf : triangles.WF := wf_of_check (by decide +kernel)

/-- One worker begins with the task of `[1]` and pauses; the other one works on the task of `[0, 1]` until it returns; then
the first worker goes on. -/
def trianglesMoves : List (Nat × Bool) :=
  (List.replicate 800 (1, false) ++ (List.replicate 2118 (0, false) ++ List.replicate 1287 (1, false))) ++
    (List.replicate 4 (2, false) ++ List.replicate 3 (3, false))

theorem triangles_run : run (demo 0 trianglesMoves) triangles.graph triangles.order { doSearch := true, nthreads := 2 } =
    .ok (some [⟨2, 11, [[0, 1], [2, 3, 4, 5, 6, 7, 8, 9, 10, 11, 12]]⟩,
      ⟨4, 7, [[1], [0], [2, 3, 4, 5, 10, 11, 12], [6, 7, 8, 9]]⟩]) := by
  decide +kernel

theorem triangles_possible : possible (demo 0 trianglesMoves) triangles.graph triangles.order
    { doSearch := true, nthreads := 2 } = .ok true := by
  refine possible_of_run rfl ?_ ?_ triangles_run
  · intro m hm
    simp only [List.mem_append, List.mem_replicate] at hm
    rcases hm with ⟨_, rfl⟩ | ⟨_, rfl⟩ | ⟨_, rfl⟩ <;> simp
  · rw [List.map_append, List.map_replicate, List.map_replicate, List.pairwise_append]
    refine ⟨List.pairwise_replicate.2 (Or.inr (Nat.le_refl _)), List.pairwise_replicate.2 (Or.inr (Nat.le_refl _)), ?_⟩
    intro a ha b hb
    rw [List.eq_of_mem_replicate ha, List.eq_of_mem_replicate hb]
    decide

/-- **C28** With two threads or more: every path returned in this run needs seven qubits or more, and
`[0, 1], [2, 3, 4, 5, 12], [6, 7, 8, 9, 10, 11]` needs six. -/
theorem C28_least_two_refuted : ∀ n, 2 ≤ n → ¬ ∀ (P : Problem) (env : Env Bool Unit) (out : List Path), P.WF → P.bits ≠ [] →
    env.OK → possible env P.graph P.order { doSearch := true, nthreads := n } = .ok true →
    run env P.graph P.order { doSearch := true, nthreads := n } = .ok (some out) →
    ∀ S, P.Valid S → ∃ p ∈ out, p.space ≤ P.peak S := by
  intro n hn h
  have h1 := h triangles _ _ triangles_wf (by decide) (demo_ok _ _) (possible_workers (Nat.le_refl _) hn triangles_possible)
    ((run_workers (args := { doSearch := true, nthreads := 2 }) (Nat.le_refl _) hn).trans triangles_run)
    [[0, 1], [2, 3, 4, 5, 12], [6, 7, 8, 9, 10, 11]] (valid_of_check (by decide +kernel))
  revert h1
  decide +kernel

end Verif
