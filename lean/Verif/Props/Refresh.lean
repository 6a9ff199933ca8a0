import Verif.Props.Run
/-!
# The periodic refresh of the multi-threaded search loses results

Every 1000 iterations a task copies better entries of the shared table `best_memory` into its own
table (`update`, threaded.rs:160-186). When it ends, it writes all of its own results at whose index
its table is not worse than the shared one (`*shared_mem >= this_mem`, threaded.rs:147) - also those
that are worse than the entry copied before. A better result of another task is overwritten.
-/

namespace Verif

open Spec Search Search.Threaded Example

/-- Two qubits followed by six that depend on both; no edges. -/
def twoSix : Problem :=
  ⟨List.replicate 8 [], [[(0, []), (1, [])], [(2, [0, 1]), (3, [0, 1]), (4, [0, 1]), (5, [0, 1]),
    (6, [0, 1]), (7, [0, 1])]]⟩

theorem twoSix_wf : twoSix.WF := wf_of_check (by decide +kernel)

/-- Two workers: they take turns with the tasks of `[0, 1]` and `[1]` until the first one returns; the other worker goes
on, then the remaining two tasks follow. -/
def twoSixMoves : List (Nat × Bool) :=
  (roundRobin 2 525 ++ List.replicate 2890 (1, false)) ++ (List.replicate 3150 (2, false) ++ List.replicate 3 (3, false))

theorem twoSix_run : run (demo 0 twoSixMoves) twoSix.graph twoSix.order
    { doSearch := true, nthreads := 2 } = .ok (some [⟨2, 6, [[0, 1], [2, 3, 4, 5, 6, 7]]⟩,
      ⟨4, 3, [[1], [0], [5, 6, 7], [2, 3, 4]]⟩, ⟨5, 2, [[1], [0], [6, 7], [4, 5], [2, 3]]⟩,
      ⟨8, 1, [[1], [0], [7], [6], [5], [4], [3], [2]]⟩]) := by
  decide +kernel

theorem twoSix_possible : possible (demo 0 twoSixMoves) twoSix.graph twoSix.order { doSearch := true, nthreads := 2 } =
    .ok true := by
  refine possible_of_run rfl ?_ ?_ twoSix_run
  · intro m hm
    simp only [roundRobin, List.mem_append, List.mem_flatMap, List.mem_map, List.mem_range, List.mem_replicate] at hm
    rcases hm with ⟨_, _, i, hi, rfl⟩ | ⟨_, rfl⟩
    · exact hi
    · decide
  · rw [List.map_append, List.map_replicate, List.map_replicate, List.pairwise_append]
    refine ⟨List.pairwise_replicate.2 (Or.inr (Nat.le_refl _)), List.pairwise_replicate.2 (Or.inr (Nat.le_refl _)), ?_⟩
    intro a ha b hb
    rw [List.eq_of_mem_replicate ha, List.eq_of_mem_replicate hb]
    decide

/-- **C28** refuted: with the default arguments and any number of threads from two on, an uninterrupted deterministic
search of 8 qubits can miss the schedule `[0, 1], [2, 3, 4], [5, 6, 7]` of 3 steps and 3 qubits in memory: nothing it
returns is as good in both costs. A pool with that many workers can work like this (`possible`). -/
theorem C28_refuted : ∀ n, 2 ≤ n → ¬ ∀ (P : Problem) (env : Env Bool Unit) (out : List Path), P.WF → P.bits ≠ [] → env.OK →
    possible env P.graph P.order { doSearch := true, nthreads := n } = .ok true →
    run env P.graph P.order { doSearch := true, nthreads := n } = .ok (some out) →
    ∀ S, P.Valid S → ∃ p ∈ out, p.time ≤ S.length ∧ p.space ≤ P.peak S := by
  intro n hn h
  have h1 := h twoSix _ _ twoSix_wf (by decide) (demo_ok _ _) (possible_workers (Nat.le_refl _) hn twoSix_possible)
    ((run_workers (args := { doSearch := true, nthreads := 2 }) (Nat.le_refl _) hn).trans twoSix_run)
    [[0, 1], [2, 3, 4], [5, 6, 7]] (valid_of_check (by decide +kernel))
  revert h1
  decide +kernel

end Verif
