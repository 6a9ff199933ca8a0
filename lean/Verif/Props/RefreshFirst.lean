import Verif.Props.MinTimeProps
/-!
# The first path of a multi-threaded search

It has the least number of steps (C51), but the memory of the other schedules with that many steps can be lost.
-/

namespace Verif

open Spec Search Search.Threaded Example

/-- Two qubits followed by five that depend on the second; no edges. -/
def twoFive : Problem :=
  ⟨List.replicate 7 [], [[(0, []), (1, [])], [(2, [1]), (3, [1]), (4, [1]), (5, [1]), (6, [1])]]⟩

theorem twoFive_wf : twoFive.WF := wf_of_check (by decide +kernel)

/-- Two workers: the task of `[1]` takes five steps, then the one of `[0, 1]` runs to its end, then the others in order. -/
def twoFiveMoves : List (Nat × Bool) :=
  (List.replicate 5 (1, false) ++ List.replicate 206 (0, false) ++ List.replicate 3399 (1, false)) ++
    (List.replicate 516 (2, false) ++ List.replicate 3 (3, false))

theorem twoFive_run : run (demo 0 twoFiveMoves) twoFive.graph twoFive.order { doSearch := true, nthreads := 2 } =
    .ok (some [⟨2, 6, [[1], [0, 2, 3, 4, 5, 6]]⟩, ⟨3, 3, [[1], [4, 5, 6], [0, 2, 3]]⟩,
      ⟨4, 2, [[1], [5, 6], [3, 4], [0, 2]]⟩, ⟨7, 1, [[1], [6], [5], [4], [3], [2], [0]]⟩]) := by
  decide +kernel

theorem twoFive_possible : possible (demo 0 twoFiveMoves) twoFive.graph twoFive.order { doSearch := true, nthreads := 2 } =
    .ok true := by
  refine possible_of_run rfl ?_ ?_ twoFive_run
  · intro m hm
    simp only [List.mem_append, List.mem_replicate] at hm
    rcases hm with (⟨_, rfl⟩ | ⟨_, rfl⟩) | ⟨_, rfl⟩ <;> simp
  · rw [List.map_append, List.map_replicate, List.map_replicate, List.pairwise_append]
    refine ⟨List.pairwise_replicate.2 (Or.inr (Nat.le_refl _)), List.pairwise_replicate.2 (Or.inr (Nat.le_refl _)), ?_⟩
    intro a ha b hb
    rw [List.eq_of_mem_replicate ha, List.eq_of_mem_replicate hb]
    decide

/-- **C51** refuted for the memory: with two threads or more the first path need not have the least memory among the
schedules with its number of steps. Here it is `[1], [0, 2, 3, 4, 5, 6]` with six qubits in memory; `[0, 1], [2, 3, 4, 5, 6]`
needs five. With one thread this cannot happen (C10). -/
theorem C51_memory_refuted : ∀ n, 2 ≤ n → ¬ ∀ (P : Problem) (env : Env Bool Unit) (p : Path) (rest : List Path), P.WF →
    P.bits ≠ [] → env.OK → possible env P.graph P.order { doSearch := true, nthreads := n } = .ok true →
    run env P.graph P.order { doSearch := true, nthreads := n } = .ok (some (p :: rest)) →
    ∀ S, P.Valid S → S.length = p.time → p.space ≤ P.peak S := by
  intro n hn h
  have h1 := h twoFive _ _ _ twoFive_wf (by decide) (demo_ok _ _) (possible_workers (Nat.le_refl _) hn twoFive_possible)
    ((run_workers (args := { doSearch := true, nthreads := 2 }) (Nat.le_refl _) hn).trans twoFive_run)
    [[0, 1], [2, 3, 4, 5, 6]] (valid_of_check (by decide +kernel)) rfl
  revert h1
  decide +kernel

end Verif
