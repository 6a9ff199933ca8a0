import Verif.Proofs.Undisturbed
import Verif.Props.ApartProps
/-!
# Nothing is lost if the tasks that refresh the shared table are undisturbed

C28 (false in general) holds if no other task moves between two moves of a task that goes on for longer than the interval
between two refreshes.
-/

namespace Verif

open Spec Search Search.Threaded Example

variable {F σ : Type} [FloatOps F] {P : Problem}

/-- **C91** If in an uninterrupted exhaustive search with threads every task that makes more than 1000 loop iterations works
undisturbed, nothing is missed and the result is exactly the Pareto front. The shorter tasks may overlap in any way, also
begin before a long task and go on after it. -/
theorem C91_front (hP : P.WF) (hb : P.bits ≠ []) {env : Env F σ} (he : env.OK) {args : Args F} (hs : args.doSearch = true)
    (hn : 2 ≤ args.nthreads) (hp : args.probabilistic = none) (ht : args.timeout = none ∨ ∀ m ∈ env.moves, m.2 = false)
    (hm : ∀ a b, a ≠ b → 1001 < movesOf a env.moves → ¬ [a, b, a].Sublist (env.moves.map (·.1))) {out : List Path}
    (h : run env P.graph P.order args = .ok (some out)) :
    (∀ S, P.Valid S → ∃ p ∈ out, p.time ≤ S.length ∧ p.space ≤ P.peak S) ∧
      ∀ t m, (∃ p ∈ out, p.time = t ∧ p.space = m) ↔ ParetoOptimal P t m := by
  have h0 := h
  rw [run, hs, Bool.not_true, if_neg (by simp), Verif.search.eq_def, if_neg (by omega), hp] at h
  obtain ⟨tb, htb⟩ : ∃ tb, (args.taskBound.map fun b => (b : Int)).getD 100000 = tb := ⟨_, rfl⟩
  rw [htb] at h
  have hmap : (env.moves.map fun m => (m.1, args.timeout.isSome && m.2)).map (·.1) = env.moves.map (·.1) := by
    simp [List.map_map, Function.comp_def]
  have hc : Complete P out := by
    refine Undisturbed.searchThreaded_undisturbed hP hb _ _ _ env.prof env.hashIter he out ?_ ?_ h
    · intro m hm'
      obtain ⟨x, hx, rfl⟩ := List.mem_map.1 hm'
      rcases ht with ht | ht
      · simp [ht]
      · simp [ht x hx]
    · intro i b hib hcount
      rw [hmap] at hcount ⊢
      refine hm i b hib ?_
      have : movesOf i env.moves = (env.moves.map (·.1)).count i := by
        rw [movesOf, List.count_eq_length_filter, List.filter_map, List.length_map]
        congr 1
      rw [this]
      exact hcount
  exact ⟨hc, fun t m => ((run_sound hP he h0).pareto hc t m).symm⟩

/-- The second task begins, the first one works, refreshing several times, and the second one goes on. -/
def around : List (Nat × Bool) := [(1, false)] ++ List.replicate 4000 (0, false) ++ List.replicate 3 (1, false)

example : oneSix.WF ∧ possible (demo 0 around) oneSix.graph oneSix.order { doSearch := true, nthreads := 2 } = .ok true ∧
    (∀ a b, a ≠ b → 1001 < movesOf a around → ¬ [a, b, a].Sublist (around.map (·.1))) ∧ 1001 < movesOf 0 around ∧
    [1, 0, 1].Sublist (around.map (·.1)) ∧
    ∃ out, out.length = 4 ∧ run (demo 0 around) oneSix.graph oneSix.order { doSearch := true, nthreads := 2 } = .ok (some out) := by
  have h0 : movesOf 0 around = 4000 := by decide +kernel
  have h1 : movesOf 1 around = 4 := by decide +kernel
  refine ⟨wf_of_check (by decide +kernel), by decide +kernel, ?_, by omega, by decide +kernel,
    [⟨2, 6, [[0], [1, 2, 3, 4, 5, 6]]⟩, ⟨3, 3, [[0], [4, 5, 6], [1, 2, 3]]⟩, ⟨4, 2, [[0], [5, 6], [3, 4], [1, 2]]⟩,
    ⟨7, 1, [[0], [6], [5], [4], [3], [2], [1]]⟩], rfl, by decide +kernel⟩
  intro a b hab hlong hsub
  have hlt : ∀ x ∈ around.map (·.1), x < 2 := by
    intro x hx
    obtain ⟨m, hm, rfl⟩ := List.mem_map.1 hx
    simp only [around, List.mem_append, List.mem_singleton, List.mem_replicate] at hm
    rcases hm with (rfl | ⟨_, rfl⟩) | ⟨_, rfl⟩ <;> decide
  have ha := hlt a (hsub.subset (by simp))
  have hb := hlt b (hsub.subset (by simp))
  obtain rfl : a = 0 := by
    by_contra ha0
    obtain rfl : a = 1 := by omega
    omega
  obtain rfl : b = 1 := by omega
  exact absurd hsub (by decide +kernel)

/-- **C91** refuted if only the long tasks must not disturb each other: in the counterexample of C28 a long task is disturbed
by a short one. -/
theorem C91_short_refuted : ∀ n, 2 ≤ n → ¬ ∀ (P : Problem) (env : Env Bool Unit) (out : List Path), P.WF → P.bits ≠ [] →
    env.OK → possible env P.graph P.order { doSearch := true, nthreads := n } = .ok true →
    (∀ a b, a ≠ b → 1001 < movesOf a env.moves → 1001 < movesOf b env.moves → ¬ [a, b, a].Sublist (env.moves.map (·.1))) →
    run env P.graph P.order { doSearch := true, nthreads := n } = .ok (some out) →
    ∀ S, P.Valid S → ∃ p ∈ out, p.time ≤ S.length ∧ p.space ≤ P.peak S := by
  intro n hn h
  have hlong : ∀ a b, a ≠ b → 1001 < movesOf a twoSixMoves → 1001 < movesOf b twoSixMoves →
      ¬ [a, b, a].Sublist (twoSixMoves.map (·.1)) := by
    intro a b hab ha hb hsub
    have h0 : movesOf 0 twoSixMoves = 525 := by decide +kernel
    have h3 : movesOf 3 twoSixMoves = 3 := by decide +kernel
    have hlt : ∀ x ∈ twoSixMoves.map (·.1), x < 4 := by
      intro x hx
      obtain ⟨m, hm, rfl⟩ := List.mem_map.1 hx
      simp only [twoSixMoves, roundRobin, List.mem_append, List.mem_flatMap, List.mem_map, List.mem_range,
        List.mem_replicate] at hm
      rcases hm with (⟨_, _, i, hi, rfl⟩ | ⟨_, rfl⟩) | ⟨_, rfl⟩ | ⟨_, rfl⟩
      · exact Nat.lt_trans hi (by decide)
      · decide
      · decide
      · decide
    have ha4 := hlt a (hsub.subset (by simp))
    have hb4 := hlt b (hsub.subset (by simp))
    have hne : ∀ x, 1001 < movesOf x twoSixMoves → x < 4 → x = 1 ∨ x = 2 := by
      intro x hx hx4
      by_cases hx0 : x = 0
      · rw [hx0] at hx; omega
      · by_cases hx3 : x = 3
        · rw [hx3] at hx; omega
        · omega
    rcases hne a ha ha4 with rfl | rfl <;> rcases hne b hb hb4 with rfl | rfl
    · exact hab rfl
    · exact absurd hsub (by decide +kernel)
    · exact absurd hsub (by decide +kernel)
    · exact hab rfl
  have h1 := h twoSix _ _ twoSix_wf (by decide) (demo_ok _ _) (possible_workers (Nat.le_refl _) hn twoSix_possible) hlong
    ((run_workers (args := { doSearch := true, nthreads := 2 }) (Nat.le_refl _) hn).trans twoSix_run)
    [[0, 1], [2, 3, 4], [5, 6, 7]] (valid_of_check (by decide +kernel))
  revert h1
  decide +kernel

end Verif
