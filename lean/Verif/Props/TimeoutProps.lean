import Verif.Proofs.Timeout
import Verif.Props.RepeatedProps
/-!
# How soon a timeout is noticed
-/

namespace Verif

open Spec Problem Search Search.Threaded Example Trace

section

variable {F σ : Type} [FloatOps F] {P : Problem} {env : Env F σ} {args : Args F}

/-- **C64** Single-threaded, with or without an accept function, whatever the input is: if the timer has run off when
iteration `K` ends, the search has ended with that iteration. -/
theorem C64_single (hs : args.doSearch = true) (hn : args.nthreads < 2) (ht : args.timeout.isSome = true) {K : Nat}
    (hK : env.timer K = true) (hf : K < env.fuel) : run env P.graph P.order args ≠ .ok none := by
  intro h
  unfold run search at h
  rw [hs, Bool.not_true, if_neg (by simp)] at h
  simp only [hn, if_true, ht, Bool.true_and] at h
  split at h
  · refine (?_ : Sat (fun r => r ≠ none) _) none h rfl
    unfold searchProb doProbabilisticSearch
    refine Sat.bind (Sat.any _) fun s _ => ?_
    refine Sat.bind (Timeout.probLoop_finishes _ _ _ _ _ 0 _ _ K (Nat.zero_le _) hK (by omega)) fun r hr => ?_
    cases r with
    | none => exact absurd rfl hr
    | some v => exact Sat.bind (Sat.any _) fun _ _ => Sat.pure (by simp)
  · refine (?_ : Sat (fun r => r ≠ none) _) none h rfl
    unfold searchDet doSearch
    refine Sat.bind (Sat.any _) fun s _ => ?_
    refine Sat.bind (Timeout.searchLoop_finishes _ _ _ 0 _ K (Nat.zero_le _) hK (by omega)) fun r hr => ?_
    cases r with
    | none => exact absurd rfl hr
    | some v => exact Sat.bind (Sat.any _) fun _ _ => Sat.pure (by simp)

/-- **C64** Multi-threaded, whatever the input is and however the tasks are interleaved: when the time is over (from the
moves `m2` on), no task makes more than 1003 further moves (its start, 1001 iterations, merging its results). There are at
most as many tasks as the first layer has subsets, one more for the rest, and not more than the task bound plus one. -/
theorem C64_threads (hs : args.doSearch = true) (hn : 2 ≤ args.nthreads) (ht : args.timeout.isSome = true)
    {m1 m2 : List (Nat × Bool)} (hm : env.moves = m1 ++ m2) (hover : ∀ m ∈ m2, m.2 = true)
    (hc : ∀ i, i ≤ 2 ^ P.firstLayer.length → (args.taskBound = some 0 ∨ i ≤ args.taskBound.getD 100000) →
      1003 ≤ movesOf i m2) : run env P.graph P.order args ≠ .ok none := by
  intro h
  unfold run search at h
  rw [hs, Bool.not_true, if_neg (by simp)] at h
  simp only [show ¬ args.nthreads < 2 by omega, if_false, ht, Bool.true_and, Prod.mk.eta, List.map_id'] at h
  rw [hm] at h
  generalize htb : (args.taskBound.map fun b => (b : Int)).getD 100000 = tb at h
  have hc' : ∀ i : Nat, i < 2 ^ (P.order.headD []).length + 1 → (0 < tb → (i : Int) < tb + 1) →
      1003 ≤ (m2.map (·.1)).count i := by
    intro i h1 h2
    have : movesOf i m2 = (m2.map (·.1)).count i := by
      rw [movesOf, List.count, List.countP_map, List.countP_eq_length_filter]
      congr 1
    rw [← this]
    refine hc i (by simp only [firstLayer, List.length_map]; exact Nat.le_of_lt_succ h1) ?_
    subst htb
    cases hb : args.taskBound with
    | none =>
      rw [hb] at h2
      simp only [Option.getD_none, Option.bind_eq_bind, Option.bind_none, Option.map_none] at h2 ⊢
      exact .inr (by omega)
    | some b =>
      rw [hb] at h2
      simp only [Option.getD_some, Option.bind_eq_bind, Option.bind_some, Option.pure_def, Option.map_some] at h2 ⊢
      by_cases hb0 : b = 0
      · exact .inl (by rw [hb0])
      · exact .inr (by omega)
  split at h
  · exact Timeout.searchThreaded_finishes _ _ _ tb _ m1 m2 hover _ _ hc' none h rfl
  · exact Timeout.searchThreaded_finishes _ _ _ tb _ m1 m2 hover _ _ hc' none h rfl

/-- **C64** Multi-threaded, the timer is not looked at in the first 1000 iterations of a task: as long as no task makes more
(one move is its start), neither the timeout nor what the timer says has any effect. -/
theorem C64_ignored (hn : 2 ≤ args.nthreads) {moves : List (Nat × Bool)} (hm : moves.map (·.1) = env.moves.map (·.1))
    (hc : ∀ i, movesOf i env.moves ≤ 1001) (timeout : Option Nat) :
    run env P.graph P.order args = run { env with moves := moves } P.graph P.order { args with timeout := timeout } := by
  have hc' : ∀ (f : Nat × Bool → Bool) (i : Nat), movesOf i (env.moves.map fun m => (m.1, f m)) ≤ 1001 := by
    intro f i
    refine Nat.le_trans (Nat.le_of_eq ?_) (hc i)
    unfold movesOf
    rw [List.filter_map, List.length_map]
    rfl
  unfold run search
  cases args.doSearch with
  | false => rfl
  | true =>
    simp only [Bool.not_true, Bool.false_eq_true, if_false, show ¬ args.nthreads < 2 by omega]
    cases args.probabilistic with
    | none =>
      refine Timeout.searchThreaded_quiet _ _ _ _ _ _ _ ?_ _ _ (hc' _)
      simpa [Function.comp_def] using hm
    | some p =>
      refine Timeout.searchThreaded_quiet _ _ _ _ _ _ _ ?_ _ _ (hc' _)
      simpa [Function.comp_def] using hm

end

/-- The time is over from the beginning on. -/
def tooLate (fuel : Nat) (moves : List (Nat × Bool)) : Env Bool Unit :=
  { demo fuel (moves.map fun m => (m.1, true)) with timer := fun _ => true }

theorem tooLate_ok (fuel : Nat) (moves : List (Nat × Bool)) : (tooLate fuel moves).OK := fun m => List.Perm.refl m

/-- **C64** "If the timeout is too short, an empty list is returned": with a timer that has run off before the first
iteration, the single-threaded search returns the empty list and the multi-threaded search the complete curve. -/
theorem C64_empty_refuted : ¬ ∀ (P : Problem) (env : Env Bool Unit) (n t : Nat) (out : List Path), P.WF → env.OK →
    (∀ k, env.timer k = true) → (∀ m ∈ env.moves, m.2 = true) →
    run env P.graph P.order { doSearch := true, timeout := some t } = .ok (some []) →
    possible env P.graph P.order { doSearch := true, timeout := some t, nthreads := n } = .ok true →
    run env P.graph P.order { doSearch := true, timeout := some t, nthreads := n } = .ok (some out) → out = [] := by
  intro h
  have := h star (tooLate 1000 (swapped 8 60)) 2 1 _ star_wf (tooLate_ok _ _) (fun _ => rfl) (by
    intro m hm
    simp only [tooLate, demo, List.mem_map] at hm
    obtain ⟨_, _, rfl⟩ := hm
    rfl) (by decide +kernel) (by decide +kernel) (show _ = Except.ok (some
      [⟨1, 4, [[1, 2, 3, 0]]⟩, ⟨2, 3, [[2, 3], [1, 0]]⟩, ⟨3, 2, [[2], [3], [1, 0]]⟩]) by decide +kernel)
  simp at this

/-- The hypotheses of `C64_single`: the timer runs off during the third iteration. -/
example : ({ demo 3 [] with timer := fun k => decide (2 ≤ k) } : Env Bool Unit).timer 2 = true ∧
    run { demo 3 [] with timer := fun k => decide (2 ≤ k) } star.graph star.order { doSearch := true, timeout := some 1 }
      = .ok (some [⟨1, 4, [[1, 2, 3, 0]]⟩]) := by decide +kernel

/-- The hypotheses of `C64_threads`: at most five tasks; without a timeout they need more than 1003 moves. -/
example : 2 ^ twoSix.firstLayer.length = 4 ∧
    (∀ i, i < 5 → 1003 ≤ movesOf i (roundRobin 5 1003)) ∧
    run (tooLate 0 (roundRobin 5 1003)) twoSix.graph twoSix.order { doSearch := true, timeout := some 1, nthreads := 2 }
      = .ok (some [⟨2, 6, [[0, 1], [2, 3, 4, 5, 6, 7]]⟩, ⟨4, 3, [[0], [1], [5, 6, 7], [2, 3, 4]]⟩,
        ⟨5, 2, [[0], [1], [6, 7], [4, 5], [2, 3]]⟩, ⟨8, 1, [[0], [1], [7], [6], [5], [4], [3], [2]]⟩]) ∧
    run (demo 0 (roundRobin 5 1003)) twoSix.graph twoSix.order { doSearch := true, timeout := some 1, nthreads := 2 }
      = .ok none := by decide +kernel

/-- The hypotheses of `C64_ignored`. -/
example : (∀ i, i < 16 → movesOf i (roundRobin 16 60) ≤ 1001) ∧
    run (tooLate 0 (roundRobin 16 60)) star.graph star.order { doSearch := true, timeout := some 1, nthreads := 4 } =
      run (demo 0 (roundRobin 16 60)) star.graph star.order { doSearch := true, nthreads := 4 } := by decide +kernel

end Verif
