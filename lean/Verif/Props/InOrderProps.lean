import Verif.Proofs.InOrder
import Verif.Props.LonelyProps
import Verif.Props.PoolProps
/-!
# The tasks in the order of the queue
-/

namespace Verif

open Spec Search Search.Threaded Example

variable {F σ : Type} [FloatOps F] {P : Problem}

/-- **C88** If the tasks of an uninterrupted exhaustive search with threads are worked on in the order of the queue, each one
until it returns, the search returns exactly what it returns without threads: the same paths, not only the same costs, whatever
the number of threads and the task bound are, and however often the tables are refreshed. -/
theorem C88_same (hP : P.WF) {env : Env F σ} {args : Args F} (hs : args.doSearch = true) (hn : 2 ≤ args.nthreads)
    (hp : args.probabilistic = none) (ht : args.timeout = none) (hm : (env.moves.map (·.1)).Pairwise (· ≤ ·))
    {out : List Path} (h : run env P.graph P.order args = .ok (some out)) :
    ∃ N, ∀ fuel, N ≤ fuel → run { env with fuel } P.graph P.order { args with nthreads := 1 } = .ok (some out) := by
  rw [run, hs, Bool.not_true, if_neg (by simp), Verif.search.eq_def, if_neg (by omega), hp] at h
  obtain ⟨N, hN⟩ := InOrder.searchThreaded_in_order hP (by
    intro m hm
    obtain ⟨_, _, rfl⟩ := List.mem_map.1 hm
    simp [ht]) (by simpa [List.map_map, Function.comp_def] using hm) h
  refine ⟨N, fun fuel hf => ?_⟩
  rw [run]
  simp only [hs, Bool.not_true, Bool.false_eq_true, if_false, Verif.search, hp, ht, Option.isSome_none, Bool.false_and,
    show (1 : Nat) < 2 by decide, if_true]
  exact hN fuel hf

/-- **C88** So the result without threads is always among the results with threads, for every number of workers and every
task bound. -/
theorem C88_reachable (hP : P.WF) {env : Env F σ} (he : env.OK) {args : Args F} (hs : args.doSearch = true)
    (hn : args.nthreads < 2) (hp : args.probabilistic = none) (ht : args.timeout = none) {out : List Path}
    (h : run env P.graph P.order args = .ok (some out)) {n : Nat} (hn' : 2 ≤ n) (tb : Option Nat) :
    ∃ moves, possible { env with moves } P.graph P.order { args with nthreads := n, taskBound := tb } = .ok true ∧
      run { env with moves } P.graph P.order { args with nthreads := n, taskBound := tb } = .ok (some out) := by
  obtain ⟨N, hN⟩ := C12_terminates P.bits.length
  obtain ⟨out', h1⟩ := hN P { env with moves := inOrder (2 ^ P.bits.length + 1) N, fuel := N }
    { args with nthreads := n, taskBound := tb } hP rfl he (Nat.le_refl _) (fun i hi => Nat.le_of_eq (count_ordered hi N).symm)
  have h2 : run { env with moves := inOrder (2 ^ P.bits.length + 1) N } P.graph P.order
      { args with nthreads := n, taskBound := tb } = .ok (some out') := by
    obtain ⟨mode, tb', seeds, _, q, _⟩ := run_pool (env := env) (L := P.graph) (order := P.order)
      (args := { args with nthreads := n, taskBound := tb }) hs hn'
    rw [q _ N] at h1
    rw [← h1]
    exact q _ env.fuel
  obtain ⟨M, hM⟩ := C88_same (env := { env with moves := inOrder (2 ^ P.bits.length + 1) N })
    (args := { args with nthreads := n, taskBound := tb }) hP hs hn' hp ht (inOrder_sorted _ _) h2
  have e := hM (max M env.fuel) (Nat.le_max_left _ _)
  have e' := run_fuel (Or.inr hn) h (Nat.le_max_right M env.fuel)
  rw [run] at e e'
  simp only [hs, Bool.not_true, Bool.false_eq_true, if_false, Verif.search, hp, show (1 : Nat) < 2 by decide, hn, if_true]
    at e e'
  rw [e] at e'
  simp only [Except.ok.injEq, Option.some.injEq] at e'
  subst e'
  exact ⟨_, possible_of_run (a := []) (List.nil_append _).symm (fun _ h => nomatch h) (inOrder_sorted _ _) h2, h2⟩

/-- The two tasks of each pair the other way around, each at once. -/
theorem swapped_apart : ∀ a b, a ≠ b → ¬ [a, b, a].Sublist ((swapped 8 60).map (·.1)) := by
  intro a b hab hsub
  have h : List.IsChain (fun a b => a + 1 - 2 * (a % 2) ≤ b + 1 - 2 * (b % 2)) ((swapped 8 60).map (·.1)) := by
    decide +kernel
  have : IsTrans Nat fun a b => a + 1 - 2 * (a % 2) ≤ b + 1 - 2 * (b % 2) := ⟨fun _ _ _ h h' => Nat.le_trans h h'⟩
  have h1 := (List.isChain_iff_pairwise.1 h).sublist hsub
  simp only [List.pairwise_cons, List.mem_cons, List.not_mem_nil, or_false] at h1
  have h2 := h1.1 b (Or.inl rfl)
  have h3 := h1.2.1 a rfl
  omega

/-- **C88** refuted for another order: if the tasks are worked on one after another, but not in the order of the queue, the
paths can be others (the costs are the same then, C81). -/
theorem C88_order_refuted : ¬ ∀ (P : Problem) (moves : List (Nat × Bool)) (out : List Path), P.WF →
    (∀ a b, a ≠ b → ¬ [a, b, a].Sublist (moves.map (·.1))) →
    possible (demo 0 moves) P.graph P.order { doSearch := true, nthreads := 2 } = .ok true →
    run (demo 0 moves) P.graph P.order { doSearch := true, nthreads := 2 } = .ok (some out) →
    ∃ N, run (demo N []) P.graph P.order { doSearch := true } = .ok (some out) := by
  intro h
  obtain ⟨N, hN⟩ := h star _ _ star_wf swapped_apart star_possible
    ((run_workers (args := { doSearch := true, nthreads := 4 }) (by decide) (by decide)).trans star_run_threads)
  have h2 := run_fuel (Or.inr (Nat.lt_succ_self 1)) star_run (Nat.le_max_left 1000 N)
  have h3 := run_fuel (Or.inr (Nat.lt_succ_self 1)) hN (Nat.le_max_right 1000 N)
  exact absurd (h2.symm.trans h3) (by simp)

/-- **C88** refuted for the approximate search, even in the order of the queue: the first steps are made without asking. -/
theorem C88_approximate_refuted : ¬ ∀ (P : Problem) (accept : Accept Bool) (moves : List (Nat × Bool)) (out : List Path),
    P.WF → (moves.map (·.1)).Pairwise (· ≤ ·) →
    run (demo 0 moves) P.graph P.order { doSearch := true, nthreads := 2, probabilistic := some (accept, none) } =
      .ok (some out) →
    ∃ N, run (demo N []) P.graph P.order { doSearch := true, nthreads := 1, probabilistic := some (accept, none) } =
      .ok (some out) := by
  intro h
  obtain ⟨N, hN⟩ := h single (fun _ _ _ _ _ _ _ => false) (inOrder 3 9) [⟨1, 1, [[0]]⟩] single_first.1 (inOrder_sorted _ _)
    (by decide +kernel)
  have h1 : run (demo 9 []) single.graph single.order
      { doSearch := true, nthreads := 1, probabilistic := some (fun _ _ _ _ _ _ _ => false, none) } = .ok (some []) := by
    decide +kernel
  have h2 := run_fuel (Or.inr (Nat.lt_succ_self 1)) h1 (Nat.le_max_left 9 N)
  have h3 := run_fuel (Or.inr (Nat.lt_succ_self 1)) hN (Nat.le_max_right 9 N)
  exact absurd (h2.symm.trans h3) (by simp)

/-- With sixteen tasks, and with three. -/
example : star.WF ∧ ((inOrder 16 60).map (·.1)).Pairwise (· ≤ ·) ∧
    run (demo 0 (inOrder 16 60)) star.graph star.order { doSearch := true, nthreads := 4 } =
      .ok (some [⟨1, 4, [[1, 2, 3, 0]]⟩, ⟨2, 3, [[2, 3], [1, 0]]⟩, ⟨3, 2, [[3], [2], [1, 0]]⟩]) ∧
    run (demo 0 (inOrder 3 300)) star.graph star.order { doSearch := true, nthreads := 2, taskBound := some 2 } =
      .ok (some [⟨1, 4, [[1, 2, 3, 0]]⟩, ⟨2, 3, [[2, 3], [1, 0]]⟩, ⟨3, 2, [[3], [2], [1, 0]]⟩]) :=
  ⟨star_wf, inOrder_sorted _ _, by decide +kernel, by decide +kernel⟩

end Verif
