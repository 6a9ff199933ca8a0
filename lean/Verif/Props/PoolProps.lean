import Verif.Model.Pool
import Verif.Proofs.Pool
import Verif.Proofs.Alone
import Verif.Props.Run
import Verif.Props.Refresh
/-!
# What a pool with a fixed number of workers does
-/

namespace Verif

open Spec Search Search.Threaded Example

variable {F σ : Type} [FloatOps F]

/-- **C81** Whatever a pool with `n` workers has done so far, in any mode and with or without a timeout: at most `n` tasks
have been begun and have not returned, and if a task has been begun then fewer than `n` of the tasks before it in the queue
have not returned. -/
theorem C81_workers {mode : Mode F σ} {prof : Profile} {tb : Int} {seeds : Nat → σ} {s : Scheduler Partitioner}
    {numBits n : Nat} {g g' : Global σ} {moves : List (Nat × Bool)} (hn : 1 ≤ n)
    (hg : initGlobal prof tb seeds s numBits = .ok g) (hp : possibleMoves mode prof n g moves = .ok true)
    (hr : runMoves mode prof g moves = .ok g') :
    (g'.tasks.filter fun t => match t with | .ready .. => false | .done => false | _ => true).length ≤ n ∧
    ∀ (i : Nat) (t : TaskState σ), g'.tasks[i]? = some t → (∀ sched init rng, t ≠ .ready sched init rng) →
      ((g'.tasks.take i).filter fun t => match t with | .done => false | _ => true).length < n := by
  have h := (taken_init hn (initGlobal_ready hg)).run hp hr
  constructor
  · have h1 := h.at_work
    rwa [List.filter_congr (q := atWork)]
    intro t _
    cases t <;> rfl
  · intro i t ht hst
    have h1 := h.started ht hst
    rwa [List.filter_congr (q := fun t => !t.isDone)]
    intro t _
    cases t <;> rfl

/-- **C81** A larger pool can do everything that a smaller pool can do, with the same result. -/
theorem C81_more_workers {env : Env F σ} {args : Args F} {L : List (List Nat)} {order : OrderGraph} {n : Nat}
    (h2 : 2 ≤ args.nthreads) (hn : args.nthreads ≤ n) (h : possible env L order args = .ok true) :
    possible env L order { args with nthreads := n } = .ok true ∧
      run env L order { args with nthreads := n } = run env L order args :=
  ⟨possible_workers h2 hn h, run_workers h2 (Nat.le_trans h2 hn)⟩

theorem count_ordered {k i : Nat} (h : i < k) (r : Nat) : ((inOrder k r).map (·.1)).count i = r := by
  have : (inOrder k r).map (·.1) = (List.range k).flatMap fun i => List.replicate r i := by
    simp [inOrder, List.map_flatMap]
  rw [this, List.count_flatMap]
  have h1 : (List.range k).map (List.count i ∘ fun i => List.replicate r i) =
      (List.range k).map fun j => if j = i then r else 0 := by
    apply List.map_congr_left
    intro j _
    simp [List.count_replicate]
  rw [h1]
  clear h1 this
  induction k with
  | zero => omega
  | succ k ih =>
    rw [List.range_succ, List.map_append, List.sum_append]
    rcases Nat.lt_succ_iff_lt_or_eq.1 h with h2 | h2
    · rw [ih h2]
      simp; omega
    · subst h2
      have : ((List.range i).map fun j => if j = i then r else 0).sum = 0 := by
        apply List.sum_eq_zero
        intro x hx
        obtain ⟨j, hj, rfl⟩ := List.mem_map.1 hx
        rw [if_neg (by have := List.mem_range.1 hj; omega)]
      rw [this]; simp

/-- **C81** A pool never gets stuck: whatever its workers have done so far, in any mode, they can go on such that the search
returns. -/
theorem C81_progress {env : Env F σ} {args : Args F} {P : Problem} (hP : P.WF) (he : env.OK) (hs : args.doSearch = true)
    (hn : 2 ≤ args.nthreads) (hp : possible env P.graph P.order args = .ok true) :
    ∃ (more : List (Nat × Bool)) (out : List Path),
      possible { env with moves := env.moves ++ more } P.graph P.order args = .ok true ∧
      run { env with moves := env.moves ++ more } P.graph P.order args = .ok (some out) := by
  obtain ⟨N, hN⟩ := C12_terminates P.bits.length
  obtain ⟨out, hout⟩ := hN P { env with moves := env.moves ++ inOrder (2 ^ P.bits.length + 1) N, fuel := N } args hP rfl he
    (Nat.le_refl _) (fun i hi => by
      simp only [List.map_append, List.count_append, count_ordered hi]; omega)
  obtain ⟨mode, tb, seeds, _, h1, _⟩ := run_pool (env := env) (L := P.graph) (order := P.order) hs hn
  have h' : run { env with moves := env.moves ++ inOrder (2 ^ P.bits.length + 1) N } P.graph P.order args = .ok (some out) := by
    rw [h1 _ N] at hout
    rw [← hout]
    exact h1 _ env.fuel
  exact ⟨_, out, possible_extend hs hn hp (inOrder_sorted _ _) h', h'⟩

/-- **C81** The loss of the refresh (C28) needs tasks that alternate: if no task makes a move, then another task, and then
the first one again, an uninterrupted multi-threaded exhaustive search returns the whole trade-off curve. -/
theorem C81_one_after_another {env : Env F σ} {args : Args F} {P : Problem} {out : List Path} (hP : P.WF)
    (hb : P.bits ≠ []) (he : env.OK) (hs : args.doSearch = true) (hn : 2 ≤ args.nthreads) (hp : args.probabilistic = none)
    (ht : args.timeout = none) (hm : ∀ a b, a ≠ b → ¬ [a, b, a].Sublist (env.moves.map (·.1)))
    (h : run env P.graph P.order args = .ok (some out)) :
    ∀ S, P.Valid S → ∃ p ∈ out, p.time ≤ S.length ∧ p.space ≤ P.peak S := by
  obtain ⟨mode, tb, seeds, h0, h1, _⟩ := run_pool (env := env) (L := P.graph) (order := P.order) hs hn
  have h' := (h1 env.moves env.fuel).symm.trans h
  rw [h0 hp] at h'
  refine searchThreaded_alone hP hb tb seeds _ env.prof env.hashIter he out ?_ ?_ h'
  · intro m hm
    obtain ⟨_, _, rfl⟩ := List.mem_map.1 hm
    simp [ht]
  · intro a b hab hsub
    exact hm a b hab (by simpa [List.map_map, Function.comp_def] using hsub)

/-- **C81** In particular if the tasks are worked on in the order of the queue, and then every pool can do it. -/
theorem C81_in_order {env : Env F σ} {args : Args F} {P : Problem} {out : List Path} (hP : P.WF) (hb : P.bits ≠ [])
    (he : env.OK) (hs : args.doSearch = true) (hn : 2 ≤ args.nthreads) (hp : args.probabilistic = none)
    (ht : args.timeout = none) (hm : (env.moves.map (·.1)).Pairwise (· ≤ ·))
    (h : run env P.graph P.order args = .ok (some out)) :
    possible env P.graph P.order args = .ok true ∧
      ∀ S, P.Valid S → ∃ p ∈ out, p.time ≤ S.length ∧ p.space ≤ P.peak S := by
  refine ⟨possible_of_run (a := []) (List.nil_append _).symm (fun _ h => nomatch h) hm h,
    C81_one_after_another hP hb he hs hn hp ht (fun a b hab hsub => hab ?_) h⟩
  have h1 := hm.sublist hsub
  simp only [List.pairwise_cons, List.mem_cons, List.not_mem_nil, or_false] at h1
  exact Nat.le_antisymm (h1.1 b (Or.inl rfl)) (h1.2.1 a rfl)

/-- **C81** The result does not depend on anything else then, in any mode: two searches that differ in nothing but the
moves, both in the order of the queue and without a timeout, return the same paths. -/
theorem C81_in_order_unique {env : Env F σ} {args : Args F} {L : List (List Nat)} {order : OrderGraph} {out out' : List Path}
    {moves' : List (Nat × Bool)} (hs : args.doSearch = true) (hn : 2 ≤ args.nthreads) (ht : args.timeout = none)
    (hm : (env.moves.map (·.1)).Pairwise (· ≤ ·)) (hm' : (moves'.map (·.1)).Pairwise (· ≤ ·))
    (h : run env L order args = .ok (some out)) (h' : run { env with moves := moves' } L order args = .ok (some out')) :
    out = out' := by
  obtain ⟨mode, tb, seeds, _, h1, _⟩ := run_pool (env := env) (L := L) (order := order) hs hn
  have e := (h1 env.moves env.fuel).symm.trans h
  have e' := (h1 moves' env.fuel).symm.trans h'
  obtain ⟨s, g, g1, a1, a2, a3, a4, a5⟩ := searchThreaded_ok e
  obtain ⟨s', g', g1', b1, b2, b3, b4, b5⟩ := searchThreaded_ok e'
  cases a1.symm.trans b1
  cases a2.symm.trans b2
  have hfalse : ∀ ms : List (Nat × Bool), ∀ m ∈ ms.map (fun m => (m.1, args.timeout.isSome && m.2)), m.2 = false := by
    intro ms m hm
    obtain ⟨_, _, rfl⟩ := List.mem_map.1 hm
    simp [ht]
  cases sorted_unique _ _ _ _ (by simpa [List.map_map, Function.comp_def] using hm)
    (by simpa [List.map_map, Function.comp_def] using hm') (hfalse _) (hfalse _) a3 b3 a4 b4
  cases a5.symm.trans b5
  rfl

/-- **C81** A pool of two workers cannot do everything that a pool of three can do. -/
theorem C81_smaller_refuted : ¬ ∀ (P : Problem) (env : Env Bool Unit), P.WF → env.OK →
    possible env P.graph P.order { doSearch := true, nthreads := 3 } = .ok true →
    possible env P.graph P.order { doSearch := true, nthreads := 2 } = .ok true := by
  intro h
  have := h star (demo 0 [(2, false)]) star_wf (demo_ok _ _) (by decide +kernel)
  revert this
  decide +kernel

example : star.WF ∧ star.bits ≠ [] ∧ (demo 0 (swapped 8 60)).OK ∧
    possible (demo 0 (swapped 8 60)) star.graph star.order { doSearch := true, nthreads := 2 } = .ok true ∧
    possible (demo 0 [(1, false), (0, false), (1, false)]) star.graph star.order { doSearch := true, nthreads := 2 } = .ok true ∧
    possible (demo 0 [(1, false), (0, false), (2, false)]) star.graph star.order { doSearch := true, nthreads := 2 } = .ok false :=
  ⟨star_wf, by decide, demo_ok _ _, star_possible, by decide +kernel, by decide +kernel⟩

-- the last task first: every task pauses for no other one, and sixteen workers can do it, two cannot
example : (∀ a b, a ≠ b → ¬ [a, b, a].Sublist ((demo 0 (inOrder 16 60).reverse).moves.map (·.1))) ∧
    possible (demo 0 (inOrder 16 60).reverse) star.graph star.order { doSearch := true, nthreads := 16 } = .ok true ∧
    possible (demo 0 (inOrder 16 60).reverse) star.graph star.order { doSearch := true, nthreads := 2 } = .ok false ∧
    run (demo 0 (inOrder 16 60).reverse) star.graph star.order { doSearch := true, nthreads := 16 } =
      .ok (some [⟨1, 4, [[1, 2, 3, 0]]⟩, ⟨2, 3, [[1], [2, 3, 0]]⟩, ⟨3, 2, [[1], [3], [2, 0]]⟩]) := by
  refine ⟨fun a b hab hsub => hab ?_, by decide +kernel, by decide +kernel, by decide +kernel⟩
  have h1 : ((demo 0 (inOrder 16 60).reverse).moves.map (·.1)).Pairwise (· ≥ ·) := by
    simp only [demo, List.map_reverse]
    exact List.pairwise_reverse.2 (inOrder_sorted 16 60)
  have h2 := h1.sublist hsub
  simp only [List.pairwise_cons, List.mem_cons, List.not_mem_nil, or_false] at h2
  exact Nat.le_antisymm (h2.2.1 a rfl) (h2.1 b (Or.inl rfl))

-- two runs in the order of the queue
example : run (demo 0 (inOrder 16 60)) star.graph star.order { doSearch := true, nthreads := 2 } =
      .ok (some [⟨1, 4, [[1, 2, 3, 0]]⟩, ⟨2, 3, [[2, 3], [1, 0]]⟩, ⟨3, 2, [[3], [2], [1, 0]]⟩]) ∧
    run (demo 0 (inOrder 20 50)) star.graph star.order { doSearch := true, nthreads := 2 } =
      .ok (some [⟨1, 4, [[1, 2, 3, 0]]⟩, ⟨2, 3, [[2, 3], [1, 0]]⟩, ⟨3, 2, [[3], [2], [1, 0]]⟩]) := by
  constructor <;> decide +kernel

end Verif
