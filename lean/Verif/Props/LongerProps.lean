import Verif.Props.LonelyProps
import Verif.Props.MinTimeProps
import Verif.Props.ProbProps
import Verif.Props.QuietProps
/-!
# More time with threads

C11 for several threads: what a run without a timeout returns, compared with what a run with a timeout returns.
-/

namespace Verif

open Spec Search Search.Threaded Example

variable {F σ : Type} [FloatOps F] {P : Problem}

/-- The moves of two workers on `twoSix`: 1100 iterations of the second task, the whole first task, the rest of the second
one, then the two others. The time is over from the beginning on. -/
def longerMoves : List (Nat × Bool) :=
  (List.replicate 1100 (1, true) ++ (List.replicate 530 (0, true) ++ List.replicate 2600 (1, true))) ++
    (List.replicate 3150 (2, true) ++ List.replicate 3 (3, true))

theorem longer_run : run (demo 0 longerMoves) twoSix.graph twoSix.order { doSearch := true, nthreads := 2 } =
    .ok (some [⟨2, 6, [[0, 1], [2, 3, 4, 5, 6, 7]]⟩, ⟨4, 3, [[1], [0], [5, 6, 7], [2, 3, 4]]⟩,
      ⟨5, 2, [[1], [0], [6, 7], [4, 5], [2, 3]]⟩, ⟨8, 1, [[1], [0], [7], [6], [5], [4], [3], [2]]⟩]) := by
  decide +kernel

theorem longer_run_timeout :
    run (demo 0 longerMoves) twoSix.graph twoSix.order { doSearch := true, nthreads := 2, timeout := some 0 } =
    .ok (some [⟨2, 6, [[0, 1], [2, 3, 4, 5, 6, 7]]⟩, ⟨3, 3, [[0, 1], [5, 6, 7], [2, 3, 4]]⟩,
      ⟨4, 2, [[0, 1], [6, 7], [4, 5], [2, 3]]⟩, ⟨8, 1, [[1], [0], [7], [6], [5], [4], [3], [2]]⟩]) := by
  decide +kernel

theorem longer_possible {t : Option Nat} {out : List Path}
    (h : run (demo 0 longerMoves) twoSix.graph twoSix.order { doSearch := true, nthreads := 2, timeout := t } = .ok (some out)) :
    possible (demo 0 longerMoves) twoSix.graph twoSix.order { doSearch := true, nthreads := 2, timeout := t } = .ok true := by
  refine possible_of_run rfl ?_ ?_ h
  · intro m hm
    simp only [List.mem_append, List.mem_replicate] at hm
    rcases hm with ⟨_, rfl⟩ | ⟨_, rfl⟩ | ⟨_, rfl⟩ <;> simp
  · rw [List.map_append, List.map_replicate, List.map_replicate, List.pairwise_append]
    refine ⟨List.pairwise_replicate.2 (Or.inr (Nat.le_refl _)), List.pairwise_replicate.2 (Or.inr (Nat.le_refl _)), ?_⟩
    intro a ha b hb
    rw [List.eq_of_mem_replicate ha, List.eq_of_mem_replicate hb]
    decide

/-- **C85** refuted: that with threads, too, more time never makes the answer worse. For every number of threads from two on
there is an input and an interleaving of the pool for which the exhaustive search without a timeout returns less than the same
search with a timeout that is over at once. Without it a task goes on, refreshes its table with a better value of another
task, and at the end overwrites the path of the other task with its own one; with it the task has returned before. -/
theorem C85_refuted {n : Nat} (hn : 2 ≤ n) : ¬ ∀ (P : Problem) (moves : List (Nat × Bool)) (t : Nat) (out out' : List Path),
    P.WF →
    possible (demo 0 moves) P.graph P.order { doSearch := true, nthreads := n, timeout := some t } = .ok true →
    possible (demo 0 moves) P.graph P.order { doSearch := true, nthreads := n } = .ok true →
    run (demo 0 moves) P.graph P.order { doSearch := true, nthreads := n, timeout := some t } = .ok (some out) →
    run (demo 0 moves) P.graph P.order { doSearch := true, nthreads := n } = .ok (some out') →
    ∀ p ∈ out, ∃ q ∈ out', q.time ≤ p.time ∧ q.space ≤ p.space := by
  intro h
  have h1 := h twoSix longerMoves 0 _ _ twoSix_wf
    (possible_workers (args := { doSearch := true, nthreads := 2, timeout := some 0 }) (Nat.le_refl _) hn
      (longer_possible longer_run_timeout))
    (possible_workers (args := { doSearch := true, nthreads := 2 }) (Nat.le_refl _) hn (longer_possible longer_run))
    ((run_workers (args := { doSearch := true, nthreads := 2, timeout := some 0 }) (Nat.le_refl _) hn).trans longer_run_timeout)
    ((run_workers (args := { doSearch := true, nthreads := 2 }) (Nat.le_refl _) hn).trans longer_run)
  revert h1
  decide +kernel

/-- **C85** The time does not get worse: the first path of an uninterrupted exhaustive search with threads has no more steps
than any path that any other run returns, whatever its arguments are. -/
theorem C85_shortest (hP : P.WF) (hb : P.bits ≠ []) {env env' : Env F σ} (he : env.OK) (he' : env'.OK) {args args' : Args F}
    (hs : args.doSearch = true) (hn : 2 ≤ args.nthreads) (hp : args.probabilistic = none) (ht : args.timeout = none)
    {out out' : List Path} (h : run env P.graph P.order args = .ok (some out))
    (h' : run env' P.graph P.order args' = .ok (some out')) : ∃ q rest, out = q :: rest ∧ ∀ p ∈ out', q.time ≤ p.time := by
  obtain ⟨q, rest, e, hq⟩ := C51_head hP hb he hs hn hp ht h
  exact ⟨q, rest, e, fun p hp => (C02_time hP he' h' p hp).symm ▸ hq _ (C01_valid hP he' h' p hp)⟩

/-- **C85** It holds if only one qubit waits for nothing, for the same or any other interleaving. -/
theorem C85_one_first {b : Nat} (hP : P.WF) (h1 : OneFirst P b) {env env' : Env F σ} (he : env.OK) (he' : env'.OK)
    {args args' : Args F} (hs : args.doSearch = true) (hn : 2 ≤ args.nthreads) (hp : args.probabilistic = none)
    (ht : args.timeout = none) {out out' : List Path} (h : run env P.graph P.order args = .ok (some out))
    (h' : run env' P.graph P.order args' = .ok (some out')) : ∀ p ∈ out', ∃ q ∈ out, q.time ≤ p.time ∧ q.space ≤ p.space := by
  intro p hp'
  obtain ⟨q, hq, h2, h3⟩ := C84_complete hP h1 he hs hn hp ht h p.steps (C01_valid hP he' h' p hp')
  rw [← C02_time hP he' h' p hp'] at h2
  rw [← (C03_space hP he' h' p hp').2.2] at h3
  exact ⟨q, hq, h2, h3⟩

/-- **C85** Then a run with a timeout returns exactly what a run without threads returns whose time is over at some moment. -/
theorem C85_one_same {b : Nat} (hP : P.WF) (h1 : OneFirst P b) {env : Env F σ} {args : Args F}
    (hs : args.doSearch = true) (hn : 2 ≤ args.nthreads) (hp : args.probabilistic = none) {out : List Path}
    (h : run env P.graph P.order args = .ok (some out)) :
    ∃ (K : Option Nat) (N : Nat), ∀ fuel, N ≤ fuel →
      run { env with fuel, timer := fun k => K == some k } P.graph P.order { args with nthreads := 1, timeout := some 0 } =
        .ok (some out) := by
  rw [run, hs, Bool.not_true, if_neg (by simp), Verif.search.eq_def, if_neg (by omega), hp] at h
  obtain ⟨K, N, _, hN⟩ := searchThreaded_one (cut := True) hP h1 (fun _ _ _ => trivial) h
  refine ⟨K, N, fun fuel hf => ?_⟩
  rw [run]
  simp only [hs, Bool.not_true, Bool.false_eq_true, if_false, Verif.search, hp, Option.isSome_some, Bool.true_and,
    show (1 : Nat) < 2 by decide, if_true]
  exact hN fuel hf

/-- **C85** So of two runs, with any timeouts and any interleavings, one is at least as good as the other. -/
theorem C85_one_chain {b : Nat} (hP : P.WF) (h1 : OneFirst P b) {env : Env F σ} (he : env.OK) {args : Args F}
    (hs : args.doSearch = true) (hn : 2 ≤ args.nthreads) (hp : args.probabilistic = none) {moves : List (Nat × Bool)}
    {t : Option Nat} {out out' : List Path} (h : run env P.graph P.order args = .ok (some out))
    (h' : run { env with moves } P.graph P.order { args with timeout := t } = .ok (some out')) :
    (∀ p ∈ out, ∃ q ∈ out', q.time ≤ p.time ∧ q.space ≤ p.space) ∨
      ∀ p ∈ out', ∃ q ∈ out, q.time ≤ p.time ∧ q.space ≤ p.space := by
  obtain ⟨K, N, hN⟩ := C85_one_same hP h1 hs hn hp h
  obtain ⟨K', N', hN'⟩ := C85_one_same (env := { env with moves }) (args := { args with timeout := t }) hP h1 hs hn hp h'
  have e := hN N (Nat.le_refl _)
  have e' : run { env with fuel := N', timer := fun k => K' == some k } P.graph P.order
      { args with nthreads := 1, timeout := some 0 } = .ok (some out') := by
    have := hN' N' (Nat.le_refl _)
    rw [run] at this ⊢
    simp only [hs, Bool.not_true, Bool.false_eq_true, if_false, Verif.search, hp, show (1 : Nat) < 2 by decide, if_true]
      at this ⊢
    exact this
  have hlater : ∀ A B : Option Nat, (∀ k', B = some k' → ∃ k, A = some k ∧ k ≤ k') →
      ∀ j, (B == some j) = true → ∃ i ≤ j, (A == some i) = true := by
    intro A B hAB j hj
    obtain ⟨k, hk, hkj⟩ := hAB j (by simpa using hj)
    exact ⟨k, hkj, by simp [hk]⟩
  have hord : (∀ k', K' = some k' → ∃ k, K = some k ∧ k ≤ k') ∨ ∀ k', K = some k' → ∃ k, K' = some k ∧ k ≤ k' := by
    cases K with
    | none => exact Or.inr (by simp)
    | some k =>
      cases K' with
      | none => exact Or.inl (by simp)
      | some k' =>
        rcases Nat.le_total k k' with hk | hk
        · exact Or.inl fun x hx => ⟨k, rfl, by cases hx; exact hk⟩
        · exact Or.inr fun x hx => ⟨k', rfl, by cases hx; exact hk⟩
  rcases hord with ho | ho
  · exact Or.inl (C11_later hP (env := { env with fuel := N, timer := fun k => K == some k })
      (env' := { env with fuel := N', timer := fun k => K' == some k }) he rfl (hlater _ _ ho)
      (args := { args with nthreads := 1, timeout := some 0 }) rfl (fun h => h) hs (Nat.lt_succ_self 1) e e')
  · exact Or.inr (C11_later hP (env' := { env with fuel := N, timer := fun k => K == some k })
      (env := { env with fuel := N', timer := fun k => K' == some k }) he rfl (hlater _ _ ho)
      (args := { args with nthreads := 1, timeout := some 0 }) rfl (fun h => h) hs (Nat.lt_succ_self 1) e' e)

/-- **C85** It holds if there are fewer than 500 beginnings of valid schedules (see C28). -/
theorem C85_few {E : List Schedule} (hP : P.WF) (hb : P.bits ≠ []) (hE : Beginnings P E) (hlen : E.length < 500)
    {env env' : Env F σ} (he : env.OK) (he' : env'.OK) {args args' : Args F} (hs : args.doSearch = true)
    (hn : 2 ≤ args.nthreads) (hp : args.probabilistic = none) {out out' : List Path}
    (h : run env P.graph P.order args = .ok (some out)) (h' : run env' P.graph P.order args' = .ok (some out')) :
    ∀ p ∈ out', ∃ q ∈ out, q.time ≤ p.time ∧ q.space ≤ p.space := by
  intro p hp'
  obtain ⟨q, hq, h2, h3⟩ := C28_few hP hb hE hlen he hs hn hp h p.steps (C01_valid hP he' h' p hp')
  rw [← C02_time hP he' h' p hp'] at h2
  rw [← (C03_space hP he' h' p hp').2.2] at h3
  exact ⟨q, hq, h2, h3⟩

/-- With one qubit to begin with: a timeout, and none. -/
example : fan.WF ∧ OneFirst fan 0 ∧
    run (demo 0 (roundRobin 2 30)) fan.graph fan.order { doSearch := true, nthreads := 2 } =
      .ok (some [⟨2, 3, [[0], [1, 2, 3]]⟩, ⟨3, 2, [[0], [2, 3], [1]]⟩, ⟨4, 1, [[0], [3], [2], [1]]⟩]) ∧
    ∃ timer, run { demo 40 [] with timer } fan.graph fan.order { doSearch := true, timeout := some 0 } =
      .ok (some [⟨2, 3, [[0], [1, 2, 3]]⟩]) := by
  refine ⟨wf_of_check (by decide +kernel), ⟨by decide, ?_⟩, by decide +kernel, fun k => k == 4, by decide +kernel⟩
  simp only [free_iff]
  decide +kernel

/-- One qubit, then six more in any order. -/
def oneSix : Problem := ⟨List.replicate 7 [], [[(0, [])], [(1, [0]), (2, [0]), (3, [0]), (4, [0]), (5, [0]), (6, [0])]]⟩

/-- With the timeout the first task is interrupted: without it, it does not return in as many moves. -/
example : oneSix.WF ∧ OneFirst oneSix 0 ∧
    (∃ out, out.length = 4 ∧ run (demo 0 (List.replicate 1100 (0, true) ++ List.replicate 3 (1, true))) oneSix.graph oneSix.order
      { doSearch := true, nthreads := 2, timeout := some 1 } = .ok (some out)) ∧
    run (demo 0 (List.replicate 1100 (0, true) ++ List.replicate 3 (1, true))) oneSix.graph oneSix.order
      { doSearch := true, nthreads := 2 } = .ok none := by
  refine ⟨wf_of_check (by decide +kernel), ⟨by decide, ?_⟩, ⟨[⟨2, 6, [[0], [1, 2, 3, 4, 5, 6]]⟩,
    ⟨3, 3, [[0], [4, 5, 6], [1, 2, 3]]⟩, ⟨4, 2, [[0], [5, 6], [3, 4], [1, 2]]⟩,
    ⟨7, 1, [[0], [6], [5], [4], [3], [2], [1]]⟩], rfl, by decide +kernel⟩, by decide +kernel⟩
  simp only [free_iff]
  decide +kernel

end Verif
