import Verif.Proofs.AnyOrder
import Verif.Props.InOrderProps
import Verif.Props.FirstProps
import Verif.Props.OwnProps
import Verif.Props.LongerProps
/-!
# Which paths are returned if the tasks work one after another

The reference is, as for C55, the list of all paths in the order of a plain sweep, but rearranged task by task
(`AnyOrder.blocks`, by first steps).
-/

namespace Verif

open Spec Search Search.Threaded Example Log AnyOrder

variable {F σ : Type} [FloatOps F] {P : Problem}

/-- **C89** If the tasks of an exhaustive search with threads work one after another, in any order, the search returns the
curve of the paths that a plain sweep reports, rearranged: first those of the task that works first, then those of the next
one, and so on, inside a task in the order of the sweep. For every cost on the curve the first such path is returned. Of a
task that the timeout interrupts only those are left that it has come to; that is a beginning of its part. `M` are the steps
in the lines `START` (C87), `E` is what the sweep reports. -/
theorem C89_interrupted (hP : P.WF) {env : Env F σ} (he : env.OK) {args : Args F} (hs : args.doSearch = true)
    (hn : 2 ≤ args.nthreads) (hp : args.probabilistic = none)
    (hm : ∀ a b, a ≠ b → ¬ [a, b, a].Sublist (env.moves.map (·.1))) {out : List Path}
    (h : run env P.graph P.order args = .ok (some out)) :
    ∃ (M : List (List Nat)) (E : List (Schedule × Nat)) (N : Nat) (Q : List (List (Schedule × Nat))),
      startLog env P.graph P.order args = .ok (M.mapIdx (fun i m => ⟨(i : Int), some m⟩) ++ [⟨-1, none⟩]) ∧
      (∀ fuel, N ≤ fuel → ∀ prof, allPaths prof fuel P = .ok (some E)) ∧
      List.Forall₂ (fun a q => q <+: (blocks M E)[a]?.getD [] ∧
        (args.timeout = none ∨ (a, true) ∉ env.moves → q = (blocks M E)[a]?.getD [])) (env.moves.map (·.1)).dedup Q ∧
      (out.Pairwise fun a b => a.time < b.time) ∧
      ∀ p : Path, p ∈ out ↔ OnCurve Q.flatten p.time p.space p.steps := by
  obtain ⟨s, E, N, h1, h2, h3, h4, h5⟩ := allPaths_below hP fun _ => false
  rw [run, hs, Bool.not_true, if_neg (by simp), Verif.search.eq_def, if_neg (by omega), hp] at h
  obtain ⟨tb, htb⟩ : ∃ tb, (args.taskBound.map fun b => (b : Int)).getD 100000 = tb := ⟨_, rfl⟩
  rw [htb] at h
  obtain ⟨ts, rest, Q, k1, k4, k2, k3⟩ := searchThreaded_any_order hP
    (cut := fun a => args.timeout ≠ none ∧ (a, true) ∈ env.moves) he (by
    intro m hm
    obtain ⟨⟨a, b⟩, hx, rfl⟩ := List.mem_map.1 hm
    intro hb
    simp only [Bool.and_eq_true] at hb
    obtain ⟨hb, rfl⟩ := hb
    exact ⟨fun h => by simp [h] at hb, hx⟩) (by simpa [List.map_map, Function.comp_def] using hm) h h1 h2 h3 h4
  refine ⟨ts.map (·.2), E, N, Q, ?_, fun fuel hf prof => (h5 fuel hf prof).1, ?_, k2, k3⟩
  · unfold startLog startThreaded
    rw [hs, htb]
    simp only [Bool.not_true, Bool.false_or, decide_eq_true_eq, if_neg (show ¬ args.nthreads < 2 by omega), h1, bind,
      Except.bind, initGlobal, spawn, k1, pure, Except.pure, Except.ok.injEq]
    rw [List.mapIdx_append]
    congr 1
    · refine List.ext_getElem (by simp) fun i hi _ => ?_
      have hi' : i < ts.length := by simpa using hi
      simp [startLine]
      omega
    · simp [startLine]
  · have hdd : ((env.moves.map fun m => (m.1, args.timeout.isSome && m.2)).map (·.1)).dedup = (env.moves.map (·.1)).dedup := by
      simp [List.map_map, Function.comp_def]
    rw [hdd] at k4
    refine k4.imp fun a q hq => ⟨hq.1, fun hc => hq.2 fun hcut => ?_⟩
    rcases hc with hc | hc
    · exact hcut.1 hc
    · exact hc hcut.2

/-- **C89** Without a timeout the parts are complete. -/
theorem C89_first (hP : P.WF) {env : Env F σ} (he : env.OK) {args : Args F} (hs : args.doSearch = true)
    (hn : 2 ≤ args.nthreads) (hp : args.probabilistic = none) (ht : args.timeout = none)
    (hm : ∀ a b, a ≠ b → ¬ [a, b, a].Sublist (env.moves.map (·.1))) {out : List Path}
    (h : run env P.graph P.order args = .ok (some out)) :
    ∃ (M : List (List Nat)) (E : List (Schedule × Nat)) (N : Nat),
      startLog env P.graph P.order args = .ok (M.mapIdx (fun i m => ⟨(i : Int), some m⟩) ++ [⟨-1, none⟩]) ∧
      (∀ fuel, N ≤ fuel → ∀ prof, allPaths prof fuel P = .ok (some E)) ∧
      (out.Pairwise fun a b => a.time < b.time) ∧
      ∀ p : Path, p ∈ out ↔
        OnCurve ((env.moves.map (·.1)).dedup.flatMap fun a => (blocks M E)[a]?.getD []) p.time p.space p.steps := by
  obtain ⟨M, E, N, Q, h1, h2, h3, h4, h5⟩ := C89_interrupted hP he hs hn hp hm h
  refine ⟨M, E, N, h1, h2, h4, ?_⟩
  have : Q = (env.moves.map (·.1)).dedup.map fun a => (blocks M E)[a]?.getD [] := by
    generalize (env.moves.map (·.1)).dedup = D at h3 ⊢
    clear h5
    induction h3 with
    | nil => rfl
    | cons hq _ ih => rw [List.map_cons, hq.2 (.inl ht), ih]
  rw [List.flatMap_def, ← this]
  exact h5

/-- **C89** So nothing but the order of the tasks matters then. -/
theorem C89_unique (hP : P.WF) {env : Env F σ} (he : env.OK) {args : Args F} (hs : args.doSearch = true)
    (hn : 2 ≤ args.nthreads) (hp : args.probabilistic = none) (ht : args.timeout = none) {moves : List (Nat × Bool)}
    (hm : ∀ a b, a ≠ b → ¬ [a, b, a].Sublist (env.moves.map (·.1))) (hm' : ∀ a b, a ≠ b → ¬ [a, b, a].Sublist (moves.map (·.1)))
    (hord : (env.moves.map (·.1)).dedup = (moves.map (·.1)).dedup) {n : Nat} (hn' : 2 ≤ n) {out out' : List Path}
    (h : run env P.graph P.order args = .ok (some out))
    (h' : run { env with moves } P.graph P.order { args with nthreads := n } = .ok (some out')) : out = out' := by
  obtain ⟨M, E, N, a1, a2, a3, a4⟩ := C89_first hP he hs hn hp ht hm h
  obtain ⟨M', E', N', b1, b2, b3, b4⟩ := C89_first (env := { env with moves }) (args := { args with nthreads := n })
    hP he hs hn' hp ht hm' h'
  have hE : E = E' := by
    have := (a2 (max N N') (Nat.le_max_left _ _) .debug).symm.trans (b2 (max N N') (Nat.le_max_right _ _) .debug)
    simpa using this
  have hM : M = M' := by
    have h1 : startLog { env with moves } P.graph P.order { args with nthreads := n } = startLog env P.graph P.order args := by
      simp only [startLog, hs, show ¬ args.nthreads < 2 by omega, show ¬ n < 2 by omega]
      rfl
    rw [h1, a1] at b1
    simp only [Except.ok.injEq] at b1
    have h2 := List.append_inj_left' b1 rfl
    have h3 := congrArg (List.map (·.measure)) h2
    refine List.ext_getElem? fun i => ?_
    have h4 := congrArg (·[i]?) h3
    simp only [List.getElem?_map, List.getElem?_mapIdx, Option.map_map, Function.comp_def] at h4
    cases h5 : M[i]? <;> cases h6 : M'[i]? <;> simp_all
  subst hE hM
  have hmem : ∀ p, p ∈ out ↔ p ∈ out' := fun p => by rw [a4, b4, hord]
  have hnd : ∀ {l : List Path}, (l.Pairwise fun a b => a.time < b.time) → l.Nodup := fun h =>
    h.imp fun hab heq => by subst heq; exact Nat.lt_irrefl _ hab
  exact ((List.perm_ext_iff_of_nodup (hnd a3) (hnd b3)).2 hmem).eq_of_pairwise
    (fun a b _ _ h1 h2 => absurd h1 (by omega)) a3 b3

/-- Two tasks at a time: both begin, then the first one works, then the second one. -/
def pairwise (k r : Nat) : List (Nat × Bool) :=
  (List.range k).flatMap fun i =>
    [(2 * i, false), (2 * i + 1, false)] ++ List.replicate r (2 * i, false) ++ List.replicate r (2 * i + 1, false)

/-- **C89** refuted for tasks that alternate: neither the order in which they begin nor the order in which they return
determines the result. Two workers are enough for that. -/
theorem C89_alternate_refuted : ¬ ∀ (P : Problem) (moves moves' : List (Nat × Bool)) (out out' : List Path), P.WF →
    possible (demo 0 moves) P.graph P.order { doSearch := true, nthreads := 2 } = .ok true →
    possible (demo 0 moves') P.graph P.order { doSearch := true, nthreads := 2 } = .ok true →
    (moves.map (·.1)).eraseDups = (moves'.map (·.1)).eraseDups → (moves.map (·.1)).dedup = (moves'.map (·.1)).dedup →
    run (demo 0 moves) P.graph P.order { doSearch := true, nthreads := 2 } = .ok (some out) →
    run (demo 0 moves') P.graph P.order { doSearch := true, nthreads := 2 } = .ok (some out') → out = out' := by
  intro h
  have h1 : run (demo 0 (inOrder 16 60)) star.graph star.order { doSearch := true, nthreads := 2 } =
      .ok (some [⟨1, 4, [[1, 2, 3, 0]]⟩, ⟨2, 3, [[2, 3], [1, 0]]⟩, ⟨3, 2, [[3], [2], [1, 0]]⟩]) := by decide +kernel
  have h2 : run (demo 0 (pairwise 8 60)) star.graph star.order { doSearch := true, nthreads := 2 } =
      .ok (some [⟨1, 4, [[1, 2, 3, 0]]⟩, ⟨2, 3, [[2, 3], [1, 0]]⟩, ⟨3, 2, [[2], [3], [1, 0]]⟩]) := by decide +kernel
  exact absurd (h star _ _ _ _ star_wf (by decide +kernel) (by decide +kernel) (by decide +kernel) (by decide +kernel) h1 h2)
    (by simp)

/-- The order of the tasks in `swapped`. -/
example : star.WF ∧ (∀ a b, a ≠ b → ¬ [a, b, a].Sublist ((swapped 8 60).map (·.1))) ∧
    ((swapped 8 60).map (·.1)).dedup = [1, 0, 3, 2, 5, 4, 7, 6, 9, 8, 11, 10, 13, 12, 15, 14] ∧
    run (demo 0 (swapped 8 60)) star.graph star.order { doSearch := true, nthreads := 4 } =
      .ok (some [⟨1, 4, [[1, 2, 3, 0]]⟩, ⟨2, 3, [[2, 3], [1, 0]]⟩, ⟨3, 2, [[2], [3], [1, 0]]⟩]) :=
  ⟨star_wf, swapped_apart, by decide +kernel, star_run_threads⟩

/-- The first task moves 1100 times, the second one three times, and the time is up. -/
def brief : List (Nat × Bool) := List.replicate 1100 (0, true) ++ List.replicate 3 (1, true)

/-- A search whose first task is interrupted. -/
example : oneSix.WF ∧
    (∀ a b, a ≠ b → ¬ [a, b, a].Sublist (brief.map (·.1))) ∧
    ∃ out, out.length = 4 ∧ run (demo 0 brief) oneSix.graph oneSix.order
      { doSearch := true, nthreads := 2, timeout := some 1 } = .ok (some out) := by
  refine ⟨wf_of_check (by decide +kernel), fun a b hab hs => ?_, [⟨2, 6, [[0], [1, 2, 3, 4, 5, 6]]⟩,
    ⟨3, 3, [[0], [4, 5, 6], [1, 2, 3]]⟩, ⟨4, 2, [[0], [5, 6], [3, 4], [1, 2]]⟩,
    ⟨7, 1, [[0], [6], [5], [4], [3], [2], [1]]⟩], rfl, by decide +kernel⟩
  have hle : (brief.map (·.1)).Pairwise (· ≤ ·) := by
    rw [brief, List.map_append, List.map_replicate, List.map_replicate, List.pairwise_append]
    refine ⟨List.pairwise_replicate.2 (.inr (Nat.le_refl 0)), List.pairwise_replicate.2 (.inr (Nat.le_refl 1)), ?_⟩
    intro x hx y hy
    rw [List.eq_of_mem_replicate hx]
    exact Nat.zero_le y
  have h3 := hle.sublist hs
  simp only [List.pairwise_cons, List.mem_cons, List.not_mem_nil, or_false, forall_eq_or_imp, forall_eq] at h3
  omega

end Verif
