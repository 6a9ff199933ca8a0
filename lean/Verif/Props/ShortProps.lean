import Verif.Proofs.Greedy
import Verif.Props.FoundProps
import Verif.Props.MinTimeProps
/-!
# When the first schedule is found (C71)
-/

namespace Verif

open Spec Search Search.Threaded Example

section
variable {F σ : Type} [FloatOps F] {P : Problem}

/-- The loop of a single-threaded run. -/
theorem single_run (hP : P.WF) {env : Env F σ} (he : env.OK) {args : Args F} (hs : args.doSearch = true)
    (hn : args.nthreads < 2) {out : List Path} (h : run env P.graph P.order args = .ok (some out)) :
    ∃ (s : Scheduler Partitioner) (lf : Loc), StateFor P [] s ∧ Fresh s ∧ Post lf.results P.n out ∧
      LoopRun P (∀ accept seed, args.probabilistic = some (accept, seed) → Bold P accept)
        (fun k => args.timeout.isSome && env.timer k) 0 (Loc.init s P.n) lf := by
  obtain ⟨s, e1, hst, hf⟩ := mkScheduler_spec hP
  have hl := (init_inv hst hf).ok
  rw [run, hs, Bool.not_true, if_neg (by simp), Verif.search.eq_def, if_pos hn] at h
  have weak : ∀ {B B' : Prop}, (B' → B) → ∀ {timer : Nat → Bool} {k : Nat} {l lf : Loc}, LoopRun P B timer k l lf →
      LoopRun P B' timer k l lf := by
    intro B B' hB timer k l lf h
    induction h with
    | stop h => exact .stop ⟨h.1, fun b => h.2 (hB b)⟩
    | time h ht => exact .time ⟨h.1, fun b => h.2 (hB b)⟩ ht
    | next h ht _ ih => exact .next ⟨h.1, fun b => h.2 (hB b)⟩ ht ih
  cases hp : args.probabilistic with
  | none =>
    simp only [hp, searchDet, doSearch, e1, bind, Except.bind, show P.graph.length = P.n from rfl] at h
    cases hr : searchLoop env.prof (fun k => args.timeout.isSome && env.timer k) env.fuel 0 (Loc.init s P.n) with
    | error e => simp [hr] at h
    | ok o =>
      cases o with
      | none => simp [hr, pure, Except.pure] at h
      | some lf =>
        obtain ⟨o, p1, q1⟩ := postprocess_spec env.hashIter he P.n lf.results
        simp only [hr, p1, pure, Except.pure, Except.ok.injEq, Option.some.injEq] at h
        exact ⟨s, lf, hst, hf, h ▸ q1, weak (fun _ => trivial) (searchLoop_run hP _ _ _ _ hl hr)⟩
  | some a =>
    obtain ⟨accept, seed⟩ := a
    simp only [hp, searchProb, doProbabilisticSearch, e1, bind, Except.bind, show P.graph.length = P.n from rfl] at h
    cases hr : probLoop env.prof accept env.gen (fun k => args.timeout.isSome && env.timer k) env.fuel 0
        (Loc.init s P.n) (env.seedRng seed) with
    | error e => simp [hr] at h
    | ok o =>
      cases o with
      | none => simp [hr, pure, Except.pure] at h
      | some r =>
        obtain ⟨lf, rng⟩ := r
        obtain ⟨o, p1, q1⟩ := postprocess_spec env.hashIter he P.n lf.results
        simp only [hr, p1, pure, Except.pure, Except.ok.injEq, Option.some.injEq] at h
        exact ⟨s, lf, hst, hf, h ▸ q1, weak (fun b => b accept seed rfl) (probLoop_run hP _ _ _ _ _ _ hl hr)⟩

/-- The head of the returned list. -/
theorem head_shortest (hP : P.WF) {env : Env F σ} (he : env.OK) {args : Args F} {out : List Path}
    (h : run env P.graph P.order args = .ok (some out)) {q : Path} (hq : q ∈ out)
    (hmin : ∀ S, P.Valid S → q.time ≤ S.length) :
    ∃ p rest, out = p :: rest ∧ ∀ S, P.Valid S → p.time ≤ S.length := by
  have hsorted := C08_monotone hP he h
  cases out with
  | nil => simp at hq
  | cons p rest =>
    refine ⟨p, rest, rfl, fun S hS => ?_⟩
    rcases List.mem_cons.1 hq with rfl | hq
    · exact hmin S hS
    · exact Nat.le_trans (Nat.le_of_lt ((List.pairwise_cons.1 hsorted).1 q hq).1) (hmin S hS)

/-- **C71** A single-threaded search has found a schedule of least time after so many iterations as it has steps, and one
more: if the time is not over before, the first path of the result is one of least time. The search is exhaustive, or the
accept function answers with at least 1 as long as no path is known. -/
theorem C71_single (hP : P.WF) (hb : P.bits ≠ []) {env : Env F σ} (he : env.OK) {args : Args F}
    (hs : args.doSearch = true) (hn : args.nthreads < 2) {S : Schedule} (hS : P.Valid S)
    (ht : args.timeout = none ∨ ∀ k, k < S.length → env.timer k = false)
    (hp : ∀ accept seed, args.probabilistic = some (accept, seed) →
      ∀ p m q, Asked P [] p m q → FloatOps.geOne (q.ask accept) = true)
    {out : List Path} (h : run env P.graph P.order args = .ok (some out)) :
    ∃ p rest, out = p :: rest ∧ ∀ S', P.Valid S' → p.time ≤ S'.length := by
  obtain ⟨G, _, hGv, hG⟩ := getTimeOptimal_spec hP
  have hGS := greedy_min hP hGv hG hS
  obtain ⟨s, lf, hst, hf, hpost, hrun⟩ := single_run hP he hs hn h
  obtain ⟨⟨⟨m, S'⟩, hr⟩, _⟩ := hrun.follows hp hP hb hGv hG
    (by
      intro k hk
      rcases ht with ht | ht
      · simp [ht]
      · simp [ht k (by omega)])
    (init_inv hst hf).ok ⟨extends_nil G, hf⟩ rfl rfl rfl
  have hsound := hrun.sound (init_inv hst hf).ok (resultsOK_nil P)
  obtain ⟨_, _, k3⟩ := hsound _ _ _ hr
  obtain ⟨q, j1, j2, _⟩ := hpost.dominates (hGv.length_le hP) hr (by rw [← k3]; exact peak_lt_max hP _)
  exact head_shortest hP he h j1 fun S' hS' => Nat.le_trans j2 (greedy_min hP hGv hG hS')

/-- **C71** In particular with the built-in accept function (at most 2⁵³ nodes) and no timeout: whatever the random
numbers are, the first path is one of least time. -/
theorem C71_builtin {F σ : Type} [FloatArith F] {val : F → ℝ → Prop} (L : FloatLaws F val) {P : Problem} (hP : P.WF)
    (hN : P.n ≤ 2 ^ 53) (hb : P.bits ≠ []) {env : Env F σ} (he : env.OK) {args : Args F} {seed : Option Nat}
    (hs : args.doSearch = true) (hn : args.nthreads < 2) (ht : args.timeout = none)
    (hp : args.probabilistic = some (AcceptFunc.builtinHeavyside.getAcceptFunc, seed))
    {out : List Path} (h : run env P.graph P.order args = .ok (some out)) :
    ∃ p rest, out = p :: rest ∧ ∀ S, P.Valid S → p.time ≤ S.length := by
  obtain ⟨S, _, hS, _⟩ := getTimeOptimal_spec hP
  refine C71_single hP hb he hs hn hS (Or.inl ht) ?_ h
  intro accept seed' ha p m q hq
  rw [hp] at ha
  simp only [Option.some.injEq, Prod.mk.injEq] at ha
  rw [← ha.1]
  exact bold_builtin L hP hN p m q hq

/-- **C71** If the time is over one iteration earlier, the list is empty, whatever the accept function is. -/
theorem C71_early (hP : P.WF) {env : Env F σ} (he : env.OK) {args : Args F}
    (hs : args.doSearch = true) (hn : args.nthreads < 2) (ht : args.timeout.isSome = true) {K : Nat}
    (hK : env.timer K = true) (hS : ∀ S, P.Valid S → K < S.length)
    {out : List Path} (h : run env P.graph P.order args = .ok (some out)) : out = [] := by
  obtain ⟨s, lf, hst, hf, hpost, hrun⟩ := single_run hP he hs hn h
  have hres := hrun.early hP (T := K + 1) (j := K) hS (by simp [ht, hK]) (by omega) (init_inv hst hf).ok rfl
    (Nat.zero_le _) (Nat.zero_le _)
  cases out with
  | nil => rfl
  | cons p rest =>
    have := ((hpost.mem p).1 List.mem_cons_self).2.1
    rw [hres] at this
    simp at this

/-- **C71** If the time is over right then, the result is that of the mode without search: one path, the same time and
space, and the same steps up to the order within a step. -/
theorem C71_exact (hP : P.WF) (hb : P.bits ≠ []) {env : Env F σ} (he : env.OK) {args : Args F}
    (hs : args.doSearch = true) (hn : args.nthreads < 2) (ht : args.timeout.isSome = true)
    (hp : ∀ accept seed, args.probabilistic = some (accept, seed) →
      ∀ p m q, Asked P [] p m q → FloatOps.geOne (q.ask accept) = true)
    {env' : Env F σ} {args' : Args F} (hs' : args'.doSearch = false) {q : Path}
    (h' : run env' P.graph P.order args' = .ok (some [q]))
    (h1 : ∀ k, k < q.time → env.timer k = false) (h2 : env.timer q.time = true)
    {out : List Path} (h : run env P.graph P.order args = .ok (some out)) :
    ∃ p, out = [p] ∧ p.time = q.time ∧ p.space = q.space ∧ List.Forall₂ List.Perm p.steps q.steps := by
  obtain ⟨G, e1, hGv, hG⟩ := run_time_optimal hP hs' h'
  simp only [List.cons.injEq, and_true] at e1
  subst e1
  obtain ⟨s, lf, hst, hf, hpost, hrun⟩ := single_run hP he hs hn h
  obtain ⟨_, hex⟩ := hrun.follows hp hP hb hGv hG (by intro k hk; simp [h1 k hk]) (init_inv hst hf).ok ⟨extends_nil G, hf⟩
    rfl rfl rfl
  obtain ⟨S', hE, hlen, hres⟩ := hex (by simp only [ht, Bool.true_and]; exact h2)
  have hE' : List.Forall₂ List.Perm S' G := by
    have h3 : StepEq S' (G.take S'.length) := hE
    rwa [hlen, List.take_length] at h3
  have hmem : ∀ p : Path, p ∈ out ↔ p = ⟨G.length, P.peak S', S'⟩ := by
    intro p
    rw [hpost.mem, hres]
    have hget : ∀ t, (AMap.get [(G.length, (P.peak S', S'))] t : Option (Nat × Steps)) =
        if t = G.length then some (P.peak S', S') else none := by
      intro t
      by_cases h3 : t = G.length
      · simp [AMap.get, h3]
      · simp [AMap.get, h3, Ne.symm h3]
    constructor
    · rintro ⟨_, h3, _, _⟩
      rw [hget] at h3
      split at h3
      · rename_i h4
        simp only [Option.some.injEq, Prod.mk.injEq] at h3
        cases p
        simp only [Path.mk.injEq]
        exact ⟨h4, h3.1.symm, h3.2.symm⟩
      · simp at h3
    · rintro rfl
      refine ⟨hGv.length_le hP, by rw [hget, if_pos rfl], peak_lt_max hP _, ?_⟩
      intro t' ht' r' hr'
      rw [hget, if_neg (by simp only at ht'; omega)] at hr'
      simp at hr'
  have hout : out = [⟨G.length, P.peak S', S'⟩] := by
    have hs := hpost.sorted
    match out, hmem, hs with
    | [], hmem, _ => exact absurd ((hmem _).2 rfl) (by simp)
    | [a], hmem, _ => rw [(hmem a).1 (by simp)]
    | a :: b :: r, hmem, hs =>
      have ha := (hmem a).1 (by simp)
      have hb := (hmem b).1 (by simp)
      have := (List.pairwise_cons.1 hs).1 b (by simp)
      rw [ha, hb] at this
      exact (Nat.lt_irrefl _ this).elim
  exact ⟨_, hout, rfl, StepEq.peak P hE', hE'⟩

/-- **C71** A multi-threaded exhaustive search returns a schedule of least time first, however short the timeout is and
however the tasks are interleaved, if that schedule has at most 1001 steps (cf. `C70_late` for more). -/
theorem C71_threads (hP : P.WF) (hb : P.bits ≠ []) {env : Env F σ} (he : env.OK) {args : Args F}
    (hs : args.doSearch = true) (hn : 2 ≤ args.nthreads) (hp : args.probabilistic = none) {S : Schedule}
    (hS : P.Valid S) (hlen : S.length ≤ 1001) {out : List Path} (h : run env P.graph P.order args = .ok (some out)) :
    ∃ p rest, out = p :: rest ∧ ∀ S', P.Valid S' → p.time ≤ S'.length := by
  obtain ⟨G, _, hGv, hG⟩ := getTimeOptimal_spec hP
  have hGS := greedy_min hP hGv hG hS
  have h' := h
  rw [run, hs, Bool.not_true, if_neg (by simp), Verif.search.eq_def, if_neg (by omega), hp] at h'
  obtain ⟨q, hq, hqt⟩ := searchThreaded_short hP hb hGv _ _ (Or.inl (Nat.le_trans hGS hlen)) he h'
  exact head_shortest hP he h hq fun S' hS' => Nat.le_trans hqt (greedy_min hP hGv hG hS')

end

/-! ## A probabilistic search with several threads -/

/-- Three nodes; 2 after 0. -/
def early : Problem := ⟨[[], [], []], [[(0, []), (1, [])], [(2, [0])]]⟩

/-- Numbers instead of floats. -/
local instance numbers : FloatOps Nat := ⟨id, fun x => decide (1 ≤ x), fun x y => decide (x < y)⟩

/-- "Always" until there is a path, then "never". -/
def onlyFirst : Accept Nat := fun _ minimal _ _ _ _ _ => if minimal = usizeMax then 1 else 0

/-- The task of the first step `[1]` runs before the others. -/
def oneAhead : Env Nat Unit :=
  ⟨.debug, id, fun _ => false, fun _ => (), ⟨fun _ => (1, ())⟩, fun s => (0, s),
    List.replicate 20 (1, false) ++ inOrder 6 60, 0⟩

theorem onlyFirst_bold {P : Problem} {p : Schedule} {m : List Nat} {q : Query} (h : Asked P [] p m q) :
    FloatOps.geOne (q.ask onlyFirst) = true := by
  have : q.minimal = usizeMax := by
    rcases h.minimal.mem with h | ⟨t, S, _, h⟩
    · exact h.1
    · simp [AMap.get] at h
  simp [Query.ask, onlyFirst, this, FloatOps.ofUsize, FloatOps.geOne]

/-- **C71** `C71_single` with two threads: a path that one task has found can keep the others from going on with the
shortest one. -/
theorem C71_bold_threads_refuted : ¬ ∀ (P : Problem) (env : Env Nat Unit) (accept : Accept Nat) (n : Nat)
    (out : List Path), P.WF → P.bits ≠ [] → env.OK →
    (∀ p m q, Asked P [] p m q → FloatOps.geOne (q.ask accept) = true) →
    possible env P.graph P.order { doSearch := true, nthreads := n, probabilistic := some (accept, none) } = .ok true →
    run env P.graph P.order { doSearch := true, nthreads := n, probabilistic := some (accept, none) } = .ok (some out) →
    ∃ p rest, out = p :: rest ∧ ∀ S, P.Valid S → p.time ≤ S.length := by
  intro h
  obtain ⟨p, rest, h1, h2⟩ := h early oneAhead onlyFirst 2 [⟨3, 1, [[1], [0], [2]]⟩] (wf_of_check (by decide +kernel))
    (by decide) (fun m => .refl m) (fun _ _ _ => onlyFirst_bold) (by decide +kernel) (by decide +kernel)
  have := h2 [[0, 1], [2]] (valid_of_check (by decide +kernel))
  simp only [List.cons.injEq] at h1
  rw [← h1.1] at this
  simp at this

/-! ## The hypotheses can be met -/

/-- `C71_early`, `C71_single` and `C71_exact`: the documentation's example has a schedule of three steps and none of two;
the timer runs off during the third iteration (nothing is found), or during the fourth. -/
example : docs.WF ∧ docs.bits ≠ [] ∧ docs.Valid [[0], [3, 1], [2]] ∧ (∀ S, docs.Valid S → 2 < S.length) ∧
    run (demo 9 []) docs.graph docs.order { doSearch := false } = .ok (some [⟨3, 3, [[0], [3, 1], [2]]⟩]) ∧
    run { demo 9 [] with timer := fun k => decide (2 ≤ k) } docs.graph docs.order { doSearch := true, timeout := some 1 } =
      .ok (some []) ∧
    run { demo 9 [] with timer := fun k => decide (3 ≤ k) } docs.graph docs.order { doSearch := true, timeout := some 1 } =
      .ok (some [⟨3, 3, [[0], [3, 1], [2]]⟩]) := by
  have h0 : run (demo 9 []) docs.graph docs.order { doSearch := false } = .ok (some [⟨3, 3, [[0], [3, 1], [2]]⟩]) := by
    decide +kernel
  obtain ⟨p, h1, _, _, _, h2⟩ := C05_time_optimal docs_wf rfl h0
  simp only [List.cons.injEq, and_true] at h1
  subst h1
  exact ⟨docs_wf, by decide, valid_of_check (by decide +kernel), fun S hS => h2 S hS, h0, by decide +kernel,
    by decide +kernel⟩

/-- `C71_single` with an accept function and without a timeout. -/
example : (run { oneAhead with fuel := 100 } early.graph early.order
      { doSearch := true, probabilistic := some (onlyFirst, some 3) }) =
    .ok (some [⟨2, 2, [[0, 1], [2]]⟩]) := by decide +kernel

/-- `C71_threads`: the timer has run off before the first iteration. -/
example : docs.Valid [[0], [3, 1], [2]] ∧ (tooLate 0 (roundRobin 6 60)).OK ∧
    run (tooLate 0 (roundRobin 6 60)) docs.graph docs.order { doSearch := true, timeout := some 1, nthreads := 2 } =
      .ok (some [⟨3, 3, [[0], [3, 1], [2]]⟩]) :=
  ⟨valid_of_check (by decide +kernel), tooLate_ok _ _, by decide +kernel⟩

end Verif
