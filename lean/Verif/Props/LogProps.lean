import Verif.Proofs.LogRun
import Verif.Props.Refresh
/-!
# C86: the log of the multi-threaded search

Every task writes what it has found into the debug log (`DONE: results …`, threaded.rs:135) before it merges its results.
-/

namespace Verif

open Spec Search Search.Threaded Example Log

variable {F σ : Type} [FloatOps F] {P : Problem}

/-- A line has a result of `t` steps that needs `m` qubits. -/
def Lists (lines : List DoneLine) (t m : Nat) : Prop := ∃ d ∈ lines, ∃ S, d.results.get t = some (m, S)

theorem log_facts (hP : P.WF) (hb : P.bits ≠ []) {env : Env F σ} (he : env.OK) {args : Args F}
    (hs : args.doSearch = true) (hn : 2 ≤ args.nthreads) {out : List Path}
    (h : run env P.graph P.order args = .ok (some out)) :
    ∃ lines, debugLog env P.graph P.order args = .ok lines ∧
      (∀ d ∈ lines, ResultsOK P d.results) ∧
      (∀ p ∈ out, ∃ d ∈ lines, d.results.get p.time = some (p.space, p.steps)) ∧
      ((args.probabilistic = none ∧ args.timeout = none) → ∀ S, P.Valid S →
        ∃ d ∈ lines, ∃ t, t ≤ S.length ∧ HasR d.results t (P.peak S)) ∧
      (∀ t m, NoClash t m lines → (∀ t', t' ≤ t → ∀ d ∈ lines, ∀ m' S, d.results.get t' = some (m', S) → m ≤ m') →
        (∃ d ∈ lines, ∃ S, d.results.get t = some (m, S)) → ∃ p ∈ out, p.time ≤ t ∧ p.space ≤ m) ∧
      (∀ d ∈ lines, d.best.length = P.n + 1) ∧
      ∃ k, (lines.map (·.ntasks)).Perm ((List.range k).map (fun i : Nat => (i : Int)) ++ [-1]) ∧
        ∀ starts, startLog env P.graph P.order args = .ok starts → starts.length = k + 1 := by
  rw [run, hs, Bool.not_true, if_neg (by simp), Verif.search.eq_def, if_neg (by omega)] at h
  unfold debugLog startLog
  rw [hs]
  simp only [Bool.not_true, Bool.false_or, decide_eq_true_eq, if_neg (show ¬ args.nthreads < 2 by omega)]
  cases hp : args.probabilistic with
  | none =>
    rw [hp] at h
    obtain ⟨lines, h1, h2, h3, h4, h5⟩ := searchThreaded_log _ hP hb _ _ he h
    refine ⟨lines, h1, h2, h3, fun hto => h4 ⟨trivial, ?_⟩, h5⟩
    intro m hm
    obtain ⟨m', _, rfl⟩ := List.mem_map.1 hm
    simp [hto.2]
  | some r =>
    rw [hp] at h
    obtain ⟨lines, h1, h2, h3, _, h5⟩ := searchThreaded_log _ hP hb _ _ he h
    exact ⟨lines, h1, h2, h3, fun h => by simp at h, h5⟩

/-- The moves of the examples: four threads work on `star`. -/
theorem star_log : ∃ lines, debugLog (demo 0 (swapped 8 60)) star.graph star.order
    { doSearch := true, nthreads := 4 } = .ok lines ∧ lines.length = 16 ∧ Lists lines 2 3 := by
  cases h : debugLog (demo 0 (swapped 8 60)) star.graph star.order { doSearch := true, nthreads := 4 } with
  | error e =>
    have : (debugLog (demo 0 (swapped 8 60)) star.graph star.order { doSearch := true, nthreads := 4 }).isOk = true := by
      decide +kernel
    rw [h] at this
    simp [Except.isOk, Except.toBool] at this
  | ok lines =>
    have h1 : (debugLog (demo 0 (swapped 8 60)) star.graph star.order { doSearch := true, nthreads := 4 }).map
        (fun l => (l.length, l.any fun d => (d.results.get 2).any fun r => r.1 == 3)) = .ok (16, true) := by
      decide +kernel
    rw [h] at h1
    simp only [Except.map, Except.ok.injEq, Prod.mk.injEq, List.any_eq_true] at h1
    obtain ⟨h1, d, hd, h2⟩ := h1
    refine ⟨lines, rfl, h1, d, hd, ?_⟩
    cases hr : d.results.get 2 with
    | none => simp [hr] at h2
    | some r =>
      simp only [hr, Option.any_some, beq_iff_eq] at h2
      exact ⟨r.2, by rw [← h2]⟩

/-- **C86**: every task writes one line: they are numbered from 0 on, and the last task has the number -1. -/
theorem C86_lines (hP : P.WF) (hb : P.bits ≠ []) {env : Env F σ} (he : env.OK) {args : Args F}
    (hs : args.doSearch = true) (hn : 2 ≤ args.nthreads) {out : List Path}
    (h : run env P.graph P.order args = .ok (some out)) :
    ∃ lines, debugLog env P.graph P.order args = .ok lines ∧ ∃ k,
      (lines.map (·.ntasks)).Perm ((List.range k).map (fun i : Nat => (i : Int)) ++ [-1]) := by
  obtain ⟨lines, h1, _, _, _, _, _, k, h2, _⟩ := log_facts hP hb he hs hn h
  exact ⟨lines, h1, k, h2⟩

/-- **C86**: every result in the log is a schedule with the time and the memory that are written there, and every returned
path is in the log; for every accept function and timeout. -/
theorem C86_valid (hP : P.WF) (hb : P.bits ≠ []) {env : Env F σ} (he : env.OK) {args : Args F}
    (hs : args.doSearch = true) (hn : 2 ≤ args.nthreads) {out : List Path}
    (h : run env P.graph P.order args = .ok (some out)) {lines : List DoneLine}
    (hl : debugLog env P.graph P.order args = .ok lines) :
    (∀ d ∈ lines, ∀ t m S, d.results.get t = some (m, S) → P.Valid S ∧ S.length = t ∧ P.peak S = m) ∧
    ∀ p ∈ out, ∃ d ∈ lines, d.results.get p.time = some (p.space, p.steps) := by
  obtain ⟨lines', h1, h2, h3, _⟩ := log_facts hP hb he hs hn h
  rw [hl] at h1
  cases h1
  refine ⟨fun d hd t m S hS => ?_, h3⟩
  obtain ⟨k1, k2, k3⟩ := h2 d hd t m S hS
  exact ⟨(maximal_iff hP).1 k1, k2, k3⟩

/-- **C86**: what C28 loses is lost in the merge only: in every interleaving of an uninterrupted exhaustive search there is
for every schedule one at least as good in the log. -/
theorem C86_found (hP : P.WF) (hb : P.bits ≠ []) {env : Env F σ} (he : env.OK) {args : Args F}
    (hs : args.doSearch = true) (hn : 2 ≤ args.nthreads) (hp : args.probabilistic = none) (ht : args.timeout = none)
    {out : List Path} (h : run env P.graph P.order args = .ok (some out)) {lines : List DoneLine}
    (hl : debugLog env P.graph P.order args = .ok lines) {S : Schedule} (hS : P.Valid S) :
    ∃ t m, Lists lines t m ∧ t ≤ S.length ∧ m ≤ P.peak S := by
  obtain ⟨lines', h1, _, _, h4, _⟩ := log_facts hP hb he hs hn h
  rw [hl] at h1
  cases h1
  obtain ⟨d, hd, t, h5, m, T, h6, h7⟩ := h4 ⟨hp, ht⟩ S hS
  exact ⟨t, m, ⟨d, hd, T, h6⟩, h5, h7⟩

/-- A line contradicts itself: it says that `t` steps are possible with `m` qubits and has a result of `t` steps that needs
more, although `m` is the least memory of at most `t` steps in the log and fewer steps need more. -/
def Stale (lines : List DoneLine) (t m : Nat) : Prop :=
  Lists lines t m ∧ (∀ t' m', Lists lines t' m' → t' ≤ t → m ≤ m') ∧ (∀ t' m', Lists lines t' m' → t' < t → m < m') ∧
  ∃ d ∈ lines, d.best[t]? = some m ∧ ∃ m' S, d.results.get t = some (m', S) ∧ m < m'

/-- **C86**: if something that is in the log is lost, a line contradicts itself, at a point of the trade-off curve that is at
least as good; for every accept function and timeout. -/
theorem C86_kept (hP : P.WF) (hb : P.bits ≠ []) {env : Env F σ} (he : env.OK) {args : Args F}
    (hs : args.doSearch = true) (hn : 2 ≤ args.nthreads) {out : List Path}
    (h : run env P.graph P.order args = .ok (some out)) {lines : List DoneLine}
    (hl : debugLog env P.graph P.order args = .ok lines) {t m : Nat} (hm : Lists lines t m) :
    (∃ p ∈ out, p.time ≤ t ∧ p.space ≤ m) ∨ ∃ t' m', t' ≤ t ∧ m' ≤ m ∧ Stale lines t' m' := by
  obtain ⟨lines', h1, _, _, _, h5, h6, _⟩ := log_facts hP hb he hs hn h
  rw [hl] at h1
  cases h1
  classical
  -- the least memory with at most `t` steps, then the least number of steps for it
  have hex : ∃ u, ∃ t', t' ≤ t ∧ Lists lines t' u := ⟨m, t, Nat.le_refl _, hm⟩
  have hmin : ∀ u, (∃ t', t' ≤ t ∧ Lists lines t' u) → Nat.find hex ≤ u := fun u hu => Nat.find_min' hex hu
  have hspec := Nat.find_spec hex
  generalize Nat.find hex = u at *
  have hmin2 : ∀ t', (t' ≤ t ∧ Lists lines t' u) → Nat.find hspec ≤ t' := fun t' ht => Nat.find_min' hspec ht
  obtain ⟨k1, k2⟩ := Nat.find_spec hspec
  generalize Nat.find hspec = τ at *
  have hum := hmin m ⟨t, Nat.le_refl _, hm⟩
  by_cases hnc : NoClash τ u lines
  · obtain ⟨p, j1, j2, j3⟩ := h5 τ u hnc (fun t' ht' d hd m' S hS => hmin m' ⟨t', by omega, d, hd, S, hS⟩) k2
    exact Or.inl ⟨p, j1, by omega, by omega⟩
  · right
    simp only [NoClash, Classical.not_forall] at hnc
    obtain ⟨d, hd, m', S, hS, hbest, hne⟩ := hnc
    have hle := hmin m' ⟨τ, k1, d, hd, S, hS⟩
    refine ⟨τ, u, k1, hum, k2, fun t' v hv ht' => hmin v ⟨t', by omega, hv⟩, ?_, d, hd, ?_, m', S, hS, by omega⟩
    · intro t' v hv ht'
      have := hmin v ⟨t', by omega, hv⟩
      rcases Nat.lt_or_ge u v with h7 | h7
      · exact h7
      · have hv' : v = u := by omega
        subst hv'
        have := hmin2 t' ⟨by omega, hv⟩
        omega
    · have hlen := h6 d hd
      obtain ⟨k3, k4, k5⟩ := (C86_valid hP hb he hs hn h hl).1 d hd τ m' S hS
      have := k3.length_le hP
      have hlt : τ < d.best.length := by omega
      rw [List.getElem?_eq_getElem hlt, ← hbest]
      simp [at0, List.getElem?_eq_getElem hlt]

/-- **C86**: so the log tells when the answer can be trusted: if an uninterrupted exhaustive search misses a schedule, a line
contradicts itself. -/
theorem C86_lost (hP : P.WF) (hb : P.bits ≠ []) {env : Env F σ} (he : env.OK) {args : Args F}
    (hs : args.doSearch = true) (hn : 2 ≤ args.nthreads) (hp : args.probabilistic = none) (ht : args.timeout = none)
    {out : List Path} (h : run env P.graph P.order args = .ok (some out)) {lines : List DoneLine}
    (hl : debugLog env P.graph P.order args = .ok lines) {S : Schedule} (hS : P.Valid S)
    (hlost : ∀ p ∈ out, p.time ≤ S.length → P.peak S < p.space) :
    ∃ t m, t ≤ S.length ∧ m ≤ P.peak S ∧ Stale lines t m := by
  obtain ⟨t, m, h1, h2, h3⟩ := C86_found hP hb he hs hn hp ht h hl hS
  rcases C86_kept hP hb he hs hn h hl h1 with ⟨p, h4, h5, h6⟩ | ⟨t', m', h4, h5, h6⟩
  · have := hlost p h4 (by omega)
    omega
  · exact ⟨t', m', by omega, by omega, h6⟩

example : star.WF ∧ star.bits ≠ [] ∧ (demo 0 (swapped 8 60)).OK ∧ ∃ out lines, out.length = 3 ∧
    run (demo 0 (swapped 8 60)) star.graph star.order { doSearch := true, nthreads := 4 } = .ok (some out) ∧
    debugLog (demo 0 (swapped 8 60)) star.graph star.order { doSearch := true, nthreads := 4 } = .ok lines ∧
    lines.length = 16 ∧ Lists lines 2 3 := by
  obtain ⟨lines, h1, h2, h3⟩ := star_log
  exact ⟨star_wf, by decide, demo_ok _ _, _, lines, by simp, star_run_threads, h1, h2, h3⟩

/-- The hypotheses of `C86_lost` can be met: the run of C28. -/
example : twoSix.WF ∧ twoSix.bits ≠ [] ∧ (demo 0 twoSixMoves).OK ∧ ∃ (out : List Path) (lines : List DoneLine),
    run (demo 0 twoSixMoves) twoSix.graph twoSix.order { doSearch := true, nthreads := 2 } = .ok (some out) ∧
    debugLog (demo 0 twoSixMoves) twoSix.graph twoSix.order { doSearch := true, nthreads := 2 } = .ok lines ∧
    twoSix.Valid [[0, 1], [2, 3, 4], [5, 6, 7]] ∧
    ∀ p ∈ out, p.time ≤ 3 → twoSix.peak [[0, 1], [2, 3, 4], [5, 6, 7]] < p.space := by
  obtain ⟨lines, hl, _⟩ := log_facts (P := twoSix) twoSix_wf (by decide) (demo_ok 0 twoSixMoves)
    (args := { doSearch := true, nthreads := 2 }) rfl (Nat.le_refl _) twoSix_run
  exact ⟨twoSix_wf, by decide, demo_ok _ _, _, lines, twoSix_run, hl, valid_of_check (by decide +kernel), by decide +kernel⟩

/-- **C86** refuted: that everything in the log is in the answer, also if lines differ. For every number of threads from two
on, an uninterrupted exhaustive search of 8 qubits (the one of C28) can write a schedule into the log such that nothing it
returns is as good in both costs. -/
theorem C86_all_refuted : ∀ n, 2 ≤ n → ¬ ∀ (P : Problem) (env : Env Bool Unit) (out : List Path) (lines : List DoneLine),
    P.WF → P.bits ≠ [] → env.OK → possible env P.graph P.order { doSearch := true, nthreads := n } = .ok true →
    run env P.graph P.order { doSearch := true, nthreads := n } = .ok (some out) →
    debugLog env P.graph P.order { doSearch := true, nthreads := n } = .ok lines →
    ∀ t m, Lists lines t m → ∃ p ∈ out, p.time ≤ t ∧ p.space ≤ m := by
  intro n hn h
  refine C28_refuted n hn ?_
  intro P env out hP hb he hpos hrun S hS
  obtain ⟨lines, hl, _⟩ := log_facts hP hb he (args := { doSearch := true, nthreads := n }) rfl hn hrun
  obtain ⟨t, m, h1, h2, h3⟩ := C86_found hP hb he (args := { doSearch := true, nthreads := n }) rfl hn rfl rfl hrun hl hS
  obtain ⟨p, h4, h5, h6⟩ := h P env out lines hP hb he hpos hrun hl t m h1
  exact ⟨p, h4, by omega, by omega⟩

end Verif
