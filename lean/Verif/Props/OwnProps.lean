import Verif.Proofs.Own
import Verif.Props.LogProps
import Verif.Proofs.Size
/-!
# C87: which task finds what

Every task writes the step it begins with (`START: measure …`, threaded.rs:117-121) before its search.
-/

namespace Verif

open Spec Search Search.Threaded Example Log Own

variable {F σ : Type} [FloatOps F] {P : Problem}

theorem logThreaded_own (mode : Mode F σ) (hP : P.WF) (hb : P.bits ≠ []) {tb : Int} {s : Scheduler Partitioner}
    (e1 : mkScheduler P.graph P.order = .ok s) (hs : StateFor P [] s) (hf : Fresh s) {M rest : List (List Nat)}
    (hM : ∀ {σ : Type} (seeds : Nat → σ) {prof : Profile} {g : Global σ},
      initGlobal prof tb seeds s P.n = .ok g → OwnG (allowed M rest) g [] ∧ g.tasks.length = M.length + 1 ∧
      g.tasks.mapIdx (startLine g.tasks.length) = M.mapIdx (fun i m => ⟨(i : Int), some m⟩) ++ [⟨-1, none⟩])
    {prof : Profile} {seeds : Nat → σ} {moves : List (Nat × Bool)} {lines : List DoneLine}
    (h : logThreaded mode prof tb seeds moves P.graph P.order = .ok lines) :
    ∀ d ∈ lines, ∃ i, i < M.length + 1 ∧ d.ntasks = label (M.length + 1) i ∧ OwnR (allowed M rest i) d.results := by
  obtain ⟨g, e2, hg⟩ := initGlobal_spec hP.lax tb seeds hs hf
  obtain ⟨h1, h2, _⟩ := hM seeds (e2 prof)
  unfold logThreaded at h
  simp only [e1, bind, Except.bind, show P.graph.length = P.n from rfl, e2 prof] at h
  cases hr : logMoves mode prof g moves with
  | error e => simp [hr] at h
  | ok r =>
    obtain ⟨g', l⟩ := r
    simp only [hr, pure, Except.pure, Except.ok.injEq] at h
    subst h
    have h3 := logMoves_own mode hP hb moves g g' [] l hg h1 hr
    have h4 : g'.tasks.length = g.tasks.length := by
      have h5 := logMoves_eq mode prof moves g
      rw [hr] at h5
      exact (runMoves_todos mode hP.lax moves g g' hg h5.symm).1
    intro d hd
    obtain ⟨i, h5, h6, h7⟩ := h3.log d (by simpa using hd)
    exact ⟨i, by omega, by rw [h6]; congr 1; omega, h7⟩

theorem own_facts (hP : P.WF) (hb : P.bits ≠ []) (tb : Int) : ∃ M rest, Firsts P tb M rest ∧
    ∀ {F σ : Type} [FloatOps F] {env : Env F σ} {args : Args F}, args.doSearch = true → 2 ≤ args.nthreads →
      (args.taskBound.map fun b => (b : Int)).getD 100000 = tb →
      startLog env P.graph P.order args = .ok (M.mapIdx (fun i m => ⟨(i : Int), some m⟩) ++ [⟨-1, none⟩]) ∧
      ∀ lines, debugLog env P.graph P.order args = .ok lines → ∀ d ∈ lines, ∃ i, i < M.length + 1 ∧
        d.ntasks = label (M.length + 1) i ∧ OwnR (allowed M rest i) d.results := by
  obtain ⟨s, e1, hs, hf⟩ := mkScheduler_spec hP
  have hL : Listed P [] s := by
    have h := e1
    simp only [mkScheduler, bind, Except.bind, pure, Except.pure] at h
    split at h
    · simp at h
    · rename_i h1
      simp only [Except.ok.injEq] at h
      subst h
      exact listed_start hP h1
  obtain ⟨M, rest, h1, h2⟩ := initGlobal_own hP tb hs hf hL
  refine ⟨M, rest, h1, ?_⟩
  intro F σ _ env args hds hn htb
  constructor
  · unfold startLog startThreaded
    rw [hds, htb]
    simp only [Bool.not_true, Bool.false_or, decide_eq_true_eq, if_neg (show ¬ args.nthreads < 2 by omega)]
    obtain ⟨g, e2, hg⟩ := initGlobal_spec hP.lax tb (env.taskRng (args.probabilistic.bind (·.2))) hs hf
    simp only [e1, bind, Except.bind, show P.graph.length = P.n from rfl, e2 env.prof, pure, Except.pure]
    rw [(h2 _ (e2 env.prof)).2.2]
  · intro lines hl
    unfold debugLog at hl
    rw [hds, htb] at hl
    simp only [Bool.not_true, Bool.false_or, decide_eq_true_eq, if_neg (show ¬ args.nthreads < 2 by omega)] at hl
    cases hp : args.probabilistic with
    | none =>
      rw [hp] at hl
      exact logThreaded_own _ hP hb e1 hs hf h2 hl
    | some r =>
      rw [hp] at hl
      exact logThreaded_own _ hP hb e1 hs hf h2 hl

theorem bound_eq (b : Option Nat) : ((b.map fun b => (b : Int)).getD 100000) = ((b.getD 100000 : Nat) : Int) := by
  cases b <;> rfl

/-- **C87**: the tasks begin with different non-empty sets of qubits that wait for nothing. Larger sets come first; at most as
many as the task bound have a task of their own, and if a set has none, the bound is reached and the set comes after all
those that have one. The tasks are numbered from 0 on; the last one, which begins with nothing, has the number -1. -/
theorem C87_starts (hP : P.WF) (hb : P.bits ≠ []) {env : Env F σ} {args : Args F}
    (hs : args.doSearch = true) (hn : 2 ≤ args.nthreads) :
    ∃ M : List (List Nat), startLog env P.graph P.order args =
        .ok (M.mapIdx (fun i m => ⟨(i : Int), some m⟩) ++ [⟨-1, none⟩]) ∧
      (∀ m ∈ M, m ≠ [] ∧ m.Sublist P.start) ∧ M.Pairwise (Sooner P.start) ∧
      (args.taskBound ≠ some 0 → M.length ≤ args.taskBound.getD 100000) ∧
      ∀ m, m ≠ [] → m.Sublist P.start → m ∉ M →
        M.length = args.taskBound.getD 100000 ∧ ∀ m' ∈ M, Sooner P.start m' m := by
  obtain ⟨M, rest, h1, h2⟩ := own_facts hP hb ((args.taskBound.map fun b => (b : Int)).getD 100000)
  have hle := h1.le
  have heq := h1.eq
  rw [bound_eq] at hle heq
  have hpw := List.pairwise_append.1 h1.order
  refine ⟨M, (h2 hs hn rfl).1, fun m hm => (h1.sub m).1 (List.mem_append_left _ hm), hpw.1, ?_, ?_⟩
  · intro h0
    have : 0 < args.taskBound.getD 100000 := by
      cases hb : args.taskBound with
      | none => simp
      | some b =>
        rw [hb] at h0
        simp only [ne_eq, Option.some.injEq, Option.getD_some] at h0 ⊢
        omega
    have := hle (by omega)
    omega
  · intro m hm0 hm hnot
    rcases List.mem_append.1 ((h1.sub m).2 ⟨hm0, hm⟩) with h3 | h3
    · exact (hnot h3).elim
    · refine ⟨?_, fun m' hm' => hpw.2.2 m' hm' m h3⟩
      rcases heq with h4 | h4
      · rw [h4] at h3
        simp at h3
      · omega

/-- **C87**: what a task finds begins with the step it has written; what the last task finds begins with none of these
steps. For every interleaving, accept function, timeout and task bound. -/
theorem C87_own (hP : P.WF) (hb : P.bits ≠ []) {env : Env F σ} {args : Args F}
    (hs : args.doSearch = true) (hn : 2 ≤ args.nthreads) {starts : List StartLine} {lines : List DoneLine}
    (h1 : startLog env P.graph P.order args = .ok starts) (h2 : debugLog env P.graph P.order args = .ok lines)
    {d : DoneLine} (hd : d ∈ lines) {s : StartLine} (hst : s ∈ starts) (hds : s.ntasks = d.ntasks)
    {t u : Nat} {S : Schedule} (hS : d.results.get t = some (u, S)) :
    match s.measure with
    | some m => S.head? = some m
    | none => ∃ a, S.head? = some a ∧ ∀ s' ∈ starts, ∀ m, s'.measure = some m → ¬ a.Perm m := by
  obtain ⟨M, rest, k1, k2⟩ := own_facts hP hb ((args.taskBound.map fun b => (b : Int)).getD 100000)
  obtain ⟨k3, k4⟩ := k2 (env := env) hs hn rfl
  rw [h1] at k3
  simp only [Except.ok.injEq] at k3
  subst k3
  obtain ⟨i, j1, j2, j3⟩ := k4 lines h2 d hd
  obtain ⟨a, j4, j5⟩ := j3 t u S hS
  rw [j2] at hds
  unfold label at hds
  rcases List.mem_append.1 hst with h3 | h3
  · obtain ⟨k, hk, rfl⟩ := List.mem_mapIdx.1 h3
    simp only at hds ⊢
    split at hds
    · omega
    · have hki : k = i := by omega
      subst hki
      rcases j5 with h4 | h4
      · rw [List.getElem?_eq_getElem hk] at h4
        rw [j4, ← h4]
      · omega
  · rw [List.mem_singleton.1 h3] at hds ⊢
    simp only at hds ⊢
    refine ⟨a, j4, ?_⟩
    intro s' hs' m hm hp
    have hi : i = M.length := by
      split at hds <;> omega
    subst hi
    have ha : a ∈ rest := by
      rcases j5 with h4 | h4
      · simp at h4
      · exact h4.2
    rcases List.mem_append.1 hs' with h4 | h4
    · obtain ⟨k, hk, rfl⟩ := List.mem_mapIdx.1 h4
      simp only [Option.some.injEq] at hm
      subst hm
      exact (List.pairwise_append.1 k1.diff).2.2 _ (List.getElem_mem hk) a ha hp.symm
    · rw [List.mem_singleton.1 h4] at hm
      simp at hm

/-- **C87**: when the search has returned, every task has written one line `START` and one line `DONE`. -/
theorem C87_pairs (hP : P.WF) (hb : P.bits ≠ []) {env : Env F σ} (he : env.OK) {args : Args F}
    (hs : args.doSearch = true) (hn : 2 ≤ args.nthreads) {out : List Path}
    (h : run env P.graph P.order args = .ok (some out)) :
    ∃ starts lines, startLog env P.graph P.order args = .ok starts ∧ debugLog env P.graph P.order args = .ok lines ∧
      (starts.map (·.ntasks)).Nodup ∧ (lines.map (·.ntasks)).Perm (starts.map (·.ntasks)) := by
  obtain ⟨M, h1, _⟩ := C87_starts (env := env) hP hb hs hn
  obtain ⟨lines, h2, _, _, _, _, _, k, h3, h4⟩ := log_facts hP hb he hs hn h
  have hk : k = M.length := by
    have := h4 _ h1
    simp only [List.length_append, List.length_mapIdx, List.length_singleton] at this
    omega
  have hM : (M.mapIdx (fun i m => (⟨(i : Int), some m⟩ : StartLine)) ++ [(⟨-1, none⟩ : StartLine)]).map (·.ntasks) =
      (List.range k).map (fun i : Nat => (i : Int)) ++ [-1] := by
    rw [hk, List.map_append, List.map_singleton]
    congr 1
    exact List.ext_getElem (by simp) fun i _ _ => by simp
  refine ⟨_, lines, h1, h2, ?_, by rw [hM]; exact h3⟩
  rw [hM]
  refine List.nodup_append.2 ⟨List.Nodup.map (fun a b h => by simpa using h) List.nodup_range, by simp, ?_⟩
  intro x hx y hy
  obtain ⟨i, _, rfl⟩ := List.mem_map.1 hx
  rw [List.mem_singleton.1 hy]
  omega

/-- **C87**: no two tasks find the same schedule, not even up to the order in the steps. -/
theorem C87_disjoint (hP : P.WF) (hb : P.bits ≠ []) {env : Env F σ} {args : Args F}
    (hs : args.doSearch = true) (hn : 2 ≤ args.nthreads) {lines : List DoneLine}
    (h : debugLog env P.graph P.order args = .ok lines) {d d' : DoneLine} (hd : d ∈ lines) (hd' : d' ∈ lines)
    {t t' u u' : Nat} {S S' : Schedule} (hS : d.results.get t = some (u, S)) (hS' : d'.results.get t' = some (u', S'))
    (hp : List.Forall₂ List.Perm S S') : d.ntasks = d'.ntasks := by
  obtain ⟨M, rest, k1, k2⟩ := own_facts hP hb ((args.taskBound.map fun b => (b : Int)).getD 100000)
  obtain ⟨_, k4⟩ := k2 (env := env) hs hn rfl
  obtain ⟨i, i1, i2, i3⟩ := k4 lines h d hd
  obtain ⟨j, j1, j2, j3⟩ := k4 lines h d' hd'
  obtain ⟨a, i4, i5⟩ := i3 t u S hS
  obtain ⟨b, j4, j5⟩ := j3 t' u' S' hS'
  have hab : a.Perm b := by
    cases hp with
    | nil => simp at i4
    | cons h _ =>
      simp only [List.head?_cons, Option.some.injEq] at i4 j4
      exact i4 ▸ j4 ▸ h
  have hpw := List.pairwise_append.1 k1.diff
  rw [i2, j2]
  congr 1
  rcases i5 with i5 | i5 <;> rcases j5 with j5 | j5
  · obtain ⟨hi, rfl⟩ := List.getElem?_eq_some_iff.1 i5
    obtain ⟨hj, rfl⟩ := List.getElem?_eq_some_iff.1 j5
    rcases Nat.lt_trichotomy i j with h1 | h1 | h1
    · exact (List.pairwise_iff_getElem.1 hpw.1 i j hi hj h1 hab).elim
    · exact h1
    · exact (List.pairwise_iff_getElem.1 hpw.1 j i hj hi h1 hab.symm).elim
  · exact (hpw.2.2 a (List.mem_of_getElem? i5) b j5.2 hab).elim
  · exact (hpw.2.2 b (List.mem_of_getElem? j5) a i5.2 hab.symm).elim
  · omega

/-- **C87**: if the task bound is not reached - it is not by default if at most 16 qubits wait for nothing - every possible
first step has a task of its own, and the last task finds nothing. -/
theorem C87_all (hP : P.WF) (hb : P.bits ≠ []) {env : Env F σ} {args : Args F}
    (hs : args.doSearch = true) (hn : 2 ≤ args.nthreads)
    (htb : args.taskBound = some 0 ∨ 2 ^ P.start.length < args.taskBound.getD 100000)
    {starts : List StartLine} {lines : List DoneLine}
    (h1 : startLog env P.graph P.order args = .ok starts) (h2 : debugLog env P.graph P.order args = .ok lines) :
    (∀ m, m ≠ [] → m.Sublist P.start → ∃ s ∈ starts, s.measure = some m) ∧
    ∀ d ∈ lines, d.ntasks = -1 → ∀ t, d.results.get t = none := by
  obtain ⟨M, rest, k1, k2⟩ := own_facts hP hb ((args.taskBound.map fun b => (b : Int)).getD 100000)
  obtain ⟨k3, k4⟩ := k2 (env := env) hs hn rfl
  rw [h1] at k3
  simp only [Except.ok.injEq] at k3
  subst k3
  have k5 : rest = [] := by
    apply k1.all
    rw [bound_eq]
    rcases htb with h | h
    · left; simp [h]
    · right; omega
  refine ⟨?_, ?_⟩
  · intro m hm0 hm
    have h3 := (k1.sub m).2 ⟨hm0, hm⟩
    rw [k5, List.append_nil] at h3
    obtain ⟨i, hi, rfl⟩ := List.getElem_of_mem h3
    exact ⟨⟨(i : Int), some M[i]⟩, List.mem_append_left _ (List.mem_mapIdx.2 ⟨i, hi, rfl⟩), rfl⟩
  · intro d hd hdn t
    obtain ⟨i, j1, j2, j3⟩ := k4 lines h2 d hd
    cases hr : d.results.get t with
    | none => rfl
    | some r =>
      exfalso
      obtain ⟨a, j4, j5⟩ := j3 t r.1 r.2 hr
      rw [hdn] at j2
      unfold label at j2
      split at j2
      · rcases j5 with h3 | h3
        · have := (List.getElem?_eq_some_iff.1 h3).1
          omega
        · rw [k5] at h3
          simp at h3
      · omega

/-- The four tasks of `twoSix`: its qubits 0 and 1 wait for nothing. -/
example : twoSix.WF ∧ twoSix.bits ≠ [] ∧ twoSix.start = [0, 1] ∧
    ((startLog (demo 0 twoSixMoves) twoSix.graph twoSix.order { doSearch := true, nthreads := 2 }).map
      fun l => l.map fun s => (s.ntasks, s.measure)) =
      .ok [(0, some [0, 1]), (1, some [1]), (2, some [0]), (-1, none)] :=
  ⟨twoSix_wf, by decide, by decide +kernel, by decide +kernel⟩

/-- All tasks of `star`, one of them with a result of two steps. -/
example : star.WF ∧ star.bits ≠ [] ∧ 2 ^ star.start.length < (none : Option Nat).getD 100000 ∧
    (∃ lines, debugLog (demo 0 (swapped 8 60)) star.graph star.order { doSearch := true, nthreads := 4 } = .ok lines ∧
      lines.length = 16 ∧ Lists lines 2 3) ∧
    ∃ starts, startLog (demo 0 (swapped 8 60)) star.graph star.order { doSearch := true, nthreads := 4 } = .ok starts := by
  obtain ⟨M, h, _⟩ := C87_starts (env := demo 0 (swapped 8 60)) (args := { doSearch := true, nthreads := 4 }) star_wf
    (by decide) rfl (by decide)
  exact ⟨star_wf, by decide, by decide +kernel, star_log, _, h⟩

/-- What the tasks of `star` find with a task bound of 1: the numbers of steps and the first steps. -/
theorem star_bound_log : ((debugLog (demo 0 (inOrder 2 200)) star.graph star.order
    { doSearch := true, nthreads := 2, taskBound := some 1 }).map fun l => l.map fun d =>
      (d.ntasks, d.results.map fun r => (r.1, r.2.2.head?))) =
    .ok [(0, [(1, some [1, 2, 3, 0])]), (-1, [(3, some [3]), (2, some [2, 3])])] := by
  decide +kernel

/-- **C87** refuted: that the last task never finds anything. With a small task bound it does. -/
theorem C87_rest_refuted : ¬ ∀ (P : Problem) (env : Env Bool Unit) (args : Args Bool) (lines : List DoneLine), P.WF →
    P.bits ≠ [] → env.OK → args.doSearch = true → 2 ≤ args.nthreads →
    debugLog env P.graph P.order args = .ok lines → ∀ d ∈ lines, d.ntasks = -1 → ∀ t, d.results.get t = none := by
  intro h
  have h1 := star_bound_log
  cases hl : debugLog (demo 0 (inOrder 2 200)) star.graph star.order
      { doSearch := true, nthreads := 2, taskBound := some 1 } with
  | error e => rw [hl] at h1; simp [Except.map] at h1
  | ok lines =>
    rw [hl] at h1
    simp only [Except.map, Except.ok.injEq] at h1
    have h2 : ((-1 : Int), [(3, some [3]), (2, some [2, 3])]) ∈ lines.map fun d =>
        (d.ntasks, d.results.map fun r => (r.1, r.2.2.head?)) := by
      rw [h1]
      simp
    obtain ⟨d, hd, h3⟩ := List.mem_map.1 h2
    simp only [Prod.mk.injEq] at h3
    have h4 := h star _ _ lines star_wf (by decide) (demo_ok _ _) rfl (Nat.le_refl _) hl d hd h3.1 3
    cases hr : d.results with
    | nil => rw [hr] at h3; simp at h3
    | cons r rs =>
      rw [hr] at h3 h4
      simp only [List.map_cons, List.cons.injEq, Prod.mk.injEq] at h3
      simp [AMap.get, h3.2.1.1] at h4

end Verif
