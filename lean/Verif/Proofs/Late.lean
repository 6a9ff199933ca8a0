import Verif.Proofs.Found
/-!
# Time over before anything is recorded

A task looks at the timer after 1001 iterations, and in that many iterations it goes down at most 1001 steps.
-/

namespace Verif

open Spec Search Threaded

/-- A task that has not looked at the timer yet and has recorded nothing. -/
inductive LateTask (P : Problem) {σ : Type} : TaskState σ → Prop
  | ready {sched : Scheduler Partitioner} {init : Option (List Nat)} {rng : σ}
      (hs : StateFor P (startPath init) sched) (hi : IterOK sched)
      (hf : init.isSome = true → Fresh sched) : LateTask P (.ready sched init rng)
  | running {loc : Loc} {rng : σ} {counter : Nat} {wasInit : Bool} (p0 : Schedule)
      (hl : LocOK P p0 loc) (hr : loc.results = []) (hp : p0.length ≤ 1)
      (hc : loc.sweep.stack.length ≤ counter) (hu : counter ≤ updateInterval)
      (hf : counter = 0 → wasInit = true → Fresh loc.sweep.current) : LateTask P (.running loc rng counter wasInit)
  | finishing {loc : Loc} (hr : loc.results = []) : LateTask P (.finishing loc)
  | done : LateTask P .done

/-- No task has recorded anything. -/
structure Late (P : Problem) {σ : Type} (g : Global σ) : Prop where
  best : g.best.length = P.n + 1
  results : g.results = []
  tasks : ∀ t ∈ g.tasks, LateTask P t

theorem Late.set {P : Problem} {σ : Type} {g : Global σ} (h : Late P g) {i : Nat} {t : TaskState σ}
    (ht : LateTask P t) {best : List Nat} (hb : best.length = P.n + 1) : Late P ⟨best, g.results, g.tasks.set i t⟩ := by
  refine ⟨hb, h.results, fun a ha => ?_⟩
  rcases List.mem_or_eq_of_mem_set ha with h1 | h1
  · exact h.tasks a h1
  · rw [h1]; exact ht

theorem move_late {F σ : Type} [FloatOps F] (mode : Mode F σ) {P : Problem} (hP : P.WF)
    (hT : ∀ S, P.Valid S → updateInterval + 2 ≤ S.length) {g g' : Global σ} (hg : Late P g) {i : Nat}
    {prof : Profile} (hm : move mode prof g i true = .ok g') : Late P g' := by
  cases ht : g.tasks[i]? with
  | none =>
    simp only [move, ht, pure, Except.pure, Except.ok.injEq] at hm
    exact hm ▸ hg
  | some t =>
    cases hg.tasks t (List.mem_of_getElem? ht) with
    | @ready sched init rng hs hi hf =>
      simp only [move, ht, pure, Except.pure, Except.ok.injEq] at hm
      subst hm
      have h1 : (startLoc sched init g.best).path = startPath init := by
        cases init <;> simp [startLoc, startPath]
      refine hg.set (.running (startPath init) ⟨?_, hg.best⟩ rfl ?_ (Nat.zero_le _) (Nat.zero_le _) ?_) hg.best
      · rw [h1]; exact .base hs hi
      · cases init <;> simp [startPath]
      · intro _ h; exact hf h
    | @running loc rng counter wasInit p0 hl hr hp hc hu hf =>
      obtain ⟨l', rng', stop, e1, e2⟩ := modeIter_spec mode rng hP.lax hl
      have hl' := e2.locOK hl
      have hlen := hl.chain.length
      have hnoleaf : loc.sweep.current.time.measurable.set ≠ [] := by
        intro h
        have := hT _ (leaf_valid hP hl.chain.state.1 h)
        omega
      have hstep : l'.results = [] ∧ l'.sweep.stack.length ≤ counter + 1 ∧
          (stop = true → ¬ (counter = 0 ∧ wasInit = true)) := by
        cases e2 with
        | stop hst hn hs hi =>
          refine ⟨hr, by simp, fun _ h => ?_⟩
          exact hnoleaf (hn.fresh_leaf (hf h.1 h.2))
        | backLeaf hst hn hleaf hlen => exact absurd hleaf hnoleaf
        | backInner hst hn hleaf =>
          rw [hst] at hc
          simp only [List.length_cons] at hc
          exact ⟨hr, by show _ ≤ _; simp only; omega, fun h => by cases h⟩
        | skip hn hb hd => exact ⟨hr, by show _ ≤ _; simp only; omega, fun h => by cases h⟩
        | push hn hb hlt => exact ⟨hr, by simpa using hc, fun h => by cases h⟩
      obtain ⟨k1, k2, k3⟩ := hstep
      cases stop with
      | true =>
        have hfin : finishLoop l' counter wasInit = .ok l' := by
          rw [finishLoop, if_neg (k3 rfl)]; rfl
        simp only [move, ht, e1 prof, bind, Except.bind, pure, Except.pure, ↓reduceIte, hfin, Except.ok.injEq] at hm
        subst hm
        exact hg.set (.finishing k1) hg.best
      | false =>
        by_cases hcu : counter = updateInterval
        · simp only [move, ht, e1 prof, bind, Except.bind, pure, Except.pure,
            Bool.false_eq_true, ↓reduceIte, hcu, Except.ok.injEq] at hm
          subst hm
          exact hg.set (i := i) (t := .finishing { l' with best := (exchange g.best l'.best).2 }) (.finishing k1)
            ((exchange_length g.best l'.best).1.trans hg.best)
        · simp only [move, ht, e1 prof, bind, Except.bind, pure, Except.pure,
            Bool.false_eq_true, ↓reduceIte, hcu, Except.ok.injEq] at hm
          subst hm
          exact hg.set (.running p0 hl' k1 hp k2 (by omega) (fun h => by omega)) hg.best
    | @finishing loc hr =>
      have hemp : loc.results.isEmpty = true := by rw [hr]; rfl
      simp only [move, ht, hemp, pure, Except.pure, ↓reduceIte, Except.ok.injEq] at hm
      subst hm
      exact hg.set .done hg.best
    | done =>
      simp only [move, ht, pure, Except.pure, Except.ok.injEq] at hm
      exact hm ▸ hg

theorem runMoves_late {F σ : Type} [FloatOps F] (mode : Mode F σ) {P : Problem} (hP : P.WF)
    (hT : ∀ S, P.Valid S → updateInterval + 2 ≤ S.length) {prof : Profile} :
    ∀ (moves : List (Nat × Bool)) (g g' : Global σ), (∀ m ∈ moves, m.2 = true) → Late P g →
      runMoves mode prof g moves = .ok g' → Late P g' := by
  intro moves
  induction moves with
  | nil =>
    intro g g' _ hg h
    simp only [runMoves, pure, Except.pure, Except.ok.injEq] at h
    exact h ▸ hg
  | cons m moves ih =>
    intro g g' hq hg h
    cases hm : move mode prof g m.1 m.2 with
    | error e => simp [runMoves, hm, bind, Except.bind] at h
    | ok g1 =>
      simp only [runMoves, hm, bind, Except.bind] at h
      rw [hq m (by simp)] at hm
      exact ih g1 g' (fun m' h' => hq m' (List.mem_cons_of_mem _ h')) (move_late mode hP hT hg hm) h

/-- If the time is over and every schedule has more than 1001 steps, a pool returns nothing. -/
theorem searchThreaded_late {F σ : Type} [FloatOps F] (mode : Mode F σ) {P : Problem} (hP : P.WF)
    (hT : ∀ S, P.Valid S → updateInterval + 2 ≤ S.length) (tb : Int) (seeds : Nat → σ) {moves : List (Nat × Bool)}
    (hq : ∀ m ∈ moves, m.2 = true) {prof : Profile} {hashIter : MappedPaths → MappedPaths}
    (hh : ∀ m, (hashIter m).Perm m) {out : List Path}
    (h : searchThreaded mode prof hashIter tb seeds moves P.graph P.order = .ok (some out)) : out = [] := by
  obtain ⟨S, _, hS, _⟩ := getTimeOptimal_spec hP
  have hb : P.bits ≠ [] := by
    intro hb
    have h1 := hT S hS
    cases S with
    | nil => simp at h1
    | cons s S =>
      have h2 := hS.perm
      rw [hb, List.perm_nil, List.flatten_cons, List.append_eq_nil_iff] at h2
      exact hS.nonempty s (by simp) h2.1
  obtain ⟨s, e1, hs, hf⟩ := mkScheduler_spec hP
  obtain ⟨g, e2, hg⟩ := initGlobal_inv hP hb tb seeds hs hf
  have hready := initGlobal_cost hP.lax tb seeds hs hf (e2 prof)
  have hres : g.results = [] := by
    have := e2 prof
    unfold initGlobal at this
    cases hsp : spawn prof tb seeds s with
    | error e => simp [hsp, bind, Except.bind] at this
    | ok ts =>
      simp only [hsp, bind, Except.bind, pure, Except.pure, Except.ok.injEq] at this
      rw [← this]
  have hinit : Late P g := by
    refine ⟨hg.shared.len, hres, fun t ht => ?_⟩
    obtain ⟨sched, init, rng, rfl, _⟩ := hready t ht
    cases hg.tasks _ ht with
    | ready h1 h2 h3 => exact .ready h1 h2 h3
  unfold searchThreaded at h
  simp only [e1, bind, Except.bind, show P.graph.length = P.n from rfl, e2 prof] at h
  cases hr : runMoves mode prof g moves with
  | error e => simp [hr] at h
  | ok g' =>
    have hL := runMoves_late mode hP hT moves g g' hq hinit hr
    simp only [hr] at h
    split at h
    · obtain ⟨o, p1, q1⟩ := postprocess_spec hashIter hh P.n g'.results
      rw [p1] at h
      simp only [pure, Except.pure, Except.ok.injEq, Option.some.injEq] at h
      subst h
      rw [hL.results] at q1
      cases o with
      | nil => rfl
      | cons p o =>
        have := ((q1.mem p).1 (by simp)).2.1
        simp [AMap.get] at this
    · simp [pure, Except.pure] at h

end Verif
