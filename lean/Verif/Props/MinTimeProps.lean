import Verif.Props.Refresh
import Verif.Proofs.MinTime
/-!
# What the multi-threaded exhaustive search guarantees
-/

namespace Verif

open Spec Search Search.Threaded Example

/-- The moves of task `i`. -/
def movesOf (i : Nat) (moves : List (Nat × Bool)) : Nat := (moves.filter fun m => m.1 = i).length

/-- No task has enough moves left to reach the refresh. -/
def Few {σ : Type} (g : Global σ) (moves : List (Nat × Bool)) : Prop :=
  ∀ i : Nat, match (g.tasks[i]? : Option (TaskState σ)) with
    | some (.ready _ _ _) => movesOf i moves ≤ updateInterval + 1
    | some (.running _ _ c _) => c + movesOf i moves ≤ updateInterval
    | _ => True

theorem movesOf_cons (i : Nat) (m : Nat × Bool) (ms : List (Nat × Bool)) :
    movesOf i (m :: ms) = movesOf i ms + if m.1 = i then 1 else 0 := by
  by_cases h : m.1 = i <;> simp [movesOf, h]

theorem Few.quietRun {F σ : Type} [FloatOps F] {mode : Mode F σ} {prof : Profile} :
    ∀ (moves : List (Nat × Bool)) (g : Global σ), Few g moves → QuietRun mode prof g moves := by
  intro moves
  induction moves with
  | nil => intro g _; trivial
  | cons m ms ih =>
    intro g h
    have hm := h m.1
    have hc := movesOf_cons m.1 m ms
    simp only [if_true] at hc
    refine ⟨?_, ?_⟩
    · intro loc rng c w ht
      rw [ht] at hm
      simp only at hm
      omega
    · intro g' hg'
      apply ih
      have key : ∀ (best : List Nat) (results : MappedPaths) (t : TaskState σ),
          (match t with
            | .ready _ _ _ => movesOf m.1 ms ≤ updateInterval + 1
            | .running _ _ c _ => c + movesOf m.1 ms ≤ updateInterval
            | _ => True) → Few ⟨best, results, g.tasks.set m.1 t⟩ ms := by
        intro best results t ht j
        by_cases hj : m.1 = j
        · subst hj
          by_cases hlt : m.1 < g.tasks.length
          · simp only [List.getElem?_set_self hlt]
            cases t <;> exact ht
          · have : (g.tasks.set m.1 t)[m.1]? = none := by simp; omega
            simp only [this]
        · simp only [List.getElem?_set_ne hj]
          have h1 := h j
          rw [movesOf_cons, if_neg hj] at h1
          exact h1
      have keep : Few g ms := by
        intro j
        have h1 := h j
        have h2 := movesOf_cons j m ms
        cases hj : g.tasks[j]? with
        | none => trivial
        | some t =>
          rw [hj] at h1
          cases t <;> simp only at h1 ⊢ <;> omega
      cases ht : g.tasks[m.1]? with
      | none =>
        simp only [move, ht, pure, Except.pure, Except.ok.injEq] at hg'
        exact hg' ▸ keep
      | some t =>
        rw [ht] at hm
        cases t with
        | ready sched init rng =>
          simp only [move, ht, pure, Except.pure, Except.ok.injEq] at hg'
          subst hg'
          exact key _ _ _ (by simp only at hm ⊢; omega)
        | running loc rng c w =>
          simp only at hm
          cases hi : modeIter mode prof loc rng with
          | error e => simp [move, ht, hi, bind, Except.bind] at hg'
          | ok r =>
            obtain ⟨l', rng', stop⟩ := r
            cases stop with
            | true =>
              cases hfin : finishLoop l' c w with
              | error e => simp [move, ht, hi, hfin, bind, Except.bind] at hg'
              | ok l'' =>
                simp only [move, ht, hi, hfin, bind, Except.bind, pure, Except.pure, ↓reduceIte,
                  Except.ok.injEq] at hg'
                exact hg' ▸ key _ _ _ trivial
            | false =>
              have hne : c ≠ updateInterval := by omega
              simp only [move, ht, hi, bind, Except.bind, pure, Except.pure, Bool.false_eq_true,
                ↓reduceIte, hne, Except.ok.injEq] at hg'
              exact hg' ▸ key _ _ _ (by simp only; omega)
        | finishing loc =>
          cases hemp : loc.results.isEmpty with
          | true =>
            simp only [move, ht, hemp, pure, Except.pure, ↓reduceIte, Except.ok.injEq] at hg'
            exact hg' ▸ key _ _ _ trivial
          | false =>
            simp only [move, ht, hemp, pure, Except.pure, Bool.false_eq_true, ↓reduceIte,
              Except.ok.injEq] at hg'
            exact hg' ▸ key _ _ _ trivial
        | done =>
          simp only [move, ht, pure, Except.pure, Except.ok.injEq] at hg'
          exact hg' ▸ keep

section
variable {F σ : Type} [FloatOps F] {P : Problem}

/-- **C28** without a refresh: a multi-threaded deterministic search in which no task gets further
than its start and 1000 loop iterations, the interval after which it refreshes its tables and polls
the timer, misses nothing, whatever the interleaving. -/
theorem C28_no_refresh (hP : P.WF) (hb : P.bits ≠ []) {env : Env F σ}
    (he : env.OK) {args : Args F} (hs : args.doSearch = true) (ht : 2 ≤ args.nthreads)
    (hp : args.probabilistic = none) (hmoves : ∀ i, movesOf i env.moves ≤ 1001)
    {out : List Path} (h : run env P.graph P.order args = .ok (some out)) :
    ∀ S, P.Valid S → ∃ p ∈ out, p.time ≤ S.length ∧ p.space ≤ P.peak S := by
  rw [run, hs, Bool.not_true, if_neg (by simp), Verif.search.eq_def, if_neg (by omega), hp] at h
  refine searchThreaded_complete hP hb _ _ _ env.prof env.hashIter he out ?_ h
  intro s g hsch hg
  apply Few.quietRun
  obtain ⟨s', e1, hs', hf⟩ := mkScheduler_spec hP
  rw [e1] at hsch
  cases hsch
  have hready := initGlobal_cost hP.lax _ _ hs' hf hg
  intro i
  have hcount : ∀ l : List (Nat × Bool),
      movesOf i (l.map fun m => (m.1, args.timeout.isSome && m.2)) = movesOf i l := by
    intro l
    induction l with
    | nil => rfl
    | cons m l ih => rw [List.map_cons, movesOf_cons, movesOf_cons, ih]
  cases hi : g.tasks[i]? with
  | none => trivial
  | some t =>
    obtain ⟨sched, init, rng, rfl, _⟩ := hready t (List.mem_of_getElem? hi)
    simp only
    rw [hcount]
    exact hmoves i

example : star.WF ∧ star.bits.length = 4 ∧ (∀ i, movesOf i (swapped 8 60) ≤ 1001) ∧
    (demo 0 (swapped 8 60)).OK ∧ ∃ out, out.length = 3 ∧
    run (demo 0 (swapped 8 60)) star.graph star.order { doSearch := true, nthreads := 4 } =
      .ok (some out) := by
  refine ⟨star_wf, rfl, ?_, demo_ok _ _, _, by simp, star_run_threads⟩
  intro i
  have : (swapped 8 60).length ≤ 1001 := by decide +kernel
  exact Nat.le_trans (List.length_filter_le _ _) this

/-- **C51**: whatever the interleaving and however often the tasks refresh, an uninterrupted
multi-threaded deterministic search returns a path with the least possible number of steps. -/
theorem C51_min_time (hP : P.WF) (hb : P.bits ≠ []) {env : Env F σ}
    (he : env.OK) {args : Args F} (hs : args.doSearch = true) (ht : 2 ≤ args.nthreads)
    (hp : args.probabilistic = none) (hto : args.timeout = none)
    {out : List Path} (h : run env P.graph P.order args = .ok (some out)) :
    ∃ p ∈ out, ∀ S, P.Valid S → p.time ≤ S.length := by
  rw [run, hs, Bool.not_true, if_neg (by simp), Verif.search.eq_def, if_neg (by omega), hp, hto] at h
  refine searchThreaded_minTime hP hb _ _ ?_ he h
  intro m hm
  obtain ⟨m', _, rfl⟩ := List.mem_map.1 hm
  rfl

/-- **C51**: in particular it returns something, and its first path is one of least time. -/
theorem C51_head (hP : P.WF) (hb : P.bits ≠ []) {env : Env F σ}
    (he : env.OK) {args : Args F} (hs : args.doSearch = true) (ht : 2 ≤ args.nthreads)
    (hp : args.probabilistic = none) (hto : args.timeout = none)
    {out : List Path} (h : run env P.graph P.order args = .ok (some out)) :
    ∃ p rest, out = p :: rest ∧ ∀ S, P.Valid S → p.time ≤ S.length := by
  obtain ⟨q, hq, hmin⟩ := C51_min_time hP hb he hs ht hp hto h
  have hsorted := C08_monotone hP he h
  cases out with
  | nil => simp at hq
  | cons p rest =>
    refine ⟨p, rest, rfl, fun S hS => ?_⟩
    rcases List.mem_cons.1 hq with rfl | hq
    · exact hmin S hS
    · exact Nat.le_trans (Nat.le_of_lt ((List.pairwise_cons.1 hsorted).1 q hq).1) (hmin S hS)

/-- In this run the tasks do refresh, and the search does lose other optimal paths. -/
example : twoSix.WF ∧ twoSix.bits ≠ [] ∧ (demo 0 twoSixMoves).OK ∧ ∃ out, out.length = 4 ∧
    run (demo 0 twoSixMoves) twoSix.graph twoSix.order { doSearch := true, nthreads := 2 } =
      .ok (some out) :=
  ⟨twoSix_wf, by decide, demo_ok _ _, _, by simp, twoSix_run⟩

end

end Verif
