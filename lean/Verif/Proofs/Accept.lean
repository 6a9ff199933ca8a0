import Verif.Proofs.RunAll
/-!
# Accept functions that always or never accept; interrupting later
-/

namespace Verif

open Spec Search Search.Threaded

variable {F σ : Type} [FloatOps F]

/-! ## Always accepting -/

/-- The accept function always returns at least 1. -/
def AlwaysAccepts (accept : Accept F) : Prop :=
  ∀ a b c d e f g, FloatOps.geOne (accept a b c d e f g) = true

theorem forward_best {m : List Nat} {s s' : Loc} {b : Bool} (h : forward m s = .ok (s', b)) :
    s'.best = s.best := by
  unfold forward at h
  cases hi : idx s.best (minimumPathLength s.sweep.current.time s.path) with
  | error e => simp [hi, bind, Except.bind] at h
  | ok x =>
    simp only [hi, bind, Except.bind] at h
    split at h
    · split at h <;> simp [pure, Except.pure] at h <;> rw [← h.1]
    · simp [pure, Except.pure] at h; rw [← h.1]

theorem backward_best {leaf : Option Nat} {s s' : Loc} (h : backward leaf s = .ok s') :
    s'.best.length = s.best.length := by
  unfold backward at h
  split at h
  · split at h
    · simp [pure, Except.pure] at h
      rw [← h]
      simp [updateBest]
    · simp at h
  · simp [pure, Except.pure] at h
    rw [← h]

theorem searchIter_best {prof : Profile} {s s' : Loc} {b : Bool} (h : searchIter prof s = .ok (s', b)) :
    s'.best.length = s.best.length := by
  unfold searchIter at h
  cases hn : s.sweep.next (Scheduler.focusIter prof) with
  | error e => simp [hn, bind, Except.bind] at h
  | ok x =>
    obtain ⟨sw, step⟩ := x
    simp only [hn, bind, Except.bind] at h
    split at h
    · simp [pure, Except.pure] at h; rw [← h.1]
    · rw [forward_best h]
    · rename_i leaf
      cases hb : backward leaf { s with sweep := sw } with
      | error e => simp [hb] at h
      | ok y =>
        simp [hb, pure, Except.pure] at h
        rw [← h.1, backward_best hb]

theorem probForward_always {accept : Accept F} (ha : AlwaysAccepts accept) (gen : Rng F σ)
    (measure : List Nat) (c m : Nat) (s : Loc) (rng : σ) (hb : s.best ≠ []) :
    probabilisticForward accept gen measure c m s rng =
      (forward measure s).map fun r => (r.1, rng, r.2) := by
  unfold probabilisticForward forward
  cases hi : idx s.best (minimumPathLength s.sweep.current.time s.path) with
  | error e => simp [hi, bind, Except.bind, Except.map]
  | ok x =>
    simp only [hi, bind, Except.bind]
    split
    · split <;> simp [Except.map, pure, Except.pure]
    · rw [List.getLast?_eq_some_getLast hb]
      simp [ha _, Except.map, pure, Except.pure]

theorem probIter_always {accept : Accept F} (ha : AlwaysAccepts accept) (gen : Rng F σ) (prof : Profile)
    (s : Loc) (rng : σ) (hb : s.best ≠ []) :
    probIter prof accept gen s rng = (searchIter prof s).map fun r => (r.1, rng, r.2) := by
  unfold probIter searchIter
  cases hn : s.sweep.next (Scheduler.focusIter prof) with
  | error e => simp [bind, Except.bind, Except.map]
  | ok x =>
    obtain ⟨sw, step⟩ := x
    simp only [bind, Except.bind]
    split
    · simp [Except.map, pure, Except.pure]
    · exact probForward_always ha gen _ _ _ _ _ hb
    · rename_i leaf
      cases backward leaf { s with sweep := sw } <;> simp [Except.map, pure, Except.pure]

theorem probLoop_always {accept : Accept F} (ha : AlwaysAccepts accept) (gen : Rng F σ) (prof : Profile)
    (timer : Nat → Bool) (rng : σ) : ∀ (fuel k : Nat) (s : Loc), s.best ≠ [] →
    probLoop prof accept gen timer fuel k s rng =
      (searchLoop prof timer fuel k s).map fun r => r.map fun l => (l, rng) := by
  intro fuel
  induction fuel with
  | zero => intro k s _; rfl
  | succ fuel ih =>
    intro k s hb
    unfold probLoop searchLoop
    rw [probIter_always ha gen prof s rng hb]
    cases hi : searchIter prof s with
    | error e => simp [bind, Except.bind, Except.map]
    | ok x =>
      obtain ⟨s', stop⟩ := x
      have hb' : s'.best ≠ [] := by
        intro h0
        have := searchIter_best hi
        rw [h0] at this
        simp only [List.length_nil] at this
        exact hb (List.eq_nil_of_length_eq_zero this.symm)
      simp only [bind, Except.bind, Except.map]
      split
      · simp [pure, Except.pure]
      · split
        · simp [pure, Except.pure]
        · rw [ih (k + 1) s' hb']
          rfl

theorem searchProb_always {accept : Accept F} (ha : AlwaysAccepts accept) (gen : Rng F σ) (rng : σ)
    (prof : Profile) (hashIter : MappedPaths → MappedPaths) (timer : Nat → Bool) (fuel : Nat)
    (graph : List (List Nat)) (order : OrderGraph) :
    searchProb prof hashIter accept gen rng timer fuel graph order =
      searchDet prof hashIter timer fuel graph order := by
  unfold searchProb searchDet doProbabilisticSearch doSearch
  cases mkScheduler graph order with
  | error e => rfl
  | ok s =>
    simp only [bind, Except.bind]
    rw [probLoop_always ha gen prof timer rng fuel 0 _ (by simp [Loc.init])]
    cases searchLoop prof timer fuel 0 (Loc.init s graph.length) with
    | error e => rfl
    | ok r => cases r <;> rfl

/-! ## The pool without random numbers -/

/-- Forget the random number generator of a task. -/
def eraseTask : TaskState σ → TaskState Unit
  | .ready s i _ => .ready s i ()
  | .running l _ c w => .running l () c w
  | .finishing l => .finishing l
  | .done => .done

/-- Forget the random number generators of all tasks. -/
def eraseGlobal (g : Global σ) : Global Unit := ⟨g.best, g.results, g.tasks.map eraseTask⟩

/-- The table of a task is not empty. -/
def Search.Threaded.TaskState.BestNe : TaskState σ → Prop
  | .running l _ _ _ => l.best ≠ []
  | _ => True

/-- No table is empty. -/
def BestNe (g : Global σ) : Prop := g.best ≠ [] ∧ ∀ t ∈ g.tasks, t.BestNe

/-- A mode in which one iteration is a deterministic iteration. -/
def QuietMode (mode : Mode F σ) : Prop := ∀ prof l rng, l.best ≠ [] →
  modeIter mode prof l rng = (searchIter prof l).map fun r => (r.1, rng, r.2)

theorem quiet_det : QuietMode (.det : Mode F σ) := by
  intro prof l rng _
  simp only [modeIter]
  cases searchIter prof l <;> rfl

theorem quiet_always {accept : Accept F} (ha : AlwaysAccepts accept) (gen : Rng F σ) :
    QuietMode (.prob accept gen) := fun prof l rng hb => probIter_always ha gen prof l rng hb

theorem eraseGlobal_get (g : Global σ) (i : Nat) :
    (eraseGlobal g).tasks[i]? = (g.tasks[i]?).map eraseTask := by
  simp [eraseGlobal]

theorem length_ne_nil {α β : Type} {l : List α} {l' : List β} (h : l.length = l'.length) (hn : l' ≠ []) :
    l ≠ [] := by
  intro h0
  rw [h0] at h
  exact hn (List.eq_nil_of_length_eq_zero h.symm)

theorem bestNe_set {ts : List (TaskState σ)} {i : Nat} {t : TaskState σ}
    (h : ∀ t ∈ ts, t.BestNe) (ht : t.BestNe) : ∀ t' ∈ ts.set i t, t'.BestNe := by
  intro t' h'
  rcases List.mem_or_eq_of_mem_set h' with h1 | rfl
  · exact h _ h1
  · exact ht

theorem mergeLoop_len : ∀ (s t : List Nat) (k : Nat) (new results : MappedPaths),
    (mergeLoop k s t new results).1.length = s.length
  | [], t, k, new, results => by cases t <;> simp [mergeLoop]
  | a :: s, [], k, new, results => by simp [mergeLoop]
  | a :: s, b :: t, k, new, results => by
    simp only [mergeLoop]
    split
    · split <;> simp [mergeLoop_len]
    · simp [mergeLoop_len]

/-- A move in a quiet mode is a deterministic move. -/
theorem move_quiet {mode : Mode F σ} (hq : QuietMode mode) (prof : Profile) (g : Global σ) (hg : BestNe g)
    (i : Nat) (b : Bool) :
    (move mode prof g i b).map eraseGlobal = move (.det : Mode F Unit) prof (eraseGlobal g) i b ∧
      ∀ g', move mode prof g i b = .ok g' → BestNe g' := by
  obtain ⟨hg1, hg2⟩ := hg
  unfold move
  rw [eraseGlobal_get]
  cases ht : g.tasks[i]? with
  | none =>
    refine ⟨rfl, ?_⟩
    intro g' h
    simp only [pure, Except.pure, Except.ok.injEq] at h
    subst h; exact ⟨hg1, hg2⟩
  | some t =>
    have htn := hg2 t (List.mem_of_getElem? ht)
    cases t with
    | ready s init rng =>
      refine ⟨?_, ?_⟩
      · simp [eraseTask, eraseGlobal, Except.map, pure, Except.pure, List.map_set]
      · intro g' h
        simp only [pure, Except.pure, Except.ok.injEq] at h
        subst h
        exact ⟨hg1, bestNe_set hg2 (by simpa [TaskState.BestNe, startLoc] using hg1)⟩
    | running loc rng counter wasInit =>
      have hb : loc.best ≠ [] := htn
      simp only [Option.map_some, eraseTask]
      rw [hq prof loc rng hb, quiet_det prof loc () hb]
      cases hi : searchIter prof loc with
      | error e => exact ⟨rfl, fun g' h => by simp [Except.map, bind, Except.bind] at h⟩
      | ok r =>
        obtain ⟨loc', stop⟩ := r
        have hb' : loc'.best ≠ [] := length_ne_nil (searchIter_best hi) hb
        simp only [Except.map, bind, Except.bind]
        cases stop with
        | true =>
          simp only [if_true]
          cases finishLoop loc' counter wasInit with
          | error e => exact ⟨rfl, fun g' h => by simp at h⟩
          | ok l'' =>
            refine ⟨by simp [eraseGlobal, eraseTask, pure, Except.pure, List.map_set], ?_⟩
            intro g' h
            simp only [pure, Except.pure, Except.ok.injEq] at h
            subst h
            exact ⟨hg1, bestNe_set hg2 trivial⟩
        | false =>
          simp only [Bool.false_eq_true, if_false]
          by_cases hcu : counter = updateInterval
          · simp only [hcu, if_true]
            cases b with
            | true =>
              refine ⟨by simp [eraseGlobal, eraseTask, pure, Except.pure, List.map_set], ?_⟩
              intro g' h
              simp only [if_true, pure, Except.pure, Except.ok.injEq] at h
              subst h
              exact ⟨length_ne_nil (exchange_length _ _).1 hg1, bestNe_set hg2 trivial⟩
            | false =>
              refine ⟨by simp [eraseGlobal, eraseTask, pure, Except.pure, List.map_set], ?_⟩
              intro g' h
              simp only [Bool.false_eq_true, if_false, pure, Except.pure, Except.ok.injEq] at h
              subst h
              exact ⟨length_ne_nil (exchange_length _ _).1 hg1,
                bestNe_set hg2 (length_ne_nil (exchange_length g.best loc'.best).2 hb')⟩
          · simp only [hcu, if_false]
            refine ⟨by simp [eraseGlobal, eraseTask, pure, Except.pure, List.map_set], ?_⟩
            intro g' h
            simp only [pure, Except.pure, Except.ok.injEq] at h
            subst h
            exact ⟨hg1, bestNe_set hg2 hb'⟩
    | finishing loc =>
      simp only [Option.map_some, eraseTask]
      cases hemp : loc.results.isEmpty with
      | true =>
        refine ⟨by simp [eraseGlobal, eraseTask, pure, Except.pure, List.map_set, Except.map], ?_⟩
        intro g' h
        simp only [if_true, pure, Except.pure, Except.ok.injEq] at h
        subst h
        exact ⟨hg1, bestNe_set hg2 trivial⟩
      | false =>
        refine ⟨by simp [eraseGlobal, eraseTask, pure, Except.pure, List.map_set, Except.map], ?_⟩
        intro g' h
        simp only [Bool.false_eq_true, if_false, pure, Except.pure, Except.ok.injEq] at h
        subst h
        exact ⟨length_ne_nil (mergeLoop_len _ _ _ _ _) hg1, bestNe_set hg2 trivial⟩
    | done =>
      refine ⟨rfl, ?_⟩
      intro g' h
      simp only [pure, Except.pure, Except.ok.injEq] at h
      subst h; exact ⟨hg1, hg2⟩

theorem runMoves_quiet {mode : Mode F σ} (hq : QuietMode mode) (prof : Profile) (ms : List (Nat × Bool)) :
    ∀ g : Global σ, BestNe g → (runMoves mode prof g ms).map eraseGlobal =
      runMoves (.det : Mode F Unit) prof (eraseGlobal g) ms := by
  induction ms with
  | nil => intro g _; rfl
  | cons m ms ih =>
    intro g hg
    obtain ⟨h1, h2⟩ := move_quiet hq prof g hg m.1 m.2
    simp only [runMoves]
    rw [← h1]
    cases hm : move mode prof g m.1 m.2 with
    | error e => rfl
    | ok g' => exact ih g' (h2 g' hm)

theorem eraseGlobal_finished (g : Global σ) : (eraseGlobal g).finished = g.finished := by
  simp only [Global.finished, eraseGlobal, List.all_map]
  congr 1
  funext t
  cases t <;> rfl

/-- The result of a pool in a quiet mode, in terms of a pool without random number generators. -/
theorem searchThreaded_quiet {mode : Mode F σ} (hq : QuietMode mode) (prof : Profile)
    (hashIter : MappedPaths → MappedPaths) (tb : Int) (seeds : Nat → σ) (ms : List (Nat × Bool))
    (graph : List (List Nat)) (order : OrderGraph) :
    searchThreaded mode prof hashIter tb seeds ms graph order =
      searchThreaded (.det : Mode F Unit) prof hashIter tb (fun _ => ()) ms graph order := by
  unfold searchThreaded
  cases mkScheduler graph order with
  | error e => rfl
  | ok s =>
    simp only [bind, Except.bind]
    have hinit : (initGlobal prof tb seeds s graph.length).map eraseGlobal =
        initGlobal prof tb (fun _ => ()) s graph.length ∧
        ∀ g, initGlobal prof tb seeds s graph.length = .ok g → BestNe g := by
      unfold initGlobal spawn
      cases spawnLoop prof tb (s.time.measurable.iter.length + 1) s 0 with
      | error e => exact ⟨rfl, fun g h => by simp [bind, Except.bind] at h⟩
      | ok x =>
        obtain ⟨ts, rest⟩ := x
        refine ⟨?_, ?_⟩
        · simp [bind, Except.bind, pure, Except.pure, Except.map, eraseGlobal, eraseTask]
          apply List.ext_getElem <;> simp [eraseTask]
        · intro g h
          simp only [bind, Except.bind, pure, Except.pure, Except.ok.injEq] at h
          subst h
          refine ⟨by simp, ?_⟩
          intro t ht
          simp only [List.mem_append, List.mem_mapIdx, List.mem_singleton] at ht
          rcases ht with ⟨k, hk, rfl⟩ | rfl <;> trivial
    obtain ⟨h1, h2⟩ := hinit
    rw [← h1]
    cases hg : initGlobal prof tb seeds s graph.length with
    | error e => rfl
    | ok g =>
      have h3 := runMoves_quiet hq prof ms g (h2 g hg)
      simp only [Except.map]
      rw [← h3]
      cases runMoves mode prof g ms with
      | error e => rfl
      | ok g' =>
        simp only [Except.map, eraseGlobal_finished]
        rfl

/-! ## Interrupting later -/

/-- The second timer fires no earlier than the first. -/
def FiresLater (k : Nat) (timer timer' : Nat → Bool) : Prop :=
  ∀ j, k ≤ j → timer' j = true → ∃ i, k ≤ i ∧ i ≤ j ∧ timer i = true

theorem probLoop_inv {accept : Accept F} {gen : Rng F σ} {P : Problem} (hP : P.WF) {p0 : Schedule}
    {b0 : List Nat} {prof : Profile} {timer : Nat → Bool} : ∀ (fuel k : Nat) (l : Loc) (rng : σ)
    (l' : Loc) (rng' : σ), LInv P p0 b0 l →
    probLoop prof accept gen timer fuel k l rng = .ok (some (l', rng')) →
    LInv P p0 b0 l' ∧ ∀ t, at0 l'.best t ≤ at0 l.best t := by
  intro fuel
  induction fuel with
  | zero => intro k l rng l' rng' _ h; simp [probLoop, pure, Except.pure] at h
  | succ fuel ih =>
    intro k l rng l' rng' hl h
    obtain ⟨l1, rng1, stop, e1, e2⟩ := probIter_spec accept gen rng hP.lax hl.ok
    obtain ⟨i1, i2⟩ := e2.inv hl
    simp only [probLoop, e1 prof, bind, Except.bind] at h
    split at h
    · simp only [pure, Except.pure, Except.ok.injEq, Option.some.injEq, Prod.mk.injEq] at h
      rw [← h.1]; exact ⟨i1, i2⟩
    · split at h
      · simp only [pure, Except.pure, Except.ok.injEq, Option.some.injEq, Prod.mk.injEq] at h
        rw [← h.1]; exact ⟨i1, i2⟩
      · obtain ⟨j1, j2⟩ := ih _ _ _ _ _ i1 h
        exact ⟨j1, fun t => Nat.le_trans (j2 t) (i2 t)⟩

theorem probLoop_later {accept : Accept F} {gen : Rng F σ} {P : Problem} (hP : P.WF) {p0 : Schedule}
    {b0 : List Nat} {prof : Profile} {timer timer' : Nat → Bool} : ∀ (fuel fuel' k : Nat) (l : Loc)
    (rng : σ) (l1 l2 : Loc) (r1 r2 : σ), LInv P p0 b0 l → FiresLater k timer timer' →
    probLoop prof accept gen timer fuel k l rng = .ok (some (l1, r1)) →
    probLoop prof accept gen timer' fuel' k l rng = .ok (some (l2, r2)) →
    ∀ t, at0 l2.best t ≤ at0 l1.best t := by
  intro fuel
  induction fuel with
  | zero => intro fuel' k l rng l1 l2 r1 r2 _ _ h; simp [probLoop, pure, Except.pure] at h
  | succ fuel ih =>
    intro fuel' k l rng l1 l2 r1 r2 hl hlater h h'
    cases fuel' with
    | zero => simp [probLoop, pure, Except.pure] at h'
    | succ fuel' =>
      obtain ⟨lx, rngx, stop, e1, e2⟩ := probIter_spec accept gen rng hP.lax hl.ok
      obtain ⟨i1, i2⟩ := e2.inv hl
      simp only [probLoop, e1 prof, bind, Except.bind] at h h'
      cases stop with
      | true =>
        simp only [if_true, pure, Except.pure, Except.ok.injEq, Option.some.injEq, Prod.mk.injEq] at h h'
        rw [← h.1, ← h'.1]
        exact fun t => Nat.le_refl _
      | false =>
        simp only [Bool.false_eq_true, if_false] at h h'
        cases ht : timer k with
        | true =>
          simp only [ht, if_true, pure, Except.pure, Except.ok.injEq, Option.some.injEq,
            Prod.mk.injEq] at h
          rw [← h.1]
          split at h'
          · simp only [pure, Except.pure, Except.ok.injEq, Option.some.injEq, Prod.mk.injEq] at h'
            rw [← h'.1]
            exact fun t => Nat.le_refl _
          · exact (probLoop_inv hP _ _ _ _ _ _ i1 h').2
        | false =>
          have ht' : timer' k = false := by
            cases h0 : timer' k with
            | false => rfl
            | true =>
              obtain ⟨i, h3, h4, h5⟩ := hlater k (Nat.le_refl _) h0
              have : i = k := by omega
              subst this
              rw [ht] at h5
              cases h5
          simp only [ht, ht', Bool.false_eq_true, if_false] at h h'
          refine ih fuel' (k + 1) lx rngx l1 l2 r1 r2 i1 ?_ h h'
          intro j hj htj
          obtain ⟨i, h3, h4, h5⟩ := hlater j (by omega) htj
          refine ⟨i, ?_, h4, h5⟩
          rcases Nat.eq_or_lt_of_le h3 with h6 | h6
          · subst h6; rw [ht] at h5; cases h5
          · exact h6

/-- A probabilistic search that is interrupted later (with the same random numbers) is at least as
good. -/
theorem searchProb_later {accept : Accept F} {gen : Rng F σ} {rng : σ} {P : Problem} (hP : P.WF)
    {prof : Profile} {hashIter : MappedPaths → MappedPaths} (hh : ∀ m, (hashIter m).Perm m)
    {timer timer' : Nat → Bool} (hlater : FiresLater 0 timer timer') {fuel fuel' : Nat}
    {out out' : List Path}
    (h : searchProb prof hashIter accept gen rng timer fuel P.graph P.order = .ok (some out))
    (h' : searchProb prof hashIter accept gen rng timer' fuel' P.graph P.order = .ok (some out')) :
    ∀ p ∈ out, ∃ p' ∈ out', p'.time ≤ p.time ∧ p'.space ≤ p.space := by
  obtain ⟨s, e1, hs, hf⟩ := mkScheduler_spec hP
  have hinit : LInv P [] (best0 P) (Loc.init s P.graph.length) := init_inv hs hf
  unfold searchProb doProbabilisticSearch at h h'
  rw [e1] at h h'
  simp only [bind, Except.bind] at h h'
  cases r1 : probLoop prof accept gen timer fuel 0 (Loc.init s P.graph.length) rng with
  | error e => simp [r1] at h
  | ok x1 =>
    cases r2 : probLoop prof accept gen timer' fuel' 0 (Loc.init s P.graph.length) rng with
    | error e => simp [r2] at h'
    | ok x2 =>
      cases x1 with
      | none => simp [r1, pure, Except.pure] at h
      | some x1 =>
        cases x2 with
        | none => simp [r2, pure, Except.pure] at h'
        | some x2 =>
          obtain ⟨l1, g1⟩ := x1
          obtain ⟨l2, g2⟩ := x2
          simp only [r1] at h
          simp only [r2] at h'
          obtain ⟨o1, p1, q1⟩ := postprocess_spec hashIter hh P.n l1.results
          obtain ⟨o2, p2, q2⟩ := postprocess_spec hashIter hh P.n l2.results
          rw [show P.graph.length = P.n from rfl, p1] at h
          rw [show P.graph.length = P.n from rfl, p2] at h'
          simp only [pure, Except.pure, Except.ok.injEq, Option.some.injEq] at h h'
          subst h
          subst h'
          have hi1 := (probLoop_inv hP _ _ _ _ _ _ hinit r1).1
          have hi2 := (probLoop_inv hP _ _ _ _ _ _ hinit r2).1
          have hle := probLoop_later hP _ _ _ _ _ _ _ _ _ hinit hlater r1 r2
          intro p hp
          obtain ⟨k1, k2, k3, _⟩ := (q1.mem p).1 hp
          have h4 := hi1.b3 p.time p.space p.steps k2
          have h5 := hle p.time
          simp only at k3
          rcases hi2.b2 p.time with h6 | ⟨t', m, S, h6, h7, h8⟩
          · rw [at0_replicate, if_pos (by omega)] at h6
            omega
          · obtain ⟨p', j1, j2, j3⟩ := q2.dominates (t := t') (by omega) h7 (by simp only; omega)
            simp only at j3
            exact ⟨p', j1, by omega, by omega⟩

/-! ## Never accepting -/

/-- The accept function together with the random numbers rejects every step. -/
def AlwaysRejects (accept : Accept F) (gen : Rng F σ) : Prop :=
  ∀ a b c d e f g rng, FloatOps.geOne (accept a b c d e f g) = false ∧
    FloatOps.lt (gen.sample rng).1 (accept a b c d e f g) = false

/-- If every step is rejected, an iteration at the root leaves the path and the results alone and ends
up at the root again. -/
theorem probIter_reject {accept : Accept F} {gen : Rng F σ} (ha : AlwaysRejects accept gen)
    {prof : Profile} {l l' : Loc} {rng rng' : σ} {stop : Bool} (hst : l.sweep.stack = [])
    (h : probIter prof accept gen l rng = .ok (l', rng', stop)) :
    l'.sweep.stack = [] ∧ l'.path = l.path ∧ l'.best = l.best ∧ l'.results = l.results := by
  unfold probIter at h
  cases hn : l.sweep.next (Scheduler.focusIter prof) with
  | error e => simp [hn, bind, Except.bind] at h
  | ok x =>
    obtain ⟨sw, step⟩ := x
    simp only [hn, bind, Except.bind] at h
    unfold Sweep.next at hn
    rw [hst] at hn
    cases hf : Scheduler.focusIter prof |>.nextAndFocus l.sweep.current with
    | error e => simp [hf, bind, Except.bind] at hn
    | ok y =>
      obtain ⟨s', r⟩ := y
      simp only [hf, bind, Except.bind] at hn
      cases r with
      | none =>
        simp [pure, Except.pure] at hn
        obtain ⟨rfl, rfl⟩ := hn
        simp [pure, Except.pure] at h
        obtain ⟨rfl, _⟩ := h
        exact ⟨rfl, rfl, rfl, rfl⟩
      | some c =>
        obtain ⟨c, m⟩ := c
        simp [pure, Except.pure] at hn
        obtain ⟨rfl, rfl⟩ := hn
        simp only [probabilisticForward, bind, Except.bind] at h
        split at h
        · simp at h
        · rename_i bound hbound
          have hskip : ∀ s : Loc, Sweep.skipCurrent (⟨c, [s']⟩ : Sweep (Scheduler Partitioner)) =
              (⟨s', []⟩, .ok ()) := by intro s; rfl
          split at h
          · rw [hskip l] at h
            simp [pure, Except.pure] at h
            obtain ⟨rfl, _⟩ := h
            exact ⟨rfl, rfl, rfl, rfl⟩
          · split at h
            · simp at h
            · rw [(ha _ _ _ _ _ _ _ rng).1] at h
              simp only [Bool.false_eq_true, if_false] at h
              rw [(ha _ _ _ _ _ _ _ rng).2] at h
              simp only [Bool.false_eq_true, if_false] at h
              rw [hskip l] at h
              simp [pure, Except.pure] at h
              obtain ⟨rfl, _⟩ := h
              exact ⟨rfl, rfl, rfl, rfl⟩

theorem probLoop_reject {accept : Accept F} {gen : Rng F σ} (ha : AlwaysRejects accept gen)
    {prof : Profile} {timer : Nat → Bool} : ∀ (fuel k : Nat) (l : Loc) (rng : σ) (l' : Loc) (rng' : σ),
    l.sweep.stack = [] → probLoop prof accept gen timer fuel k l rng = .ok (some (l', rng')) →
    l'.results = l.results := by
  intro fuel
  induction fuel with
  | zero => intro k l rng l' rng' _ h; simp [probLoop, pure, Except.pure] at h
  | succ fuel ih =>
    intro k l rng l' rng' hl h
    simp only [probLoop, bind, Except.bind] at h
    cases hi : probIter prof accept gen l rng with
    | error e => simp [hi] at h
    | ok x =>
      obtain ⟨l1, rng1, stop⟩ := x
      obtain ⟨h1, h2, h3, h4⟩ := probIter_reject ha hl hi
      simp only [hi] at h
      split at h
      · simp only [pure, Except.pure, Except.ok.injEq, Option.some.injEq, Prod.mk.injEq] at h
        rw [← h.1]; exact h4
      · split at h
        · simp only [pure, Except.pure, Except.ok.injEq, Option.some.injEq, Prod.mk.injEq] at h
          rw [← h.1]; exact h4
        · rw [ih _ _ _ _ _ h1 h, h4]

/-- A single-threaded search that rejects every step returns nothing. -/
theorem searchProb_reject {accept : Accept F} {gen : Rng F σ} (ha : AlwaysRejects accept gen) {rng : σ}
    {prof : Profile} {hashIter : MappedPaths → MappedPaths} (hh : ∀ m, (hashIter m).Perm m)
    {timer : Nat → Bool} {fuel : Nat} {graph : List (List Nat)} {order : OrderGraph} {out : List Path}
    (h : searchProb prof hashIter accept gen rng timer fuel graph order = .ok (some out)) : out = [] := by
  unfold searchProb doProbabilisticSearch at h
  cases hs : mkScheduler graph order with
  | error e => simp [hs, bind, Except.bind] at h
  | ok s =>
    simp only [hs, bind, Except.bind] at h
    cases hl : probLoop prof accept gen timer fuel 0 (Loc.init s graph.length) rng with
    | error e => simp [hl] at h
    | ok x =>
      cases x with
      | none => simp [hl, pure, Except.pure] at h
      | some x =>
        obtain ⟨l, r⟩ := x
        simp only [hl] at h
        have hres := probLoop_reject ha _ _ _ _ _ _ rfl hl
        obtain ⟨o, p1, q1⟩ := postprocess_spec hashIter hh graph.length l.results
        rw [p1] at h
        simp only [pure, Except.pure, Except.ok.injEq, Option.some.injEq] at h
        subst h
        rw [hres] at q1
        apply List.eq_nil_iff_forall_not_mem.2
        intro p hp
        have := ((q1.mem p).1 hp).2.1
        simp [Loc.init, AMap.get_nil] at this

/-- Only results of one step. -/
def OneStep (m : MappedPaths) : Prop := ∀ t r, m.get t = some r → t = 1

/-- What is known about a task all of whose steps are rejected. -/
def Search.Threaded.TaskState.Rejecting : TaskState σ → Prop
  | .ready _ _ _ => True
  | .running l _ _ w => l.sweep.stack = [] ∧ l.results = [] ∧ (w = true → l.path.length = 1)
  | .finishing l => OneStep l.results
  | .done => True

theorem mergeLoop_oneStep : ∀ (s t : List Nat) (k : Nat) (new results : MappedPaths), OneStep new →
    OneStep results → OneStep (mergeLoop k s t new results).2
  | [], t, k, new, results, _, h => by cases t <;> simpa [mergeLoop] using h
  | a :: s, [], k, new, results, _, h => by simpa [mergeLoop] using h
  | a :: s, b :: t, k, new, results, hn, h => by
    simp only [mergeLoop]
    split
    · split
      · rename_i r hr
        apply mergeLoop_oneStep
        · intro t' r' h'
          rw [AMap.get_erase] at h'
          split at h'
          · cases h'
          · exact hn _ _ h'
        · intro t' r' h'
          rw [AMap.get_insert] at h'
          split at h'
          · rename_i e; subst e; exact hn _ _ hr
          · exact h _ _ h'
      · exact mergeLoop_oneStep _ _ _ _ _ hn h
    · exact mergeLoop_oneStep _ _ _ _ _ hn h

theorem rejecting_set {ts : List (TaskState σ)} {i : Nat} {t : TaskState σ}
    (h : ∀ t ∈ ts, t.Rejecting) (ht : t.Rejecting) : ∀ t' ∈ ts.set i t, t'.Rejecting := by
  intro t' h'
  rcases List.mem_or_eq_of_mem_set h' with h1 | rfl
  · exact h _ h1
  · exact ht

theorem move_reject {accept : Accept F} {gen : Rng F σ} (ha : AlwaysRejects accept gen)
    {prof : Profile} {g g' : Global σ} {i : Nat} {b : Bool} (hr : OneStep g.results)
    (ht : ∀ t ∈ g.tasks, t.Rejecting) (h : move (.prob accept gen) prof g i b = .ok g') :
    OneStep g'.results ∧ ∀ t ∈ g'.tasks, t.Rejecting := by
  unfold move at h
  cases hti : g.tasks[i]? with
  | none => simp only [hti, pure, Except.pure, Except.ok.injEq] at h; subst h; exact ⟨hr, ht⟩
  | some t =>
    have htn := ht t (List.mem_of_getElem? hti)
    simp only [hti] at h
    cases t with
    | ready s init rng =>
      simp only [pure, Except.pure, Except.ok.injEq] at h
      subst h
      refine ⟨hr, rejecting_set ht ⟨rfl, rfl, ?_⟩⟩
      cases init <;> simp [startLoc]
    | running loc rng counter wasInit =>
      obtain ⟨h1, h2, h3⟩ := htn
      simp only [modeIter, bind, Except.bind] at h
      cases hi : probIter prof accept gen loc rng with
      | error e => simp [hi] at h
      | ok x =>
        obtain ⟨l1, rng1, stop⟩ := x
        obtain ⟨k1, k2, k3, k4⟩ := probIter_reject ha h1 hi
        simp only [hi] at h
        split at h
        · split at h
          · cases h
          · rename_i l2 hl2
            simp only [pure, Except.pure, Except.ok.injEq] at h
            subst h
            refine ⟨hr, rejecting_set ht ?_⟩
            show OneStep l2.results
            unfold finishLoop at hl2
            split at hl2
            · rename_i hc
              simp only [backward] at hl2
              split at hl2
              · simp only [pure, Except.pure, Except.ok.injEq] at hl2
                subst hl2
                intro t r hg
                simp only [k4, h2, AMap.get_insert, AMap.get_nil] at hg
                split at hg
                · rename_i e
                  rw [e, k2]; exact h3 hc.2
                · cases hg
              · cases hl2
            · simp only [pure, Except.pure, Except.ok.injEq] at hl2
              subst hl2
              rw [k4, h2]
              intro t r hg
              simp [AMap.get_nil] at hg
        · split at h
          · split at h
            · simp only [pure, Except.pure, Except.ok.injEq] at h
              subst h
              refine ⟨hr, rejecting_set ht ?_⟩
              show OneStep l1.results
              rw [k4, h2]
              intro t r hg
              simp [AMap.get_nil] at hg
            · simp only [pure, Except.pure, Except.ok.injEq] at h
              subst h
              exact ⟨hr, rejecting_set ht ⟨k1, by simp [k4, h2], fun hw => by
                show l1.path.length = 1
                rw [k2]; exact h3 hw⟩⟩
          · simp only [pure, Except.pure, Except.ok.injEq] at h
            subst h
            exact ⟨hr, rejecting_set ht ⟨k1, by simp [k4, h2], fun hw => by rw [k2]; exact h3 hw⟩⟩
    | finishing loc =>
      simp only at h
      split at h
      · simp only [pure, Except.pure, Except.ok.injEq] at h
        subst h
        exact ⟨hr, rejecting_set ht trivial⟩
      · simp only [pure, Except.pure, Except.ok.injEq] at h
        subst h
        exact ⟨mergeLoop_oneStep _ _ _ _ _ htn hr, rejecting_set ht trivial⟩
    | done => simp only [pure, Except.pure, Except.ok.injEq] at h; subst h; exact ⟨hr, ht⟩

theorem runMoves_reject {accept : Accept F} {gen : Rng F σ} (ha : AlwaysRejects accept gen)
    {prof : Profile} (ms : List (Nat × Bool)) : ∀ {g g' : Global σ}, OneStep g.results →
    (∀ t ∈ g.tasks, t.Rejecting) → runMoves (.prob accept gen) prof g ms = .ok g' →
    OneStep g'.results := by
  induction ms with
  | nil =>
    intro g g' hr _ h
    simp only [runMoves, pure, Except.pure, Except.ok.injEq] at h
    subst h; exact hr
  | cons m ms ih =>
    intro g g' hr ht h
    simp only [runMoves, bind, Except.bind] at h
    cases hm : move (.prob accept gen) prof g m.1 m.2 with
    | error e => simp [hm] at h
    | ok g1 =>
      simp only [hm] at h
      obtain ⟨h1, h2⟩ := move_reject ha hr ht hm
      exact ih h1 h2 h

/-- A pool that rejects every step returns at most paths of one step: the first step of a task is not
subject to the accept function. -/
theorem searchThreaded_reject {accept : Accept F} {gen : Rng F σ} (ha : AlwaysRejects accept gen)
    {prof : Profile} {hashIter : MappedPaths → MappedPaths} (hh : ∀ m, (hashIter m).Perm m)
    {tb : Int} {seeds : Nat → σ} {ms : List (Nat × Bool)} {graph : List (List Nat)} {order : OrderGraph}
    {out : List Path}
    (h : searchThreaded (.prob accept gen) prof hashIter tb seeds ms graph order = .ok (some out)) :
    ∀ p ∈ out, p.time = 1 := by
  unfold searchThreaded at h
  cases hs : mkScheduler graph order with
  | error e => simp [hs, bind, Except.bind] at h
  | ok s =>
    simp only [hs, bind, Except.bind] at h
    cases hg : initGlobal prof tb seeds s graph.length with
    | error e => simp [hg] at h
    | ok g =>
      have hinit : g.results = [] ∧ ∀ t ∈ g.tasks, t.Rejecting := by
        unfold initGlobal spawn at hg
        cases hsp : spawnLoop prof tb (s.time.measurable.iter.length + 1) s 0 with
        | error e => simp [hsp, bind, Except.bind] at hg
        | ok x =>
          obtain ⟨ts, rest⟩ := x
          simp only [hsp, bind, Except.bind, pure, Except.pure, Except.ok.injEq] at hg
          subst hg
          refine ⟨rfl, ?_⟩
          intro t ht
          simp only [List.mem_append, List.mem_mapIdx, List.mem_singleton] at ht
          rcases ht with ⟨k, hk, rfl⟩ | rfl <;> trivial
      simp only [hg] at h
      cases hr : runMoves (.prob accept gen) prof g ms with
      | error e => simp [hr] at h
      | ok g' =>
        have h1 := runMoves_reject ha ms (by rw [hinit.1]; intro t r h; simp [AMap.get_nil] at h)
          hinit.2 hr
        simp only [hr] at h
        split at h
        · obtain ⟨o, p1, q1⟩ := postprocess_spec hashIter hh graph.length g'.results
          rw [p1] at h
          simp only [pure, Except.pure, Except.ok.injEq, Option.some.injEq] at h
          subst h
          intro p hp
          exact h1 _ _ ((q1.mem p).1 hp).2.1
        · simp [pure, Except.pure] at h

end Verif
