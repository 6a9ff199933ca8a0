import Verif.Model.Callback
/-!
# Accept functions with a state as accept functions that follow a list of decisions
-/

namespace Verif.Callbacks

open Search Search.Threaded

/-- Numbers that only say whether a step is taken. -/
structure Decision where
  taken : Bool

instance : FloatOps Decision := ⟨fun _ => ⟨false⟩, fun _ => false, fun r _ => r.taken⟩

/-- The answer is left to the random number. -/
def follow : Accept Decision := fun _ _ _ _ _ _ _ => ⟨false⟩

/-- The random numbers are the decisions of a list. -/
def popGen : Rng Decision (Nat × List Bool) :=
  ⟨fun s => (⟨s.2.headD false⟩, (s.1, s.2.tail))⟩

variable {F σ ω : Type} [FloatOps F] {cb : Callback F ω} {gen : Rng F σ}

/-- The callback panics with `e`. -/
def Raises (cb : Callback F ω) (e : Panic) : Prop := ∃ a b c d e' f g w, cb a b c d e' f g w = .error e

/-- What a step with the callback means for the step with decisions. -/
def IterLift (cb : Callback F ω) (x : R (Loc × σ × ω × Bool)) (y : Nat × List Bool → R (Loc × (Nat × List Bool) × Bool)) :
    Prop :=
  match x with
  | .ok (l, _, _, stop) => ∃ ds : List Bool, ∀ n rest, y (n, ds ++ rest) = .ok (l, (n, rest), stop)
  | .error e => Raises cb e ∨ ∀ st, y st = .error e

theorem forward_lift (measure : List Nat) (lc lm : Nat) (s : Loc) (rng : σ) (w : ω) :
    IterLift cb (probabilisticForwardS cb gen measure lc lm s rng w)
      (probabilisticForward follow popGen measure lc lm s) := by
  unfold probabilisticForwardS probabilisticForward
  simp only [bind, Except.bind]
  cases hb : idx s.best (minimumPathLength s.sweep.current.time s.path) with
  | error e => exact Or.inr fun _ => rfl
  | ok bound =>
    simp only
    split
    · rename_i hge
      rcases hsk : s.sweep.skipCurrent with ⟨sw, r⟩
      cases r with
      | error u => exact ⟨[], fun n rest => rfl⟩
      | ok u => exact ⟨[], fun n rest => rfl⟩
    · cases hl : s.best.getLast? with
      | none => exact Or.inr fun _ => rfl
      | some minimal =>
        simp only
        split
        · rename_i e hcb
          exact Or.inl ⟨_, _, _, _, _, _, _, _, hcb⟩
        · rename_i v hcb
          obtain ⟨a, w'⟩ := v
          simp only
          split
          · exact ⟨[true], fun n rest => rfl⟩
          · split
            · exact ⟨[true], fun n rest => rfl⟩
            · rcases hsk : s.sweep.skipCurrent with ⟨sw, r⟩
              cases r with
              | error u => exact ⟨[false], fun n rest => rfl⟩
              | ok u => exact ⟨[false], fun n rest => rfl⟩

theorem iter_lift (prof : Profile) (s : Loc) (rng : σ) (w : ω) :
    IterLift cb (probIterS prof cb gen s rng w) (probIter prof follow popGen s) := by
  unfold probIterS probIter
  simp only [bind, Except.bind]
  cases hn : s.sweep.next (Scheduler.focusIter prof) with
  | error e => exact Or.inr fun _ => rfl
  | ok v =>
    obtain ⟨sw, step⟩ := v
    cases step with
    | none => exact ⟨[], fun n rest => rfl⟩
    | some st =>
      cases st with
      | forward m => exact forward_lift m _ _ _ rng w
      | backward leaf =>
        simp only
        cases hb : backward leaf { s with sweep := sw } with
        | error e => exact Or.inr fun _ => rfl
        | ok l => exact ⟨[], fun n rest => rfl⟩

theorem loop_lift (prof : Profile) (timer : Nat → Bool) (fuel : Nat) : ∀ k s (rng : σ) (w : ω),
    match probLoopS prof cb gen timer fuel k s rng w with
    | .ok none => ∃ ds : List Bool, ∀ n rest, probLoop prof follow popGen timer fuel k s (n, ds ++ rest) = .ok none
    | .ok (some (l, _, _)) =>
      ∃ ds : List Bool, ∀ n rest, probLoop prof follow popGen timer fuel k s (n, ds ++ rest) = .ok (some (l, (n, rest)))
    | .error e => Raises cb e ∨
        ∃ ds : List Bool, ∀ n rest, probLoop prof follow popGen timer fuel k s (n, ds ++ rest) = .error e := by
  induction fuel with
  | zero => intro k s rng w; exact ⟨[], fun _ _ => rfl⟩
  | succ fuel ih =>
    intro k s rng w
    have hi := iter_lift (cb := cb) (gen := gen) prof s rng w
    unfold probLoopS
    simp only [bind, Except.bind]
    cases hx : probIterS prof cb gen s rng w with
    | error e =>
      rw [hx] at hi
      simp only
      refine hi.imp id fun h => ⟨[], fun n rest => ?_⟩
      unfold probLoop
      simp only [bind, Except.bind, h]
    | ok v =>
      obtain ⟨l, rng', w', stop⟩ := v
      rw [hx] at hi
      obtain ⟨ds, hds⟩ := hi
      simp only
      by_cases hs : stop = true
      · rw [if_pos hs]
        refine ⟨ds, fun n rest => ?_⟩
        unfold probLoop
        simp only [bind, Except.bind, hds, hs, if_true, pure, Except.pure]
      · rw [if_neg hs]
        by_cases ht : timer k = true
        · rw [if_pos ht]
          refine ⟨ds, fun n rest => ?_⟩
          unfold probLoop
          simp only [bind, Except.bind, hds, hs, ht, if_true, pure, Except.pure, Bool.false_eq_true, if_false]
        · rw [if_neg ht]
          have h := ih (k + 1) l rng' w'
          have key : ∀ ds' n rest, probLoop prof follow popGen timer (fuel + 1) k s (n, (ds ++ ds') ++ rest) =
              probLoop prof follow popGen timer fuel (k + 1) l (n, ds' ++ rest) := by
            intro ds' n rest
            rw [probLoop.eq_2]
            simp only [bind, Except.bind, List.append_assoc, hds, hs, ht, Bool.false_eq_true, if_false]
          split
          · rename_i e
            rw [e] at h
            obtain ⟨ds', h⟩ := h
            exact ⟨ds ++ ds', fun n rest => (key ds' n rest).trans (h n rest)⟩
          · rename_i e
            rw [e] at h
            obtain ⟨ds', h⟩ := h
            exact ⟨ds ++ ds', fun n rest => (key ds' n rest).trans (h n rest)⟩
          · rename_i e
            rw [e] at h
            refine h.imp id ?_
            rintro ⟨ds', h⟩
            exact ⟨ds ++ ds', fun n rest => (key ds' n rest).trans (h n rest)⟩

theorem searchProbS_lift (prof : Profile) (hashIter : MappedPaths → MappedPaths) (rng : σ) (w : ω) (timer : Nat → Bool)
    (fuel : Nat) (L : List (List Nat)) (o : OrderGraph) :
    (∃ ds : List Bool, ∀ n, searchProbS prof hashIter cb gen rng w timer fuel L o =
      searchProb prof hashIter follow popGen (n, ds) timer fuel L o) ∨
    ∃ e, searchProbS prof hashIter cb gen rng w timer fuel L o = .error e ∧ Raises cb e := by
  unfold searchProbS searchProb doProbabilisticSearch
  simp only [bind, Except.bind]
  cases hm : mkScheduler L o with
  | error e => exact Or.inl ⟨[], fun _ => rfl⟩
  | ok s =>
    simp only
    have h := loop_lift (cb := cb) (gen := gen) prof timer fuel 0 (Loc.init s L.length) rng w
    split at h
    · rename_i e
      obtain ⟨ds, h⟩ := h
      refine Or.inl ⟨ds, fun n => ?_⟩
      have := h n []
      rw [List.append_nil] at this
      rw [e, this]
    · rename_i e
      obtain ⟨ds, h⟩ := h
      refine Or.inl ⟨ds, fun n => ?_⟩
      have := h n []
      rw [List.append_nil] at this
      rw [e, this]
    · rename_i e heq
      rcases h with h | ⟨ds, h⟩
      · exact Or.inr ⟨e, by rw [heq], h⟩
      · refine Or.inl ⟨ds, fun n => ?_⟩
        have := h n []
        rw [List.append_nil] at this
        rw [heq, this]

/-! ### The thread pool -/

/-- A task with decisions instead of random numbers. -/
def task (ds : List Bool) : TaskState σ → TaskState (Nat × List Bool)
  | .ready s i _ => .ready s i (0, ds)
  | .running l _ c b => .running l (0, ds) c b
  | .finishing l => .finishing l
  | .done => .done

/-- All tasks. -/
def pool (ds : Nat → List Bool) (g : Global σ) : Global (Nat × List Bool) :=
  ⟨g.best, g.results, g.tasks.mapIdx fun i t => task (ds i) t⟩

theorem pool_get (ds : Nat → List Bool) (g : Global σ) (i : Nat) :
    (pool ds g).tasks[i]? = g.tasks[i]?.map (task (ds i)) := by
  simp [pool]

theorem pool_set (ds : Nat → List Bool) (ts : List (TaskState σ)) (i : Nat) (t : TaskState σ) (d : List Bool) :
    (ts.mapIdx fun j x => task (if j = i then d else ds j) x).set i (task (ds i) t) =
      (ts.set i t).mapIdx fun j x => task (ds j) x := by
  apply List.ext_getElem?
  intro j
  simp only [List.getElem?_set, List.getElem?_mapIdx, List.length_mapIdx]
  by_cases h : i = j
  · subst h
    by_cases hl : i < ts.length <;> simp [hl]
  · have h' : ¬ j = i := fun e => h e.symm
    simp [h, h']

theorem move_lift (prof : Profile) (g : Global σ) (w : ω) (i : Nat) (bit : Bool) :
    match moveS cb gen prof g w i bit with
    | .ok (g', _) => ∃ d : List Bool, ∀ ds : Nat → List Bool,
        move (.prob follow popGen) prof (pool (fun j => if j = i then d ++ ds i else ds j) g) i bit = .ok (pool ds g')
    | .error e => Raises cb e ∨ ∃ d : List Bool, ∀ ds : Nat → List Bool,
        move (.prob follow popGen) prof (pool (fun j => if j = i then d ++ ds i else ds j) g) i bit = .error e := by
  have hpool : ∀ (ds : Nat → List Bool), (fun j => if j = i then [] ++ ds i else ds j) = ds := by
    intro ds
    funext j
    by_cases h : j = i
    · subst h; simp
    · simp [h]
  unfold moveS
  cases ht : g.tasks[i]? with
  | none =>
    refine ⟨[], fun ds => ?_⟩
    rw [hpool]
    unfold move
    rw [pool_get, ht]
    rfl
  | some t =>
    cases t with
    | ready sched init rng =>
      refine ⟨[], fun ds => ?_⟩
      unfold move
      rw [pool_get, ht]
      simp only [Option.map_some, task, if_true, List.nil_append]
      have := pool_set ds g.tasks i (.running (startLoc sched init g.best) rng 0 init.isSome) (ds i)
      simp only [pool, pure, Except.pure]
      rw [← this]
      rfl
    | done =>
      refine ⟨[], fun ds => ?_⟩
      rw [hpool]
      unfold move
      rw [pool_get, ht]
      rfl
    | finishing loc =>
      simp only
      by_cases hr : loc.results.isEmpty = true
      · rw [if_pos hr]
        refine ⟨[], fun ds => ?_⟩
        unfold move
        rw [pool_get, ht]
        simp only [Option.map_some, task, if_true, List.nil_append]
        rw [if_pos hr]
        have := pool_set ds g.tasks i .done (ds i)
        simp only [pool, pure, Except.pure]
        rw [← this]
        rfl
      · rw [if_neg hr]
        refine ⟨[], fun ds => ?_⟩
        unfold move
        rw [pool_get, ht]
        simp only [Option.map_some, task, if_true, List.nil_append]
        rw [if_neg hr]
        have := pool_set ds g.tasks i .done (ds i)
        simp only [pool, pure, Except.pure]
        rw [← this]
        rfl
    | running loc rng counter wasInit =>
      have hi := iter_lift (cb := cb) (gen := gen) prof loc rng w
      simp only [bind, Except.bind]
      cases hx : probIterS prof cb gen loc rng w with
      | error e =>
        rw [hx] at hi
        simp only
        refine hi.imp id fun h => ⟨[], fun ds => ?_⟩
        unfold move
        rw [pool_get, ht]
        simp only [Option.map_some, task, modeIter, bind, Except.bind, h]
      | ok v =>
        obtain ⟨l, rng', w', stop⟩ := v
        rw [hx] at hi
        obtain ⟨d, hd⟩ := hi
        simp only
        have hstep : ∀ ds : Nat → List Bool,
            modeIter (.prob follow popGen) prof loc (0, d ++ ds i) = .ok (l, (0, ds i), stop) := fun ds => hd 0 (ds i)
        by_cases hs : stop = true
        · rw [if_pos hs]
          cases hf : finishLoop l counter wasInit with
          | error e =>
            simp only
            refine Or.inr ⟨d, fun ds => ?_⟩
            unfold move
            rw [pool_get, ht]
            simp only [Option.map_some, task, if_true, bind, Except.bind, hstep, hs, hf]
          | ok l' =>
            simp only [pure, Except.pure]
            refine ⟨d, fun ds => ?_⟩
            unfold move
            rw [pool_get, ht]
            simp only [Option.map_some, task, if_true, bind, Except.bind, hstep, hs, hf]
            have := pool_set ds g.tasks i (.finishing l') (d ++ ds i)
            simp only [pool, pure, Except.pure]
            rw [← this]
            rfl
        · rw [if_neg hs]
          by_cases hc : counter = updateInterval
          · rw [if_pos hc]
            by_cases hb : bit = true
            · rw [if_pos hb]
              refine ⟨d, fun ds => ?_⟩
              unfold move
              rw [pool_get, ht]
              simp only [Option.map_some, task, if_true, bind, Except.bind, hstep, hs, Bool.false_eq_true, if_false, hc, hb]
              have := pool_set ds g.tasks i (.finishing { l with best := (exchange g.best l.best).2 }) (d ++ ds i)
              simp only [pool, pure, Except.pure]
              rw [← this]
              rfl
            · rw [if_neg hb]
              refine ⟨d, fun ds => ?_⟩
              unfold move
              rw [pool_get, ht]
              simp only [Option.map_some, task, if_true, bind, Except.bind, hstep, hs, Bool.false_eq_true, if_false, hc, hb]
              have := pool_set ds g.tasks i (.running { l with best := (exchange g.best l.best).2 } rng' 1 wasInit) (d ++ ds i)
              simp only [pool, pure, Except.pure]
              rw [← this]
              rfl
          · rw [if_neg hc]
            refine ⟨d, fun ds => ?_⟩
            unfold move
            rw [pool_get, ht]
            simp only [Option.map_some, task, if_true, bind, Except.bind, hstep, hs, Bool.false_eq_true, if_false, hc]
            have := pool_set ds g.tasks i (.running l rng' (counter + 1) wasInit) (d ++ ds i)
            simp only [pool, pure, Except.pure]
            rw [← this]
            rfl

theorem runMoves_lift (prof : Profile) (ms : List (Nat × Bool)) : ∀ (g : Global σ) (w : ω),
    match runMovesS cb gen prof g w ms with
    | .ok (g', _) => ∃ ds : Nat → List Bool,
        runMoves (.prob follow popGen) prof (pool ds g) ms = .ok (pool (fun _ => []) g')
    | .error e => Raises cb e ∨ ∃ ds : Nat → List Bool,
        runMoves (.prob follow popGen) prof (pool ds g) ms = .error e := by
  induction ms with
  | nil => intro g w; exact ⟨fun _ => [], rfl⟩
  | cons m ms ih =>
    intro g w
    have hm := move_lift (cb := cb) (gen := gen) prof g w m.1 m.2
    unfold runMovesS
    simp only [bind, Except.bind]
    cases hx : moveS cb gen prof g w m.1 m.2 with
    | error e =>
      rw [hx] at hm
      simp only
      refine hm.imp id ?_
      rintro ⟨d, h⟩
      refine ⟨fun j => if j = m.1 then d ++ [] else [], ?_⟩
      rw [runMoves.eq_2, h fun _ => []]
      rfl
    | ok v =>
      obtain ⟨g1, w1⟩ := v
      rw [hx] at hm
      obtain ⟨d, hd⟩ := hm
      have h := ih g1 w1
      have key : ∀ ds, runMoves (.prob follow popGen) prof (pool (fun j => if j = m.1 then d ++ ds m.1 else ds j) g) (m :: ms) =
          runMoves (.prob follow popGen) prof (pool ds g1) ms := by
        intro ds
        rw [runMoves.eq_2, hd ds]
        rfl
      simp only
      split
      · rename_i e
        rw [e] at h
        obtain ⟨ds, h⟩ := h
        exact ⟨_, (key ds).trans h⟩
      · rename_i e
        rw [e] at h
        refine h.imp id ?_
        rintro ⟨ds, h⟩
        exact ⟨_, (key ds).trans h⟩

theorem pool_finished (ds : Nat → List Bool) (g : Global σ) : (pool ds g).finished = g.finished := by
  obtain ⟨best, results, ts⟩ := g
  unfold pool Global.finished
  simp only
  induction ts generalizing ds with
  | nil => rfl
  | cons t ts ih =>
    rw [List.mapIdx_cons, List.all_cons, List.all_cons, ih fun i => ds (i + 1)]
    cases t <;> rfl

theorem initGlobal_pool (prof : Profile) (tb : Int) (seeds : Nat → σ) (ds : Nat → List Bool) (s : Scheduler Partitioner)
    (n : Nat) : initGlobal prof tb (fun k => ((0, ds k) : Nat × List Bool)) s n =
      (initGlobal prof tb seeds s n).map (pool ds) := by
  unfold initGlobal spawn
  simp only [bind, Except.bind]
  cases spawnLoop prof tb (s.time.measurable.iter.length + 1) s 0 with
  | error e => rfl
  | ok v =>
    obtain ⟨ts, rest⟩ := v
    simp only [pure, Except.pure, Except.map, pool, Except.ok.injEq, Global.mk.injEq, true_and]
    apply List.ext_getElem?
    intro i
    simp only [List.getElem?_mapIdx, List.getElem?_append, List.length_mapIdx]
    split
    · rename_i hi
      simp [hi, task]
    · rename_i hi
      by_cases h : i = ts.length
      · subst h
        simp [task]
      · have h1 : ∃ k, i - ts.length = k + 1 := ⟨i - ts.length - 1, by omega⟩
        obtain ⟨k, hk⟩ := h1
        simp [hk]

theorem searchThreadedS_lift (w : ω) (prof : Profile) (hashIter : MappedPaths → MappedPaths) (tb : Int) (seeds : Nat → σ)
    (moves : List (Nat × Bool)) (L : List (List Nat)) (o : OrderGraph) :
    (∃ ds : Nat → List Bool, searchThreadedS cb gen w prof hashIter tb seeds moves L o =
      searchThreaded (.prob follow popGen) prof hashIter tb (fun k => (0, ds k)) moves L o) ∨
    ∃ e, searchThreadedS cb gen w prof hashIter tb seeds moves L o = .error e ∧ Raises cb e := by
  unfold searchThreadedS searchThreaded
  simp only [bind, Except.bind]
  cases hm : mkScheduler L o with
  | error e => exact Or.inl ⟨fun _ => [], rfl⟩
  | ok s =>
    simp only [initGlobal_pool prof tb seeds]
    cases hi : initGlobal prof tb seeds s L.length with
    | error e => exact Or.inl ⟨fun _ => [], rfl⟩
    | ok g =>
      simp only [Except.map]
      have h := runMoves_lift (cb := cb) (gen := gen) prof moves g w
      cases hx : runMovesS cb gen prof g w moves with
      | error e =>
        rw [hx] at h
        rcases h with h | ⟨ds, h⟩
        · exact Or.inr ⟨e, rfl, h⟩
        · exact Or.inl ⟨ds, by rw [h]⟩
      | ok v =>
        obtain ⟨g', w'⟩ := v
        rw [hx] at h
        obtain ⟨ds, h⟩ := h
        refine Or.inl ⟨ds, ?_⟩
        rw [h]
        simp only [pool_finished]
        rfl

/-- The environment with decisions instead of random numbers. -/
def decided (env : Env F σ) (dec : Option Nat → List Bool) : Env Decision (Nat × List Bool) where
  prof := env.prof
  hashIter := env.hashIter
  timer := env.timer
  seedRng := fun o => (0, dec o)
  gen := popGen
  drawSeed := fun s => (s.1, (s.1 + 1, s.2))
  moves := env.moves
  fuel := env.fuel

theorem taskSeed_decided (k : Nat) : ∀ (n : Nat) (l : List Bool),
    taskSeed (fun s : Nat × List Bool => (s.1, (s.1 + 1, s.2))) k (n, l) = n + k := by
  induction k with
  | zero => intro n l; rfl
  | succ k ih => intro n l; rw [taskSeed, ih]; omega

omit [FloatOps F] in
theorem taskRng_decided (env : Env F σ) (dec : Option Nat → List Bool) (seed : Option Nat) (k : Nat) :
    (decided env dec).taskRng seed k = (0, dec (some k)) := by
  unfold Env.taskRng
  simp only [decided, taskSeed_decided, Nat.zero_add]

theorem runS_lift (env : Env F σ) (cb : Callback F ω) (w : ω) (seed : Option Nat) (L : List (List Nat)) (o : OrderGraph)
    (args : Args F) :
    (∃ dec : Option Nat → List Bool, runS env cb w seed L o args = run (decided env dec) L o
      { doSearch := args.doSearch, timeout := args.timeout, nthreads := args.nthreads, taskBound := args.taskBound
        probabilistic := some (follow, seed) }) ∨
    ∃ e, runS env cb w seed L o args = .error e ∧ Raises cb e := by
  unfold runS run
  by_cases hd : args.doSearch = true
  · simp only [hd, Bool.not_true, Bool.false_eq_true, if_false]
    unfold search
    by_cases hn : args.nthreads < 2
    · simp only [hn, if_true]
      rcases searchProbS_lift (cb := cb) (gen := env.gen) env.prof env.hashIter (env.seedRng seed) w
        (fun k => args.timeout.isSome && env.timer k) env.fuel L o with ⟨ds, h⟩ | h
      · exact Or.inl ⟨fun _ => ds, h 0⟩
      · exact Or.inr h
    · simp only [hn, if_false]
      rcases searchThreadedS_lift (cb := cb) (gen := env.gen) w env.prof env.hashIter
        ((args.taskBound.map fun b => (b : Int)).getD 100000) (env.taskRng seed)
        (env.moves.map fun m => (m.1, args.timeout.isSome && m.2)) L o with ⟨ds, h⟩ | h
      · refine Or.inl ⟨fun o => ds (o.getD 0), ?_⟩
        rw [h]
        have : (decided env fun o => ds (o.getD 0)).taskRng seed = fun k => (0, ds k) := by
          funext k
          rw [taskRng_decided]
          rfl
        rw [this]
        rfl
      · exact Or.inr h
  · simp only [hd, Bool.not_false, if_true]
    exact Or.inl ⟨fun _ => [], rfl⟩

end Verif.Callbacks
