import Verif.Model.Search
/-!
# Model of `mbqc_scheduling/src/search/threaded.rs`

The thread pool is modelled as a transition system: the shared `best_memory` and `results` and one
state per task. A move of a task is one of: start (copy the shared `best_memory`), one iteration of
its loop including the call of `update`, the final merge. Every move touches the shared state at
most once and does so under the mutex, so moves are atomic. Any task may move at any time: this
covers every number of threads and every interleaving the pool can produce.
-/

namespace Verif
namespace Search

/-- Deterministic or probabilistic search (`probabilistic: Option<(&Accept, u64)>`). -/
inductive Mode (F σ : Type) where
  | det
  | prob (accept : Accept F) (gen : Rng F σ)

/-- One iteration of the search loop in the given mode (`do_search` search.rs:155-165 /
threaded.rs:203-223, `do_probabilistic_search` search.rs:243-270 / threaded.rs:259-288). -/
def modeIter {F σ : Type} [FloatOps F] (mode : Mode F σ) (prof : Profile) (s : Loc) (rng : σ) :
    R (Loc × σ × Bool) :=
  match mode with
  | .det => do
    let (s', stop) ← searchIter prof s
    pure (s', rng, stop)
  | .prob accept gen => probIter prof accept gen s rng

namespace Threaded

/-- `UPDATE_INTERVAL`, threaded.rs:33. -/
def updateInterval : Nat := 1000

/-- The pointwise exchange in `update`, threaded.rs:169-178: new shared and new local values. -/
def exchange : List Nat → List Nat → List Nat × List Nat
  | s :: ss, t :: ts =>
    let r := exchange ss ts
    if t > s then (s :: r.1, s :: r.2)
    else if t < s then (t :: r.1, t :: r.2)
    else (s :: r.1, t :: r.2)
  | ss, ts => (ss, ts)

/-- The loop of the final merge in `task`, threaded.rs:144-157, from index `time` on: the new shared
`best_memory` entries and the new shared `results`. -/
def mergeLoop : Nat → List Nat → List Nat → MappedPaths → MappedPaths → List Nat × MappedPaths
  | time, s :: ss, t :: ts, new, results =>
    if s ≥ t then
      match new.get time with
      | some r =>
        let rest := mergeLoop (time + 1) ss ts (new.erase time) (results.insert time r)
        (t :: rest.1, rest.2)
      | none =>
        let rest := mergeLoop (time + 1) ss ts new results
        (t :: rest.1, rest.2)
    else
      let rest := mergeLoop (time + 1) ss ts new results
      (s :: rest.1, rest.2)
  | _, ss, _, _, results => (ss, results)

/-- The state of one task. -/
inductive TaskState (σ : Type) where
  /-- `scope.execute`d but not running yet: scheduler, first measurement, RNG seed. -/
  | ready (sched : Scheduler Partitioner) (init : Option (List Nat)) (rng : σ)
  /-- Inside the loop of `do_search` / `do_probabilistic_search`. -/
  | running (loc : Loc) (rng : σ) (counter : Nat) (wasInit : Bool)
  /-- The search function has returned `(loc.results, loc.best)`; the merge is pending. -/
  | finishing (loc : Loc)
  /-- `task` has returned. -/
  | done

/-- The whole pool: the two mutexes' contents and the tasks. -/
structure Global (σ : Type) where
  best : List Nat
  results : MappedPaths
  tasks : List (TaskState σ)

/-- The code after the loop, threaded.rs:230-237 / 298-305. -/
def finishLoop (loc : Loc) (counter : Nat) (wasInit : Bool) : R Loc :=
  if counter = 0 ∧ wasInit = true then
    backward (some loc.sweep.current.space.maxMemory) loc
  else pure loc

/-- The local variables at the start of a task, threaded.rs:193-201 / 249-254. -/
def startLoc (sched : Scheduler Partitioner) (init : Option (List Nat)) (best : List Nat) : Loc :=
  ⟨Sweep.new sched, match init with | some m => [m] | none => [], best, []⟩

/-- One move of task `i`. `timerBit` is the answer of `timer.finished()` should this move ask. -/
def move {F σ : Type} [FloatOps F] (mode : Mode F σ) (prof : Profile) (g : Global σ)
    (i : Nat) (timerBit : Bool) : R (Global σ) :=
  match g.tasks[i]? with
  | none => pure g
  | some (.ready sched init rng) =>
    let t : TaskState σ := .running (startLoc sched init g.best) rng 0 init.isSome
    pure { g with tasks := g.tasks.set i t }
  | some (.running loc rng counter wasInit) => do
    let (loc', rng', stop) ← modeIter mode prof loc rng
    if stop then
      let loc'' ← finishLoop loc' counter wasInit
      pure { g with tasks := g.tasks.set i (.finishing loc'') }
    else if counter = updateInterval then
      let ex := exchange g.best loc'.best
      let loc'' := { loc' with best := ex.2 }
      if timerBit then
        pure { g with best := ex.1, tasks := g.tasks.set i (.finishing loc'') }
      else
        pure { g with best := ex.1, tasks := g.tasks.set i (.running loc'' rng' 1 wasInit) }
    else
      pure { g with tasks := g.tasks.set i (.running loc' rng' (counter + 1) wasInit) }
  | some (.finishing loc) =>
    if loc.results.isEmpty then pure { g with tasks := g.tasks.set i .done }
    else
      let r := mergeLoop 0 g.best loc.best loc.results g.results
      pure { best := r.1, results := r.2, tasks := g.tasks.set i .done }
  | some .done => pure g

/-- A sequence of moves: which task moves and what the timer answers. -/
def runMoves {F σ : Type} [FloatOps F] (mode : Mode F σ) (prof : Profile) :
    Global σ → List (Nat × Bool) → R (Global σ)
  | g, [] => pure g
  | g, m :: ms => do
    let g' ← move mode prof g m.1 m.2
    runMoves mode prof g' ms

/-- The spawning loop, threaded.rs:66-88: the tasks with their first measurement, and the root
scheduler afterwards. `fuel` only makes the recursion structural; `spawn` passes enough. -/
def spawnLoop (prof : Profile) (taskBound : Int) :
    Nat → Scheduler Partitioner → Int →
      R (List (Scheduler Partitioner × List Nat) × Scheduler Partitioner)
  | 0, s, _ => pure ([], s)
  | fuel + 1, s, ntasks => do
    let (s', r) ← s.nextAndFocus prof
    match r with
    | none => pure ([], s')
    | some (focused, measure) =>
      if ntasks + 1 = taskBound then pure ([(focused, measure)], s')
      else do
        let (ts, s'') ← spawnLoop prof taskBound fuel s' (ntasks + 1)
        pure ((focused, measure) :: ts, s'')

/-- All tasks of `threaded::search`, threaded.rs:60-100: one per spawned first measurement and
the task for the rest. `seeds k` is the RNG seeded for task `k`. -/
def spawn {σ : Type} (prof : Profile) (taskBound : Int) (seeds : Nat → σ)
    (s : Scheduler Partitioner) : R (List (TaskState σ)) := do
  let (ts, rest) ← spawnLoop prof taskBound (s.time.measurable.iter.length + 1) s 0
  pure ((ts.mapIdx fun k t => .ready t.1 (some t.2) (seeds k))
    ++ [.ready rest none (seeds ts.length)])

/-- The pool right after spawning, threaded.rs:45-46, 60-100. -/
def initGlobal {σ : Type} (prof : Profile) (taskBound : Int) (seeds : Nat → σ)
    (s : Scheduler Partitioner) (numBits : Nat) : R (Global σ) := do
  let tasks ← spawn prof taskBound seeds s
  pure ⟨List.replicate (numBits + 1) usizeMax, [], tasks⟩

/-- All tasks have returned (`pool.scoped` waits for this). -/
def Global.finished {σ : Type} (g : Global σ) : Bool :=
  g.tasks.all fun t => match t with | .done => true | _ => false

/-- `search` with `nthreads ≥ 2`, search.rs:86-143 and threaded.rs:35-103, for the interleaving
`moves`. `none`: the moves do not complete all tasks. -/
def searchThreaded {F σ : Type} [FloatOps F] (mode : Mode F σ) (prof : Profile)
    (hashIter : MappedPaths → MappedPaths) (taskBound : Int) (seeds : Nat → σ)
    (moves : List (Nat × Bool)) (spacialGraph : List (List Nat)) (timeOrdering : OrderGraph) :
    R (Option (List Path)) := do
  let scheduler ← mkScheduler spacialGraph timeOrdering
  let g ← initGlobal prof taskBound seeds scheduler spacialGraph.length
  let g' ← runMoves mode prof g moves
  if g'.finished then do
    let out ← postprocess hashIter spacialGraph.length g'.results
    pure (some out)
  else pure none

end Threaded
end Search
end Verif
