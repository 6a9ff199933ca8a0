import Verif.Model.Interface
/-!
# Model of searches with an accept function that has a state or fails

`Accept` (probabilistic.rs:22) is a `dyn Fn`: a closure with interior mutability can answer the same question differently
each time, and it can panic. A callback of the Python package is any object that can be called; it can raise, and it can
return something that is not a number (python_lib/rust/src/probabilistic.rs:133-156). In `Verif.Model.Search` accept
functions are functions. Here are the same loops with accept functions that have a state `ω` and can panic. In the thread
pool all tasks share the state, in the order of their moves.
-/

namespace Verif
namespace Search

/-- `Accept`, probabilistic.rs:22, with a state. -/
abbrev Callback (F ω : Type) := F → F → F → F → F → F → F → ω → R (F × ω)

section
variable {F σ ω : Type} [FloatOps F]

/-- `probabilistic_forward`, search.rs:282-318. -/
def probabilisticForwardS (cb : Callback F ω) (gen : Rng F σ) (measure : List Nat) (lastCurMem lastMaxMem : Nat) (s : Loc)
    (rng : σ) (w : ω) : R (Loc × σ × ω × Bool) := do
  let current := s.sweep.current
  let bound ← idx s.best (minimumPathLength current.time s.path)
  if current.space.maxMemory ≥ bound then
    match s.sweep.skipCurrent with
    | (sw, .error _) => pure ({ s with sweep := sw }, rng, w, true)
    | (sw, .ok ()) => pure ({ s with sweep := sw }, rng, w, false)
  else
    match s.best.getLast? with
    | none => .error .unwrapFailed
    | some minimal => do
      let (a, w) ← cb (FloatOps.ofUsize bound) (FloatOps.ofUsize minimal)
        (FloatOps.ofUsize lastMaxMem) (FloatOps.ofUsize lastCurMem)
        (FloatOps.ofUsize current.space.currentMemory)
        (FloatOps.ofUsize current.time.numRemainingNodes)
        (FloatOps.ofUsize current.space.nodes.length) w
      if FloatOps.geOne a then
        pure ({ s with path := s.path ++ [measure] }, rng, w, false)
      else
        let r := gen.sample rng
        if FloatOps.lt r.1 a then
          pure ({ s with path := s.path ++ [measure] }, r.2, w, false)
        else
          match s.sweep.skipCurrent with
          | (sw, .error _) => pure ({ s with sweep := sw }, r.2, w, true)
          | (sw, .ok ()) => pure ({ s with sweep := sw }, r.2, w, false)

/-- One iteration of the loop in `do_probabilistic_search`, search.rs:243-270, threaded.rs:259-288. -/
def probIterS (prof : Profile) (cb : Callback F ω) (gen : Rng F σ) (s : Loc) (rng : σ) (w : ω) :
    R (Loc × σ × ω × Bool) := do
  let lastCurMem := s.sweep.current.space.currentMemory
  let lastMaxMem := s.sweep.current.space.maxMemory
  let (sw, step) ← s.sweep.next (Scheduler.focusIter prof)
  match step with
  | none => pure ({ s with sweep := sw }, rng, w, true)
  | some (.forward measure) =>
    probabilisticForwardS cb gen measure lastCurMem lastMaxMem { s with sweep := sw } rng w
  | some (.backward leaf) => do
    let s' ← backward leaf { s with sweep := sw }
    pure (s', rng, w, false)

/-- The loop of `do_probabilistic_search`, search.rs:243-275. -/
def probLoopS (prof : Profile) (cb : Callback F ω) (gen : Rng F σ) (timer : Nat → Bool) :
    Nat → Nat → Loc → σ → ω → R (Option (Loc × σ × ω))
  | 0, _, _, _, _ => pure none
  | fuel + 1, k, s, rng, w => do
    let (s', rng', w', stop) ← probIterS prof cb gen s rng w
    if stop then pure (some (s', rng', w'))
    else if timer k then pure (some (s', rng', w'))
    else probLoopS prof cb gen timer fuel (k + 1) s' rng' w'

/-- `search` with `nthreads < 2`, search.rs:86-143, 226-278. -/
def searchProbS (prof : Profile) (hashIter : MappedPaths → MappedPaths) (cb : Callback F ω) (gen : Rng F σ) (rng : σ)
    (w : ω) (timer : Nat → Bool) (fuel : Nat) (spacialGraph : List (List Nat)) (timeOrdering : OrderGraph) :
    R (Option (List Path)) := do
  let scheduler ← mkScheduler spacialGraph timeOrdering
  match ← probLoopS prof cb gen timer fuel 0 (Loc.init scheduler spacialGraph.length) rng w with
  | none => pure none
  | some (s, _) => do
    let out ← postprocess hashIter spacialGraph.length s.results
    pure (some out)

namespace Threaded

/-- One move of task `i`, as `move`. -/
def moveS (cb : Callback F ω) (gen : Rng F σ) (prof : Profile) (g : Global σ) (w : ω) (i : Nat) (timerBit : Bool) :
    R (Global σ × ω) :=
  match g.tasks[i]? with
  | none => pure (g, w)
  | some (.ready sched init rng) =>
    let t : TaskState σ := .running (startLoc sched init g.best) rng 0 init.isSome
    pure ({ g with tasks := g.tasks.set i t }, w)
  | some (.running loc rng counter wasInit) => do
    let (loc', rng', w', stop) ← probIterS prof cb gen loc rng w
    if stop then
      let loc'' ← finishLoop loc' counter wasInit
      pure ({ g with tasks := g.tasks.set i (.finishing loc'') }, w')
    else if counter = updateInterval then
      let ex := exchange g.best loc'.best
      let loc'' := { loc' with best := ex.2 }
      if timerBit then
        pure ({ g with best := ex.1, tasks := g.tasks.set i (.finishing loc'') }, w')
      else
        pure ({ g with best := ex.1, tasks := g.tasks.set i (.running loc'' rng' 1 wasInit) }, w')
    else
      pure ({ g with tasks := g.tasks.set i (.running loc' rng' (counter + 1) wasInit) }, w')
  | some (.finishing loc) =>
    if loc.results.isEmpty then pure ({ g with tasks := g.tasks.set i .done }, w)
    else
      let r := mergeLoop 0 g.best loc.best loc.results g.results
      pure ({ best := r.1, results := r.2, tasks := g.tasks.set i .done }, w)
  | some .done => pure (g, w)

/-- A sequence of moves, as `runMoves`. -/
def runMovesS (cb : Callback F ω) (gen : Rng F σ) (prof : Profile) :
    Global σ → ω → List (Nat × Bool) → R (Global σ × ω)
  | g, w, [] => pure (g, w)
  | g, w, m :: ms => do
    let (g', w') ← moveS cb gen prof g w m.1 m.2
    runMovesS cb gen prof g' w' ms

/-- `search` with `nthreads ≥ 2`, as `searchThreaded`. A panic of a task ends its worker thread, and the pool panics when it
is joined at the end (`scoped_threadpool`); here the search panics at once. The callback is never called under a lock, so
no mutex is poisoned. -/
def searchThreadedS (cb : Callback F ω) (gen : Rng F σ) (w : ω) (prof : Profile)
    (hashIter : MappedPaths → MappedPaths) (taskBound : Int) (seeds : Nat → σ)
    (moves : List (Nat × Bool)) (spacialGraph : List (List Nat)) (timeOrdering : OrderGraph) :
    R (Option (List Path)) := do
  let scheduler ← mkScheduler spacialGraph timeOrdering
  let g ← initGlobal prof taskBound seeds scheduler spacialGraph.length
  let (g', _) ← runMovesS cb gen prof g w moves
  if g'.finished then do
    let out ← postprocess hashIter spacialGraph.length g'.results
    pure (some out)
  else pure none

end Threaded
end
end Search

open Search Search.Threaded

/-- `run`, interface.rs:71-92 (with `search`, search.rs:86-143), with the accept function `cb`, its state `w` and the seed
`seed` as `probabilistic`; the field `probabilistic` of `args` is not used. -/
def runS {F σ ω : Type} [FloatOps F] (env : Env F σ) (cb : Callback F ω) (w : ω) (seed : Option Nat)
    (spacialGraph : List (List Nat)) (timeOrdering : OrderGraph) (args : Args F) : R (Option (List Path)) :=
  if !args.doSearch then getTimeOptimal env.prof env.fuel spacialGraph timeOrdering
  else if args.nthreads < 2 then
    searchProbS env.prof env.hashIter cb env.gen (env.seedRng seed) w (fun k => args.timeout.isSome && env.timer k)
      env.fuel spacialGraph timeOrdering
  else
    searchThreadedS cb env.gen w env.prof env.hashIter ((args.taskBound.map fun b => (b : Int)).getD 100000)
      (env.taskRng seed) (env.moves.map fun m => (m.1, args.timeout.isSome && m.2)) spacialGraph timeOrdering

/-- What a Python callback does. -/
inductive PyAnswer (F : Type) where
  | number (x : F)
  /-- it raises, or returns something that cannot be converted to a `float` -/
  | failed

/-- A Python callback with the state of the interpreter. -/
abbrev PyCallback (F ω : Type) := F → F → F → F → F → F → F → ω → PyAnswer F × ω

/-- The closure in `AcceptFunc::to_real`, python_lib/rust/src/probabilistic.rs:129-157: `expect` panics if the call failed. -/
def PyCallback.toReal {F ω : Type} (func : PyCallback F ω) : Callback F ω :=
  fun boundBestMem minimalMem lastMaxMem lastCurMem curMem numRemainingNodes numTotalNodes w =>
    match func boundBestMem minimalMem lastMaxMem lastCurMem curMem numRemainingNodes numTotalNodes w with
    | (.number x, w) => .ok (x, w)
    | (.failed, _) => .error .unwrapFailed

end Verif
