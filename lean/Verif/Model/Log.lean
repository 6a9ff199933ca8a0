import Verif.Model.Interface
/-!
# Model of the debug log of the thread pool, `mbqc_scheduling/src/search/threaded.rs`

Every task writes a line `DONE: results …; best_memory …` (threaded.rs:135) after its search and before
it locks the shared state, and a line `START: measure …; best_memory …` (threaded.rs:117-121) before the search. Of the
latter only the field `measure` is modelled, not the table. The notice about a timeout (threaded.rs:225, 290) is not
modelled. Whether a line reaches the user depends on the
subscriber, the level and the feature `no_release_log` (Cargo.toml:6-8), none of which is modelled.
-/

namespace Verif

open Search Search.Threaded

/-- A line `DONE`, threaded.rs:115, 135: the field `ntasks` of the span, `new_results` and `this_best_mem`. -/
structure DoneLine where
  ntasks : Int
  results : MappedPaths
  best : List Nat

/-- What task `i` out of `n` writes in a move that leads from `before` to `after`, threaded.rs:123-135. The tasks are
numbered in the order in which they are started (threaded.rs:78, 84), the last one has the number `-1`
(threaded.rs:98). -/
def doneLine {σ : Type} (n i : Nat) : Option (TaskState σ) → Option (TaskState σ) → List DoneLine
  | some (.running _ _ _ _), some (.finishing loc) =>
    [⟨if i + 1 = n then -1 else (i : Int), loc.results, loc.best⟩]
  | _, _ => []

/-- `runMoves` together with the lines that are written. Lines of different tasks are listed in the order of the moves;
since a line is written outside of the mutexes the order in the log may be another one. -/
def logMoves {F σ : Type} [FloatOps F] (mode : Mode F σ) (prof : Profile) :
    Global σ → List (Nat × Bool) → R (Global σ × List DoneLine)
  | g, [] => pure (g, [])
  | g, m :: ms => do
    let g' ← move mode prof g m.1 m.2
    let r ← logMoves mode prof g' ms
    pure (r.1, doneLine g.tasks.length m.1 g.tasks[m.1]? g'.tasks[m.1]? ++ r.2)

/-- The log of `threaded::search`, threaded.rs:35-103, as in `searchThreaded`. -/
def logThreaded {F σ : Type} [FloatOps F] (mode : Mode F σ) (prof : Profile) (taskBound : Int) (seeds : Nat → σ)
    (moves : List (Nat × Bool)) (spacialGraph : List (List Nat)) (timeOrdering : OrderGraph) : R (List DoneLine) := do
  let scheduler ← mkScheduler spacialGraph timeOrdering
  let g ← initGlobal prof taskBound seeds scheduler spacialGraph.length
  let r ← logMoves mode prof g moves
  pure r.2

/-- The lines `DONE` that a call of `run` (interface.rs:71-92, search.rs:103-126) writes. Without threads there are
none. -/
def debugLog {F σ : Type} [FloatOps F] (env : Env F σ) (spacialGraph : List (List Nat))
    (timeOrdering : OrderGraph) (args : Args F) : R (List DoneLine) :=
  let taskBound := (args.taskBound.map fun b => (b : Int)).getD 100000
  let moves := env.moves.map fun m => (m.1, args.timeout.isSome && m.2)
  if !args.doSearch || args.nthreads < 2 then pure []
  else
    match args.probabilistic with
    | some (accept, seed) =>
      logThreaded (.prob accept env.gen) env.prof taskBound (env.taskRng seed) moves spacialGraph timeOrdering
    | none =>
      logThreaded (.det : Mode F σ) env.prof taskBound (env.taskRng none) moves spacialGraph timeOrdering

/-- A line `START`, threaded.rs:115-121: the field `ntasks` of the span and `measure`. -/
structure StartLine where
  ntasks : Int
  measure : Option (List Nat)

/-- What task `i` out of `n` writes at its start, threaded.rs:111, 117-121; the numbers are those of `doneLine`. It is
only used for tasks that have not begun. -/
def startLine {σ : Type} (n i : Nat) : TaskState σ → StartLine
  | .ready _ init _ => ⟨if i + 1 = n then -1 else (i : Int), init⟩
  | _ => ⟨if i + 1 = n then -1 else (i : Int), none⟩

/-- The lines `START` of `threaded::search`, threaded.rs:66-100, in the order in which the tasks are submitted. -/
def startThreaded {σ : Type} (prof : Profile) (taskBound : Int) (seeds : Nat → σ)
    (spacialGraph : List (List Nat)) (timeOrdering : OrderGraph) : R (List StartLine) := do
  let scheduler ← mkScheduler spacialGraph timeOrdering
  let g ← initGlobal prof taskBound seeds scheduler spacialGraph.length
  pure (g.tasks.mapIdx (startLine g.tasks.length))

/-- The lines `START` that a call of `run` (interface.rs:71-92, search.rs:103-126) writes until all tasks have begun. -/
def startLog {F σ : Type} (env : Env F σ) (spacialGraph : List (List Nat))
    (timeOrdering : OrderGraph) (args : Args F) : R (List StartLine) :=
  let taskBound := (args.taskBound.map fun b => (b : Int)).getD 100000
  if !args.doSearch || args.nthreads < 2 then pure []
  else startThreaded env.prof taskBound (env.taskRng (args.probabilistic.bind (·.2))) spacialGraph timeOrdering

end Verif
