import Verif.Model.Interface
/-!
# The thread pool with a fixed number of workers

`Model/Threaded.lean` lets any task move at any time. `scoped_threadpool::Pool::new(nthreads)` (threaded.rs:44) has
`nthreads` workers. A worker takes the next job from one queue, in the order of `scope.execute` (threaded.rs:73, 97), and
works on it until it returns.
-/

namespace Verif
namespace Search.Threaded

/-- `task` has returned. -/
def TaskState.isDone {σ : Type} : TaskState σ → Bool
  | .done => true
  | _ => false

/-- Whether a worker can be working on task `i`. The jobs before `i` in the queue have been taken before `i`, so each of
them has returned or occupies one of the other workers. -/
def hasWorker {σ : Type} (nthreads : Nat) (tasks : List (TaskState σ)) (i : Nat) : Bool :=
  decide (((tasks.take i).filter fun t => !t.isDone).length < nthreads)

/-- Whether a pool with `nthreads` workers can make these moves from this state. -/
def possibleMoves {F σ : Type} [FloatOps F] (mode : Mode F σ) (prof : Profile) (nthreads : Nat) :
    Global σ → List (Nat × Bool) → R Bool
  | _, [] => pure true
  | g, m :: ms =>
    if hasWorker nthreads g.tasks m.1 then do
      let g' ← move mode prof g m.1 m.2
      possibleMoves mode prof nthreads g' ms
    else pure false

/-- `possibleMoves` from the state after spawning, as in `searchThreaded`. -/
def possibleThreaded {F σ : Type} [FloatOps F] (mode : Mode F σ) (prof : Profile) (nthreads : Nat) (taskBound : Int)
    (seeds : Nat → σ) (moves : List (Nat × Bool)) (spacialGraph : List (List Nat)) (timeOrdering : OrderGraph) :
    R Bool := do
  let scheduler ← mkScheduler spacialGraph timeOrdering
  let g ← initGlobal prof taskBound seeds scheduler spacialGraph.length
  possibleMoves mode prof nthreads g moves

end Search.Threaded

open Search Search.Threaded

/-- Whether the pool of `run` (interface.rs:71-92, search.rs:110-126, threaded.rs:44) can make the moves of the
environment, as they are used by `run` in the model. Without a pool there is nothing to ask. -/
def possible {F σ : Type} [FloatOps F] (env : Env F σ) (spacialGraph : List (List Nat))
    (timeOrdering : OrderGraph) (args : Args F) : R Bool :=
  let taskBound := (args.taskBound.map fun b => (b : Int)).getD 100000
  let moves := env.moves.map fun m => (m.1, args.timeout.isSome && m.2)
  if !args.doSearch || args.nthreads < 2 then pure true
  else
    match args.probabilistic with
    | some (accept, seed) =>
      possibleThreaded (.prob accept env.gen) env.prof args.nthreads taskBound (env.taskRng seed) moves spacialGraph
        timeOrdering
    | none =>
      possibleThreaded (.det : Mode F σ) env.prof args.nthreads taskBound (env.taskRng none) moves spacialGraph
        timeOrdering

end Verif
