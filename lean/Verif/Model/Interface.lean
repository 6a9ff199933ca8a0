import Verif.Model.Threaded
/-!
# Model of `run` in `mbqc_scheduling/src/interface.rs`
-/

namespace Verif

open Search Search.Threaded

/-- Everything about a call of `run` that its arguments do not determine: the build profile, the
iteration order of the hash map, the answers of the timer (single-threaded, after iteration `k`),
the random number generators, the interleaving of the thread pool together with the timer's answers
there, and the fuel of the model's loops. -/
structure Env (F σ : Type) where
  prof : Profile
  hashIter : MappedPaths → MappedPaths
  timer : Nat → Bool
  /-- `Pcg64::seed_from_u64` / `from_entropy`, search.rs:236-240, threaded.rs:50-54. -/
  seedRng : Option Nat → σ
  gen : Rng F σ
  /-- `rng.gen::<u64>()`, threaded.rs:70, 93. -/
  drawSeed : σ → Nat × σ
  moves : List (Nat × Bool)
  fuel : Nat

/-- The seed drawn for task `k`, threaded.rs:69-72, 92-95: one number per task, in the order in which the
tasks are started. -/
def taskSeed {σ : Type} (draw : σ → Nat × σ) : Nat → σ → Nat
  | 0, s => (draw s).1
  | k + 1, s => taskSeed draw k (draw s).2

/-- The RNG of task `k`, threaded.rs:50-54, 256. -/
def Env.taskRng {F σ : Type} (env : Env F σ) (seed : Option Nat) (k : Nat) : σ :=
  env.seedRng (some (taskSeed env.drawSeed k (env.seedRng seed)))

/-- The only assumption about the environment: iterating over a hash map visits its entries once
each. -/
def Env.OK {F σ : Type} (env : Env F σ) : Prop := ∀ m, (env.hashIter m).Perm m

/-- `search`, search.rs:86-143. `none`: the fuel or the moves of the environment did not suffice to
complete the run. Without a timeout the timer is never started and never fires (timer.rs:83-85). -/
def search {F σ : Type} [FloatOps F] (env : Env F σ) (spacialGraph : List (List Nat))
    (timeOrdering : OrderGraph) (timeout : Option Nat) (nthreads : Nat)
    (probabilistic : Option (Accept F × Option Nat)) (taskBound : Int) : R (Option (List Path)) :=
  let timer := fun k => timeout.isSome && env.timer k
  let moves := env.moves.map fun m => (m.1, timeout.isSome && m.2)
  if nthreads < 2 then
    match probabilistic with
    | some (accept, seed) =>
      searchProb env.prof env.hashIter accept env.gen (env.seedRng seed) timer env.fuel
        spacialGraph timeOrdering
    | none => searchDet env.prof env.hashIter timer env.fuel spacialGraph timeOrdering
  else
    match probabilistic with
    | some (accept, seed) =>
      searchThreaded (.prob accept env.gen) env.prof env.hashIter taskBound (env.taskRng seed)
        moves spacialGraph timeOrdering
    | none =>
      searchThreaded (.det : Mode F σ) env.prof env.hashIter taskBound (env.taskRng none)
        moves spacialGraph timeOrdering

/-- The arguments of `run` besides the problem, interface.rs:71-79. The accept function is the one
returned by `get_accept_func` (probabilistic.rs:142-150). `timeout` is the duration in
milliseconds; its value only acts through the timer's answers. -/
structure Args (F : Type) where
  doSearch : Bool
  timeout : Option Nat := none
  nthreads : Nat := 1
  taskBound : Option Nat := none
  probabilistic : Option (Accept F × Option Nat) := none

/-- `run`, interface.rs:71-92. -/
def run {F σ : Type} [FloatOps F] (env : Env F σ) (spacialGraph : List (List Nat))
    (timeOrdering : OrderGraph) (args : Args F) : R (Option (List Path)) :=
  if !args.doSearch then getTimeOptimal env.prof env.fuel spacialGraph timeOrdering
  else
    search env spacialGraph timeOrdering args.timeout args.nthreads args.probabilistic
      ((args.taskBound.map fun b => (b : Int)).getD 100000)

end Verif
