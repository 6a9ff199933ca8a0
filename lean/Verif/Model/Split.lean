import Verif.Model.Time
import Verif.Model.Space
import Verif.Model.Tree
/-!
# Model of the recipe for parallelisation in the documentation

The documentation (xdocs/scheduler.md, "Parallelization") proposes to calculate all paths with a
`PathGenerator`, to split them up and to instruct a `Graph` with them, and points to the code in
`mbqc_scheduling/tests/roundtrip.rs`.
-/

namespace Verif

/-- `TimeStep`, roundtrip.rs:313. -/
abbrev TimeStep := Step (List Nat) (Option Unit)

/-- `into_iter().collect()` on a sweep. `fuel` bounds the number of iterations (`none`: fuel exhausted). -/
def Sweep.collect {T Item Leaf : Type} (fi : FocusIter T Item Leaf) :
    Nat → Sweep T → R (Option (List (Step Item (Option Leaf))))
  | 0, _ => pure none
  | fuel + 1, sw => do
    let (sw', step) ← sw.next fi
    match step with
    | none => pure (some [])
    | some st => do
      let rest ← Sweep.collect fi fuel sw'
      pure (rest.map (st :: ·))

namespace Split

/-- The value of `total_num_paths` after the collection, roundtrip.rs:319-327. -/
def totalNumPaths (instructions : List TimeStep) : Nat :=
  instructions.countP (· == .backward (some ()))

/-- The mutable variables of the loop, roundtrip.rs:333-340. `init` and `task` are `Vec`s: the last
element is the top. -/
structure State where
  pathsPerJob : Nat
  res : List (List TimeStep)
  task : List TimeStep
  pathsInTask : Nat
  init : List TimeStep
  numDoneTasks : Nat

/-- The inner loop `for step in instructions.by_ref()`, roundtrip.rs:358-368: the new `init` and the
instructions that are left. -/
def skipBack : List TimeStep → List TimeStep → List TimeStep × List TimeStep
  | [], init => (init, [])
  | .backward _ :: rest, init => skipBack rest init.dropLast
  | .forward m :: rest, init => (init ++ [.forward m], rest)

/-- The loop, roundtrip.rs:342-382. Both loops take from the same iterator, so an iteration can consume
several instructions; `fuel` is their number. -/
def splitLoop (numNormalTasks : Nat) : Nat → List TimeStep → State → List (List TimeStep)
  | 0, _, s => s.res
  | _, [], s => s.res
  | fuel + 1, .backward none :: rest, s =>
    splitLoop numNormalTasks fuel rest
      { s with task := s.task ++ [.backward none], init := s.init.dropLast }
  | fuel + 1, .backward (some u) :: rest, s =>
    let task := s.task ++ [.backward (some u)]
    let init := s.init.dropLast
    let pathsInTask := s.pathsInTask + 1
    if pathsInTask ≠ s.pathsPerJob then
      splitLoop numNormalTasks fuel rest { s with task, init, pathsInTask }
    else
      let (init, rest) := skipBack rest init
      let numDoneTasks := s.numDoneTasks + 1
      splitLoop numNormalTasks fuel rest
        { pathsPerJob := if numDoneTasks = numNormalTasks then s.pathsPerJob + 1 else s.pathsPerJob
          res := s.res ++ [task]
          task := init
          pathsInTask := 0
          init
          numDoneTasks }
  | fuel + 1, .forward m :: rest, s =>
    splitLoop numNormalTasks fuel rest
      { s with task := s.task ++ [.forward m], init := s.init ++ [.forward m] }

/-- `split_instructions` after the collection, roundtrip.rs:329-384. The two subtractions in the
computation of `num_normal_tasks` cannot underflow. -/
def splitInstructions (instructions : List TimeStep) (numTasks : Nat) : R (List (List TimeStep)) :=
  let total := totalNumPaths instructions
  if total < numTasks then pure [instructions]
  else if numTasks = 0 then .error .divisionByZero
  else
    let pathsPerJob := total / numTasks
    let numNormalTasks := numTasks - (total - numTasks * pathsPerJob)
    pure (splitLoop numNormalTasks instructions.length instructions
      { pathsPerJob, res := [], task := [], pathsInTask := 0, init := [], numDoneTasks := 0 })

/-- One thread, roundtrip.rs:254-269, with the iterator `InstructedSweep` inlined, roundtrip.rs:210-245:
a `Graph` follows the instructions. The stack's head is its top. -/
def instructed (prof : Profile) : List TimeStep → Graph → List Graph → List (List Nat) →
    R (List (Nat × Nat × List (List Nat)))
  | [], _, _, _ => pure []
  | .forward mess :: rest, current, stack, path => do
    match ← current.focus prof mess with
    | .error _ => .error .unwrapFailed
    | .ok new => instructed prof rest new (current :: stack) (path ++ [mess])
  | .backward atLeaf :: rest, current, stack, path => do
    let mem := atLeaf.map fun _ => current.maxMemory
    match stack with
    | [] => .error .unwrapFailed
    | top :: stack => do
      let results ← instructed prof rest top stack path.dropLast
      match mem with
      | some mem => pure ((path.length, mem, path) :: results)
      | none => pure results

/-- The whole recipe, roundtrip.rs:208-281, with the path generator and the graph of roundtrip.rs:103-106: one list of
results for every task, in the order in which the threads are joined. The threads share nothing (each has
its own clone of the graph), so they are run one after the other; the test then puts the results into a
`HashSet`. `fuel` bounds the collection of the instructions. -/
def recipe (prof : Profile) (fuel : Nat) (nodes : List (List Nat)) (deps : List (List (Nat × List Nat)))
    (numTasks : Nat) : R (Option (List (List (Nat × Nat × List (List Nat))))) := do
  let time ← PathGenerator.fromDependencyGraph (T := Partitioner) deps
    (dependencyBufferNew nodes.length) none
  match ← Sweep.collect (PathGenerator.focusIter prof) fuel (Sweep.new time) with
  | none => pure none
  | some instructions => do
    let splitted ← splitInstructions instructions numTasks
    let results ← splitted.mapM fun split => instructed prof split (Graph.new nodes) [] []
    pure (some results)

end Split
end Verif
