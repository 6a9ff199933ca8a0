import Verif.Model.Scheduler
import Verif.Model.Split
/-!
# Model of the property test in `mbqc_scheduling/tests/roundtrip.rs`

The test takes random operations, edges and a number of nodes. The part that makes a dependency graph out of
the operations (roundtrip.rs:53-87) is in `Model/Instructor`: the dependency graph is an input here. Its other
input, the edges, are as in the test. A failing assertion is the panic `assertFailed`.
-/

namespace Verif
namespace Roundtrip

/-- A path as the test collects it: length, memory, steps. -/
abbrev Entry := Nat × Nat × List (List Nat)

/-- The loop that collects `all_paths`, roundtrip.rs:115-125. `fuel` bounds the number of iterations. -/
def collectPaths (prof : Profile) : Nat → Sweep (Scheduler Partitioner) → List (List Nat) → R (Option (List Entry))
  | 0, _, _ => pure none
  | fuel + 1, sw, thisPath => do
    let (sw, step) ← sw.next (Scheduler.focusIter prof)
    match step with
    | none => pure (some [])
    | some (.forward measureSet) => collectPaths prof fuel sw (thisPath ++ [measureSet])
    | some (.backward leaf) => do
      let rest ← collectPaths prof fuel sw thisPath.dropLast
      pure (rest.map fun r => match leaf with
        | some maxMem => (thisPath.length, maxMem, thisPath) :: r
        | none => r)

/-- The variables of the second loop, roundtrip.rs:127-130. -/
structure Skipper where
  sweep : Sweep (Scheduler Partitioner)
  path : List (List Nat)
  best : List Nat
  results : AMap (Nat × List (List Nat))

/-- The body of the second loop, roundtrip.rs:133-161. The Boolean is true for `break`. -/
def skipStep (s : Skipper) : Step (List Nat) (Option Nat) → R (Skipper × Bool)
  | .forward mess => do
    let current := s.sweep.current
    let minimumTime :=
      if current.time.atLeaf.isSome then s.path.length + 1
      else if current.time.hasUnmeasureable then s.path.length + 3
      else s.path.length + 2
    let bound ← idx s.best minimumTime
    if bound ≤ current.space.maxMemory then
      match s.sweep.skipCurrent with
      | (sw, .error _) => pure ({ s with sweep := sw }, true)
      | (sw, .ok ()) => pure ({ s with sweep := sw }, false)
    else pure ({ s with path := s.path ++ [mess] }, false)
  | .backward none => pure ({ s with path := s.path.dropLast }, false)
  | .backward (some mem) =>
    let len := s.path.length
    if len < s.best.length then
      pure ({ s with
        best := (s.best.set len mem).take (len + 1) ++ (s.best.drop (len + 1)).map (min · mem)
        results := s.results.insert len (mem, s.path)
        path := s.path.dropLast }, false)
    else .error .indexOutOfBounds

/-- The second loop, roundtrip.rs:132-162. `fuel` bounds the number of iterations. -/
def skipLoop (prof : Profile) : Nat → Skipper → R (Option (AMap (Nat × List (List Nat))))
  | 0, _ => pure none
  | fuel + 1, s => do
    let (sw, step) ← s.sweep.next (Scheduler.focusIter prof)
    match step with
    | none => pure (some s.results)
    | some step => do
      let (s, stop) ← skipStep { s with sweep := sw } step
      if stop then pure (some s.results) else skipLoop prof fuel s

/-- The body of the loop over all paths, roundtrip.rs:166-172. -/
def keepBest (filtered : AMap (Nat × List (List Nat))) (e : Entry) : AMap (Nat × List (List Nat)) :=
  match filtered.get e.1 with
  | some optimal => if optimal.1 > e.2.1 then filtered.insert e.1 (e.2.1, e.2.2) else filtered
  | none => filtered.insert e.1 (e.2.1, e.2.2)

/-- The loop of `final_filter`, roundtrip.rs:182-192, over the remaining indices. -/
def finalLoop (paths : AMap (Nat × List (List Nat))) :
    List Nat → List Nat → AMap (Nat × List (List Nat)) → R (AMap (Nat × List (List Nat)))
  | [], _, res => pure res
  | i :: is, best, res =>
    match paths.get i with
    | none => finalLoop paths is best res
    | some r => do
      let m ← idx best i
      if r.1 < m then
        finalLoop paths is (best.take i ++ (best.drop i).map fun _ => r.1) (res.insert i r)
      else finalLoop paths is best res

/-- `final_filter`, roundtrip.rs:176-194. -/
def finalFilter (numNodes : Nat) (paths : AMap (Nat × List (List Nat))) : R (AMap (Nat × List (List Nat))) :=
  finalLoop paths (List.range (numNodes + 1)) (List.replicate (numNodes + 1) (numNodes + 1)) []

/-- `==` on `HashMap`s: the same number of entries, and every entry of the first is one of the second. -/
def mapEq (a b : AMap (Nat × List (List Nat))) : Bool :=
  a.length == b.length && a.all fun e => b.get e.1 == some e.2

/-- `for r in results { assert!(set.insert(r)) }`, roundtrip.rs:276-278 and 288-290: the set as a list. -/
def insertAll : List Entry → List Entry → R (List Entry)
  | [], set => pure set
  | r :: rs, set => if set.contains r then .error .assertFailed else insertAll rs (set ++ [r])

/-- `==` on `HashSet`s: the same number of elements, and every element of the first is one of the second. -/
def setEq (a b : List Entry) : Bool := a.length == b.length && a.all b.contains

/-- `roundtrip` from the dependency graph on, roundtrip.rs:102-291. `fuel` bounds the three sweeps (`none`:
fuel exhausted). -/
def roundtrip (prof : Profile) (fuel : Nat) (edges : List (Nat × Nat)) (numNodes : Nat)
    (dependencyGraph : List (List (Nat × List Nat))) : R (Option Unit) := do
  let pathGenerator ← PathGenerator.fromDependencyGraph (T := Partitioner) dependencyGraph
    (dependencyBufferNew numNodes) none
  let graphBuffer ← GraphBuffer.new edges numNodes none true
  let scheduler : Scheduler Partitioner := ⟨pathGenerator, Graph.new graphBuffer⟩
  match ← collectPaths prof fuel (Sweep.new scheduler) [] with
  | none => pure none
  | some allPaths =>
    match ← skipLoop prof fuel
        ⟨Sweep.new scheduler, [], List.replicate (numNodes + 1) (numNodes + 1), []⟩ with
    | none => pure none
    | some skipperResults => do
      let filteredAllPaths := allPaths.foldl keepBest []
      let filteredSkipperResults ← finalFilter numNodes skipperResults
      let filteredFilteredAllPaths ← finalFilter numNodes filteredAllPaths
      if !mapEq filteredSkipperResults filteredFilteredAllPaths then .error .assertFailed
      match ← Sweep.collect (PathGenerator.focusIter prof) fuel (Sweep.new pathGenerator) with
      | none => pure none
      | some instructions => do
        let splitted ← Split.splitInstructions instructions 4
        let results ← splitted.mapM fun split => Split.instructed prof split (Graph.new graphBuffer) [] []
        let mergedResults ← insertAll results.flatten []
        let allResultsAsSet ← insertAll allPaths []
        if !setEq allResultsAsSet mergedResults then .error .assertFailed
        pure (some ())

end Roundtrip
end Verif
