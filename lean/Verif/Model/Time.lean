import Verif.Model.Combinatoric
import Verif.Model.Tree
import Verif.Model.Space
/-!
# Model of `mbqc_scheduling/src/scheduler/time.rs`
-/

namespace Verif

/-- `PartialOrderGraph` / `RefPartialOrderGraph`, time.rs:25: layers of (bit, dependencies). -/
abbrev OrderGraph := List (List (Nat × List Nat))

/-- `Dependents`, time.rs:28. -/
abbrev Dependents := List (List Nat)

/-- `NotMeasurable(pub Vec<usize>)`, time.rs:373. -/
structure NotMeasurable where
  bits : List Nat
  deriving DecidableEq, Repr

/-- `DependencyBuffer::new`, time.rs:41-45 (its only field). -/
def dependencyBufferNew (len : Nat) : Dependents := List.replicate len []

/-- The sealed trait `MeasurableSet`, time.rs:340-346. -/
class MeasurableSet (T : Type) where
  init : List Nat → T
  set : T → List Nat
  dflt : T

/-- `MeasurableSet for Vec<usize>`, time.rs:348-356. -/
instance : MeasurableSet (List Nat) := ⟨id, id, []⟩

/-- `Partitioner`, time.rs:55. -/
abbrev Partitioner := Partition Nat

/-- `MeasurableSet for Partition<Vec<usize>>`, time.rs:358-367. -/
instance : MeasurableSet Partitioner :=
  ⟨fun s => Partition.new s s.length, Partition.set, Partition.default⟩

/-- `PathGenerator<'l, T>`, time.rs:64-82. -/
structure PathGenerator (T : Type) where
  measurable : T
  depsCounter : AMap Nat
  dependents : Dependents
  deriving DecidableEq, Repr

namespace PathGenerator

variable {T : Type}

/-- `num_remaining_nodes`, time.rs:109-111. -/
def numRemainingNodes (g : PathGenerator T) : Nat := g.depsCounter.length

/-- `has_unmeasureable`, time.rs:114-116. -/
def hasUnmeasureable (g : PathGenerator T) : Bool := !g.depsCounter.isEmpty

/-- Relabelling of the cloned graph, time.rs:145-158. -/
def applyMapping (m : Option (AMap Nat)) (graph : OrderGraph) : OrderGraph :=
  match m with
  | none => graph
  | some m =>
    graph.map fun layer =>
      layer.map fun e => (GraphBuffer.mapBit m e.1, e.2.map (GraphBuffer.mapBit m))

/-- The double loop of `resolve`, time.rs:161-168. -/
def collectDependents (bit : Nat) (rest : OrderGraph) : List Nat :=
  rest.flatMap fun layer =>
    layer.filterMap fun e => if e.2.contains bit then some e.1 else none

/-- `resolve`, time.rs:160-170. -/
def resolve (bit : Nat) (rest : OrderGraph) (look : Dependents) : R Dependents :=
  if bit < look.length then .ok (look.set bit (collectDependents bit rest))
  else .error .indexOutOfBounds

/-- First layer, time.rs:179-182 (the bits themselves are collected by `first.map (·.1)`). -/
def resolveFirst (rest : OrderGraph) : List (Nat × List Nat) → Dependents → R Dependents
  | [], look => pure look
  | e :: es, look => do
    let look ← resolve e.1 rest look
    resolveFirst rest es look

/-- One later layer, time.rs:186-189. -/
def resolveLayer (rest : OrderGraph) :
    List (Nat × List Nat) → Dependents → AMap Nat → R (Dependents × AMap Nat)
  | [], look, deps => pure (look, deps)
  | e :: es, look, deps => do
    let look ← resolve e.1 rest look
    resolveLayer rest es look (deps.insert e.1 e.2.length)

/-- The `while let Some(layer) = graph_iter.next()` loop, time.rs:184-190. -/
def resolveRest : OrderGraph → Dependents → AMap Nat → R (Dependents × AMap Nat)
  | [], look, deps => pure (look, deps)
  | layer :: rest, look, deps => do
    let (look, deps) ← resolveLayer rest layer look deps
    resolveRest rest look deps

/-- `from_dependency_graph`, time.rs:127-198. The buffer is passed by value; the buffer after the
call is the field `dependents` of the result. -/
def fromDependencyGraph [MeasurableSet T] (graph : OrderGraph) (buffer : Dependents)
    (bitMapping : Option (AMap Nat)) : R (PathGenerator T) :=
  match graph with
  | [] => pure ⟨MeasurableSet.dflt, [], buffer⟩
  | _ :: _ =>
    match applyMapping bitMapping graph with
    | [] => .error .unwrapFailed
    | first :: rest => do
      let look ← resolveFirst rest first buffer
      let (look, deps) ← resolveRest rest look []
      pure ⟨MeasurableSet.init (first.map (·.1)), deps, look⟩

/-- The loop of `partition`, time.rs:206-212: the unmatched rest of the copied measure set and the
new measurable set. -/
def partitionLoop : List Nat → List Nat → List Nat × List Nat
  | [], copy => (copy, [])
  | e :: es, copy =>
    match copy.findIdx? (· == e) with
    | some p => partitionLoop es (swapRemove copy p)
    | none =>
      let r := partitionLoop es copy
      (r.1, e :: r.2)

/-- `Vec::with_capacity(self.measurable.set().len() - measure_set.len())`, time.rs:204. In a
release build the subtraction wraps around to a number whose allocation panics. -/
def capacityCheck (prof : Profile) (have_ want : Nat) : R Unit :=
  if want ≤ have_ then .ok ()
  else match prof with
    | .debug => .error .subOverflow
    | .release => .error .capacityOverflow

/-- `partition`, time.rs:202-217. -/
def partition [MeasurableSet T] (prof : Profile) (g : PathGenerator T) (ms : List Nat) :
    R (Except NotMeasurable (List Nat)) := do
  capacityCheck prof (MeasurableSet.set g.measurable).length ms.length
  let (copy, new) := partitionLoop (MeasurableSet.set g.measurable) ms
  if copy.isEmpty then pure (.ok new) else pure (.error ⟨copy⟩)

/-- Inner loop of `update_unchecked`, time.rs:233-246. -/
def updateDependents (prof : Profile) : List Nat → AMap Nat → List Nat → R (AMap Nat × List Nat)
  | [], deps, new => pure (deps, new)
  | bit :: bits, deps, new =>
    match deps.get bit with
    | none => .error .alreadyResolved
    | some count => do
      let count' ← usizeSub prof count 1
      if count' = 0 then
        updateDependents prof bits (deps.erase bit) (new ++ [bit])
      else
        updateDependents prof bits (deps.insert bit count') new

/-- `update_unchecked`, time.rs:224-248. -/
def updateUnchecked (prof : Profile) (look : Dependents) :
    List Nat → AMap Nat → List Nat → R (AMap Nat × List Nat)
  | [], deps, new => pure (deps, new)
  | m :: ms, deps, new => do
    let dependents ← idx look m
    let (deps, new) ← updateDependents prof dependents deps new
    updateUnchecked prof look ms deps new

/-- `focus_unchecked`, time.rs:252-265. -/
def focusUnchecked [MeasurableSet T] (prof : Profile) (g : PathGenerator T) (ms new : List Nat) :
    R (PathGenerator T) := do
  let (deps, new) ← updateUnchecked prof g.dependents ms g.depsCounter new
  pure ⟨MeasurableSet.init new, deps, g.dependents⟩

/-- `Focus::focus` for `PathGenerator`, time.rs:271-277. -/
def focus [MeasurableSet T] (prof : Profile) (g : PathGenerator T) (ms : List Nat) :
    R (Except NotMeasurable (PathGenerator T)) := do
  match ← g.partition prof ms with
  | .error e => pure (.error e)
  | .ok new =>
    let g' ← g.focusUnchecked prof ms new
    pure (.ok g')

/-- `Focus::focus_inplace` for `PathGenerator`, time.rs:279-290: the generator after the call and the
result. -/
def focusInplace [MeasurableSet T] (prof : Profile) (g : PathGenerator T) (ms : List Nat) :
    R (PathGenerator T × Except NotMeasurable Unit) := do
  match ← g.partition prof ms with
  | .error e => pure (g, .error e)
  | .ok new =>
    let (deps, new) ← updateUnchecked prof g.dependents ms g.depsCounter new
    pure (⟨MeasurableSet.init new, deps, g.dependents⟩, .ok ())

/-- `FocusIterator::next_and_focus` for `PathGenerator<Partitioner>`, time.rs:297-312. -/
def nextAndFocus (prof : Profile) (g : PathGenerator Partitioner) :
    R (PathGenerator Partitioner × Option (PathGenerator Partitioner × List Nat)) :=
  match g.measurable.next with
  | (m', none) => pure ({ g with measurable := m' }, none)
  | (m', some (newMeasurable, measuring)) =>
    let g' := { g with measurable := m' }
    if measuring.isEmpty then pure (g', none)
    else do
      let new ← g'.focusUnchecked prof measuring newMeasurable
      pure (g', some (new, measuring))

/-- `FocusIterator::at_leaf` for `PathGenerator<Partitioner>`, time.rs:314-316. -/
def atLeaf (g : PathGenerator Partitioner) : Option Unit :=
  if g.measurable.set.isEmpty then some () else none

/-- `impl FocusIterator for PathGenerator<'_, Partitioner>`, time.rs:293-317. -/
def focusIter (prof : Profile) : FocusIter (PathGenerator Partitioner) (List Nat) Unit :=
  ⟨nextAndFocus prof, atLeaf⟩

end PathGenerator
end Verif
