import Verif.Model.Basic
/-!
# Model of `mbqc_scheduling/src/scheduler/space.rs`
-/

namespace Verif

/-- `State`, space.rs:31-39. -/
inductive NodeState where
  | sleeping
  | inMemory
  | measured
  deriving DecidableEq, Repr

/-- `Node`, space.rs:24: the state and the neighbours (a reference in Rust). -/
abbrev Node := NodeState × List Nat

/-- `AlreadyMeasured(pub usize)`, space.rs:266. -/
structure AlreadyMeasured where
  bit : Nat
  deriving DecidableEq, Repr

/-- `Graph`, space.rs:53-57. -/
structure Graph where
  nodes : List Node
  currentMemory : Nat
  maxMemory : Nat
  deriving DecidableEq, Repr

namespace GraphBuffer

/-- `update!` for a bit, scheduler.rs:17-24: `map.get(bit).unwrap_or(bit)`. -/
def mapBit (m : AMap Nat) (bit : Nat) : Nat :=
  match m.get bit with
  | some b => b
  | none => bit

/-- `inner[i].push(x)`. -/
def pushAt (inner : List (List Nat)) (i x : Nat) : R (List (List Nat)) := do
  let l ← idx inner i
  pure (inner.set i (l ++ [x]))

/-- `new_body!(.., unchecked)`, space.rs:88-91. -/
def bodyUnchecked (inner : List (List Nat)) (left right : Nat) : R (List (List Nat)) := do
  let inner ← pushAt inner left right
  pushAt inner right left

/-- `new_body!(.., checked)`, space.rs:79-87. -/
def bodyChecked (inner : List (List Nat)) (left right : Nat) : R (List (List Nat)) := do
  if left = right then
    pure inner
  else
    let l ← idx inner left
    if l.contains right then pure inner
    else bodyUnchecked inner left right

/-- `new_loop!`, space.rs:63-77. -/
def newLoop (inner : List (List Nat)) (edges : List (Nat × Nat)) (bitMapping : Option (AMap Nat))
    (body : List (List Nat) → Nat → Nat → R (List (List Nat))) : R (List (List Nat)) :=
  match bitMapping with
  | some m => edges.foldlM (fun inner e => body inner (mapBit m e.1) (mapBit m e.2)) inner
  | none => edges.foldlM (fun inner e => body inner e.1 e.2) inner

/-- `GraphBuffer::new`, space.rs:103-116 (the `inner` lists). -/
def new (edges : List (Nat × Nat)) (numNodes : Nat) (bitMapping : Option (AMap Nat))
    (checkLoopMultiEdge : Bool) : R (List (List Nat)) :=
  let inner := List.replicate numNodes []
  if checkLoopMultiEdge then newLoop inner edges bitMapping bodyChecked
  else newLoop inner edges bitMapping bodyUnchecked

end GraphBuffer

namespace Graph

/-- `Graph::new`, space.rs:132-141. -/
def new (buffer : List (List Nat)) : Graph :=
  ⟨buffer.map fun nb => (.sleeping, nb), 0, 0⟩

/-- `Graph::initialize`, space.rs:158-167. -/
def initNode (g : Graph) (bit : Nat) : R Graph := do
  let node ← idx g.nodes bit
  match node.1 with
  | .sleeping =>
    pure { g with nodes := g.nodes.set bit (.inMemory, node.2),
                  currentMemory := g.currentMemory + 1 }
  | .inMemory => pure g
  | .measured => pure g

/-- The loop over the neighbours at the end of `measure`, space.rs:185-187. -/
def initializeAll : Graph → List Nat → R Graph
  | g, [] => pure g
  | g, b :: bs => do
    let g' ← g.initNode b
    initializeAll g' bs

/-- `Graph::measure` (the `checked` expansion of `impl_measure!`, space.rs:170-191, 218). Returns the
graph after the call, also when the call reports an error. -/
def measure (g : Graph) (bit : Nat) : R (Graph × Except AlreadyMeasured Unit) := do
  let node ← idx g.nodes bit
  match node.1 with
  | .sleeping =>
    let g' ← initializeAll { g with nodes := g.nodes.set bit (.measured, node.2),
                                    currentMemory := g.currentMemory + 1 } node.2
    pure (g', .ok ())
  | .inMemory =>
    let g' ← initializeAll { g with nodes := g.nodes.set bit (.measured, node.2) } node.2
    pure (g', .ok ())
  | .measured => pure (g, .error ⟨bit⟩)

/-- `Graph::update_memory`, space.rs:220-225. -/
def updateMemory (prof : Profile) (g : Graph) (len : Nat) : R Graph := do
  let maxMemory := if g.currentMemory > g.maxMemory then g.currentMemory else g.maxMemory
  let cur ← usizeSub prof g.currentMemory len
  pure { g with currentMemory := cur, maxMemory := maxMemory }

/-- The loop of `focus_inplace`, space.rs:239-241. -/
def measureAll : Graph → List Nat → R (Graph × Except AlreadyMeasured Unit)
  | g, [] => pure (g, .ok ())
  | g, b :: bs => do
    let (g', r) ← g.measure b
    match r with
    | .error e => pure (g', .error e)
    | .ok () => measureAll g' bs

/-- `Focus::focus_inplace` for `Graph`, space.rs:238-244. -/
def focusInplace (prof : Profile) (g : Graph) (ms : List Nat) :
    R (Graph × Except AlreadyMeasured Unit) := do
  let (g', r) ← measureAll g ms
  match r with
  | .error e => pure (g', .error e)
  | .ok () =>
    let g'' ← g'.updateMemory prof ms.length
    pure (g'', .ok ())

/-- `Focus::focus` for `Graph`, space.rs:230-237 (works on a clone; `self` is not modified). -/
def focus (prof : Profile) (g : Graph) (ms : List Nat) : R (Except AlreadyMeasured Graph) := do
  let (new, r) ← focusInplace prof g ms
  match r with
  | .error e => pure (.error e)
  | .ok () => pure (.ok new)

/-- `Graph::measure_unchecked` (the `unchecked` expansion of `impl_measure!`), space.rs:249. -/
def measureUnchecked (g : Graph) (bit : Nat) : R Graph := do
  let node ← idx g.nodes bit
  match node.1 with
  | .sleeping =>
    initializeAll { g with nodes := g.nodes.set bit (.measured, node.2),
                           currentMemory := g.currentMemory + 1 } node.2
  | .inMemory =>
    initializeAll { g with nodes := g.nodes.set bit (.measured, node.2) } node.2
  | .measured => pure g

/-- The loop of `focus_inplace_unchecked`, space.rs:251-253. -/
def measureAllUnchecked : Graph → List Nat → R Graph
  | g, [] => pure g
  | g, b :: bs => do
    let g' ← g.measureUnchecked b
    measureAllUnchecked g' bs

/-- `Graph::focus_inplace_unchecked` / `focus_unchecked`, space.rs:250-260. -/
def focusUnchecked (prof : Profile) (g : Graph) (ms : List Nat) : R Graph := do
  let g' ← measureAllUnchecked g ms
  g'.updateMemory prof ms.length

end Graph
end Verif
