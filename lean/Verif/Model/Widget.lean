import Verif.Model.Interface
/-!
# Executing a schedule (python_lib/examples/compile_flow.py)

The example shows how the result of `run` is meant to be used: the qubits are measured step by step, every measurement
can induce Pauli corrections on other qubits, and the corrections that leave one widget are passed on to the next one
through a "buffer tracker". `pauli_tracker` itself is not part of the repository; what the example uses of it is modelled
after its documentation: a frame is a Pauli operator for every qubit (up to a phase), a gate conjugates all frames, and
tracking a Pauli operator adds a frame. Not modelled: which qubits a tracker knows, the transposition of the frames (it
only changes the layout in memory), the lines marked as pseudo code except the initialisation of qubits.
-/

namespace Verif.Widget

/-- A Pauli operator on one qubit: whether there is a Z and whether there is an X
(python_lib/examples/compile_flow.py:147-151: `PauliTuple(True, False)` is Z, `PauliTuple(False, True)` is X). -/
abbrev Pauli := Bool × Bool

/-- The product, up to a phase. -/
def Pauli.add (p q : Pauli) : Pauli := (xor p.1 q.1, xor p.2 q.2)

/-- A Pauli operator for every qubit: a frame of `Frames` (transposed), a `PauliStack`
(python_lib/examples/compile_flow.py:62-71, 122). -/
abbrev Frame := Nat → Pauli

/-- `PauliStack.zeros` (python_lib/examples/compile_flow.py:122, 153). -/
def Frame.zero : Frame := fun _ => (false, false)

def Frame.add (f g : Frame) : Frame := fun q => (f q).add (g q)

/-- The operator `p` on qubit `a`. -/
def single (a : Nat) (p : Pauli) : Frame := fun q => if q = a then p else (false, false)

/-- Generators of the gates (python_lib/examples/compile_flow.py:178-187, 199-214). -/
inductive Gate where
  | h (a : Nat)
  | s (a : Nat)
  | cz (a b : Nat)
  | swap (a b : Nat)

/-- Conjugation of a frame with a gate. -/
def Gate.conj (f : Frame) : Gate → Frame
  | .h a => fun q => if q = a then ((f a).2, (f a).1) else f q
  | .s a => fun q => if q = a then (xor (f a).1 (f a).2, (f a).2) else f q
  | .cz a b => fun q => if q = a then (xor (f a).1 (f b).2, (f a).2)
      else if q = b then (xor (f b).1 (f a).2, (f b).2) else f q
  | .swap a b => fun q => if q = a then f b else if q = b then f a else f q

/-- What can be done with a tracker: a gate, a new qubit, a new frame (`track_x`, `track_y`, `track_z`)
(python_lib/examples/compile_flow.py:175-187, 197-214). -/
inductive Op where
  | gate (g : Gate)
  | newQubit (a : Nat)
  | track (a : Nat) (p : Pauli)

/-- `cx(a, b)`, `cy(a, b)` and `iswap(a, b)` by the generators, up to a phase. -/
def cx (a b : Nat) : List Op := [.gate (.h b), .gate (.cz a b), .gate (.h b)]
def cy (a b : Nat) : List Op := .gate (.s b) :: cx a b ++ [.gate (.s b)]
def iswap (a b : Nat) : List Op := [.gate (.swap a b), .gate (.cz a b), .gate (.s a), .gate (.s b)]

/-- The frames of a tracker after an operation. -/
def Op.apply (fs : List Frame) : Op → List Frame
  | .gate g => fs.map fun f => g.conj f
  | .newQubit _ => fs
  | .track a p => fs ++ [single a p]

/-- The frames of a tracker after some operations. -/
def applyAll (ops : List Op) (fs : List Frame) : List Frame := ops.foldl Op.apply fs

/-- `buffer_tracker` (python_lib/examples/compile_flow.py:224-229). -/
def bufferTracker (n : Nat) : List Frame :=
  applyAll ((List.range n).flatMap fun i => [.track i (true, false), .track i (false, true)]) []

/-- What is done with the buffer tracker: the same gates and qubits, "NO additional frames on the buffer tracker!!!"
(python_lib/examples/compile_flow.py:195-196, 206). -/
def Op.isTrack : Op → Bool
  | .track _ _ => true
  | _ => false

/-- The state of the loop that executes a widget: the corrections that are due, and a log of what has been measured: the
qubit, the correction on it at that moment and the outcome. -/
structure Run where
  corr : Frame
  log : List (Nat × Pauli × Bool)

/-- One iteration of the inner loop (python_lib/examples/compile_flow.py:126-138). The outcome of a measurement can be
anything. `frame_flags.index(node)` is the first position of `node`. -/
def measure (frames : List Frame) (flags : List Nat) (outcome : Run → Nat → Bool) (r : Run) (node : Nat) : Run :=
  let c := r.corr node
  let o := outcome r node
  ⟨if o && flags.contains node then r.corr.add (frames.getD (flags.idxOf node) Frame.zero) else r.corr,
    r.log ++ [(node, c, o)]⟩

/-- The two loops (python_lib/examples/compile_flow.py:122-138), from the corrections `init`. -/
def execute (frames : List Frame) (flags : List Nat) (outcome : Run → Nat → Bool) (init : Frame)
    (steps : List (List Nat)) : Run :=
  steps.foldl (fun r step => step.foldl (measure frames flags outcome) r) ⟨init, []⟩

/-- The correction performed before a measurement: `if pauli_correction[0]: Z, elif pauli_correction[1]: X`
(python_lib/examples/compile_flow.py:128-132). -/
def performed (c : Pauli) : Pauli :=
  if c.1 then (true, false) else if c.2 then (false, true) else (false, false)

/-- Passing on the corrections of the output qubits of one widget to the next one: for every output qubit the frame at
`z idx` of the buffer tracker is added if there is a Z, and that at `x idx` if there is an X. -/
def addBuffer (z x : Nat → Nat) (buffer : List Frame) (output : List Pauli) : Frame :=
  output.zipIdx.foldl (fun f e =>
    let f := if e.1.1 then f.add (buffer.getD (z e.2) Frame.zero) else f
    if e.1.2 then f.add (buffer.getD (x e.2) Frame.zero) else f) Frame.zero

/-- The loop in the example (python_lib/examples/compile_flow.py:153-164), with the positions `idx` and `idx + 1`. -/
def stitch (buffer : List Frame) (output : List Pauli) : Frame := addBuffer (fun i => i) (fun i => i + 1) buffer output

end Verif.Widget
