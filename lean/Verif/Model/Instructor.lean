import Verif.Model.Roundtrip
import Verif.Model.Widget
/-!
# Model of the input side of the property test

`mbqc_scheduling/tests/roundtrip.rs:46-87` turns random operations into a dependency graph, with the `Instructor` of
`pauli_tracker/pauli_tracker/tests/roundtrips/tracking.rs`, which is part of the repository. The types `Frames`,
`TrackedCircuit` and the function `get_order` of the crate `pauli_tracker` are not; they are modelled after their
documentation (`get_order` is a parameter).
-/

namespace Verif
namespace Instructor

open Widget (Pauli)

/-- The single-qubit gates of `Operation`, tracking.rs:483-500. -/
inductive Op1 where
  | i | x | y | z | s | sdg | sz | szdg | hxy | h | sy | sydg | sh | hs | shs | sx | sxdg | hyz

/-- The two-qubit gates of `Operation`, tracking.rs:501-506. -/
inductive Op2 where
  | cz | cx | cy | swap | iswap | iswapdg

/-- `Operation`, tracking.rs:482-513. -/
inductive Operation where
  | one (g : Op1) (b : Nat)
  | two (g : Op2) (a b : Nat)
  | teleported (p : Pauli) (a b : Nat)
  | rz (b : Nat)
  | measure (b : Nat)
  | newQubit (b : Nat)

/-- The operations that are left after the filter. -/
inductive Kept where
  | one (g : Op1) (b : Nat)
  | two (g : Op2) (a b : Nat)
  | teleported (p : Pauli) (a b : Nat)

/-- The closure of `filter_map`, roundtrip.rs:55-66. `(z, x)` is the order in a `PauliTuple`. -/
def adapt (prof : Profile) : Operation → R (Option Kept)
  | .measure _ => pure none
  | .newQubit _ => pure none
  | .rz a =>
    match a % 4 with
    | 0 => do let b ← usizeAdd prof a 73; pure (some (.teleported (false, true) a b))
    | 1 => do let b ← usizeAdd prof a 73; pure (some (.teleported (true, true) a b))
    | 2 => do let b ← usizeAdd prof a 73; pure (some (.teleported (true, false) a b))
    | 3 => pure none
    | _ => .error .unreachable
  | .one g b => pure (some (.one g b))
  | .two g a b => pure (some (.two g a b))
  | .teleported p a b => pure (some (.teleported p a b))

/-- `ops.into_iter().filter_map(..).collect()`, roundtrip.rs:53-67. -/
def adaptAll (prof : Profile) : List Operation → R (List Kept)
  | [] => pure []
  | op :: ops => do
    let o ← adapt prof op
    let rest ← adaptAll prof ops
    pure (o.toList ++ rest)

/-- What a single-qubit gate does with a Pauli operator, up to a phase. -/
def Op1.conj : Op1 → Pauli → Pauli
  | .i, p | .x, p | .y, p | .z, p => p
  | .s, p | .sdg, p | .sz, p | .szdg, p | .hxy, p => (xor p.1 p.2, p.2)
  | .h, p | .sy, p | .sydg, p => (p.2, p.1)
  | .sx, p | .sxdg, p | .hyz, p | .shs, p => (p.1, xor p.1 p.2)
  | .sh, p => (xor p.1 p.2, p.1)
  | .hs, p => (p.2, xor p.1 p.2)

/-- What a two-qubit gate does with the Pauli operators on its qubits, up to a phase. -/
def Op2.conj : Op2 → Pauli → Pauli → Pauli × Pauli
  | .cz, p, q => ((xor p.1 q.2, p.2), (xor q.1 p.2, q.2))
  | .cx, p, q => ((xor p.1 q.1, p.2), (q.1, xor q.2 p.2))
  | .cy, p, q => ((xor p.1 (xor q.1 q.2), p.2), (xor q.1 p.2, xor q.2 p.2))
  | .swap, p, q => (q, p)
  | .iswap, p, q | .iswapdg, p, q => ((xor q.1 (xor q.2 p.2), q.2), (xor p.1 (xor p.2 q.2), p.2))

/-- The variables `memory` and `used` of the `Instructor`, the tracker and the storage of the circuit, the
number of frames, and the measurements, tracking.rs:212-216, roundtrip.rs:71-77. A stack has one Pauli operator for every
frame. -/
structure State where
  memory : List Nat
  used : Nat
  tracker : AMap (List Pauli)
  storage : AMap (List Pauli)
  frames : Nat
  measured : List Nat

/-- `Instructor::new` and `Frames::init`, tracking.rs:219-225, roundtrip.rs:71-77. -/
def State.init (n : Nat) : State := ⟨List.range n, n, (List.range n).map fun q => (q, []), [], 0, []⟩

/-- `Instructor::new_qubit`, tracking.rs:364-376. -/
def newQubit (s : State) : State :=
  { s with
    tracker := s.tracker.insert s.used (List.replicate s.frames (false, false))
    memory := s.memory ++ [s.used]
    used := s.used + 1 }

/-- `bit % self.memory.len()`, tracking.rs:343-345. -/
def remLen (s : State) (bit : Nat) : R Nat :=
  if s.memory.length = 0 then .error .divisionByZero else pure (bit % s.memory.length)

/-- `mem_idx`, tracking.rs:346-348. -/
def memIdx (s : State) (bit : Nat) : R Nat := do
  let i ← remLen s bit
  idx s.memory i

/-- `double_mem_idx`, tracking.rs:349-362. -/
def doubleMemIdx (prof : Profile) (s : State) (bitA bitB : Nat) : R (Option (Nat × Nat)) :=
  if s.memory.length = 1 then pure none
  else do
    let a ← remLen s bitA
    let b ← remLen s bitB
    let b ← if a = b then do
        let b ← usizeAdd prof bitB 1
        remLen s b
      else pure b
    let p ← idx s.memory a
    let q ← idx s.memory b
    pure (some (p, q))

/-- A single-qubit gate on the tracker. -/
def gate1 (g : Op1) (q : Nat) (tracker : AMap (List Pauli)) : R (AMap (List Pauli)) :=
  match tracker.get q with
  | none => .error .unwrapFailed
  | some st => pure (tracker.insert q (st.map g.conj))

/-- A two-qubit gate on the tracker: both qubits have to be there, and different. -/
def gate2 (g : Op2) (p q : Nat) (tracker : AMap (List Pauli)) : R (AMap (List Pauli)) :=
  match tracker.get p, tracker.get q with
  | some s, some t =>
    if p = q then .error .unwrapFailed
    else pure ((tracker.insert p (List.zipWith (fun a b => (g.conj a b).1) s t)).insert q
      (List.zipWith (fun a b => (g.conj a b).2) s t))
  | _, _ => .error .unwrapFailed

/-- `track_pauli`: a new frame with the operator on one qubit. -/
def track (q : Nat) (p : Pauli) (tracker : AMap (List Pauli)) : AMap (List Pauli) :=
  tracker.map fun e => (e.1, e.2 ++ [if e.1 = q then p else (false, false)])

/-- `measure_and_store(origin).1.unwrap()`: the stack is moved into the storage. -/
def measureAndStore (origin : Nat) (s : State) : R State :=
  match s.tracker.get origin, s.storage.get origin with
  | some st, none =>
    pure { s with tracker := s.tracker.erase origin, storage := s.storage.insert origin st }
  | _, _ => .error .unwrapFailed

/-- `ExtendCircuit::pauli_teleportation` and `WhereMeasured::store`, tracking.rs:378-396, 405-407, 441-449. -/
def teleport (origin new : Nat) (p : Pauli) (s : State) : R State := do
  let s ← measureAndStore origin { s with tracker := track new p s.tracker, frames := s.frames + 1 }
  pure { s with measured := s.measured ++ [origin] }

/-- One iteration of `apply`, tracking.rs:241-340, for the operations that are left after the filter. -/
def step (prof : Profile) (s : State) (op : Kept) : R State := do
  let s := if s.memory.isEmpty then newQubit s else s
  match op with
  | .one g b => do
    let q ← memIdx s b
    let tracker ← gate1 g q s.tracker
    pure { s with tracker }
  | .two g a b => do
    match ← doubleMemIdx prof s a b with
    | none => pure s
    | some (p, q) => do
      let tracker ← gate2 g p q s.tracker
      pure { s with tracker }
  | .teleported pauli a b => do
    match ← doubleMemIdx prof s a b with
    | none => pure s
    | some (origin, new) => do
      let s ← teleport origin new pauli s
      let pos ← remLen s a
      let pos ← remLen s pos
      pure { s with memory := swapRemove s.memory pos }

/-- `measure_and_store_all`: what is left in the tracker goes into the storage. -/
def storeAll (s : State) : AMap (List Pauli) := s.tracker.foldl (fun m e => m.insert e.1 e.2) s.storage

/-- roundtrip.rs:53-79: the stored frames and the measured qubits. -/
def frames (prof : Profile) (ops : List Operation) (n : Nat) : R (AMap (List Pauli) × List Nat) := do
  let ops ← adaptAll prof ops
  let s ← ops.foldlM (step prof) (State.init n)
  pure (storeAll s, s.measured)

/-- The whole test, roundtrip.rs:46-311. `induced` is `induced_order::get_order`. -/
def test (prof : Profile) (fuel : Nat) (induced : AMap (List Pauli) → List Nat → List (List (Nat × List Nat)))
    (ops : List Operation) (edges : List (Nat × Nat)) (n : Nat) : R (Option Unit) := do
  let (storage, measured) ← frames prof ops n
  if measured.isEmpty then pure (some ())
  else Roundtrip.roundtrip prof fuel edges n (induced storage measured)

end Instructor
end Verif
