import Verif.Model.Basic
/-!
# Model of `mbqc_scheduling/src/scheduler/tree.rs`
-/

namespace Verif

/-- `Step<F, B>`, tree.rs:50-55. -/
inductive Step (F B : Type) where
  | forward (f : F)
  | backward (b : B)
  deriving DecidableEq, Repr

/-- The trait `FocusIterator`, tree.rs:31-45, as a record of its methods.
`nextAndFocus s` returns the mutated `self` together with the result. -/
structure FocusIter (T Item Leaf : Type) where
  nextAndFocus : T → R (T × Option (T × Item))
  atLeaf : T → Option Leaf

/-- `Sweep<T>`, tree.rs:68-71. The head of `stack` is the top (the last element of the `Vec`). -/
structure Sweep (T : Type) where
  current : T
  stack : List T
  deriving Repr

/-- `EmptyStack`, tree.rs:78. -/
inductive EmptyStack where
  | mk
  deriving DecidableEq, Repr

namespace Sweep

variable {T Item Leaf : Type}

/-- `Sweep::new`, tree.rs:82-84. -/
def new (current : T) : Sweep T := ⟨current, []⟩

/-- `Sweep::skip_current`, tree.rs:98-101. -/
def skipCurrent (s : Sweep T) : Sweep T × Except EmptyStack Unit :=
  match s.stack with
  | top :: rest => (⟨top, rest⟩, .ok ())
  | [] => (s, .error .mk)

/-- `Iterator::next` for `Sweep`, tree.rs:107-119. -/
def next (fi : FocusIter T Item Leaf) (s : Sweep T) :
    R (Sweep T × Option (Step Item (Option Leaf))) := do
  let (cur, r) ← fi.nextAndFocus s.current
  match r with
  | some (new, mess) => pure (⟨new, cur :: s.stack⟩, some (.forward mess))
  | none =>
    let atEnd := fi.atLeaf cur
    match s.stack with
    | [] => pure (⟨cur, []⟩, none)
    | top :: rest => pure (⟨top, rest⟩, some (.backward atEnd))

end Sweep
end Verif
