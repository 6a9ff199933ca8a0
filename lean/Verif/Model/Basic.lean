/-!
# Rust primitives used by the model

Panics, checked arithmetic, indexing and hash maps.
-/

namespace Verif

/-- The ways in which the modelled code can panic. -/
inductive Panic where
  /-- `v[i]` with `i` out of bounds. -/
  | indexOutOfBounds
  /-- `usize` subtraction below zero in a debug build ("attempt to subtract with overflow"). -/
  | subOverflow
  /-- `usize` addition beyond the maximum in a debug build ("attempt to add with overflow"). -/
  | addOverflow
  /-- `Vec::with_capacity` with an absurd capacity ("capacity overflow"). -/
  | capacityOverflow
  /-- `panic!("the {bit} is already resolved")`, scheduler/time.rs:236. -/
  | alreadyResolved
  /-- `.unwrap()` / `.expect(..)` on an `Err` or `None`. -/
  | unwrapFailed
  /-- `assert!(..)` with a false condition. -/
  | assertFailed
  /-- Integer division by zero. -/
  | divisionByZero
  /-- `unreachable!()` is reached. -/
  | unreachable
  deriving DecidableEq, Repr

/-- A computation that may panic. -/
abbrev R (α : Type) := Except Panic α

/-- The two build profiles, `cfg(debug_assertions)` on or off. -/
inductive Profile where
  | debug
  | release
  deriving DecidableEq, Repr

/-- `usize::MAX` on a 64 bit target. -/
def usizeMax : Nat := 2 ^ 64 - 1

/-- `v[i]` for reading: panics when out of bounds. -/
def idx {α : Type} (l : List α) (i : Nat) : R α :=
  match l[i]? with
  | some x => .ok x
  | none => .error .indexOutOfBounds

/-- `a - b` on `usize`: panics in a debug build, wraps around in a release build. -/
def usizeSub (prof : Profile) (a b : Nat) : R Nat :=
  if b ≤ a then .ok (a - b)
  else match prof with
    | .debug => .error .subOverflow
    | .release => .ok (2 ^ 64 + a - b)

/-- `a + b` on `usize`: panics in a debug build, wraps around in a release build. -/
def usizeAdd (prof : Profile) (a b : Nat) : R Nat :=
  if a + b ≤ usizeMax then .ok (a + b)
  else match prof with
    | .debug => .error .addOverflow
    | .release => .ok (a + b - 2 ^ 64)

/-- A hash map with `usize` keys as an association list. Iteration order is not part of the
model; where the code iterates, the order is an explicit parameter. -/
abbrev AMap (β : Type) := List (Nat × β)

namespace AMap

variable {β : Type}

/-- `HashMap::get`. -/
def get : AMap β → Nat → Option β
  | [], _ => none
  | (k', v) :: m, k => if k' = k then some v else get m k

/-- `HashMap::remove` (the map afterwards). -/
def erase : AMap β → Nat → AMap β
  | [], _ => []
  | (k', v) :: m, k => if k' = k then erase m k else (k', v) :: erase m k

/-- `HashMap::insert`. -/
def insert (m : AMap β) (k : Nat) (v : β) : AMap β := (k, v) :: erase m k

end AMap

/-- `Vec::swap_remove`: remove index `p` and put the last element in its place. -/
def swapRemove {α : Type} (l : List α) (p : Nat) : List α :=
  match l.getLast? with
  | none => l
  | some x => (l.set p x).dropLast

end Verif
