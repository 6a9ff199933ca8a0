import Verif.Spec
/-!
# The order in which schedules are tried: specification

Not only which schedules there are but which one comes first. Everything is defined by the input alone.
-/

namespace Verif.Spec

namespace Problem

/-- The bits that wait for `b` and for nothing outside `M`, in the order of the input. -/
def freed (P : Problem) (M : List Nat) (b : Nat) : List Nat :=
  (P.entries.filter fun e => e.2.contains b && e.2.all M.contains).map (·.1)

/-- What measuring `m`, one after the other, after the bits in `M` makes ready. -/
def freedBy (P : Problem) : List Nat → List Nat → List Nat
  | _, [] => []
  | M, b :: m => P.freed (b :: M) b ++ P.freedBy (b :: M) m

/-- The bits without dependencies, in the order of the input. -/
def start (P : Problem) : List Nat := (P.entries.filter fun e => e.2.isEmpty).map (·.1)

/-- The list of ready bits after further steps: those left over, then the new ones. -/
def readyFrom (P : Problem) : List Nat → List Nat → Schedule → List Nat
  | _, ready, [] => ready
  | M, ready, m :: S => P.readyFrom (M ++ m) ((ready.filter fun b => !m.contains b) ++ P.freedBy M m) S

/-- The bits that can be measured after the steps `S`, as a list. -/
def readyList (P : Problem) (S : Schedule) : List Nat := P.readyFrom [] P.start S

end Problem

/-- Of two steps that are possible when the bits `ready` can be measured: the larger one comes first; if they are
equally large, the one that leaves out the first bit on which they differ. -/
def Sooner (ready m m' : List Nat) : Prop :=
  m'.length < m.length ∨
    m.length = m'.length ∧ ∃ pre x post, ready = pre ++ x :: post ∧ (∀ y ∈ pre, y ∈ m ↔ y ∈ m') ∧ x ∉ m ∧ x ∈ m'

/-- The first step in which `a` and `b` differ comes sooner in `a`. -/
def TriedBefore (P : Problem) (a b : Schedule) : Prop :=
  ∃ (k : Nat) (m m' : List Nat), a.take k = b.take k ∧ a[k]? = some m ∧ b[k]? = some m' ∧
    Sooner (P.readyList (a.take k)) m m'

/-- Every step lists its bits in the order in which they stand in the list of ready bits. -/
def Canonical (P : Problem) (a : Schedule) : Prop :=
  ∀ (k : Nat) (m : List Nat), a[k]? = some m → m.Sublist (P.readyList (a.take k))

end Verif.Spec
