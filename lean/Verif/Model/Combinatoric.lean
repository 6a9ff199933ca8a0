import Verif.Model.Basic
/-!
# Model of `mbqc_scheduling/src/scheduler/combinatoric.rs`
-/

namespace Verif

/-- `itertools::Combinations`: all `k`-element sub-lists in lexicographic (index) order.
External crate (itertools 0.12), modelled by its documented contract. -/
def combs {α : Type} : Nat → List α → List (List α)
  | 0, _ => [[]]
  | _ + 1, [] => []
  | k + 1, x :: xs => (combs k xs).map (x :: ·) ++ combs (k + 1) xs

/-- `(0..len).powerset()` (itertools): all index subsets, ordered by size, lexicographic inside
one size. The lazily advancing iterator is modelled by the list of its remaining items. -/
def powerset (len : Nat) : List (List Nat) :=
  (List.range (len + 1)).flatMap fun k => combs k (List.range len)

/-- `Partition<T>`, combinatoric.rs:7-10. `iter` is the list of items that the `Powerset`
iterator has not yet produced. -/
structure Partition (α : Type) where
  set : List α
  iter : List (List Nat)
  deriving DecidableEq, Repr

namespace Partition

variable {α : Type}

/-- `Partition::new`, combinatoric.rs:23-25. -/
def new (set : List α) (len : Nat) : Partition α := ⟨set, powerset len⟩

/-- `Partition::default`, combinatoric.rs:12-19. -/
def default : Partition α := ⟨[], powerset 0⟩

/-- The `partition_map` closure, combinatoric.rs:36-45: walk over the enumerated set with the
peekable sorted index list `subset`; an element whose index is at the head of `subset` goes to
the left. -/
def split : List α → Nat → List Nat → List α × List α
  | [], _, _ => ([], [])
  | e :: es, i, [] => let r := split es (i + 1) []; (r.1, e :: r.2)
  | e :: es, i, p :: ps =>
    if p = i then
      let r := split es (i + 1) ps
      (e :: r.1, r.2)
    else
      let r := split es (i + 1) (p :: ps)
      (r.1, e :: r.2)

/-- `Partition::next`, combinatoric.rs:33-49: the advanced iterator and the item. -/
def next (p : Partition α) : Partition α × Option (List α × List α) :=
  match p.iter with
  | subset :: rest => ({ p with iter := rest }, some (split p.set 0 subset))
  | [] => (p, none)

end Partition
end Verif
