/-!
# Specification vocabulary

What a scheduling problem, a valid schedule and its costs are. Nothing in this file refers to the
model of the code: the definitions are about graphs, layered dependency lists and sequences of
measurement steps only.
-/

namespace Verif.Spec

/-- A scheduling problem: `graph[v]` lists the neighbours of node `v`; `order` is a list of layers
of pairs (bit, bits it depends on). -/
structure Problem where
  graph : List (List Nat)
  order : List (List (Nat × List Nat))

/-- A schedule: a sequence of sets (as lists) of bits measured in parallel. -/
abbrev Schedule := List (List Nat)

namespace Problem

/-- The number of nodes. -/
def n (P : Problem) : Nat := P.graph.length

/-- All (bit, dependencies) pairs of the ordering. -/
def entries (P : Problem) : List (Nat × List Nat) := P.order.flatten

/-- All bits that have to be measured. -/
def bits (P : Problem) : List Nat := P.entries.map (·.1)

/-- Bit `b` depends on bit `d`: `d` has to be measured in a strictly earlier step. -/
def Needs (P : Problem) (b d : Nat) : Prop := ∃ ds, (b, ds) ∈ P.entries ∧ d ∈ ds

/-- Neighbours of a node. -/
def nbrs (P : Problem) (u : Nat) : List Nat := P.graph.getD u []

/-- Well-formed input: node ids are in range, every bit occurs once, first-layer bits have no
dependencies, later bits have distinct dependencies, at least one, all in strictly earlier layers.
(`2 ^ 64 - 1` is `usize::MAX`: an adjacency list of that length cannot exist.) -/
structure WF (P : Problem) : Prop where
  bits_nodup : P.bits.Nodup
  bits_lt : ∀ b ∈ P.bits, b < P.n
  nbrs_lt : ∀ l ∈ P.graph, ∀ v ∈ l, v < P.n
  layers : ∀ i layer, P.order[i]? = some layer → ∀ e ∈ layer,
    (i = 0 ↔ e.2 = []) ∧ e.2.Nodup ∧
    ∀ d ∈ e.2, ∃ j, j < i ∧ ∃ layer', P.order[j]? = some layer' ∧ ∃ e' ∈ layer', e'.1 = d
  size : P.n < 2 ^ 64 - 1

/-- A weaker condition on the input: node ids are in range and every bit occurs once; nothing is said about
the dependencies. -/
structure Loose (P : Problem) : Prop where
  bits_nodup : P.bits.Nodup
  bits_lt : ∀ b ∈ P.bits, b < P.n
  nbrs_lt : ∀ l ∈ P.graph, ∀ v ∈ l, v < P.n
  size : P.n < 2 ^ 64 - 1

/-- The part of an ordering that can be fulfilled. Dependencies of the first layer are dropped. A later entry is
kept if its dependencies are distinct, at least one, and all of them among the bits kept in earlier layers
(`known`). -/
def keep (known : List Nat) (first : Bool) : List (List (Nat × List Nat)) → List (List (Nat × List Nat))
  | [] => []
  | layer :: rest =>
    let layer' := if first then layer.map fun e => (e.1, [])
      else layer.filter fun e => decide (e.2 ≠ [] ∧ e.2.Nodup ∧ ∀ d ∈ e.2, d ∈ known)
    layer' :: keep (known ++ layer'.map (·.1)) false rest

/-- The part of a problem that can be fulfilled. -/
def part (P : Problem) : Problem := ⟨P.graph, keep [] true P.order⟩

/-- `S` is a valid schedule of `P`: no empty steps, every bit exactly once, dependencies in
strictly earlier steps. -/
structure Valid (P : Problem) (S : Schedule) : Prop where
  nonempty : ∀ s ∈ S, s ≠ []
  perm : S.flatten.Perm P.bits
  deps : ∀ (i : Nat) (s : List Nat), S[i]? = some s → ∀ b ∈ s, ∀ d, P.Needs b d →
    ∃ (j : Nat) (s' : List Nat), j < i ∧ S[j]? = some s' ∧ d ∈ s'

/-- Node `v` occupies memory while step `k` of `S` is performed: it has been needed up to now (it is
measured now or earlier, or it is a neighbour of such a bit), and it has not been measured in
an earlier step. -/
def inMemory (P : Problem) (S : Schedule) (k v : Nat) : Bool :=
  let now := (S.take (k + 1)).flatten
  let before := (S.take k).flatten
  (now.contains v || now.any fun u => (P.nbrs u).contains v) && !before.contains v

/-- The number of qubits in memory while step `k` is performed. -/
def memAt (P : Problem) (S : Schedule) (k : Nat) : Nat :=
  ((List.range P.n).filter (P.inMemory S k)).length

/-- The space cost of a schedule: the largest number of qubits in memory over all steps. -/
def peak (P : Problem) (S : Schedule) : Nat :=
  ((List.range S.length).map (P.memAt S)).foldr max 0

end Problem

/-- `(t, m)` are the costs of some valid schedule. -/
def Achievable (P : Problem) (t m : Nat) : Prop :=
  ∃ S, P.Valid S ∧ S.length = t ∧ P.peak S = m

/-- `(t, m)` lies on the Pareto front: achievable, and nothing achievable is at least as good in both
costs except `(t, m)` itself. -/
def ParetoOptimal (P : Problem) (t m : Nat) : Prop :=
  Achievable P t m ∧ ∀ t' m', Achievable P t' m' → t' ≤ t → m' ≤ m → t' = t ∧ m' = m

/-- `(t, m, S)` belongs to the curve of a list `E` of schedules with their space costs: `S` is in `E` and
takes `t` steps and space `m`, nothing in `E` that is as short has less space, everything shorter needs
more space, and everything of the same length before it in `E` needs more space. -/
def OnCurve (E : List (Schedule × Nat)) (t m : Nat) (S : Schedule) : Prop :=
  ∃ pre post, E = pre ++ (S, m) :: post ∧ S.length = t ∧
    (∀ e ∈ E, e.1.length ≤ t → m ≤ e.2) ∧ (∀ e ∈ E, e.1.length < t → m < e.2) ∧
    ∀ e ∈ pre, e.1.length = t → m < e.2

end Verif.Spec
