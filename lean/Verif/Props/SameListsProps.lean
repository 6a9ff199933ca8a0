import Verif.Proofs.Layers
import Verif.Props.Example
/-!
# The lists inside of the inputs as sets

The neighbour lists of a node and the lists of dependencies come out of hash sets and sorted lists of other programs (e.g.,
`getter` of pauli_tracker). What does their order matter?
-/

namespace Verif

open Spec Problem Example

/-- The same nodes and, up to self-loops, the same neighbours of each node; the lists may be ordered differently and repeat
neighbours. -/
def SameGraph (L L' : List (List Nat)) : Prop :=
  L.length = L'.length ∧ ∀ b v, v ≠ b → (v ∈ L.getD b [] ↔ v ∈ L'.getD b [])

/-- The same qubits at the same places; behind the first layer a qubit depends on the same qubits and has equally many
dependencies. -/
def SameOrder (o o' : OrderGraph) : Prop :=
  o.length = o'.length ∧ ∀ i, ((o.getD i []).map (·.1) = (o'.getD i []).map (·.1)) ∧
    (0 < i → ∀ j : Nat, (((o.getD i []).getD j (0, [])).2.length = ((o'.getD i []).getD j (0, [])).2.length) ∧
      ∀ d, d ∈ ((o.getD i []).getD j (0, [])).2 ↔ d ∈ ((o'.getD i []).getD j (0, [])).2)

theorem layer_of_same : ∀ {l l' : List (Nat × List Nat)}, l.map (·.1) = l'.map (·.1) →
    (∀ j : Nat, ((l.getD j (0, [])).2.length = (l'.getD j (0, [])).2.length) ∧
      ∀ d, d ∈ (l.getD j (0, [])).2 ↔ d ∈ (l'.getD j (0, [])).2) →
    List.Forall₂ (fun e e' => e.1 = e'.1 ∧ e.2.length = e'.2.length ∧ ∀ d, d ∈ e.2 ↔ d ∈ e'.2) l l'
  | [], [], _, _ => .nil
  | [], _ :: _, h, _ => by simp at h
  | _ :: _, [], h, _ => by simp at h
  | e :: l, e' :: l', h, hd => by
    simp only [List.map_cons, List.cons.injEq] at h
    exact .cons ⟨h.1, (hd 0).1, (hd 0).2⟩ (layer_of_same h.2 fun j => hd (j + 1))

theorem deps_of_same : ∀ {o o' : OrderGraph}, o.length = o'.length →
    (∀ i, ((o.getD i []).map (·.1) = (o'.getD i []).map (·.1)) ∧
      ∀ j : Nat, (((o.getD i []).getD j (0, [])).2.length = ((o'.getD i []).getD j (0, [])).2.length) ∧
        ∀ d, d ∈ ((o.getD i []).getD j (0, [])).2 ↔ d ∈ ((o'.getD i []).getD j (0, [])).2) → SameLists.Deps o o'
  | [], [], _, _ => .nil
  | [], _ :: _, h, _ => by simp at h
  | _ :: _, [], h, _ => by simp at h
  | l :: o, l' :: o', h, hi =>
    .cons (layer_of_same (hi 0).1 (hi 0).2) (deps_of_same (by simpa using h) fun i => hi (i + 1))

theorem SameOrder.orders : ∀ {o o' : OrderGraph}, SameOrder o o' → SameLists.Orders o o'
  | [], [], _ => .nil
  | [], _ :: _, h => by have := h.1; simp at this
  | _ :: _, [], h => by have := h.1; simp at this
  | l :: o, l' :: o', h =>
    .cons (h.2 0).1 (deps_of_same (by simpa using h.1) fun i => ⟨(h.2 (i + 1)).1, (h.2 (i + 1)).2 (by omega)⟩)

/-- **C65** On all inputs whatsoever and in every mode `run` does exactly the same (also panics or does not terminate) for
inputs that differ in the order and in the repetitions of neighbours, in self-loops, in the order of the dependencies of a
qubit, and in whatever is given as dependencies of the first layer. -/
theorem C65_same {F σ : Type} [Search.FloatOps F] {L L' : List (List Nat)} {o o' : OrderGraph} (hL : SameGraph L L')
    (ho : SameOrder o o') (env : Env F σ) (args : Args F) : run env L o args = run env L' o' args :=
  SameLists.run_same hL ho.orders env args

/-- **C65** In particular the orders in which the neighbours are listed have no influence on the result. -/
theorem C65_shuffled {F σ : Type} [Search.FloatOps F] {L L' : List (List Nat)} (hL : List.Forall₂ List.Perm L L')
    (o : OrderGraph) (env : Env F σ) (args : Args F) : run env L o args = run env L' o args := by
  refine C65_same ⟨hL.length_eq, fun b v hv => ?_⟩ ⟨rfl, fun i => ⟨rfl, fun _ j => ⟨rfl, fun _ => Iff.rfl⟩⟩⟩ env args
  suffices h : ∀ b, (L.getD b []).Perm (L'.getD b []) from (h b).mem_iff
  clear hv v
  intro b
  induction hL generalizing b with
  | nil => simp
  | cons h _ ih =>
    cases b with
    | zero => simpa using h
    | succ b => simpa using ih b

/-- **C65** Of a well-formed ordering `run` sees only the list of its entries: how it is cut into layers makes no
difference. -/
theorem C65_layers {F σ : Type} [Search.FloatOps F] {P P' : Problem} (hP : P.WF) (hP' : P'.WF) (hg : P.graph = P'.graph)
    (h : P.entries = P'.entries) (env : Env F σ) (args : Args F) :
    run env P.graph P.order args = run env P'.graph P'.order args := Layers.run_same hP hP' hg h env args

-- the square of the documentation with repetitions, self-loops, other orders, and a dependency in the first layer
example : SameGraph docs.graph [[2, 1, 1], [1, 0, 3], [3, 0, 0, 3], [2, 1]] ∧
    SameOrder [[(0, [])], [(3, [0]), (1, [0])], [(2, [3, 1])]] [[(0, [2, 9])], [(3, [0]), (1, [0])], [(2, [1, 3])]] := by
  refine ⟨⟨rfl, ?_⟩, rfl, ?_⟩
  · intro b v hv
    match b with
    | 0 | 1 | 2 | 3 => simp [docs]; try omega
    | b + 4 => simp [docs]
  · intro i
    match i with
    | 0 | 1 | i + 3 => simp
    | 2 =>
      refine ⟨rfl, fun _ j => ?_⟩
      match j with
      | 0 => exact ⟨rfl, fun d => by simp; omega⟩
      | j + 1 => simp

-- the third layer of the documentation's example may be cut differently
example : docs.WF ∧ (⟨docs.graph, [[(0, [])], [(3, [0])], [(1, [0]), (2, [3])]]⟩ : Problem).WF ∧
    docs.entries = (⟨docs.graph, [[(0, [])], [(3, [0])], [(1, [0]), (2, [3])]]⟩ : Problem).entries :=
  ⟨docs_wf, wf_of_check (by decide +kernel), rfl⟩

/-- **C65** Repetitions in a list of dependencies do make a difference, even for one and the same set: the qubit is then
never measured. -/
theorem C65_repeated_refuted : ¬ ∀ (L : List (List Nat)) (o o' : OrderGraph) (env : Env Bool Unit) (args : Args Bool),
    List.Forall₂ (List.Forall₂ fun e e' => e.1 = e'.1 ∧ ∀ d, d ∈ e.2 ↔ d ∈ e'.2) o o' →
    run env L o args = run env L o' args := by
  intro h
  have h1 := h [[1], [0]] [[(0, [])], [(1, [0])]] [[(0, [])], [(1, [0, 0])]] (demo 100 []) { doSearch := true }
    (by simp)
  revert h1
  decide +kernel

/-- **C65** The order of the qubits in a layer does make a difference for which of equally good paths is returned. -/
theorem C65_qubits_refuted : ¬ ∀ (L : List (List Nat)) (o o' : OrderGraph) (env : Env Bool Unit) (args : Args Bool),
    List.Forall₂ List.Perm o o' → run env L o args = run env L o' args := by
  intro h
  have h1 := h star.graph star.order [[(0, []), (2, []), (3, []), (1, [])]] (demo 1000 []) { doSearch := true }
    (.cons (by decide) .nil)
  revert h1
  decide +kernel

/-- **C65** A well-formed ordering is necessary in `C65_layers`: a dependency inside of a layer is never fulfilled. -/
theorem C65_layers_refuted : ¬ ∀ (L : List (List Nat)) (o o' : OrderGraph) (env : Env Bool Unit) (args : Args Bool),
    o.flatten = o'.flatten → run env L o args = run env L o' args := by
  intro h
  have h1 := h [[], [], []] [[(0, [])], [(1, [0]), (2, [1])]] [[(0, [])], [(1, [0])], [(2, [1])]] (demo 100 [])
    { doSearch := true } rfl
  revert h1
  decide +kernel

end Verif
