import Verif.Model.Interface
import Verif.Proofs.AMap
import Verif.Proofs.Filter
/-!
# Neighbours that are not nodes

The code on a graph with entries out of range in its neighbour lists, against the code on the graph without these
entries: either a panic, or no difference.
-/

namespace Verif.Clip

open Search Search.Threaded

/-- The neighbour lists without entries that are no nodes. -/
def clipLists (L : List (List Nat)) : List (List Nat) :=
  L.map fun nb => nb.filter fun v => decide (v < L.length)

/-- All neighbours of `b` are nodes. -/
def GoodBit (L : List (List Nat)) (b : Nat) : Prop := ∀ v ∈ L.getD b [], v < L.length

/-- Two computations that correspond: both fail in the same way, or the results correspond (and have property
`I`), or, if `bad`, the first one panics with an index out of bounds. -/
def Rel {α β : Type} (bad : Prop) (I : α → Prop) (φ : α → β) (x : R α) (y : R β) : Prop :=
  (bad ∧ x = .error .indexOutOfBounds) ∨ (∃ v, x = .ok v ∧ y = .ok (φ v) ∧ I v) ∨
    ∃ e, x = .error e ∧ y = .error e

namespace Rel

variable {α β γ δ : Type} {bad : Prop} {I : α → Prop} {φ : α → β} {J : γ → Prop} {ψ : γ → δ} {x : R α} {y : R β}

theorem bind {f : α → R γ} {g : β → R δ} (h : Rel bad I φ x y) (hf : ∀ v, I v → Rel bad J ψ (f v) (g (φ v))) :
    Rel bad J ψ (x >>= f) (y >>= g) := by
  rcases h with ⟨hb, rfl⟩ | ⟨v, rfl, rfl, hv⟩ | ⟨e, rfl, rfl⟩
  · exact Or.inl ⟨hb, rfl⟩
  · exact hf v hv
  · exact Or.inr (Or.inr ⟨e, rfl, rfl⟩)

theorem pure {v : α} {w : β} (hw : w = φ v) (h : I v) : Rel bad I φ (pure v) (pure w) :=
  Or.inr (Or.inl ⟨v, rfl, by rw [hw]; rfl, h⟩)

theorem error (e : Panic) : Rel bad I φ (.error e) (.error e) := Or.inr (Or.inr ⟨e, rfl, rfl⟩)

theorem same {x : R α} (h : ∀ v, x = .ok v → I v) : Rel bad I id x x := by
  cases x with
  | error e => exact error e
  | ok v => exact Or.inr (Or.inl ⟨v, rfl, rfl, h v rfl⟩)

theorem mono {I' : α → Prop} (h : Rel bad I φ x y) (hI : ∀ v, I v → I' v) : Rel bad I' φ x y := by
  rcases h with h | ⟨v, h1, h2, h3⟩ | h
  · exact Or.inl h
  · exact Or.inr (Or.inl ⟨v, h1, h2, hI v h3⟩)
  · exact Or.inr (Or.inr h)

end Rel

/-- Clip the neighbour lists inside of a graph. -/
def clipG (n : Nat) (g : Graph) : Graph :=
  { g with nodes := g.nodes.map fun nd => (nd.1, nd.2.filter fun v => decide (v < n)) }

/-- The neighbour lists of `g` are those of `L`, and whatever has been measured has proper neighbours. -/
structure GInv (L : List (List Nat)) (g : Graph) : Prop where
  lists : g.nodes.map (·.2) = L
  good : ∀ (b : Nat) (nb : List Nat), g.nodes[b]? = some (.measured, nb) → GoodBit L b

section graph

variable {L : List (List Nat)} {g : Graph}

theorem GInv.length (h : GInv L g) : g.nodes.length = L.length := by rw [← h.lists]; simp

theorem lists_get (h : g.nodes.map (·.2) = L) {b : Nat} {nd : Node} (hb : g.nodes[b]? = some nd) :
    L.getD b [] = nd.2 := by
  rw [← h, List.getD_eq_getElem?_getD, List.getElem?_map, hb]; rfl

theorem clipG_get (n b : Nat) : (clipG n g).nodes[b]? =
    g.nodes[b]?.map fun nd => (nd.1, nd.2.filter fun v => decide (v < n)) := by
  simp [clipG]

theorem clipG_set (n b : Nat) (st : NodeState) (nb : List Nat) (cm mm : Nat) :
    clipG n ⟨g.nodes.set b (st, nb), cm, mm⟩ =
      ⟨(clipG n g).nodes.set b (st, nb.filter fun v => decide (v < n)), cm, mm⟩ := by
  simp [clipG, List.map_set]

theorem set_lists (h : g.nodes.map (·.2) = L) {b : Nat} {nd : Node} (hb : g.nodes[b]? = some nd) (st : NodeState) :
    (g.nodes.set b (st, nd.2)).map (·.2) = L := by
  rw [List.map_set]
  conv_rhs => rw [← h]
  apply List.ext_getElem?
  intro i
  rw [List.getElem?_set]
  split
  · rename_i hi
    subst hi
    obtain ⟨hlt, rfl⟩ := List.getElem?_eq_some_iff.1 hb
    simp [hlt]
  · rfl

theorem initNode_bad {v : Nat} (h : g.nodes.length ≤ v) : g.initNode v = .error .indexOutOfBounds := by
  simp [Graph.initNode, idx, List.getElem?_eq_none h, bind, Except.bind]

theorem initNode_ok {v : Nat} (hv : v < g.nodes.length) (n : Nat) : ∃ g', g.initNode v = .ok g' ∧
    (clipG n g).initNode v = .ok (clipG n g') ∧ g'.nodes.map (·.2) = g.nodes.map (·.2) ∧
    ∀ (b : Nat) (nb : List Nat), g'.nodes[b]? = some (.measured, nb) → g.nodes[b]? = some (.measured, nb) := by
  obtain ⟨st, nb, hg⟩ : ∃ st nb, g.nodes[v]? = some (st, nb) := ⟨_, _, List.getElem?_eq_getElem hv⟩
  have hc : (clipG n g).nodes[v]? = some (st, nb.filter fun v => decide (v < n)) := by rw [clipG_get, hg]; rfl
  cases st with
  | sleeping =>
    refine ⟨{ g with nodes := g.nodes.set v (.inMemory, nb), currentMemory := g.currentMemory + 1 }, ?_, ?_, ?_, ?_⟩
    · simp [Graph.initNode, idx, hg, bind, Except.bind, pure, Except.pure]
    · simp only [Graph.initNode, idx, hc, bind, Except.bind, pure, Except.pure]
      rw [clipG_set]
      rfl
    · exact set_lists rfl hg _
    · intro b nb' hb
      simp only [List.getElem?_set] at hb
      split at hb
      · simp at hb
      · exact hb
  | inMemory =>
    refine ⟨g, ?_, ?_, rfl, fun _ _ h => h⟩
    · simp [Graph.initNode, idx, hg, bind, Except.bind, pure, Except.pure]
    · simp [Graph.initNode, idx, hc, bind, Except.bind, pure, Except.pure]
  | measured =>
    refine ⟨g, ?_, ?_, rfl, fun _ _ h => h⟩
    · simp [Graph.initNode, idx, hg, bind, Except.bind, pure, Except.pure]
    · simp [Graph.initNode, idx, hc, bind, Except.bind, pure, Except.pure]

theorem initializeAll_bad (nb : List Nat) : ∀ g : Graph, (∃ v ∈ nb, g.nodes.length ≤ v) →
    g.initializeAll nb = .error .indexOutOfBounds := by
  induction nb with
  | nil => rintro g ⟨v, hv, _⟩; simp at hv
  | cons w nb ih =>
    rintro g ⟨v, hv, hlt⟩
    by_cases hw : w < g.nodes.length
    · obtain ⟨g', h1, _, h3, _⟩ := initNode_ok hw 0
      have hl : g'.nodes.length = g.nodes.length := by simpa using congrArg List.length h3
      simp only [Graph.initializeAll, h1, Bind.bind, Except.bind]
      refine ih g' ⟨v, ?_, by omega⟩
      rcases List.mem_cons.1 hv with rfl | hv
      · omega
      · exact hv
    · simp [Graph.initializeAll, initNode_bad (Nat.le_of_not_lt hw), Bind.bind, Except.bind]

theorem initializeAll_ok (n : Nat) (nb : List Nat) : ∀ g : Graph, (∀ v ∈ nb, v < g.nodes.length) →
    ∃ g', g.initializeAll nb = .ok g' ∧ (clipG n g).initializeAll nb = .ok (clipG n g') ∧
      g'.nodes.map (·.2) = g.nodes.map (·.2) ∧
      ∀ (b : Nat) (nb : List Nat), g'.nodes[b]? = some (.measured, nb) → g.nodes[b]? = some (.measured, nb) := by
  induction nb with
  | nil => intro g _; exact ⟨g, rfl, rfl, rfl, fun _ _ h => h⟩
  | cons w nb ih =>
    intro g h
    obtain ⟨g1, h1, h2, h3, h4⟩ := initNode_ok (h w (by simp)) n
    have hl : g1.nodes.length = g.nodes.length := by simpa using congrArg List.length h3
    obtain ⟨g2, e1, e2, e3, e4⟩ := ih g1 fun v hv => by rw [hl]; exact h v (by simp [hv])
    refine ⟨g2, ?_, ?_, e3.trans h3, fun b nb hb => h4 b nb (e4 b nb hb)⟩
    · simp only [Graph.initializeAll, h1, Bind.bind, Except.bind, e1]
    · simp only [Graph.initializeAll, h2, Bind.bind, Except.bind, e2]

/-- Setting a bit to measured and initialising its neighbours. -/
theorem measured_rel {B : List Nat} (h : GInv L g) {b : Nat} (hB : b ∈ B) {nd : Node} (hb : g.nodes[b]? = some nd)
    (cm : Nat) :
    Rel (∃ b ∈ B, ¬ GoodBit L b) (fun g' => GInv L g' ∧ GoodBit L b) (clipG L.length)
      (Graph.initializeAll { g with nodes := g.nodes.set b (.measured, nd.2), currentMemory := cm } nd.2)
      (Graph.initializeAll
        ⟨(clipG L.length g).nodes.set b (.measured, nd.2.filter fun v => decide (v < L.length)), cm,
          (clipG L.length g).maxMemory⟩ (nd.2.filter fun v => decide (v < L.length))) := by
  have hlist := lists_get h.lists hb
  have hlen := h.length
  by_cases hgood : GoodBit L b
  · have hall : ∀ v ∈ nd.2, v < L.length := by rw [← hlist]; exact hgood
    rw [show (clipG L.length g).maxMemory = g.maxMemory from rfl,
      ← clipG_set (g := g) L.length b .measured nd.2 cm g.maxMemory]
    rw [List.filter_eq_self.2 (fun v hv => by simpa using hall v hv)]
    obtain ⟨g', h1, h2, h3, h4⟩ := initializeAll_ok L.length nd.2
      { g with nodes := g.nodes.set b (.measured, nd.2), currentMemory := cm }
      (by intro v hv; simp only [List.length_set]; rw [hlen]; exact hall v hv)
    refine Or.inr (Or.inl ⟨g', h1, h2, ⟨h3.trans (set_lists h.lists hb _), ?_⟩, hgood⟩)
    intro c nb hc
    have := h4 c nb hc
    simp only [List.getElem?_set] at this
    split at this
    · rename_i hbc
      rw [← hbc]; exact hgood
    · exact h.good c nb this
  · refine Or.inl ⟨⟨b, hB, hgood⟩, initializeAll_bad _ _ ?_⟩
    unfold GoodBit at hgood
    rw [hlist] at hgood
    by_contra hne
    refine hgood fun v hv => ?_
    by_contra hlt
    exact hne ⟨v, hv, by simp only [List.length_set]; omega⟩

theorem measure_rel {B : List Nat} (h : GInv L g) {b : Nat} (hB : b ∈ B) :
    Rel (∃ b ∈ B, ¬ GoodBit L b) (fun v => GInv L v.1 ∧ (v.2 = .ok () → GoodBit L b))
      (fun v => (clipG L.length v.1, v.2)) (g.measure b) ((clipG L.length g).measure b) := by
  unfold Graph.measure
  cases hb : g.nodes[b]? with
  | none =>
    simp only [idx, clipG_get, hb, Option.map_none]
    exact Rel.error _
  | some nd =>
    obtain ⟨st, nb⟩ := nd
    simp only [idx, clipG_get, hb, Option.map_some, bind, Except.bind]
    cases st with
    | sleeping =>
      refine Rel.bind (measured_rel h hB hb (g.currentMemory + 1)) fun g' hg' => ?_
      exact Rel.pure rfl ⟨hg'.1, fun _ => hg'.2⟩
    | inMemory =>
      refine Rel.bind (measured_rel h hB hb g.currentMemory) fun g' hg' => ?_
      exact Rel.pure rfl ⟨hg'.1, fun _ => hg'.2⟩
    | measured => exact Rel.pure rfl ⟨h, fun h => by simp at h⟩

theorem measureUnchecked_rel {B : List Nat} (h : GInv L g) {b : Nat} (hB : b ∈ B) :
    Rel (∃ b ∈ B, ¬ GoodBit L b) (fun g' => GInv L g' ∧ GoodBit L b) (clipG L.length) (g.measureUnchecked b)
      ((clipG L.length g).measureUnchecked b) := by
  unfold Graph.measureUnchecked
  cases hb : g.nodes[b]? with
  | none =>
    simp only [idx, clipG_get, hb, Option.map_none]
    exact Rel.error _
  | some nd =>
    obtain ⟨st, nb⟩ := nd
    simp only [idx, clipG_get, hb, Option.map_some, bind, Except.bind]
    cases st with
    | sleeping => exact measured_rel h hB hb (g.currentMemory + 1)
    | inMemory => exact measured_rel h hB hb g.currentMemory
    | measured => exact Rel.pure rfl ⟨h, h.good b nb hb⟩

theorem updateMemory_rel {bad : Prop} (prof : Profile) (h : GInv L g) (len : Nat) :
    Rel bad (GInv L) (clipG L.length) (g.updateMemory prof len) ((clipG L.length g).updateMemory prof len) := by
  unfold Graph.updateMemory
  refine Rel.bind (Rel.same (I := fun _ => True) fun _ _ => trivial) fun cur _ => ?_
  exact Rel.pure rfl ⟨h.lists, h.good⟩

theorem measureAll_rel {B : List Nat} (ms : List Nat) : ∀ g : Graph, GInv L g → (∀ b ∈ ms, b ∈ B) →
    Rel (∃ b ∈ B, ¬ GoodBit L b) (fun v => GInv L v.1 ∧ (v.2 = .ok () → ∀ b ∈ ms, GoodBit L b))
      (fun v => (clipG L.length v.1, v.2)) (g.measureAll ms) ((clipG L.length g).measureAll ms) := by
  induction ms with
  | nil => intro g h _; exact Rel.pure rfl ⟨h, by simp⟩
  | cons b ms ih =>
    intro g h hB
    unfold Graph.measureAll
    refine Rel.bind (measure_rel h (hB b (by simp))) fun v hv => ?_
    obtain ⟨g', r⟩ := v
    cases r with
    | error e => exact Rel.pure rfl ⟨hv.1, by simp⟩
    | ok u =>
      refine (ih g' hv.1 fun c hc => hB c (by simp [hc])).mono fun w hw => ⟨hw.1, fun hok c hc => ?_⟩
      rcases List.mem_cons.1 hc with rfl | hc
      · exact hv.2 rfl
      · exact hw.2 hok c hc

theorem measureAllUnchecked_rel {B : List Nat} (ms : List Nat) : ∀ g : Graph, GInv L g → (∀ b ∈ ms, b ∈ B) →
    Rel (∃ b ∈ B, ¬ GoodBit L b) (fun g' => GInv L g' ∧ ∀ b ∈ ms, GoodBit L b)
      (clipG L.length) (g.measureAllUnchecked ms) ((clipG L.length g).measureAllUnchecked ms) := by
  induction ms with
  | nil => intro g h _; exact Rel.pure rfl ⟨h, by simp⟩
  | cons b ms ih =>
    intro g h hB
    unfold Graph.measureAllUnchecked
    refine Rel.bind (measureUnchecked_rel h (hB b (by simp))) fun g' hv => ?_
    refine (ih g' hv.1 fun c hc => hB c (by simp [hc])).mono fun w hw => ⟨hw.1, fun c hc => ?_⟩
    rcases List.mem_cons.1 hc with rfl | hc
    · exact hv.2
    · exact hw.2 c hc

theorem focusInplace_rel {B : List Nat} (prof : Profile) {ms : List Nat} (h : GInv L g) (hB : ∀ b ∈ ms, b ∈ B) :
    Rel (∃ b ∈ B, ¬ GoodBit L b) (fun v => GInv L v.1 ∧ (v.2 = .ok () → ∀ b ∈ ms, GoodBit L b))
      (fun v => (clipG L.length v.1, v.2)) (g.focusInplace prof ms) ((clipG L.length g).focusInplace prof ms) := by
  unfold Graph.focusInplace
  refine Rel.bind (measureAll_rel ms g h hB) fun v hv => ?_
  obtain ⟨g', r⟩ := v
  cases r with
  | error e => exact Rel.pure rfl ⟨hv.1, by simp⟩
  | ok u =>
    refine Rel.bind (updateMemory_rel prof hv.1 ms.length) fun g'' hg => ?_
    exact Rel.pure rfl ⟨hg, fun _ => hv.2 rfl⟩

theorem focusUnchecked_rel {B : List Nat} (prof : Profile) {ms : List Nat} (h : GInv L g) (hB : ∀ b ∈ ms, b ∈ B) :
    Rel (∃ b ∈ B, ¬ GoodBit L b) (fun g' => GInv L g' ∧ ∀ b ∈ ms, GoodBit L b)
      (clipG L.length) (g.focusUnchecked prof ms) ((clipG L.length g).focusUnchecked prof ms) := by
  unfold Graph.focusUnchecked
  refine Rel.bind (measureAllUnchecked_rel ms g h hB) fun g' hv => ?_
  exact (updateMemory_rel prof hv.1 ms.length).mono fun g'' hg => ⟨hg, hv.2⟩

theorem focusSpace_rel {B : List Nat} (prof : Profile) {ms : List Nat} (h : GInv L g) (hB : ∀ b ∈ ms, b ∈ B) :
    Rel (∃ b ∈ B, ¬ GoodBit L b) (fun g' => GInv L g' ∧ ∀ b ∈ ms, GoodBit L b)
      (clipG L.length) (Scheduler.focusSpace prof g ms) (Scheduler.focusSpace prof (clipG L.length g) ms) := by
  cases prof with
  | debug =>
    unfold Scheduler.focusSpace Graph.focus
    simp only [bind_assoc]
    refine Rel.bind (focusInplace_rel .debug h hB) fun v hv => ?_
    obtain ⟨g', r⟩ := v
    cases r with
    | error e => exact Rel.error _
    | ok u => exact Rel.pure rfl ⟨hv.1, hv.2 rfl⟩
  | release => exact focusUnchecked_rel .release h hB

theorem new_ginv (L : List (List Nat)) : GInv L (Graph.new L) := by
  refine ⟨by simp [Graph.new, Function.comp_def], ?_⟩
  intro b nb h
  simp [Graph.new] at h

theorem clipG_new (L : List (List Nat)) : clipG L.length (Graph.new L) = Graph.new (clipLists L) := by
  simp [clipG, Graph.new, clipLists, Function.comp_def]

end graph

end Verif.Clip
