import Verif.Proofs.GraphApi
import Verif.Proofs.Order
import Verif.Props.Example
/-!
# Properties of `space::Graph`

`Graph.performAll prof g steps = .ok (some g')`: the calls `g.focus_inplace(step)` for all `step` in
`steps`, one after the other, succeeded and led to `g'`. The specification only uses the
adjacency lists, as the problem `⟨graph, []⟩`.
-/

namespace Verif

open Spec

section

variable {graph : List (List Nat)} {steps : List (List Nat)} {prof : Profile} {g : Graph}

/-- All neighbours exist. -/
def GraphOK (graph : List (List Nat)) : Prop := ∀ l ∈ graph, ∀ v ∈ l, v < graph.length

theorem graph_reached (hG : GraphOK graph)
    (h : (Graph.new graph).performAll prof steps = .ok (some g)) :
    GraphFor ⟨graph, []⟩ steps g ∧ steps.flatten.Nodup ∧ ∀ b ∈ steps.flatten, b < graph.length := by
  have := performAll_spec (P := ⟨graph, []⟩) hG steps [] (Graph.new graph) g
    (graphFor_new ⟨graph, []⟩) (by simp) (by simp) h
  rw [List.nil_append] at this
  exact this

/-- **C14** Feeding the same set of unmeasured qubits in any order gives the same graph. -/
theorem C14_order_irrelevant (hG : GraphOK graph)
    (h : (Graph.new graph).performAll prof steps = .ok (some g)) {ms ms' : List Nat}
    (hp : ms.Perm ms') (hfresh : (steps.flatten ++ ms).Nodup) (hlt : ∀ b ∈ ms, b < graph.length) :
    ∃ g', g.focus prof ms = .ok (.ok g') ∧ g.focus prof ms' = .ok (.ok g') ∧
      g.focusInplace prof ms = .ok (g', .ok ()) ∧ g.focusInplace prof ms' = .ok (g', .ok ()) ∧
      g.focusUnchecked prof ms = .ok g' ∧ g.focusUnchecked prof ms' = .ok g' := by
  obtain ⟨h1, h2, h3⟩ := graph_reached hG h
  have hlt' : ∀ b ∈ steps.flatten ++ ms, b < graph.length := by
    intro b hb
    rcases List.mem_append.1 hb with hb | hb
    · exact h3 b hb
    · exact hlt b hb
  have hpp : (steps.flatten ++ ms).Perm (steps.flatten ++ ms') := hp.append_left _
  obtain ⟨g1, e1, e2⟩ := graphFor_focus (P := ⟨graph, []⟩) hG h1 hfresh hlt'
  obtain ⟨g2, e3, e4⟩ := graphFor_focus (P := ⟨graph, []⟩) hG h1 (hpp.nodup_iff.1 hfresh)
    (fun b hb => hlt' b (hpp.mem_iff.2 hb))
  have hse : StepEq (steps ++ [ms]) (steps ++ [ms']) := (StepEq.refl steps).snoc hp
  have hn : g1.nodes = g2.nodes := by
    rw [e1.nodes, e3.nodes]
    exact nodesOf_congr fun v => hse.mem_flatten v
  have hc : g1.currentMemory = g2.currentMemory := by
    have c1 := e1.cur
    have c2 := e3.cur
    rw [hn] at c1
    have := hse.flatten_perm.length_eq
    omega
  have hm : g1.maxMemory = g2.maxMemory := by
    rw [e1.max, e3.max]
    exact hse.peak _
  have : g1 = g2 := by
    cases g1; cases g2
    simp only at hn hc hm
    rw [hn, hc, hm]
  subst this
  exact ⟨g1, (e2 prof).2.1, (e4 prof).2.1, (e2 prof).1, (e4 prof).1, (e2 prof).2.2, (e4 prof).2.2⟩

example : GraphOK Example.docs.graph ∧
    (Graph.new Example.docs.graph).performAll .debug [[0], [3]] =
      .ok (some ⟨[(.measured, [1, 2]), (.inMemory, [0, 3]), (.inMemory, [0, 3]), (.measured, [1, 2])],
        2, 3⟩) ∧
    [1, 2].Perm [2, 1] ∧ ([[0], [3]].flatten ++ [1, 2]).Nodup := by
  refine ⟨?_, by decide +kernel, List.Perm.swap 2 1 [], by decide⟩
  unfold GraphOK
  decide

/-- **C15** The counters are exact: the state of every node, the current memory and the maximum
memory after any sequence of successful calls; the maximum never decreases and both are bounded
by the number of nodes. -/
theorem C15_counters (hG : GraphOK graph)
    (h : (Graph.new graph).performAll prof steps = .ok (some g)) :
    (∀ v, (hv : v < graph.length) → ∃ s, g.nodes[v]? = some (s, graph[v]) ∧
      (s = .measured ↔ v ∈ steps.flatten) ∧
      (s = .inMemory ↔ v ∉ steps.flatten ∧ ∃ u ∈ steps.flatten, v ∈ graph.getD u [])) ∧
    g.nodes.length = graph.length ∧
    g.currentMemory = (g.nodes.filter fun x => x.1 == .inMemory).length ∧
    g.maxMemory = Problem.peak ⟨graph, []⟩ steps ∧
    g.currentMemory ≤ g.maxMemory ∧ g.maxMemory ≤ graph.length ∧
    ∀ k g0, (Graph.new graph).performAll prof (steps.take k) = .ok (some g0) →
      g0.maxMemory ≤ g.maxMemory := by
  obtain ⟨h1, h2, h3⟩ := graph_reached hG h
  refine ⟨?_, ?_, ?_, h1.max, h1.cur_le_max h2 h3, ?_, ?_⟩
  · intro v hv
    refine ⟨stateOf ⟨graph, []⟩ steps.flatten v, ?_, ?_, ?_⟩
    · rw [h1.nodes, getElem?_nodesOf]
      simp only
      rw [List.getElem?_eq_getElem hv]
      rfl
    · unfold stateOf
      by_cases hm : v ∈ steps.flatten
      · simp [hm]
      · by_cases ht : Touched ⟨graph, []⟩ steps.flatten v <;> simp [hm, ht]
    · unfold stateOf
      by_cases hm : v ∈ steps.flatten
      · simp [hm]
      · rw [if_neg hm]
        by_cases ht : ∃ u ∈ steps.flatten, v ∈ graph.getD u []
        · have ht' : Touched ⟨graph, []⟩ steps.flatten v := Or.inr ht
          rw [if_pos ht']
          exact ⟨fun _ => ⟨hm, ht⟩, fun _ => rfl⟩
        · have ht' : ¬ Touched ⟨graph, []⟩ steps.flatten v := by
            rintro (h | h)
            exacts [hm h, ht h]
          rw [if_neg ht']
          exact ⟨fun h => (nomatch h), fun h => (ht h.2).elim⟩
  · rw [h1.nodes, length_nodesOf, Problem.n]
  · rw [h1.cur_eq h2 h3, List.countP_eq_length_filter]
    rfl
  · rw [h1.max]
    exact peak_le_n _ _
  · intro k g0 h0
    obtain ⟨k1, _, _⟩ := graph_reached hG h0
    rw [k1.max, h1.max]
    conv_rhs => rw [← List.take_append_drop k steps]
    exact peak_le_append _ _ _

example : ∃ g, (Graph.new Example.docs.graph).performAll .release [[0], [3], [1, 2]] =
    .ok (some g) ∧ g.maxMemory = 3 ∧ g.currentMemory = 0 := ⟨_, rfl, rfl, rfl⟩

/-- **C16** A call fails exactly if the set contains an already measured node or a repetition, and
the error names the first such node in list order. -/
theorem C16_double_measure (hG : GraphOK graph)
    (h : (Graph.new graph).performAll prof steps = .ok (some g)) {ms : List Nat}
    (hlt : ∀ b ∈ ms, b < graph.length) :
    ((∃ g', g.focus prof ms = .ok (.ok g')) ↔ ms.Nodup ∧ ∀ b ∈ ms, b ∉ steps.flatten) ∧
    (∀ b, g.focus prof ms = .ok (.error ⟨b⟩) ↔
      ∃ pre post, ms = pre ++ b :: post ∧ pre.Nodup ∧ (∀ x ∈ pre, x ∉ steps.flatten) ∧
        (b ∈ steps.flatten ∨ b ∈ pre)) ∧
    (∀ g' b, g.focusInplace prof ms = .ok (g', .error ⟨b⟩) →
      g.focus prof ms = .ok (.error ⟨b⟩)) := by
  obtain ⟨h1, h2, h3⟩ := graph_reached hG h
  rcases focus_cases (P := ⟨graph, []⟩) hG h1 h2 h3 hlt with ⟨k1, g1, _, k2⟩ | ⟨b, k1, g1, k2⟩
  · rw [List.nodup_append] at k1
    have good : ms.Nodup ∧ ∀ b ∈ ms, b ∉ steps.flatten :=
      ⟨k1.2.1, fun b hb hs => k1.2.2 b hs b hb rfl⟩
    refine ⟨⟨fun _ => good, fun _ => ⟨g1, (k2 prof).2⟩⟩, ?_, ?_⟩
    · intro b
      rw [(k2 prof).2]
      constructor
      · intro h; cases h
      · intro h; exact (firstBad_not h good).elim
    · intro g' b h
      rw [(k2 prof).1] at h
      cases h
  · refine ⟨⟨?_, fun h => (firstBad_not k1 h).elim⟩, ?_, ?_⟩
    · rintro ⟨g', h⟩
      rw [(k2 prof).2] at h
      cases h
    · intro b'
      rw [(k2 prof).2]
      constructor
      · intro h
        injection h with h
        injection h with h
        injection h with h
        subst h
        exact k1
      · rintro ⟨pre', post', e, n', d', x'⟩
        obtain ⟨pre, post, e0, n0, d0, x0⟩ := k1
        have : b = b' := by
          have h4 : pre ++ b :: post = pre' ++ b' :: post' := e0.symm.trans e
          rcases List.append_eq_append_iff.1 h4 with ⟨c, rfl, hc⟩ | ⟨c, rfl, hc⟩
          · cases c with
            | nil => simpa using (List.cons.inj hc).1
            | cons y c =>
              have hy := (List.cons.inj hc).1
              subst hy
              rcases x0 with x0 | x0
              · exact (d' b (by simp) x0).elim
              · rw [List.nodup_append] at n'
                exact (n'.2.2 b x0 b (by simp) rfl).elim
          · cases c with
            | nil => simpa using (List.cons.inj hc).1.symm
            | cons y c =>
              have hy := (List.cons.inj hc).1
              subst hy
              rcases x' with x' | x'
              · exact (d0 b' (by simp) x').elim
              · rw [List.nodup_append] at n0
                exact (n0.2.2 b' x' b' (by simp) rfl).elim
        rw [this]
    · intro g' b' h
      rw [(k2 prof).1] at h
      injection h with h
      injection h with _ h
      injection h with h
      rw [(k2 prof).2, h]

/-- **C16**, second half: a failed `focus_inplace` leaves the graph modified. -/
theorem C16_inplace_not_atomic : ∃ (graph : List (List Nat)) (ms : List Nat) (g' : Graph) (b : Nat),
    GraphOK graph ∧ (∀ x ∈ ms, x < graph.length) ∧
    (∀ prof, (Graph.new graph).focusInplace prof ms = .ok (g', .error ⟨b⟩)) ∧
    g' ≠ Graph.new graph ∧ g'.currentMemory ≠ (g'.nodes.filter fun x => x.1 == .inMemory).length := by
  refine ⟨[[1], [0]], [0, 0], ⟨[(.measured, [1]), (.inMemory, [0])], 2, 0⟩, 0, ?_, by decide, ?_,
    by decide, by decide⟩
  · unfold GraphOK; decide
  · intro prof; cases prof <;> rfl

example : ∃ g, (Graph.new Example.docs.graph).performAll .debug [[0]] = .ok (some g) ∧
    g.focus .debug [1, 0, 2] = .ok (.error ⟨0⟩) ∧ ∃ g', g.focus .debug [3, 1] = .ok (.ok g') :=
  ⟨_, rfl, rfl, _, rfl⟩

end

end Verif
