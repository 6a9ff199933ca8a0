import Verif.Proofs.Focus
import Mathlib.Data.List.Induction
/-!
# Sequences of calls to `Graph::focus_inplace`
-/

namespace Verif

open Spec

/-- Perform a sequence of `focus_inplace` calls on a graph, all of which must succeed (`none`
otherwise). -/
def Graph.performAll (prof : Profile) : Graph → List (List Nat) → R (Option Graph)
  | g, [] => pure (some g)
  | g, ms :: rest => do
    match ← g.focusInplace prof ms with
    | (_, .error _) => pure none
    | (g', .ok ()) => g'.performAll prof rest

/-- `b` is the first bit of `ms` that is already measured or repeated. -/
def FirstBad (M ms : List Nat) (b : Nat) : Prop :=
  ∃ pre post, ms = pre ++ b :: post ∧ pre.Nodup ∧ (∀ x ∈ pre, x ∉ M) ∧ (b ∈ M ∨ b ∈ pre)

theorem firstBad_or (M : List Nat) : ∀ ms : List Nat,
    (ms.Nodup ∧ ∀ x ∈ ms, x ∉ M) ∨ ∃ b, FirstBad M ms b := by
  intro ms
  induction ms using List.reverseRecOn with
  | nil => exact Or.inl ⟨List.nodup_nil, by simp⟩
  | append_singleton ms a ih =>
    rcases ih with ⟨h1, h2⟩ | ⟨b, pre, post, h, h3⟩
    · by_cases ha : a ∈ M ∨ a ∈ ms
      · exact Or.inr ⟨a, ms, [], rfl, h1, h2, ha⟩
      · left
        refine ⟨?_, ?_⟩
        · rw [List.nodup_append]
          refine ⟨h1, by simp, ?_⟩
          intro x hx y hy hxy
          rw [List.mem_singleton] at hy
          subst hy; subst hxy
          exact ha (Or.inr hx)
        · intro x hx
          rcases List.mem_append.1 hx with hx | hx
          · exact h2 x hx
          · rw [List.mem_singleton] at hx
            subst hx
            exact fun h => ha (Or.inl h)
    · exact Or.inr ⟨b, pre, post ++ [a], by rw [h]; simp, h3⟩

theorem firstBad_not {M ms : List Nat} {b : Nat} (h : FirstBad M ms b) :
    ¬ (ms.Nodup ∧ ∀ x ∈ ms, x ∉ M) := by
  rintro ⟨h1, h2⟩
  obtain ⟨pre, post, rfl, _, _, h5⟩ := h
  rcases h5 with h5 | h5
  · exact h2 b (by simp) h5
  · rw [List.nodup_append] at h1
    exact h1.2.2 b h5 b (by simp) rfl

theorem measureAll_append (g : Graph) (a b : List Nat) {g' : Graph}
    (h : g.measureAll a = .ok (g', .ok ())) : g.measureAll (a ++ b) = g'.measureAll b := by
  induction a generalizing g with
  | nil =>
    simp only [Graph.measureAll, pure, Except.pure, Except.ok.injEq, Prod.mk.injEq] at h
    rw [List.nil_append, h.1]
  | cons x a ih =>
    rw [List.cons_append, Graph.measureAll]
    rw [Graph.measureAll] at h
    cases hm : g.measure x with
    | error e => rw [hm] at h; cases h
    | ok r =>
      obtain ⟨g1, r⟩ := r
      rw [hm] at h
      cases r with
      | error e =>
        simp only [bind, Except.bind, pure, Except.pure, Except.ok.injEq, Prod.mk.injEq,
          reduceCtorEq, and_false] at h
      | ok u =>
        simp only [bind, Except.bind] at h ⊢
        exact ih g1 h

/-- Measuring a bit that is already measured. -/
theorem measure_again {P : Problem} {M : List Nat} {g : Graph} (hg : g.nodes = nodesOf P M) {b : Nat}
    (hb : b < P.n) (hM : b ∈ M) : g.measure b = .ok (g, .error ⟨b⟩) := by
  have h1 : P.graph[b]? = some (P.graph[b]'hb) := List.getElem?_eq_getElem hb
  have h2 : g.nodes[b]? = some (.measured, P.graph[b]'hb) := by
    rw [hg, getElem?_nodesOf, h1]
    simp [stateOf, hM]
  simp [Graph.measure, idx_of_getElem? h2, bind, Except.bind, pure, Except.pure]

/-- A failing call. -/
theorem measureAll_bad {P : Problem} (hP : ∀ l ∈ P.graph, ∀ v ∈ l, v < P.n) {M : List Nat} {g : Graph}
    (hg : g.nodes = nodesOf P M) {ms : List Nat} {b : Nat} (hb : FirstBad M ms b)
    (hlt : ∀ x ∈ ms, x < P.n) : ∃ g', g.measureAll ms = .ok (g', .error ⟨b⟩) := by
  obtain ⟨pre, post, rfl, h1, h2, h3⟩ := hb
  obtain ⟨g1, e1, _, e2, _⟩ := measureAll_spec P hP pre M g (fun x hx => hlt x (by simp [hx])) h1 h2 hg
  rw [measureAll_append g pre (b :: post) e1]
  have := measure_again e2 (hlt b (by simp)) (by
    rw [List.mem_append]
    exact h3.symm)
  exact ⟨g1, by simp [Graph.measureAll, this, bind, Except.bind, pure, Except.pure]⟩

/-- `focus_inplace` on a reachable graph: success exactly for fresh distinct bits. -/
theorem focus_cases {P : Problem} (hP : ∀ l ∈ P.graph, ∀ v ∈ l, v < P.n) {p : Schedule} {g : Graph}
    (hg : GraphFor P p g) (hn : p.flatten.Nodup) (hpl : ∀ b ∈ p.flatten, b < P.n) {ms : List Nat}
    (hlt : ∀ x ∈ ms, x < P.n) :
    ((p.flatten ++ ms).Nodup ∧ ∃ g', GraphFor P (p ++ [ms]) g' ∧
      ∀ prof, g.focusInplace prof ms = .ok (g', .ok ()) ∧ g.focus prof ms = .ok (.ok g')) ∨
    (∃ b, FirstBad p.flatten ms b ∧ ∃ g', ∀ prof, g.focusInplace prof ms = .ok (g', .error ⟨b⟩) ∧
      g.focus prof ms = .ok (.error ⟨b⟩)) := by
  rcases firstBad_or p.flatten ms with ⟨h1, h2⟩ | ⟨b, hb⟩
  · left
    have hnd : (p.flatten ++ ms).Nodup := by
      rw [List.nodup_append]
      exact ⟨hn, h1, fun x hx y hy hxy => h2 y hy (hxy ▸ hx)⟩
    obtain ⟨g', h3, h4⟩ := graphFor_focus hP hg hnd (by
      intro x hx
      rcases List.mem_append.1 hx with hx | hx
      · exact hpl x hx
      · exact hlt x hx)
    exact ⟨hnd, g', h3, fun prof => ⟨(h4 prof).1, (h4 prof).2.1⟩⟩
  · right
    obtain ⟨g', h3⟩ := measureAll_bad hP hg.nodes hb hlt
    exact ⟨b, hb, g', fun prof => by
      simp [Graph.focus, Graph.focusInplace, h3, bind, Except.bind, pure, Except.pure]⟩

theorem idx_ge {α : Type} {l : List α} {i : Nat} (h : l.length ≤ i) :
    idx l i = .error .indexOutOfBounds := by
  simp [idx, List.getElem?_eq_none h]

/-- A call that does not panic only names existing nodes, at least until an error. -/
theorem measureAll_lt {P : Problem} (hP : ∀ l ∈ P.graph, ∀ v ∈ l, v < P.n) (ms : List Nat) :
    ∀ (M : List Nat) (g g' : Graph), g.nodes = nodesOf P M → (∀ b ∈ M, b < P.n) →
    g.measureAll ms = .ok (g', .ok ()) → ∀ x ∈ ms, x < P.n := by
  induction ms with
  | nil => intro _ _ _ _ _ _; simp
  | cons b ms ih =>
    intro M g g' hg hM h
    by_cases hb : b < P.n
    · by_cases hbM : b ∈ M
      · rw [Graph.measureAll, measure_again hg hb hbM] at h
        simp only [bind, Except.bind, pure, Except.pure, Except.ok.injEq, Prod.mk.injEq,
          reduceCtorEq, and_false] at h
      · obtain ⟨g1, e1, _, e2, _⟩ := measure_spec P hP M b hb hbM g hg
        rw [Graph.measureAll, e1] at h
        simp only [bind, Except.bind] at h
        have := ih (b :: M) g1 g' e2 (by simpa [hb] using hM) h
        simpa [hb] using this
    · have h0 : g.nodes.length ≤ b := by rw [hg, length_nodesOf]; omega
      rw [Graph.measureAll, Graph.measure, idx_ge h0] at h
      cases h

theorem performAll_spec {P : Problem} (hP : ∀ l ∈ P.graph, ∀ v ∈ l, v < P.n) {prof : Profile}
    (steps : List (List Nat)) : ∀ (p : Schedule) (g g' : Graph), GraphFor P p g → p.flatten.Nodup →
    (∀ b ∈ p.flatten, b < P.n) → g.performAll prof steps = .ok (some g') →
    GraphFor P (p ++ steps) g' ∧ (p ++ steps).flatten.Nodup ∧ ∀ b ∈ (p ++ steps).flatten, b < P.n := by
  induction steps with
  | nil =>
    intro p g g' hg hn hl h
    simp only [Graph.performAll, pure, Except.pure, Except.ok.injEq, Option.some.injEq] at h
    subst h
    rw [List.append_nil]
    exact ⟨hg, hn, hl⟩
  | cons ms rest ih =>
    intro p g g' hg hn hl h
    have hlt : ∀ x ∈ ms, x < P.n := by
      cases hm : g.measureAll ms with
      | error e => simp [Graph.performAll, Graph.focusInplace, hm, bind, Except.bind] at h
      | ok r =>
        obtain ⟨g1, r⟩ := r
        cases r with
        | error e =>
          simp [Graph.performAll, Graph.focusInplace, hm, bind, Except.bind, pure, Except.pure] at h
        | ok u => exact measureAll_lt hP ms p.flatten g g1 hg.nodes hl hm
    rcases focus_cases hP hg hn hl hlt with ⟨h1, g1, h2, h3⟩ | ⟨b, _, g1, h3⟩
    · simp only [Graph.performAll, (h3 prof).1, bind, Except.bind] at h
      have := ih (p ++ [ms]) g1 g' h2 (by simpa using h1) (by
        intro x hx
        rw [List.flatten_append, List.mem_append] at hx
        rcases hx with hx | hx
        · exact hl x hx
        · exact hlt x (by simpa using hx)) h
      simpa using this
    · simp only [Graph.performAll, (h3 prof).1, bind, Except.bind, pure, Except.pure,
        Except.ok.injEq, reduceCtorEq] at h

theorem countP_nodesOf (P : Problem) (M : List Nat) (q : NodeState → Bool) :
    (nodesOf P M).countP (fun x => q x.1) = (List.range P.n).countP fun v => q (stateOf P M v) := by
  rw [nodesOf_eq, mkNodes_eq_map, List.countP_map]
  rfl

/-- The current memory is the number of nodes in memory. -/
theorem GraphFor.cur_eq {P : Problem} {p : Schedule} {g : Graph} (hg : GraphFor P p g)
    (hn : p.flatten.Nodup) (hl : ∀ b ∈ p.flatten, b < P.n) :
    g.currentMemory = g.nodes.countP fun x => x.1 = .inMemory := by
  have h1 := hg.cur
  rw [hg.nodes, awake_nodesOf] at h1
  have h2 := countP_nodesOf P p.flatten (fun s => decide (s = .inMemory))
  rw [hg.nodes, h2]
  have h3 := countP_mem_range hn hl
  have h4 := countP_split (l := List.range P.n) (fun v => decide (Touched P p.flatten v))
    (fun v => decide (v ∈ p.flatten)) (by
      intro v hv
      simp only [decide_eq_true_eq] at hv ⊢
      exact Or.inl hv)
  have h5 : (List.range P.n).countP (fun v => decide (Touched P p.flatten v) && !decide (v ∈ p.flatten))
      = (List.range P.n).countP (fun v => decide (stateOf P p.flatten v = .inMemory)) := by
    refine List.countP_congr fun v _ => ?_
    unfold stateOf
    by_cases h : v ∈ p.flatten
    · simp [h]
    · by_cases h' : Touched P p.flatten v <;> simp [h, h']
  omega

end Verif
