import Verif.Props.Example
import Mathlib.Data.List.Perm.Basic
/-!
# Building graphs and orderings from other representations
-/

namespace Verif

open Spec

/-- `adj` are the adjacency lists of the simple undirected graph with `n` nodes and the given edges. -/
structure SimpleGraphOf (n : Nat) (edges : List (Nat × Nat)) (adj : List (List Nat)) : Prop where
  length : adj.length = n
  nodup : ∀ l ∈ adj, l.Nodup
  mem : ∀ u v, v ∈ adj.getD u [] ↔ u ≠ v ∧ ((u, v) ∈ edges ∨ (v, u) ∈ edges)

theorem pushAt_ok {inner : List (List Nat)} {i : Nat} (x : Nat) (h : i < inner.length) :
    GraphBuffer.pushAt inner i x = .ok (inner.set i (inner.getD i [] ++ [x])) := by
  simp [GraphBuffer.pushAt, idx, h, bind, Except.bind, pure, Except.pure]

theorem pushAt_err {inner : List (List Nat)} {i : Nat} (x : Nat) (h : ¬ i < inner.length) :
    GraphBuffer.pushAt inner i x = .error .indexOutOfBounds := by
  simp [GraphBuffer.pushAt, idx, h, bind, Except.bind]

theorem getD_set' (l : List (List Nat)) (i j : Nat) (x : List Nat) :
    (l.set i x).getD j [] = if i = j ∧ i < l.length then x else l.getD j [] := by
  simp only [List.getD_eq_getElem?_getD, List.getElem?_set]
  by_cases h : i = j
  · by_cases h2 : i < l.length
    · subst h; simp [h2]
    · subst h; simp [h2]
  · simp [h]

theorem bodyUnchecked_ok {inner : List (List Nat)} {l r : Nat} (hl : l < inner.length)
    (hr : r < inner.length) : ∃ inner', GraphBuffer.bodyUnchecked inner l r = .ok inner' ∧
      inner'.length = inner.length ∧
      (l ≠ r → ∀ u, inner'.getD u [] = if u = l then inner.getD l [] ++ [r] else
        if u = r then inner.getD r [] ++ [l] else inner.getD u []) := by
  refine ⟨_, by
    rw [GraphBuffer.bodyUnchecked, pushAt_ok r hl]
    simp only [bind, Except.bind]
    rw [pushAt_ok l (by simpa using hr)], by simp, ?_⟩
  intro hne u
  rw [getD_set', getD_set', getD_set']
  simp only [List.length_set]
  by_cases h1 : u = l
  · subst h1
    rw [if_neg (by tauto), if_pos ⟨rfl, hl⟩, if_pos rfl]
  · by_cases h2 : u = r
    · subst h2
      rw [if_pos ⟨rfl, hr⟩, if_neg (by tauto), if_neg h1, if_pos rfl]
    · rw [if_neg (by tauto), if_neg (by tauto), if_neg h1, if_neg h2]

theorem nodup_getD {adj : List (List Nat)} :
    (∀ l ∈ adj, l.Nodup) ↔ ∀ u, (adj.getD u []).Nodup := by
  constructor
  · intro h u
    rw [List.getD_eq_getElem?_getD]
    cases hu : adj[u]? with
    | none => simp
    | some l => exact h l (List.mem_of_getElem? hu)
  · intro h l hl
    obtain ⟨u, hu, rfl⟩ := List.getElem_of_mem hl
    have := h u
    simpa [List.getD_eq_getElem?_getD, hu] using this

theorem bodyChecked_step {n : Nat} {done : List (Nat × Nat)} {inner : List (List Nat)}
    (h : SimpleGraphOf n done inner) {l r : Nat} (hl : l < n) (hr : r < n) :
    ∃ inner', GraphBuffer.bodyChecked inner l r = .ok inner' ∧
      SimpleGraphOf n (done ++ [(l, r)]) inner' := by
  unfold GraphBuffer.bodyChecked
  by_cases hlr : l = r
  · refine ⟨inner, by simp [hlr, pure, Except.pure], h.length, h.nodup, ?_⟩
    intro u v
    rw [h.mem]
    simp only [List.mem_append, List.mem_singleton, Prod.mk.injEq]
    constructor
    · tauto
    · rintro ⟨h1, h2⟩
      refine ⟨h1, ?_⟩
      rcases h2 with (h2 | h2) | (h2 | h2)
      · exact Or.inl h2
      · exact absurd (h2.1.trans (hlr.trans h2.2.symm)) h1
      · exact Or.inr h2
      · exact absurd (h2.2.trans (hlr.symm.trans h2.1.symm)) h1
  · have hl' : l < inner.length := by rw [h.length]; exact hl
    have hr' : r < inner.length := by rw [h.length]; exact hr
    have hidx : idx inner l = .ok (inner.getD l []) := by simp [idx, hl']
    simp only [if_neg hlr, hidx, bind, Except.bind]
    by_cases hc : (inner.getD l []).contains r = true
    · refine ⟨inner, by rw [if_pos hc]; rfl, h.length, h.nodup, ?_⟩
      have hm := (h.mem l r).1 (List.contains_iff_mem.1 hc)
      intro u v
      rw [h.mem]
      simp only [List.mem_append, List.mem_singleton, Prod.mk.injEq]
      constructor
      · tauto
      · rintro ⟨h1, (h2 | ⟨rfl, rfl⟩) | (h2 | ⟨rfl, rfl⟩)⟩
        · exact ⟨h1, Or.inl h2⟩
        · exact ⟨h1, hm.2⟩
        · exact ⟨h1, Or.inr h2⟩
        · exact ⟨h1, hm.2.symm⟩
    · obtain ⟨inner', e1, e2, e3⟩ := bodyUnchecked_ok hl' hr'
      have e3 := e3 hlr
      have hnl : r ∉ inner.getD l [] := fun hm => hc (List.contains_iff_mem.2 hm)
      have hnr : l ∉ inner.getD r [] := by
        intro hm
        apply hnl
        rw [h.mem] at hm ⊢
        exact ⟨hlr, hm.2.symm⟩
      refine ⟨inner', by rw [if_neg hc]; exact e1, e2.trans h.length, ?_, ?_⟩
      · rw [nodup_getD]
        have hn := nodup_getD.1 h.nodup
        intro u
        rw [e3]
        split
        · rw [List.nodup_append]
          exact ⟨hn l, by simp, fun a ha b hb => by
            rw [List.mem_singleton.1 hb]; rintro rfl; exact hnl ha⟩
        · split
          · rw [List.nodup_append]
            exact ⟨hn r, by simp, fun a ha b hb => by
              rw [List.mem_singleton.1 hb]; rintro rfl; exact hnr ha⟩
          · exact hn u
      · intro u v
        rw [e3]
        simp only [List.mem_append, List.mem_singleton, Prod.mk.injEq]
        by_cases h1 : u = l
        · subst h1
          rw [if_pos rfl, List.mem_append, List.mem_singleton, h.mem]
          constructor
          · rintro (⟨a, b⟩ | rfl)
            · exact ⟨a, by tauto⟩
            · exact ⟨hlr, by tauto⟩
          · rintro ⟨a, (b | b) | (b | b)⟩
            · exact Or.inl ⟨a, Or.inl b⟩
            · exact Or.inr b.2
            · exact Or.inl ⟨a, Or.inr b⟩
            · exact absurd b.2 hlr
        · rw [if_neg h1]
          by_cases h2 : u = r
          · subst h2
            rw [if_pos rfl, List.mem_append, List.mem_singleton, h.mem]
            constructor
            · rintro (⟨a, b⟩ | rfl)
              · exact ⟨a, by tauto⟩
              · exact ⟨h1, by tauto⟩
            · rintro ⟨a, (b | b) | (b | b)⟩
              · exact Or.inl ⟨a, Or.inl b⟩
              · exact absurd b.1 h1
              · exact Or.inl ⟨a, Or.inr b⟩
              · exact Or.inr b.1
          · rw [if_neg h2, h.mem]
            tauto

theorem newChecked_spec {n : Nat} (edges : List (Nat × Nat)) (hr : ∀ e ∈ edges, e.1 < n ∧ e.2 < n) :
    ∀ (done : List (Nat × Nat)) (inner : List (List Nat)), SimpleGraphOf n done inner →
    ∃ adj, edges.foldlM (fun inner e => GraphBuffer.bodyChecked inner e.1 e.2) inner = .ok adj ∧
      SimpleGraphOf n (done ++ edges) adj := by
  induction edges with
  | nil => intro done inner h; exact ⟨inner, rfl, by simpa using h⟩
  | cons e edges ih =>
    intro done inner h
    obtain ⟨inner', e1, e2⟩ := bodyChecked_step h (hr e (by simp)).1 (hr e (by simp)).2
    obtain ⟨adj, e3, e4⟩ := ih (fun e' h' => hr e' (List.mem_cons_of_mem _ h')) _ _ e2
    refine ⟨adj, ?_, by simpa using e4⟩
    rw [List.foldlM_cons, e1]
    exact e3

theorem simpleGraphOf_empty (n : Nat) : SimpleGraphOf n [] (List.replicate n []) := by
  refine ⟨by simp, ?_, ?_⟩
  · intro l hl; rw [(List.mem_replicate.1 hl).2]; simp
  · intro u v
    simp only [List.getD_eq_getElem?_getD, List.getElem?_replicate]
    split <;> simp

/-- **C25** With the check, `GraphBuffer::new` returns the adjacency lists of the simple undirected
graph of the edge list: loops and repeated edges (in either direction) are dropped. -/
theorem C25_checked {n : Nat} {edges : List (Nat × Nat)} (hr : ∀ e ∈ edges, e.1 < n ∧ e.2 < n) :
    ∃ adj, GraphBuffer.new edges n none true = .ok adj ∧ SimpleGraphOf n edges adj := by
  obtain ⟨adj, h1, h2⟩ := newChecked_spec edges hr [] _ (simpleGraphOf_empty n)
  exact ⟨adj, h1, by simpa using h2⟩

example : GraphBuffer.new [(0, 1), (1, 0), (2, 2), (2, 0), (0, 1)] 3 none true =
    .ok [[1, 2], [0], [0]] := by decide +kernel

/-- **C25** The graph is symmetric, free of loops, and refers to existing nodes only: it is a valid
first argument of the other functions. -/
theorem C25_symmetric {n : Nat} {edges : List (Nat × Nat)} (hr : ∀ e ∈ edges, e.1 < n ∧ e.2 < n)
    {adj : List (List Nat)} (h : GraphBuffer.new edges n none true = .ok adj) :
    (∀ u v, v ∈ adj.getD u [] ↔ u ∈ adj.getD v []) ∧ (∀ u, u ∉ adj.getD u []) ∧
    (∀ l ∈ adj, ∀ v ∈ l, v < adj.length) := by
  obtain ⟨adj', h1, h2⟩ := C25_checked hr
  rw [h] at h1
  injection h1 with h1
  subst h1
  refine ⟨?_, ?_, ?_⟩
  · intro u v
    rw [h2.mem, h2.mem]
    constructor <;> rintro ⟨a, b⟩ <;> exact ⟨Ne.symm a, b.symm⟩
  · intro u hu
    exact ((h2.mem u u).1 hu).1 rfl
  · intro l hl v hv
    obtain ⟨u, hu, rfl⟩ := List.getElem_of_mem hl
    have := (h2.mem u v).1 (by simpa [List.getD_eq_getElem?_getD, hu] using hv)
    rw [h2.length]
    rcases this.2 with h3 | h3
    · exact (hr _ h3).2
    · exact (hr _ h3).1

theorem newUnchecked_agree {n : Nat} (edges : List (Nat × Nat)) (hr : ∀ e ∈ edges, e.1 < n ∧ e.2 < n)
    (hl : ∀ e ∈ edges, e.1 ≠ e.2) : ∀ (done : List (Nat × Nat)) (inner : List (List Nat)),
    (∀ e ∈ edges, e ∉ done ∧ (e.2, e.1) ∉ done) →
    (edges.Pairwise fun e e' => e ≠ e' ∧ e ≠ (e'.2, e'.1)) → SimpleGraphOf n done inner →
    edges.foldlM (fun inner e => GraphBuffer.bodyUnchecked inner e.1 e.2) inner =
      edges.foldlM (fun inner e => GraphBuffer.bodyChecked inner e.1 e.2) inner := by
  induction edges with
  | nil => intro _ _ _ _ _; rfl
  | cons e edges ih =>
    intro done inner hd hp h
    obtain ⟨hp1, hp2⟩ := List.pairwise_cons.1 hp
    obtain ⟨inner', e1, e2⟩ := bodyChecked_step h (hr e (by simp)).1 (hr e (by simp)).2
    have heq : GraphBuffer.bodyUnchecked inner e.1 e.2 = GraphBuffer.bodyChecked inner e.1 e.2 := by
      have hlt : e.1 < inner.length := by rw [h.length]; exact (hr e (by simp)).1
      have hidx : idx inner e.1 = .ok (inner.getD e.1 []) := by simp [idx, hlt]
      have hnot : ¬ (inner.getD e.1 []).contains e.2 = true := by
        rw [List.contains_iff_mem, h.mem]
        rintro ⟨-, h1 | h1⟩
        · exact (hd e (by simp)).1 h1
        · exact (hd e (by simp)).2 h1
      rw [GraphBuffer.bodyChecked, if_neg (hl e (by simp)), hidx]
      simp only [bind, Except.bind]
      rw [if_neg hnot]
    rw [List.foldlM_cons, List.foldlM_cons, heq, e1]
    refine ih (fun e' h' => hr e' (List.mem_cons_of_mem _ h'))
      (fun e' h' => hl e' (List.mem_cons_of_mem _ h')) (done ++ [e]) inner' ?_ hp2 e2
    intro e' h'
    have h1 := hd e' (List.mem_cons_of_mem _ h')
    have h2 := hp1 e' h'
    simp only [List.mem_append, List.mem_singleton, not_or]
    exact ⟨⟨h1.1, Ne.symm h2.1⟩, h1.2, Ne.symm h2.2⟩

/-- **C25** On an edge list without loops and repeated edges the variant without the check gives
the same adjacency lists. -/
theorem C25_unchecked {n : Nat} {edges : List (Nat × Nat)} (hr : ∀ e ∈ edges, e.1 < n ∧ e.2 < n)
    (hl : ∀ e ∈ edges, e.1 ≠ e.2) (hp : edges.Pairwise fun e e' => e ≠ e' ∧ e ≠ (e'.2, e'.1)) :
    GraphBuffer.new edges n none false = GraphBuffer.new edges n none true :=
  newUnchecked_agree edges hr hl [] _ (by simp) hp (simpleGraphOf_empty n)

/-- The two variants differ as soon as there is a loop or a repeated edge. -/
example : GraphBuffer.new [(0, 1), (2, 0)] 3 none false = .ok [[1, 2], [0], [0]] ∧
    GraphBuffer.new [(0, 1), (1, 0)] 2 none false = .ok [[1, 1], [0, 0]] ∧
    GraphBuffer.new [(0, 0)] 1 none false = .ok [[0, 0]] := by
  refine ⟨?_, ?_, ?_⟩ <;> decide +kernel

/-- **C25** Node ids that are out of range make the function panic; with the check this does not
apply to loops. -/
theorem C25_panics {n : Nat} {edges : List (Nat × Nat)} (check : Bool) :
    (∃ p, GraphBuffer.new edges n none check = .error p) ↔
      ∃ e ∈ edges, (check = true → e.1 ≠ e.2) ∧ ¬ (e.1 < n ∧ e.2 < n) := by
  let Inv := fun inner : List (List Nat) => inner.length = n ∧ ∀ u, ∀ v ∈ inner.getD u [], v < n
  have key : ∀ (body : List (List Nat) → Nat → Nat → R (List (List Nat))) (bad : Nat × Nat → Prop),
      (∀ inner e, Inv inner → bad e → ∃ p, body inner e.1 e.2 = .error p) →
      (∀ inner e, Inv inner → ¬ bad e → ∃ inner', body inner e.1 e.2 = .ok inner' ∧ Inv inner') →
      ∀ (edges : List (Nat × Nat)) inner, Inv inner →
      ((∃ p, edges.foldlM (fun inner e => body inner e.1 e.2) inner = .error p) ↔
        ∃ e ∈ edges, bad e) := by
    intro body bad hbad hgood edges
    induction edges with
    | nil => intro inner _; simp [pure, Except.pure]
    | cons e edges ih =>
      intro inner hi
      rw [List.foldlM_cons]
      by_cases hb : bad e
      · obtain ⟨p, hp⟩ := hbad inner e hi hb
        rw [hp]
        exact ⟨fun _ => ⟨e, by simp, hb⟩, fun _ => ⟨p, rfl⟩⟩
      · obtain ⟨inner', h1, h2⟩ := hgood inner e hi hb
        rw [h1]
        refine (ih inner' h2).trans ?_
        constructor
        · rintro ⟨e', h3, h4⟩; exact ⟨e', List.mem_cons_of_mem _ h3, h4⟩
        · rintro ⟨e', h3, h4⟩
          rcases List.mem_cons.1 h3 with rfl | h3
          · exact (hb h4).elim
          · exact ⟨e', h3, h4⟩
  have hinit : Inv (List.replicate n []) := by
    refine ⟨by simp, ?_⟩
    intro u v hv
    simp only [List.getD_eq_getElem?_getD, List.getElem?_replicate] at hv
    split at hv <;> simp at hv
  have uncheckedBad : ∀ (inner : List (List Nat)) (e : Nat × Nat), Inv inner →
      ¬ (e.1 < n ∧ e.2 < n) → ∃ p, GraphBuffer.bodyUnchecked inner e.1 e.2 = .error p := by
    intro inner e hi hb
    have hi := hi.1
    unfold GraphBuffer.bodyUnchecked
    by_cases h1 : e.1 < n
    · rw [pushAt_ok _ (by omega)]
      simp only [bind, Except.bind]
      rw [pushAt_err _ (by simp; omega)]
      exact ⟨_, rfl⟩
    · rw [pushAt_err _ (by omega)]
      exact ⟨_, rfl⟩
  have uncheckedGood : ∀ (inner : List (List Nat)) (e : Nat × Nat), Inv inner →
      (e.1 < n ∧ e.2 < n) → ∃ inner', GraphBuffer.bodyUnchecked inner e.1 e.2 = .ok inner' ∧
        Inv inner' := by
    rintro inner e ⟨hi, hv⟩ hb
    refine ⟨_, by
      rw [GraphBuffer.bodyUnchecked, pushAt_ok e.2 (by omega)]
      simp only [bind, Except.bind]
      rw [pushAt_ok e.1 (by simp; omega)], by simp [hi], ?_⟩
    intro u v h
    rw [getD_set', getD_set', getD_set'] at h
    split at h
    · rcases List.mem_append.1 h with h | h
      · split at h
        · rcases List.mem_append.1 h with h | h
          · exact hv _ _ h
          · rw [List.mem_singleton.1 h]; exact hb.2
        · exact hv _ _ h
      · rw [List.mem_singleton.1 h]; exact hb.1
    · split at h
      · rcases List.mem_append.1 h with h | h
        · exact hv _ _ h
        · rw [List.mem_singleton.1 h]; exact hb.2
      · exact hv _ _ h
  unfold GraphBuffer.new GraphBuffer.newLoop
  cases check with
  | false =>
    simp only [Bool.false_eq_true, if_false, false_implies, true_and]
    refine key GraphBuffer.bodyUnchecked (fun e => ¬ (e.1 < n ∧ e.2 < n)) uncheckedBad ?_ edges _ hinit
    intro inner e hi hb
    exact uncheckedGood inner e hi (not_not.1 hb)
  | true =>
    simp only [if_true, true_implies]
    refine key GraphBuffer.bodyChecked (fun e => e.1 ≠ e.2 ∧ ¬ (e.1 < n ∧ e.2 < n)) ?_ ?_ edges _ hinit
    · rintro inner e hi ⟨h1, h2⟩
      unfold GraphBuffer.bodyChecked
      rw [if_neg h1]
      by_cases h3 : e.1 < inner.length
      · have hidx : idx inner e.1 = .ok (inner.getD e.1 []) := by simp [idx, h3]
        rw [hidx]
        simp only [bind, Except.bind]
        split
        · rename_i hc
          have h4 := hi.2 e.1 e.2 (List.contains_iff_mem.1 hc)
          have := hi.1
          exact (h2 ⟨by omega, h4⟩).elim
        · exact uncheckedBad inner e hi h2
      · refine ⟨.indexOutOfBounds, ?_⟩
        simp [idx, h3, bind, Except.bind]
    · intro inner e hi hb
      unfold GraphBuffer.bodyChecked
      split
      · exact ⟨inner, rfl, hi⟩
      · rename_i h1
        have h2 : e.1 < n ∧ e.2 < n := by
          by_contra h3
          exact hb ⟨h1, h3⟩
        have hidx : idx inner e.1 = .ok (inner.getD e.1 []) := by simp [idx, hi.1, h2.1]
        rw [hidx]
        simp only [bind, Except.bind]
        split
        · exact ⟨inner, rfl, hi⟩
        · exact uncheckedGood inner e hi h2

example : GraphBuffer.new [(0, 1), (5, 5)] 2 none true = .ok [[1], [0]] ∧
    GraphBuffer.new [(0, 1), (5, 5)] 2 none false = .error .indexOutOfBounds := by
  refine ⟨?_, ?_⟩ <;> decide +kernel

/-! ## Bit mappings -/

/-- What a bit mapping means: bits without an entry keep their name. -/
def renamed (m : AMap Nat) (b : Nat) : Nat := (m.get b).getD b

theorem mapBit_eq (m : AMap Nat) : GraphBuffer.mapBit m = renamed m := by
  funext b
  unfold GraphBuffer.mapBit renamed
  cases m.get b <;> rfl

/-- **C23** `GraphBuffer::new` with a bit mapping is `GraphBuffer::new` on the renamed edges. -/
theorem C23_space (m : AMap Nat) (edges : List (Nat × Nat)) (n : Nat) (check : Bool) :
    GraphBuffer.new edges n (some m) check =
      GraphBuffer.new (edges.map fun e => (renamed m e.1, renamed m e.2)) n none check := by
  simp only [GraphBuffer.new, GraphBuffer.newLoop, mapBit_eq, List.foldlM_map]

/-- **C23** `from_dependency_graph` with a bit mapping is `from_dependency_graph` on the renamed
ordering. -/
theorem C23_time {T : Type} [MeasurableSet T] (m : AMap Nat) (order : OrderGraph) (buffer : Dependents) :
    (PathGenerator.fromDependencyGraph order buffer (some m) : R (PathGenerator T)) =
      PathGenerator.fromDependencyGraph
        (order.map fun l => l.map fun e => (renamed m e.1, e.2.map (renamed m))) buffer none := by
  cases order with
  | nil => rfl
  | cons layer rest =>
    simp only [PathGenerator.fromDependencyGraph, PathGenerator.applyMapping, mapBit_eq, List.map_cons]

/-- **C23** A mapping that keeps different bits apart does not change the task: a schedule is valid for
the original ordering iff the renamed schedule is valid for the renamed ordering. (Validity does
not refer to the graph.) -/
theorem C23_valid {m : AMap Nat} {graph graph' : List (List Nat)} {order : OrderGraph}
    (hinj : ∀ b b', (∃ e ∈ order.flatten, b = e.1 ∨ b ∈ e.2) → (∃ e ∈ order.flatten, b' = e.1 ∨ b' ∈ e.2) →
      renamed m b = renamed m b' → b = b')
    (S : Schedule) (hS : ∀ b ∈ S.flatten, ∃ e ∈ order.flatten, b = e.1) :
    (⟨graph, order⟩ : Problem).Valid S ↔
      (⟨graph', order.map fun l => l.map fun e => (renamed m e.1, e.2.map (renamed m))⟩ :
        Problem).Valid (S.map (List.map (renamed m))) := by
  have hent : (⟨graph', order.map fun l => l.map fun e => (renamed m e.1, e.2.map (renamed m))⟩ :
      Problem).entries = order.flatten.map fun e => (renamed m e.1, e.2.map (renamed m)) := by
    simp [Problem.entries, List.map_flatten]
  have hbits : (⟨graph', order.map fun l => l.map fun e => (renamed m e.1, e.2.map (renamed m))⟩ :
      Problem).bits = (order.flatten.map (·.1)).map (renamed m) := by
    rw [Problem.bits, hent, List.map_map, List.map_map]
    rfl
  have hinS : ∀ b, b ∈ S.flatten → ∃ e ∈ order.flatten, b = e.1 ∨ b ∈ e.2 := by
    intro b hb
    obtain ⟨e, he, h⟩ := hS b hb
    exact ⟨e, he, Or.inl h⟩
  have hinB : ∀ b, b ∈ order.flatten.map (·.1) → ∃ e ∈ order.flatten, b = e.1 ∨ b ∈ e.2 := by
    intro b hb
    obtain ⟨e, he, rfl⟩ := List.mem_map.1 hb
    exact ⟨e, he, Or.inl rfl⟩
  have hmemS : ∀ {i : Nat} {s : List Nat} {b : Nat}, S[i]? = some s → b ∈ s → b ∈ S.flatten :=
    fun h hb => List.mem_flatten.2 ⟨_, List.mem_of_getElem? h, hb⟩
  constructor
  · rintro ⟨h1, h2, h3⟩
    refine ⟨?_, ?_, ?_⟩
    · intro s hs
      obtain ⟨t, ht, rfl⟩ := List.mem_map.1 hs
      simpa using h1 t ht
    · rw [hbits, ← List.map_flatten]
      exact h2.map _
    · rintro i s hs b hb d ⟨ds, hds, hd⟩
      rw [hent] at hds
      obtain ⟨e, he, heq⟩ := List.mem_map.1 hds
      simp only [Prod.mk.injEq] at heq
      rw [List.getElem?_map, Option.map_eq_some_iff] at hs
      obtain ⟨t, ht, rfl⟩ := hs
      obtain ⟨c, hc, rfl⟩ := List.mem_map.1 hb
      rw [← heq.2] at hd
      obtain ⟨d', hd', rfl⟩ := List.mem_map.1 hd
      have hce : e.1 = c := hinj _ _ ⟨e, he, Or.inl rfl⟩ (hinS c (hmemS ht hc)) heq.1
      obtain ⟨j, s', hj, hs', hm⟩ := h3 i t ht c hc d' ⟨e.2, by
        show (c, e.2) ∈ order.flatten
        rw [← hce]; exact he, hd'⟩
      exact ⟨j, s'.map (renamed m), hj, by rw [List.getElem?_map, hs']; rfl, List.mem_map.2 ⟨d', hm, rfl⟩⟩
  · rintro ⟨h1, h2, h3⟩
    refine ⟨?_, ?_, ?_⟩
    · intro s hs
      have := h1 _ (List.mem_map.2 ⟨s, hs, rfl⟩)
      simpa using this
    · rw [hbits, ← List.map_flatten] at h2
      show S.flatten.Perm (order.flatten.map (·.1))
      rw [List.perm_iff_count]
      intro a
      have hcount : ∀ l : List Nat, (∀ b ∈ l, ∃ e ∈ order.flatten, b = e.1 ∨ b ∈ e.2) →
          (∃ e ∈ order.flatten, a = e.1 ∨ a ∈ e.2) →
          (l.map (renamed m)).count (renamed m a) = l.count a := by
        intro l hl ha
        induction l with
        | nil => rfl
        | cons x l ih =>
          rw [List.map_cons, List.count_cons, List.count_cons, ih fun b hb => hl b (List.mem_cons_of_mem _ hb)]
          congr 1
          by_cases hx : x = a
          · subst hx; simp
          · have : renamed m x ≠ renamed m a := fun h => hx (hinj _ _ (hl x (by simp)) ha h)
            simp [hx, this]
      by_cases ha : ∃ e ∈ order.flatten, a = e.1 ∨ a ∈ e.2
      · rw [← hcount _ hinS ha, ← hcount _ hinB ha]
        exact h2.count_eq _
      · rw [List.count_eq_zero_of_not_mem (fun h => ha (hinS a h)),
          List.count_eq_zero_of_not_mem (fun h => ha (hinB a h))]
    · rintro i s hs b hb d ⟨ds, hds, hd⟩
      have hds : (b, ds) ∈ order.flatten := hds
      obtain ⟨j, s', hj, hs', hm⟩ := h3 i (s.map (renamed m)) (by rw [List.getElem?_map, hs]; rfl)
        (renamed m b) (List.mem_map.2 ⟨b, hb, rfl⟩) (renamed m d) ⟨ds.map (renamed m), by
          rw [hent]; exact List.mem_map.2 ⟨(b, ds), hds, rfl⟩, List.mem_map.2 ⟨d, hd, rfl⟩⟩
      rw [List.getElem?_map, Option.map_eq_some_iff] at hs'
      obtain ⟨t, ht, rfl⟩ := hs'
      obtain ⟨d', hd', heq⟩ := List.mem_map.1 hm
      have : d' = d := hinj _ _ (hinS d' (hmemS ht hd')) ⟨(b, ds), hds, Or.inr hd⟩ heq
      subst this
      exact ⟨j, t, hj, ht, hd'⟩

/-- Ids 10, 20, 30 mapped to 0, 1, 2; id 3 keeps its name. -/
example : GraphBuffer.new [(10, 20), (3, 30)] 4 (some [(10, 0), (20, 1), (30, 2)]) true =
      .ok [[1], [0], [3], [2]] ∧
    (PathGenerator.fromDependencyGraph [[(10, [])], [(20, [10]), (3, [10])]] (dependencyBufferNew 4)
      (some [(10, 0), (20, 1), (30, 2)]) : R (PathGenerator (List Nat))) =
      PathGenerator.fromDependencyGraph [[(0, [])], [(1, [0]), (3, [0])]] (dependencyBufferNew 4) none := by
  refine ⟨?_, ?_⟩ <;> decide +kernel

end Verif
