import Verif.Model.Space
import Verif.Spec
import Mathlib.Data.List.Nodup
/-!
# The graph model computes the specified memory
-/

namespace Verif

open Spec

/-- `v` is measured by `M` or a neighbour of a bit in `M`. -/
def Touched (P : Problem) (M : List Nat) (v : Nat) : Prop := v ∈ M ∨ ∃ u ∈ M, v ∈ P.nbrs u

instance (P : Problem) (M : List Nat) (v : Nat) : Decidable (Touched P M v) := by
  unfold Touched; infer_instance

/-- The state of node `v` when exactly the bits in `M` have been measured. -/
def stateOf (P : Problem) (M : List Nat) (v : Nat) : NodeState :=
  if v ∈ M then .measured else if Touched P M v then .inMemory else .sleeping

/-- The node list when exactly the bits in `M` have been measured. -/
def nodesOf (P : Problem) (M : List Nat) : List Node :=
  P.graph.mapIdx fun v nb => (stateOf P M v, nb)

/-- The number of nodes that are not sleeping. -/
def awake (l : List Node) : Nat := l.countP fun x => x.1 ≠ .sleeping

theorem nodesOf_congr {P : Problem} {M M' : List Nat} (h : ∀ v, v ∈ M ↔ v ∈ M') :
    nodesOf P M = nodesOf P M' := by
  unfold nodesOf stateOf Touched
  simp only [h]

@[simp] theorem length_nodesOf (P : Problem) (M : List Nat) : (nodesOf P M).length = P.n := by
  simp [nodesOf, Problem.n]

theorem getElem?_nodesOf (P : Problem) (M : List Nat) (v : Nat) :
    (nodesOf P M)[v]? = P.graph[v]?.map fun nb => (stateOf P M v, nb) := by
  simp [nodesOf]

/-- Reading an index in bounds. -/
theorem idx_of_getElem? {α : Type} {l : List α} {i : Nat} {x : α} (h : l[i]? = some x) :
    idx l i = .ok x := by simp [idx, h]

theorem idx_ok {α : Type} {l : List α} {i : Nat} {x : α} : idx l i = .ok x ↔ l[i]? = some x := by
  unfold idx; split <;> simp_all

theorem idx_lt {α : Type} {l : List α} {i : Nat} (h : i < l.length) : idx l i = .ok l[i] := by
  simp [idx, h]

theorem awake_set {l : List Node} {i : Nat} {s s' : NodeState} {nb : List Nat}
    (h : l[i]? = some (s, nb)) :
    awake (l.set i (s', nb)) + (if s = .sleeping then 0 else 1)
      = awake l + (if s' = .sleeping then 0 else 1) := by
  induction l generalizing i with
  | nil => simp at h
  | cons a l ih =>
    cases i with
    | zero =>
      simp only [List.getElem?_cons_zero, Option.some.injEq] at h
      subst h
      cases s <;> cases s' <;> simp [awake]
    | succ i =>
      simp only [List.getElem?_cons_succ] at h
      have := ih h
      simp only [awake, List.set_cons_succ, List.countP_cons] at this ⊢
      omega

/-- A node list with all states given by a function. -/
def mkNodes (P : Problem) (f : Nat → NodeState) : List Node :=
  P.graph.mapIdx fun v nb => (f v, nb)

theorem mkNodes_set (P : Problem) (f : Nat → NodeState) (i : Nat) (s : NodeState) (nb : List Nat)
    (h : P.graph[i]? = some nb) :
    (mkNodes P f).set i (s, nb) = mkNodes P (fun v => if v = i then s else f v) := by
  apply List.ext_getElem?
  intro j
  simp only [mkNodes, List.getElem?_set, List.length_mapIdx, List.getElem?_mapIdx]
  by_cases hj : i = j
  · subst hj
    have hi : i < P.graph.length := by
      rw [List.getElem?_eq_some_iff] at h; exact h.1
    rw [h]
    simp [hi]
  · simp [hj, show ¬ j = i from fun h => hj h.symm]

theorem nodesOf_eq (P : Problem) (M : List Nat) : nodesOf P M = mkNodes P (stateOf P M) := rfl

theorem getElem?_mkNodes (P : Problem) (f : Nat → NodeState) (v : Nat) :
    (mkNodes P f)[v]? = P.graph[v]?.map fun nb => (f v, nb) := by
  simp [mkNodes]

/-- Effect of initialising all nodes in `bs`. -/
theorem initializeAll_spec (P : Problem) (bs : List Nat) (hb : ∀ b ∈ bs, b < P.n)
    (f : Nat → NodeState) (g : Graph) (hg : g.nodes = mkNodes P f) :
    ∃ g', g.initializeAll bs = .ok g' ∧
      g'.nodes = mkNodes P (fun v => if v ∈ bs ∧ f v = .sleeping then .inMemory else f v) ∧
      g'.maxMemory = g.maxMemory ∧
      g'.currentMemory + awake g.nodes = g.currentMemory + awake g'.nodes := by
  induction bs generalizing f g with
  | nil =>
    refine ⟨g, rfl, ?_, rfl, rfl⟩
    simpa using hg
  | cons b bs ih =>
    have hb' : ∀ b ∈ bs, b < P.n := fun x hx => hb x (by simp [hx])
    have hlt : b < P.graph.length := hb b (by simp)
    obtain ⟨nb, hnb⟩ : ∃ nb, P.graph[b]? = some nb := ⟨P.graph[b], by simp [hlt]⟩
    have hget : g.nodes[b]? = some (f b, nb) := by rw [hg, getElem?_mkNodes, hnb]; rfl
    have hidx := idx_of_getElem? hget
    cases hs : f b with
    | sleeping =>
      rw [hs] at hget hidx
      have h1 : g.initNode b = .ok { g with nodes := g.nodes.set b (.inMemory, nb),
                                            currentMemory := g.currentMemory + 1 } := by
        simp [Graph.initNode, hidx, bind, Except.bind, pure, Except.pure]
      obtain ⟨g', e1, e2, e3, e4⟩ := ih hb' (fun v => if v = b then .inMemory else f v)
        { g with nodes := g.nodes.set b (.inMemory, nb), currentMemory := g.currentMemory + 1 }
        (by simp only [hg]; exact mkNodes_set P f b _ nb hnb)
      refine ⟨g', ?_, ?_, e3, ?_⟩
      · simp only [Graph.initializeAll, h1, bind, Except.bind]; exact e1
      · rw [e2]; congr 1; funext v
        by_cases hv : v = b
        · subst hv; simp [hs]
        · simp [hv]
      · have ha := awake_set (s' := .inMemory) hget
        simp only [reduceCtorEq, ↓reduceIte] at ha
        simp only at e4
        omega
    | inMemory =>
      rw [hs] at hget hidx
      have h1 : g.initNode b = .ok g := by
        simp [Graph.initNode, hidx, bind, Except.bind, pure, Except.pure]
      obtain ⟨g', e1, e2, e3, e4⟩ := ih hb' f g hg
      refine ⟨g', ?_, ?_, e3, e4⟩
      · simp only [Graph.initializeAll, h1, bind, Except.bind]; exact e1
      · rw [e2]; congr 1; funext v
        by_cases hv : v = b
        · subst hv; simp [hs]
        · simp [hv]
    | measured =>
      rw [hs] at hget hidx
      have h1 : g.initNode b = .ok g := by
        simp [Graph.initNode, hidx, bind, Except.bind, pure, Except.pure]
      obtain ⟨g', e1, e2, e3, e4⟩ := ih hb' f g hg
      refine ⟨g', ?_, ?_, e3, e4⟩
      · simp only [Graph.initializeAll, h1, bind, Except.bind]; exact e1
      · rw [e2]; congr 1; funext v
        by_cases hv : v = b
        · subst hv; simp [hs]
        · simp [hv]

theorem nbrs_of_getElem? {P : Problem} {b : Nat} {nb : List Nat} (h : P.graph[b]? = some nb) :
    P.nbrs b = nb := by
  simp [Problem.nbrs, List.getD, h]

theorem stateOf_cons (P : Problem) (M : List Nat) (b : Nat) :
    stateOf P (b :: M) = fun v =>
      if v ∈ P.nbrs b ∧ (if v = b then NodeState.measured else stateOf P M v) = .sleeping
      then .inMemory else (if v = b then .measured else stateOf P M v) := by
  funext v
  unfold stateOf Touched
  by_cases hvb : v = b
  · subst hvb; simp
  · by_cases hM : v ∈ M
    · simp [hvb, hM]
    · by_cases hT : ∃ u ∈ M, v ∈ P.nbrs u
      · simp only [List.mem_cons, hvb, hM, or_self, ↓reduceIte, false_or, hT, reduceCtorEq,
          and_false]
        simp [hT]
      · simp only [List.mem_cons, hvb, hM, or_self, ↓reduceIte, false_or, hT, and_true]
        by_cases hn : v ∈ P.nbrs b <;> simp [hn, hT, hvb, hM]

/-- Effect of measuring a fresh bit. -/
theorem measure_spec (P : Problem) (hP : ∀ l ∈ P.graph, ∀ v ∈ l, v < P.n) (M : List Nat) (b : Nat)
    (hb : b < P.n) (hM : b ∉ M) (g : Graph) (hg : g.nodes = nodesOf P M) :
    ∃ g', g.measure b = .ok (g', .ok ()) ∧ g.measureUnchecked b = .ok g' ∧
      g'.nodes = nodesOf P (b :: M) ∧ g'.maxMemory = g.maxMemory ∧
      g'.currentMemory + awake g.nodes = g.currentMemory + awake g'.nodes := by
  have hlt : b < P.graph.length := hb
  obtain ⟨nb, hnb⟩ : ∃ nb, P.graph[b]? = some nb := ⟨P.graph[b], by simp [hlt]⟩
  have hget : g.nodes[b]? = some (stateOf P M b, nb) := by rw [hg, getElem?_nodesOf, hnb]; rfl
  have hidx := idx_of_getElem? hget
  have hnbl : ∀ v ∈ nb, v < P.n := hP nb (List.mem_of_getElem? hnb)
  have hne : stateOf P M b ≠ .measured := by
    unfold stateOf; rw [if_neg hM]; split <;> simp
  have hset := mkNodes_set P (stateOf P M) b .measured nb hnb
  rw [← nodesOf_eq, ← hg] at hset
  have hcons : mkNodes P (fun v => if v ∈ nb ∧ (if v = b then NodeState.measured else stateOf P M v)
      = .sleeping then .inMemory else (if v = b then .measured else stateOf P M v))
      = nodesOf P (b :: M) := by
    rw [nodesOf_eq, stateOf_cons, nbrs_of_getElem? hnb]
  cases hs : stateOf P M b with
  | measured => exact (hne hs).elim
  | sleeping =>
    rw [hs] at hget hidx
    obtain ⟨g', e1, e2, e3, e4⟩ := initializeAll_spec P nb hnbl _
      { g with nodes := g.nodes.set b (.measured, nb), currentMemory := g.currentMemory + 1 } hset
    refine ⟨g', ?_, ?_, ?_, e3, ?_⟩
    · simp [Graph.measure, hidx, bind, Except.bind, pure, Except.pure, e1]
    · simp [Graph.measureUnchecked, hidx, bind, Except.bind, e1]
    · rw [e2]; exact hcons
    · have ha := awake_set (s' := .measured) hget
      simp only [reduceCtorEq, ↓reduceIte] at ha
      simp only at e4
      omega
  | inMemory =>
    rw [hs] at hget hidx
    obtain ⟨g', e1, e2, e3, e4⟩ := initializeAll_spec P nb hnbl _
      { g with nodes := g.nodes.set b (.measured, nb) } hset
    refine ⟨g', ?_, ?_, ?_, e3, ?_⟩
    · simp [Graph.measure, hidx, bind, Except.bind, pure, Except.pure, e1]
    · simp [Graph.measureUnchecked, hidx, bind, Except.bind, e1]
    · rw [e2]; exact hcons
    · have ha := awake_set (s' := .measured) hget
      simp only [reduceCtorEq, ↓reduceIte] at ha
      simp only at e4
      omega

/-- Measuring a list of fresh distinct bits. -/
theorem measureAll_spec (P : Problem) (hP : ∀ l ∈ P.graph, ∀ v ∈ l, v < P.n) (ms : List Nat) :
    ∀ (M : List Nat) (g : Graph), (∀ b ∈ ms, b < P.n) → ms.Nodup → (∀ b ∈ ms, b ∉ M) →
    g.nodes = nodesOf P M →
    ∃ g', g.measureAll ms = .ok (g', .ok ()) ∧ g.measureAllUnchecked ms = .ok g' ∧
      g'.nodes = nodesOf P (ms ++ M) ∧ g'.maxMemory = g.maxMemory ∧
      g'.currentMemory + awake g.nodes = g.currentMemory + awake g'.nodes := by
  induction ms with
  | nil => intro M g _ _ _ hg; exact ⟨g, rfl, rfl, hg, rfl, rfl⟩
  | cons b bs ih =>
    intro M g hlt hnd hM hg
    rw [List.nodup_cons] at hnd
    obtain ⟨g1, a1, a2, a3, a4, a5⟩ := measure_spec P hP M b (hlt b (by simp)) (hM b (by simp)) g hg
    obtain ⟨g2, b1, b2, b3, b4, b5⟩ := ih (b :: M) g1 (fun x hx => hlt x (by simp [hx])) hnd.2
      (by
        intro x hx
        simp only [List.mem_cons, not_or]
        exact ⟨fun h => hnd.1 (h ▸ hx), hM x (by simp [hx])⟩) a3
    refine ⟨g2, ?_, ?_, ?_, b4.trans a4, ?_⟩
    · simp only [Graph.measureAll, a1, bind, Except.bind]; exact b1
    · simp only [Graph.measureAllUnchecked, a2, bind, Except.bind]; exact b2
    · rw [b3]; apply nodesOf_congr; intro v; simp [or_left_comm]
    · omega

theorem mkNodes_eq_map (P : Problem) (f : Nat → NodeState) :
    mkNodes P f = (List.range P.n).map fun v => (f v, P.nbrs v) := by
  apply List.ext_getElem?
  intro i
  simp only [mkNodes, List.getElem?_mapIdx, List.getElem?_map]
  by_cases h : i < P.graph.length
  · have e : (List.range P.n)[i]? = some i := by
      rw [List.getElem?_range]; exact h
    rw [e]
    simp [h, Problem.nbrs, List.getD]
  · have e : (List.range P.n)[i]? = none := by
      rw [List.getElem?_eq_none_iff, List.length_range]; exact Nat.not_lt.1 h
    rw [e]
    simp [Nat.not_lt.1 h]

theorem stateOf_sleeping {P : Problem} {M : List Nat} {v : Nat} :
    stateOf P M v = .sleeping ↔ ¬ Touched P M v := by
  unfold stateOf
  by_cases h : v ∈ M
  · simp [h, Touched]
  · simp only [h, ↓reduceIte]; split <;> simp_all

theorem awake_nodesOf (P : Problem) (M : List Nat) :
    awake (nodesOf P M) = (List.range P.n).countP fun v => decide (Touched P M v) := by
  rw [nodesOf_eq, mkNodes_eq_map, awake, List.countP_map]
  apply List.countP_congr
  intro v _
  simp [stateOf_sleeping]

/-- Counting the members of a duplicate-free list below `n`. -/
theorem countP_mem_range {n : Nat} {M : List Nat} (hn : M.Nodup) (hlt : ∀ b ∈ M, b < n) :
    (List.range n).countP (fun v => decide (v ∈ M)) = M.length := by
  rw [List.countP_eq_length_filter]
  apply List.Perm.length_eq
  rw [List.perm_ext_iff_of_nodup (List.nodup_range.filter _) hn]
  intro a
  simp only [List.mem_filter, List.mem_range, decide_eq_true_eq]
  exact ⟨fun h => h.2, fun h => ⟨hlt a h, h⟩⟩

theorem countP_split {l : List Nat} (p q : Nat → Bool) (h : ∀ v, q v = true → p v = true) :
    l.countP (fun v => p v && !q v) + l.countP q = l.countP p := by
  induction l with
  | nil => rfl
  | cons a l ih =>
    have := h a
    simp only [List.countP_cons]
    cases hp : p a <;> cases hq : q a <;> simp_all <;> omega

theorem inMemory_eq (P : Problem) (S : Schedule) (k v : Nat) :
    P.inMemory S k v =
      (decide (Touched P (S.take (k + 1)).flatten v) && !decide (v ∈ (S.take k).flatten)) := by
  rw [Bool.eq_iff_iff]
  simp only [Problem.inMemory, Bool.and_eq_true, Bool.or_eq_true, List.contains_eq_mem,
    decide_eq_true_eq, List.any_eq_true, Bool.not_eq_true', decide_eq_false_iff_not]
  exact Iff.rfl

theorem memAt_eq (P : Problem) (S : Schedule) (k : Nat) :
    P.memAt S k = (List.range P.n).countP fun v =>
      (decide (Touched P (S.take (k + 1)).flatten v) && !decide (v ∈ (S.take k).flatten)) := by
  rw [Problem.memAt, ← List.countP_eq_length_filter]
  apply List.countP_congr
  intro v _
  rw [inMemory_eq]

theorem memAt_append_lt (P : Problem) (p q : Schedule) (k : Nat) (h : k < p.length) :
    P.memAt (p ++ q) k = P.memAt p k := by
  rw [memAt_eq, memAt_eq, List.take_append_of_le_length (by omega),
    List.take_append_of_le_length (by omega)]

theorem foldr_max_append (a b : List Nat) :
    (a ++ b).foldr max 0 = max (a.foldr max 0) (b.foldr max 0) := by
  induction a with
  | nil => simp
  | cons x a ih => simp [ih, Nat.max_assoc]

theorem le_foldr_max {l : List Nat} {x : Nat} (h : x ∈ l) : x ≤ l.foldr max 0 := by
  induction l with
  | nil => simp at h
  | cons a l ih =>
    simp only [List.mem_cons] at h
    simp only [List.foldr_cons]
    rcases h with rfl | h
    · omega
    · have := ih h; omega

theorem foldr_max_le {l : List Nat} {m : Nat} (h : ∀ x ∈ l, x ≤ m) : l.foldr max 0 ≤ m := by
  induction l with
  | nil => simp
  | cons a l ih =>
    simp only [List.foldr_cons]
    have h1 := h a (by simp)
    have h2 := ih fun x hx => h x (by simp [hx])
    omega

theorem memAt_le_peak (P : Problem) (S : Schedule) (k : Nat) (h : k < S.length) :
    P.memAt S k ≤ P.peak S :=
  le_foldr_max (List.mem_map.2 ⟨k, by simpa using h, rfl⟩)

theorem peak_le {P : Problem} {S : Schedule} {m : Nat} (h : ∀ k, k < S.length → P.memAt S k ≤ m) :
    P.peak S ≤ m := by
  apply foldr_max_le
  intro x hx
  simp only [List.mem_map, List.mem_range] at hx
  obtain ⟨k, hk, rfl⟩ := hx
  exact h k hk

theorem peak_snoc (P : Problem) (p : Schedule) (s : List Nat) :
    P.peak (p ++ [s]) = max (P.peak p) (P.memAt (p ++ [s]) p.length) := by
  unfold Problem.peak
  rw [List.length_append, List.length_singleton, List.range_succ, List.map_append,
    foldr_max_append]
  congr 1
  · congr 1
    apply List.map_congr_left
    intro k hk
    exact memAt_append_lt P p [s] k (by simpa using hk)
  · simp

theorem peak_le_append (P : Problem) (p q : Schedule) : P.peak p ≤ P.peak (p ++ q) := by
  apply peak_le
  intro k hk
  rw [← memAt_append_lt P p q k hk]
  exact memAt_le_peak P (p ++ q) k (by simp; omega)

theorem memAt_le_n (P : Problem) (S : Schedule) (k : Nat) : P.memAt S k ≤ P.n := by
  rw [memAt_eq]
  exact Nat.le_trans List.countP_le_length (by simp)

theorem peak_le_n (P : Problem) (S : Schedule) : P.peak S ≤ P.n :=
  peak_le fun k _ => memAt_le_n P S k

/-- The graph `g` is the one reached after performing the steps `p`. -/
structure GraphFor (P : Problem) (p : Schedule) (g : Graph) : Prop where
  nodes : g.nodes = nodesOf P p.flatten
  cur : g.currentMemory + p.flatten.length = awake g.nodes
  max : g.maxMemory = P.peak p

theorem graphFor_new (P : Problem) : GraphFor P [] (Graph.new P.graph) := by
  refine ⟨?_, ?_, ?_⟩
  · simp only [Graph.new, nodesOf, List.flatten_nil]
    apply List.ext_getElem?
    intro i
    simp [stateOf, Touched]
  · simp only [Graph.new, awake, List.flatten_nil, List.length_nil, List.countP_map]
    rw [eq_comm, List.countP_eq_zero]
    simp
  · rfl

/-- Performing one more step of fresh distinct bits, in any build profile. -/
theorem graphFor_focus {P : Problem} (hP : ∀ l ∈ P.graph, ∀ v ∈ l, v < P.n) {p : Schedule}
    {g : Graph} (hg : GraphFor P p g) {ms : List Nat} (hnd : (p.flatten ++ ms).Nodup)
    (hlt : ∀ b ∈ p.flatten ++ ms, b < P.n) :
    ∃ g', GraphFor P (p ++ [ms]) g' ∧ ∀ prof, g.focusInplace prof ms = .ok (g', .ok ()) ∧
      g.focus prof ms = .ok (.ok g') ∧ g.focusUnchecked prof ms = .ok g' := by
  have hnd' := hnd
  rw [List.nodup_append'] at hnd'
  obtain ⟨h1, h2, h3⟩ := hnd'
  obtain ⟨g1, a1, a2, a3, a4, a5⟩ := measureAll_spec P hP ms p.flatten g
    (fun b hb => hlt b (by simp [hb])) h2 (fun b hb hb' => h3 hb' hb) hg.nodes
  have hc := hg.cur
  -- memory while the step is performed
  have hflat : (p ++ [ms]).flatten = p.flatten ++ ms := by simp
  have hnodes : g1.nodes = nodesOf P (p ++ [ms]).flatten := by
    rw [a3, hflat]; apply nodesOf_congr; intro v; simp [or_comm]
  have haw : awake g1.nodes = (List.range P.n).countP fun v =>
      decide (Touched P (p ++ [ms]).flatten v) := by rw [hnodes, awake_nodesOf]
  have hmem : P.memAt (p ++ [ms]) p.length + p.flatten.length = awake g1.nodes := by
    rw [memAt_eq, haw]
    have e1 : (p ++ [ms]).take (p.length + 1) = p ++ [ms] := by
      apply List.take_of_length_le; simp
    have e2 : (p ++ [ms]).take p.length = p := by simp
    rw [e1, e2, ← countP_split (l := List.range P.n) (fun v => decide (Touched P (p ++ [ms]).flatten v))
      (fun v => decide (v ∈ p.flatten))]
    · rw [countP_mem_range h1 fun b hb => hlt b (by simp [hb])]
    · intro v hv
      simp only [decide_eq_true_eq] at hv ⊢
      exact Or.inl (by rw [hflat]; simp only [List.mem_append]; exact Or.inl hv)
  have hge : ms.length + p.flatten.length ≤ awake g1.nodes := by
    rw [haw]
    have : ms.length + p.flatten.length = (p.flatten ++ ms).length := by
      rw [List.length_append]; omega
    rw [this, ← countP_mem_range hnd hlt]
    apply List.countP_mono_left
    intro v _ hv
    simp only [decide_eq_true_eq] at hv ⊢
    exact Or.inl (by rw [hflat]; exact hv)
  have hcur1 : g1.currentMemory = P.memAt (p ++ [ms]) p.length := by omega
  have hle : ms.length ≤ g1.currentMemory := by omega
  refine ⟨⟨g1.nodes, g1.currentMemory - ms.length, P.peak (p ++ [ms])⟩, ⟨hnodes, ?_, rfl⟩, ?_⟩
  · rw [hflat, List.length_append]
    simp only
    omega
  · intro prof
    have hu : g1.updateMemory prof ms.length =
        .ok ⟨g1.nodes, g1.currentMemory - ms.length, P.peak (p ++ [ms])⟩ := by
      simp only [Graph.updateMemory, usizeSub, hle, ↓reduceIte, bind, Except.bind, pure, Except.pure]
      congr 2
      rw [peak_snoc, ← hcur1, a4, hg.max]
      split <;> omega
    refine ⟨?_, ?_, ?_⟩
    · simp [Graph.focusInplace, a1, bind, Except.bind, hu, pure, Except.pure]
    · simp [Graph.focus, Graph.focusInplace, a1, bind, Except.bind, hu, pure, Except.pure]
    · simp [Graph.focusUnchecked, a2, bind, Except.bind, hu]

end Verif
