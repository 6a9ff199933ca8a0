import Verif.Proofs.Trace
import Verif.Proofs.ClipRun
import Verif.Proofs.Space
import Verif.Proofs.Time
/-!
# What holds of returned paths for arbitrary inputs

`Trace.Kept` for: the qubits of the path are nodes and occur in the ordering, the graph is that of the path if no qubit
is repeated, and qubits are measured after the qubits that signal to them.
-/

namespace Verif.Trace

open Spec Search Search.Threaded Clip

/-! ### The order of the measurements -/

theorem updateDependents_counter (prof : Profile) (bits : List Nat) : ∀ (deps : AMap Nat) (new : List Nat) r,
    PathGenerator.updateDependents prof bits deps new = .ok r →
    (∀ b ∈ bits, deps.get b ≠ none) ∧ (∀ b, deps.get b = none → r.1.get b = none) ∧
      ∀ b ∈ r.2, b ∈ new ∨ r.1.get b = none := by
  induction bits with
  | nil =>
    intro deps new r h
    cases h
    exact ⟨by simp, fun b h => h, fun b h => Or.inl h⟩
  | cons x bits ih =>
    intro deps new r h
    unfold PathGenerator.updateDependents at h
    split at h
    · simp at h
    · rename_i count hc
      cases hs : usizeSub prof count 1 with
      | error e => simp [hs, bind, Except.bind] at h
      | ok count' =>
        simp only [hs, bind, Except.bind] at h
        split at h
        · obtain ⟨h1, h2, h3⟩ := ih _ _ r h
          have hn : ∀ b, deps.get b = none → (deps.erase x).get b = none := by
            intro b hb
            rw [AMap.get_erase]
            split <;> simp [hb]
          refine ⟨?_, fun b hb => h2 b (hn b hb), ?_⟩
          · intro b hb
            rcases List.mem_cons.1 hb with rfl | hb
            · simp [hc]
            · exact fun h => h1 b hb (hn b h)
          · intro b hb
            rcases h3 b hb with h' | h'
            · rcases List.mem_append.1 h' with h' | h'
              · exact Or.inl h'
              · refine Or.inr (h2 b ?_)
                simp only [List.mem_singleton] at h'
                subst h'
                rw [AMap.get_erase]; simp
            · exact Or.inr h'
        · obtain ⟨h1, h2, h3⟩ := ih _ _ r h
          have hn : ∀ b, deps.get b = none → (deps.insert x count').get b = none := by
            intro b hb
            rw [AMap.get_insert]
            split
            · rename_i hx
              subst hx
              rw [hc] at hb
              simp at hb
            · exact hb
          refine ⟨?_, fun b hb => h2 b (hn b hb), h3⟩
          intro b hb
          rcases List.mem_cons.1 hb with rfl | hb
          · simp [hc]
          · exact fun h => h1 b hb (hn b h)

theorem updateUnchecked_counter (prof : Profile) (look : Dependents) (ms : List Nat) :
    ∀ (deps : AMap Nat) (new : List Nat) r, PathGenerator.updateUnchecked prof look ms deps new = .ok r →
    (∀ d ∈ ms, ∀ b ∈ look.getD d [], deps.get b ≠ none) ∧ (∀ b, deps.get b = none → r.1.get b = none) ∧
      ∀ b ∈ r.2, b ∈ new ∨ r.1.get b = none := by
  induction ms with
  | nil =>
    intro deps new r h
    cases h
    exact ⟨by simp, fun b h => h, fun b h => Or.inl h⟩
  | cons m ms ih =>
    intro deps new r h
    unfold PathGenerator.updateUnchecked at h
    cases hi : idx look m with
    | error e => simp [hi, bind, Except.bind] at h
    | ok l =>
      simp only [hi, bind, Except.bind] at h
      have hl : look.getD m [] = l := by rw [List.getD_eq_getElem?_getD, idx_ok.1 hi]; rfl
      cases hu : PathGenerator.updateDependents prof l deps new with
      | error e => simp [hu] at h
      | ok v =>
        simp only [hu] at h
        obtain ⟨a1, a2, a3⟩ := updateDependents_counter prof l deps new v hu
        obtain ⟨b1, b2, b3⟩ := ih v.1 v.2 r h
        refine ⟨?_, fun b hb => b2 b (a2 b hb), ?_⟩
        · intro d hd b hb
          rcases List.mem_cons.1 hd with rfl | hd
          · rw [hl] at hb
            exact a1 b hb
          · exact fun h => b1 d hd b hb (a2 b h)
        · intro b hb
          rcases b3 b hb with h' | h'
          · exact (a3 b h').imp id (b2 b)
          · exact Or.inr h'

/-- In `p`, a qubit outside of `first` comes after the qubits that signal to it. -/
def Ord (first : List Nat) (look : Dependents) (p : Steps) : Prop :=
  ∀ (i j : Nat) (s s' : List Nat) (b d : Nat), p[i]? = some s → p[j]? = some s' → b ∈ s → d ∈ s' → b ∈ look.getD d [] → b ∉ first → j < i

structure OInv {T : Type} [MeasurableSet T] (first : List Nat) (look : Dependents) (p : Steps)
    (t : PathGenerator T) : Prop where
  dependents : t.dependents = look
  counter : ∀ b, b ∈ MeasurableSet.set t.measurable ∨ b ∈ p.flatten → b ∉ first → t.depsCounter.get b = none
  ord : Ord first look p

section
variable {T : Type} [MeasurableSet T] {first : List Nat} {look : Dependents} {p : Steps} {t : PathGenerator T}

/-- Measuring some of the measurable qubits. -/
theorem OInv.update (hset : ∀ l, MeasurableSet.set (MeasurableSet.init (T := T) l) = l) {prof : Profile}
    (h : OInv first look p t) {ms new : List Nat} (hm : ∀ b ∈ ms, b ∈ MeasurableSet.set t.measurable)
    (hn : ∀ b ∈ new, b ∈ MeasurableSet.set t.measurable) {r}
    (hr : PathGenerator.updateUnchecked prof t.dependents ms t.depsCounter new = .ok r) :
    OInv first look (p ++ [ms]) (⟨MeasurableSet.init r.2, r.1, t.dependents⟩ : PathGenerator T) := by
  obtain ⟨h1, h2, h3⟩ := updateUnchecked_counter prof _ ms _ _ r hr
  refine ⟨h.dependents, ?_, ?_⟩
  · intro b hb hf
    simp only [hset, List.flatten_append, List.flatten_cons, List.flatten_nil, List.append_nil,
      List.mem_append] at hb
    rcases hb with hb | hb | hb
    · rcases h3 b hb with hb | hb
      · exact h2 b (h.counter b (Or.inl (hn b hb)) hf)
      · exact hb
    · exact h2 b (h.counter b (Or.inr hb) hf)
    · exact h2 b (h.counter b (Or.inl (hm b hb)) hf)
  · intro i j s s' b d hi hj hb hd hl hf
    have hlt : ∀ {k : Nat} {x : List Nat}, (p ++ [ms])[k]? = some x → p[k]? = some x ∨ k = p.length ∧ x = ms := by
      intro k x hk
      by_cases hkl : k < p.length
      · rw [List.getElem?_append_left hkl] at hk
        exact Or.inl hk
      · rw [List.getElem?_append_right (by omega)] at hk
        have : k - p.length = 0 := by
          by_contra hc
          obtain ⟨q, hq⟩ := Nat.exists_eq_succ_of_ne_zero hc
          rw [hq] at hk
          simp at hk
        rw [this] at hk
        simp only [List.getElem?_cons_zero, Option.some.injEq] at hk
        exact Or.inr ⟨by omega, hk.symm⟩
    rcases hlt hj with hj' | ⟨rfl, rfl⟩
    · rcases hlt hi with hi' | ⟨rfl, rfl⟩
      · exact h.ord i j s s' b d hi' hj' hb hd hl hf
      · exact (List.getElem?_eq_some_iff.1 hj').1
    · exfalso
      rw [← h.dependents] at hl
      refine h1 d hd b hl (h.counter b ?_ hf)
      rcases hlt hi with hi | ⟨rfl, rfl⟩
      · exact Or.inr (List.mem_flatten.2 ⟨s, List.mem_of_getElem? hi, hb⟩)
      · exact Or.inl (hm b hb)

end

theorem time_nextAndFocus_sat {first : List Nat} {look : Dependents} {p : Steps} (prof : Profile)
    {t : PathGenerator Partitioner} (h : OInv first look p t) :
    Sat (fun r => OInv first look p r.1 ∧ ∀ v, r.2 = some v → OInv first look (p ++ [v.2]) v.1 ∧ v.2 ≠ [])
      (t.nextAndFocus prof) := by
  intro r hr
  unfold PathGenerator.nextAndFocus at hr
  cases hit : t.measurable.iter with
  | nil =>
    simp only [Partition.next, hit, pure, Except.pure, Except.ok.injEq] at hr
    subst hr
    exact ⟨⟨h.dependents, h.counter, h.ord⟩, by simp⟩
  | cons sub rest =>
    simp only [Partition.next, hit] at hr
    have hg : OInv first look p { t with measurable := { t.measurable with iter := rest } } :=
      ⟨h.dependents, h.counter, h.ord⟩
    split at hr
    · simp only [pure, Except.pure, Except.ok.injEq] at hr
      subst hr
      exact ⟨hg, by simp⟩
    · rename_i hne
      cases hf : PathGenerator.updateUnchecked prof t.dependents (Partition.split t.measurable.set 0 sub).2
          t.depsCounter (Partition.split t.measurable.set 0 sub).1 with
      | error e => simp [PathGenerator.focusUnchecked, hf, bind, Except.bind] at hr
      | ok v =>
        simp only [PathGenerator.focusUnchecked, hf, bind, Except.bind, pure, Except.pure, Except.ok.injEq] at hr
        subst hr
        refine ⟨hg, ?_⟩
        rintro w ⟨⟩
        exact ⟨OInv.update (T := Partitioner) (fun _ => rfl) h (fun b hb => (split_mem _ _ _ b).2 hb)
          (fun b hb => (split_mem _ _ _ b).1 hb) hf, by simpa using hne⟩

/-! ### The buffer of dependents -/

theorem resolve_ok {b : Nat} {rest : OrderGraph} {look look' : Dependents}
    (h : PathGenerator.resolve b rest look = .ok look') :
    look' = look.set b (PathGenerator.collectDependents b rest) ∧ b < look.length := by
  unfold PathGenerator.resolve at h
  split at h
  · rename_i hb
    cases h
    exact ⟨rfl, hb⟩
  · simp at h

theorem getD_set {look : Dependents} {b : Nat} (hb : b < look.length) (l : List Nat) (d : Nat) :
    (look.set b l).getD d [] = if d = b then l else look.getD d [] := by
  rw [List.getD_eq_getElem?_getD, List.getElem?_set]
  by_cases hd : b = d
  · subst hd; simp [hb]
  · simp [hd, Ne.symm hd]

theorem resolveFirst_getD (rest : OrderGraph) (es : List (Nat × List Nat)) : ∀ (look look' : Dependents),
    PathGenerator.resolveFirst rest es look = .ok look' → ∀ d,
    look'.getD d [] = if d ∈ es.map (·.1) then PathGenerator.collectDependents d rest else look.getD d [] := by
  induction es with
  | nil => intro look look' h d; cases h; simp
  | cons e es ih =>
    intro look look' h d
    unfold PathGenerator.resolveFirst at h
    cases hr : PathGenerator.resolve e.1 rest look with
    | error x => simp [hr, bind, Except.bind] at h
    | ok l =>
      simp only [hr, bind, Except.bind] at h
      obtain ⟨rfl, hb⟩ := resolve_ok hr
      rw [ih _ _ h d, getD_set hb]
      by_cases h1 : d ∈ es.map (·.1)
      · have : d ∈ (e :: es).map (·.1) := List.mem_cons_of_mem _ h1
        rw [if_pos h1, if_pos this]
      · rw [if_neg h1]
        by_cases h2 : d = e.1
        · subst h2; simp
        · rw [if_neg h2, if_neg]
          simp only [List.map_cons, List.mem_cons, not_or]
          exact ⟨h2, h1⟩

theorem resolveLayer_getD (rest : OrderGraph) (es : List (Nat × List Nat)) : ∀ (look : Dependents) (deps : AMap Nat) r,
    PathGenerator.resolveLayer rest es look deps = .ok r → ∀ d,
    r.1.getD d [] = if d ∈ es.map (·.1) then PathGenerator.collectDependents d rest else look.getD d [] := by
  induction es with
  | nil => intro look deps r h d; cases h; simp
  | cons e es ih =>
    intro look deps r h d
    unfold PathGenerator.resolveLayer at h
    cases hr : PathGenerator.resolve e.1 rest look with
    | error x => simp [hr, bind, Except.bind] at h
    | ok l =>
      simp only [hr, bind, Except.bind] at h
      obtain ⟨rfl, hb⟩ := resolve_ok hr
      rw [ih _ _ _ h d, getD_set hb]
      by_cases h1 : d ∈ es.map (·.1)
      · have : d ∈ (e :: es).map (·.1) := List.mem_cons_of_mem _ h1
        rw [if_pos h1, if_pos this]
      · rw [if_neg h1]
        by_cases h2 : d = e.1
        · subst h2; simp
        · rw [if_neg h2, if_neg]
          simp only [List.map_cons, List.mem_cons, not_or]
          exact ⟨h2, h1⟩

theorem resolveRest_getD (layers : OrderGraph) : ∀ (look : Dependents) (deps : AMap Nat) r,
    PathGenerator.resolveRest layers look deps = .ok r → ∀ d,
    (d ∉ layers.flatten.map (·.1) → r.1.getD d [] = look.getD d []) ∧
      ∀ pre layer post, layers = pre ++ layer :: post → d ∈ layer.map (·.1) → d ∉ post.flatten.map (·.1) →
        r.1.getD d [] = PathGenerator.collectDependents d post := by
  induction layers with
  | nil =>
    intro look deps r h d
    cases h
    exact ⟨fun _ => rfl, by simp⟩
  | cons x rest ih =>
    intro look deps r h d
    unfold PathGenerator.resolveRest at h
    cases h1 : PathGenerator.resolveLayer rest x look deps with
    | error e => simp [h1, bind, Except.bind] at h
    | ok v =>
      simp only [h1, bind, Except.bind] at h
      have hx := resolveLayer_getD rest x look deps v h1 d
      obtain ⟨i1, i2⟩ := ih v.1 v.2 r h d
      constructor
      · intro hd
        simp only [List.flatten_cons, List.map_append, List.mem_append, not_or] at hd
        rw [i1 hd.2, hx, if_neg hd.1]
      · intro pre layer post hl hd hp
        cases pre with
        | nil =>
          simp only [List.nil_append, List.cons.injEq] at hl
          obtain ⟨rfl, rfl⟩ := hl
          rw [i1 hp, hx, if_pos hd]
        | cons y pre =>
          simp only [List.cons_append, List.cons.injEq] at hl
          obtain ⟨rfl, rfl⟩ := hl
          exact i2 pre layer post rfl hd hp

/-- The qubits of the first layer. -/
def firstBits (order : OrderGraph) : List Nat := (order.headD []).map (·.1)

theorem fromDependencyGraph_oinv {T : Type} [MeasurableSet T]
    (hset : ∀ l, MeasurableSet.set (MeasurableSet.init (T := T) l) = l)
    (hd : MeasurableSet.set (MeasurableSet.dflt (T := T)) = []) (order : OrderGraph) (n : Nat) {t : PathGenerator T}
    (h : PathGenerator.fromDependencyGraph order (dependencyBufferNew n) none = .ok t) :
    OInv (firstBits order) t.dependents [] t ∧
      ∀ pre layer post d, order = pre ++ layer :: post → d ∈ layer.map (·.1) → d ∉ post.flatten.map (·.1) →
        t.dependents.getD d [] = PathGenerator.collectDependents d post := by
  have hord : ∀ f l, Ord f l [] := by intro f l i j s s' b d hi; simp at hi
  cases order with
  | nil =>
    simp only [PathGenerator.fromDependencyGraph, pure, Except.pure, Except.ok.injEq] at h
    subst h
    exact ⟨⟨rfl, by simp [hd], hord _ _⟩, by simp⟩
  | cons first rest =>
    simp only [PathGenerator.fromDependencyGraph, PathGenerator.applyMapping, bind, Except.bind] at h
    cases h1 : PathGenerator.resolveFirst rest first (dependencyBufferNew n) with
    | error x => simp [h1] at h
    | ok look =>
      simp only [h1] at h
      cases h2 : PathGenerator.resolveRest rest look [] with
      | error x => simp [h2] at h
      | ok v =>
        simp only [h2, pure, Except.pure, Except.ok.injEq] at h
        subst h
        refine ⟨⟨rfl, ?_, hord _ _⟩, ?_⟩
        · intro b hb hf
          simp only [hset, List.flatten_nil, List.not_mem_nil, or_false] at hb
          exact (hf hb).elim
        · intro pre layer post d hl hd hp
          obtain ⟨i1, i2⟩ := resolveRest_getD rest look [] v h2 d
          cases pre with
          | nil =>
            simp only [List.nil_append, List.cons.injEq] at hl
            obtain ⟨rfl, rfl⟩ := hl
            rw [i1 hp, resolveFirst_getD rest first _ _ h1 d, if_pos hd]
          | cons y pre =>
            simp only [List.cons_append, List.cons.injEq] at hl
            obtain ⟨rfl, rfl⟩ := hl
            exact i2 pre layer post rfl hd hp

/-! ### The graph -/

theorem initializeAll_length (nb : List Nat) : ∀ (g : Graph),
    Sat (fun g' => g'.nodes.length = g.nodes.length) (g.initializeAll nb) := by
  induction nb with
  | nil => intro g; exact Sat.pure rfl
  | cons b nb ih =>
    intro g
    unfold Graph.initializeAll
    refine Sat.bind (I := fun g' => g'.nodes.length = g.nodes.length) ?_ fun g' hg => (ih g').mono fun v hv => hv.trans hg
    unfold Graph.initNode
    refine Sat.bind (Sat.any _) fun nd _ => ?_
    split
    · exact Sat.pure (by simp)
    · exact Sat.pure rfl
    · exact Sat.pure rfl

theorem idx_sat {α : Type} (l : List α) (i : Nat) : Sat (fun x => l[i]? = some x) (idx l i) :=
  fun _ h => idx_ok.1 h

theorem measure_length (g : Graph) (b : Nat) :
    Sat (fun r => b < g.nodes.length ∧ r.1.nodes.length = g.nodes.length) (g.measure b) := by
  unfold Graph.measure
  refine Sat.bind (idx_sat _ _) fun nd hnd => ?_
  have hb := (List.getElem?_eq_some_iff.1 hnd).1
  split
  · exact Sat.bind (initializeAll_length _ _) fun g' hg => Sat.pure ⟨hb, by simpa using hg⟩
  · exact Sat.bind (initializeAll_length _ _) fun g' hg => Sat.pure ⟨hb, by simpa using hg⟩
  · exact Sat.pure ⟨hb, rfl⟩

theorem measureUnchecked_length (g : Graph) (b : Nat) :
    Sat (fun r => b < g.nodes.length ∧ r.nodes.length = g.nodes.length) (g.measureUnchecked b) := by
  unfold Graph.measureUnchecked
  refine Sat.bind (idx_sat _ _) fun nd hnd => ?_
  have hb := (List.getElem?_eq_some_iff.1 hnd).1
  split
  · exact (initializeAll_length _ _).mono fun g' hg => ⟨hb, by simpa using hg⟩
  · exact (initializeAll_length _ _).mono fun g' hg => ⟨hb, by simpa using hg⟩
  · exact Sat.pure ⟨hb, rfl⟩

theorem measureAll_length (ms : List Nat) : ∀ (g : Graph),
    Sat (fun r => r.1.nodes.length = g.nodes.length ∧ (r.2 = .ok () → ∀ b ∈ ms, b < g.nodes.length))
      (g.measureAll ms) := by
  induction ms with
  | nil => intro g; exact Sat.pure ⟨rfl, by simp⟩
  | cons b ms ih =>
    intro g
    unfold Graph.measureAll
    refine Sat.bind (measure_length g b) fun r hr => ?_
    obtain ⟨g', r⟩ := r
    cases r with
    | error e => exact Sat.pure ⟨hr.2, by simp⟩
    | ok u =>
      refine (ih g').mono fun v hv => ⟨hv.1.trans hr.2, fun h b' hb' => ?_⟩
      rcases List.mem_cons.1 hb' with rfl | hb'
      · exact hr.1
      · exact hr.2 ▸ hv.2 h b' hb'

theorem measureAllUnchecked_length (ms : List Nat) : ∀ (g : Graph),
    Sat (fun r => r.nodes.length = g.nodes.length ∧ ∀ b ∈ ms, b < g.nodes.length) (g.measureAllUnchecked ms) := by
  induction ms with
  | nil => intro g; exact Sat.pure ⟨rfl, by simp⟩
  | cons b ms ih =>
    intro g
    unfold Graph.measureAllUnchecked
    refine Sat.bind (measureUnchecked_length g b) fun g' hr => ?_
    refine (ih g').mono fun v hv => ⟨hv.1.trans hr.2, fun b' hb' => ?_⟩
    rcases List.mem_cons.1 hb' with rfl | hb'
    · exact hr.1
    · exact hr.2 ▸ hv.2 b' hb'

/-- If measuring with checks reports no error, the qubits are fresh and distinct. -/
theorem measureAll_fresh (P : Problem) (hP : ∀ l ∈ P.graph, ∀ v ∈ l, v < P.n) (ms : List Nat) :
    ∀ (M : List Nat) (g : Graph), g.nodes = nodesOf P M →
    Sat (fun r => r.2 = .ok () → ms.Nodup ∧ ∀ b ∈ ms, b ∉ M) (g.measureAll ms) := by
  induction ms with
  | nil => intro M g _; exact Sat.pure (by simp)
  | cons b ms ih =>
    intro M g hg r hr hok
    have hb : b < P.n := by
      have := (measureAll_length (b :: ms) g r hr).2 hok b (by simp)
      rwa [hg, length_nodesOf] at this
    have hM : b ∉ M := by
      intro hM
      obtain ⟨nb, hnb⟩ : ∃ nb, P.graph[b]? = some nb := ⟨P.graph[b]'hb, List.getElem?_eq_getElem hb⟩
      have hget : g.nodes[b]? = some (.measured, nb) := by
        rw [hg, getElem?_nodesOf, hnb]
        simp [stateOf, hM]
      simp only [Graph.measureAll, Graph.measure, idx_of_getElem? hget, bind, Except.bind, pure, Except.pure,
        Except.ok.injEq] at hr
      subst hr
      simp at hok
    obtain ⟨g1, a1, _, a3, _⟩ := measure_spec P hP M b hb hM g hg
    simp only [Graph.measureAll, a1, bind, Except.bind] at hr
    obtain ⟨h1, h2⟩ := ih (b :: M) g1 a3 r hr hok
    refine ⟨List.nodup_cons.2 ⟨fun h => h2 b h (by simp), h1⟩, fun b' hb' => ?_⟩
    rcases List.mem_cons.1 hb' with rfl | hb'
    · exact hM
    · exact fun h => h2 b' hb' (by simp [h])

/-- What is known of the graph after the steps `p`. -/
structure SpInv (P : Problem) (prof : Profile) (p : Steps) (g : Graph) : Prop where
  length : g.nodes.length = P.n
  lt : ∀ b ∈ p.flatten, b < P.n
  graph : p.flatten.Nodup → GraphFor P p g
  debug : prof = .debug → p.flatten.Nodup

section
variable {P : Problem} {prof : Profile} {p : Steps} {g : Graph}

theorem SpInv.new (P : Problem) (prof : Profile) : SpInv P prof [] (Graph.new P.graph) :=
  ⟨by simp [Graph.new, Problem.n], by simp, fun _ => graphFor_new P, by simp⟩

theorem updateMemory_nodes (prof : Profile) (g : Graph) (len : Nat) :
    Sat (fun g' => g'.nodes = g.nodes) (g.updateMemory prof len) := by
  unfold Graph.updateMemory
  exact Sat.bind (Sat.any _) fun _ _ => Sat.pure rfl

theorem flatten_snoc (p : Steps) (ms : List Nat) : (p ++ [ms]).flatten = p.flatten ++ ms := by simp

theorem SpInv.focusInplace (hP : ∀ l ∈ P.graph, ∀ v ∈ l, v < P.n) (h : SpInv P .debug p g) (ms : List Nat) :
    Sat (fun r => r.2 = .ok () → SpInv P .debug (p ++ [ms]) r.1) (g.focusInplace .debug ms) := by
  intro r hr hok
  have hgf := h.graph (h.debug rfl)
  cases hm : g.measureAll ms with
  | error e => simp [Graph.focusInplace, hm, bind, Except.bind] at hr
  | ok v =>
    obtain ⟨g', w⟩ := v
    cases w with
    | error e =>
      simp only [Graph.focusInplace, hm, bind, Except.bind, pure, Except.pure, Except.ok.injEq] at hr
      subst hr
      simp at hok
    | ok u =>
      have hlt := (measureAll_length ms g _ hm).2 rfl
      obtain ⟨h1, h2⟩ := measureAll_fresh P hP ms p.flatten g hgf.nodes _ hm rfl
      rw [h.length] at hlt
      have hnd : (p.flatten ++ ms).Nodup := by
        rw [List.nodup_append']
        exact ⟨h.debug rfl, h1, fun b hb hb' => h2 b hb' hb⟩
      have hl : ∀ b ∈ p.flatten ++ ms, b < P.n := by
        intro b hb
        rcases List.mem_append.1 hb with hb | hb
        · exact h.lt b hb
        · exact hlt b hb
      obtain ⟨g2, e1, e2⟩ := graphFor_focus hP hgf hnd hl
      rw [(e2 .debug).1] at hr
      injection hr with hr
      subst hr
      exact ⟨by rw [e1.nodes, length_nodesOf], by rw [flatten_snoc]; exact hl, fun _ => e1,
        fun _ => by rw [flatten_snoc]; exact hnd⟩

theorem SpInv.focusUnchecked (hP : ∀ l ∈ P.graph, ∀ v ∈ l, v < P.n) (h : SpInv P .release p g) (ms : List Nat) :
    Sat (SpInv P .release (p ++ [ms])) (g.focusUnchecked .release ms) := by
  intro g' hr
  have hlen : g'.nodes.length = g.nodes.length ∧ ∀ b ∈ ms, b < g.nodes.length := by
    revert hr
    unfold Graph.focusUnchecked
    refine Sat.bind (measureAllUnchecked_length ms g)
      (J := fun x => x.nodes.length = g.nodes.length ∧ ∀ b ∈ ms, b < g.nodes.length) (fun v hv => ?_) g'
    exact (updateMemory_nodes _ _ _).mono fun w hw => ⟨by rw [hw, hv.1], hv.2⟩
  rw [h.length] at hlen
  have hl : ∀ b ∈ p.flatten ++ ms, b < P.n := by
    intro b hb
    rcases List.mem_append.1 hb with hb | hb
    · exact h.lt b hb
    · exact hlen.2 b hb
  refine ⟨hlen.1, by rw [flatten_snoc]; exact hl, fun hnd => ?_, fun h => by cases h⟩
  rw [flatten_snoc] at hnd
  obtain ⟨g2, e1, e2⟩ := graphFor_focus hP (h.graph (List.nodup_append'.1 hnd).1) hnd hl
  rw [(e2 .release).2.2] at hr
  injection hr with hr
  subst hr
  exact e1

theorem SpInv.focusSpace (hP : ∀ l ∈ P.graph, ∀ v ∈ l, v < P.n) (h : SpInv P prof p g) (ms : List Nat) :
    Sat (SpInv P prof (p ++ [ms])) (Scheduler.focusSpace prof g ms) := by
  cases prof with
  | release => exact h.focusUnchecked hP ms
  | debug =>
    unfold Scheduler.focusSpace Graph.focus
    simp only [bind_assoc]
    refine Sat.bind (h.focusInplace hP ms) fun r hr => ?_
    obtain ⟨g', w⟩ := r
    cases w with
    | error e => exact Sat.error _
    | ok u => exact Sat.pure (hr rfl)

end

/-! ### Schedulers -/

/-- What is known of a scheduler after the steps `p`. -/
structure SGood {T : Type} [MeasurableSet T] (P : Problem) (prof : Profile) (look : Dependents) (p : Steps)
    (s : Scheduler T) : Prop where
  time : TInv P.bits s.time
  bits : ∀ b ∈ p.flatten, b ∈ P.bits
  nonempty : ∀ t ∈ p, t ≠ []
  order : OInv (firstBits P.order) look p s.time
  space : SpInv P prof p s.space

theorem kept {P : Problem} (hP : ∀ l ∈ P.graph, ∀ v ∈ l, v < P.n) (prof : Profile) (look : Dependents) :
    Kept prof (SGood P prof look) := by
  constructor
  intro p s h
  unfold Scheduler.nextAndFocus
  refine Sat.bind (I := fun r => (TInv P.bits r.1 ∧ ∀ v, r.2 = some v → TInv P.bits v.1 ∧ ∀ b ∈ v.2, b ∈ P.bits) ∧
    OInv (firstBits P.order) look p r.1 ∧
      ∀ v, r.2 = some v → OInv (firstBits P.order) look (p ++ [v.2]) v.1 ∧ v.2 ≠ [])
    (fun r hr => ⟨time_nextAndFocus_tinv prof h.time hr, time_nextAndFocus_sat prof h.order r hr⟩) fun r hr => ?_
  obtain ⟨t', r⟩ := r
  obtain ⟨⟨a1, a2⟩, b1, b2⟩ := hr
  have h1 : SGood P prof look p (⟨t', s.space⟩ : Scheduler Partitioner) := ⟨a1, h.bits, h.nonempty, b1, h.space⟩
  cases r with
  | none => exact Sat.pure ⟨h1, by simp⟩
  | some v =>
    obtain ⟨nt, ms⟩ := v
    obtain ⟨c1, c2⟩ := a2 _ rfl
    obtain ⟨d1, d2⟩ := b2 _ rfl
    refine Sat.bind (h.space.focusSpace hP ms) fun g hg => ?_
    refine Sat.pure ⟨h1, ?_⟩
    rintro v ⟨⟩
    refine ⟨c1, ?_, ?_, d1, hg⟩
    · intro b hb
      rw [flatten_snoc] at hb
      rcases List.mem_append.1 hb with hb | hb
      · exact h.bits b hb
      · exact c2 b hb
    · intro t ht
      rcases List.mem_append.1 ht with ht | ht
      · exact h.nonempty t ht
      · simp only [List.mem_singleton] at ht
        subst ht
        exact d2

/-- The properties of paths that are of interest. -/
structure Sound (P : Problem) (prof : Profile) (p : Path) : Prop where
  time : p.time = p.steps.length
  nonempty : ∀ t ∈ p.steps, t ≠ []
  bits : ∀ b ∈ p.steps.flatten, b ∈ P.bits ∧ b < P.n
  space : p.steps.flatten.Nodup → p.space = P.peak p.steps
  debug : prof = .debug → p.steps.flatten.Nodup
  order : ∀ (i j : Nat) (s s' : List Nat) (b d : Nat), p.steps[i]? = some s → p.steps[j]? = some s' → b ∈ s → d ∈ s' →
    (∃ pre layer post ds, P.order = pre ++ layer :: post ∧ d ∈ layer.map (·.1) ∧ d ∉ post.flatten.map (·.1) ∧
      (b, ds) ∈ post.flatten ∧ d ∈ ds) → b ∉ firstBits P.order → j < i

/-- The buffer belongs to the ordering. -/
def LookFor (order : OrderGraph) (look : Dependents) : Prop :=
  ∀ pre layer post d, order = pre ++ layer :: post → d ∈ layer.map (·.1) → d ∉ post.flatten.map (·.1) →
    look.getD d [] = PathGenerator.collectDependents d post

theorem SGood.sound {T : Type} [MeasurableSet T] {P : Problem} {prof : Profile} {look : Dependents}
    (hl : LookFor P.order look) {p : Path} {s : Scheduler T} (h : SGood P prof look p.steps s)
    (ht : p.time = p.steps.length) (hs : p.space = s.space.maxMemory) : Sound P prof p := by
  refine ⟨ht, h.nonempty, fun b hb => ⟨h.bits b hb, h.space.lt b hb⟩, fun hn => ?_, h.space.debug, ?_⟩
  · rw [hs, (h.space.graph hn).max]
  · rintro i j s s' b d hi hj hb hd ⟨pre, layer, post, ds, h1, h2, h3, h4, h5⟩ hf
    refine h.order.ord i j s s' b d hi hj hb hd ?_ hf
    rw [hl pre layer post d h1 h2 h3]
    exact mem_collectDependents.2 ⟨ds, h4, h5⟩

theorem timeOptimalLoop_sat {P : Problem} (hP : ∀ l ∈ P.graph, ∀ v ∈ l, v < P.n) {prof : Profile} {look : Dependents}
    (fuel : Nat) : ∀ (s : Scheduler (List Nat)) (p : Steps) (m : Nat), SGood P prof look p s →
    (p.flatten.Nodup → m = P.peak p) →
    Sat (fun r => ∀ v, r = some v → (∃ s' : Scheduler (List Nat), SGood P prof look v.1 s') ∧
      (v.1.flatten.Nodup → v.2 = P.peak v.1)) (timeOptimalLoop prof fuel s p m) := by
  induction fuel with
  | zero => intro s p m _ _; exact Sat.pure (by simp)
  | succ fuel ih =>
    intro s p m h hm
    unfold timeOptimalLoop
    split
    · exact Sat.pure (by rintro v ⟨⟩; exact ⟨⟨s, h⟩, hm⟩)
    · rename_i hne
      simp only
      have hstep : Sat (fun r => r.2 = .ok () → SGood P prof look (p ++ [s.time.measurable]) r.1)
          (s.focusInplace prof s.time.measurable) := by
        unfold Scheduler.focusInplace
        refine Sat.bind (I := fun r => TInv P.bits r.1 ∧
          (r.2 = .ok () → OInv (firstBits P.order) look (p ++ [s.time.measurable]) r.1)) ?_ fun r hr => ?_
        · intro r hr
          refine ⟨time_focusInplace_tinv (T := List Nat) (fun _ => rfl) prof h.time hr, fun hok => ?_⟩
          unfold PathGenerator.focusInplace at hr
          cases hp : s.time.partition prof s.time.measurable with
          | error e => simp [hp, bind, Except.bind] at hr
          | ok x =>
            cases x with
            | error e =>
              simp only [hp, bind, Except.bind, pure, Except.pure, Except.ok.injEq] at hr
              subst hr
              simp at hok
            | ok new =>
              have hn : ∀ b ∈ new, b ∈ s.time.measurable := by
                unfold PathGenerator.partition at hp
                cases hc : PathGenerator.capacityCheck prof (MeasurableSet.set s.time.measurable).length
                    s.time.measurable.length with
                | error e => simp [hc, bind, Except.bind] at hp
                | ok u =>
                  simp only [hc, bind, Except.bind, pure, Except.pure] at hp
                  split at hp
                  · simp only [Except.ok.injEq] at hp
                    subst hp
                    exact partitionLoop_mem _ _
                  · simp at hp
              cases hu : PathGenerator.updateUnchecked prof s.time.dependents s.time.measurable
                  s.time.depsCounter new with
              | error e => simp [hp, hu, bind, Except.bind] at hr
              | ok v =>
                simp only [hp, hu, bind, Except.bind, pure, Except.pure, Except.ok.injEq] at hr
                subst hr
                exact OInv.update (T := List Nat) (fun _ => rfl) h.order (fun b hb => hb) hn hu
        · obtain ⟨t', w⟩ := r
          cases w with
          | error e => exact Sat.pure (by simp)
          | ok u =>
            have hmk : ∀ g, SpInv P prof (p ++ [s.time.measurable]) g →
                SGood P prof look (p ++ [s.time.measurable]) (⟨t', g⟩ : Scheduler (List Nat)) := by
              intro g hg
              refine ⟨hr.1, ?_, ?_, hr.2 rfl, hg⟩
              · intro b hb
                rw [flatten_snoc] at hb
                rcases List.mem_append.1 hb with hb | hb
                · exact h.bits b hb
                · exact h.time.set b hb
              · intro t ht
                rcases List.mem_append.1 ht with ht | ht
                · exact h.nonempty t ht
                · simp only [List.mem_singleton] at ht
                  subst ht
                  simpa using hne
            cases prof with
            | debug =>
              refine Sat.bind (h.space.focusInplace hP _) fun r hg => ?_
              obtain ⟨g', w⟩ := r
              cases w with
              | error e => exact Sat.pure (by simp)
              | ok u => exact Sat.pure fun _ => hmk g' (hg rfl)
            | release =>
              exact Sat.bind (h.space.focusUnchecked hP _) fun g hg => Sat.pure fun _ => hmk g hg
      refine Sat.bind hstep fun r hr => ?_
      obtain ⟨s', w⟩ := r
      cases w with
      | error e => exact Sat.error _
      | ok u =>
        refine ih s' _ _ (hr rfl) fun hn => ?_
        have h1 := ((hr rfl).space.graph hn).max
        rw [flatten_snoc] at hn
        rw [h1, hm (List.nodup_append'.1 hn).1]
        exact Nat.max_eq_right (peak_le_append P p _)

/-- For all problems with proper neighbours, in every mode. -/
theorem run_sound {F σ : Type} [FloatOps F] {P : Problem} (hP : ∀ l ∈ P.graph, ∀ v ∈ l, v < P.n) (env : Env F σ)
    (he : env.OK) (args : Args F) :
    Sat (fun r => ∀ out, r = some out → (∀ p ∈ out, Sound P env.prof p) ∧
      out.Pairwise fun a b => a.time < b.time ∧ b.space < a.space) (run env P.graph P.order args) := by
  cases hs : args.doSearch with
  | false =>
    unfold run
    rw [hs, Bool.not_false, if_pos rfl]
    unfold getTimeOptimal
    refine Sat.bind (I := fun t => TInv P.bits t ∧ OInv (firstBits P.order) t.dependents [] t ∧
      LookFor P.order t.dependents) (fun t ht => ?_) fun t ht => ?_
    · obtain ⟨h1, h2⟩ := fromDependencyGraph_oinv (T := List Nat) (fun _ => rfl) rfl _ _ ht
      exact ⟨fromDependencyGraph_tinv (T := List Nat) (fun _ => rfl) rfl _ _ ht, h1, h2⟩
    · obtain ⟨h1, h2, h3⟩ := ht
      refine Sat.bind (timeOptimalLoop_sat (look := t.dependents) hP env.fuel ⟨t, Graph.new P.graph⟩ [] 0
        ⟨h1, by simp, by simp, h2, SpInv.new P _⟩ fun _ => rfl) fun r hr => ?_
      cases r with
      | none => exact Sat.pure (by simp)
      | some v =>
        obtain ⟨path, m⟩ := v
        obtain ⟨⟨s', a1⟩, a2⟩ := hr _ rfl
        refine Sat.pure ?_
        rintro out ⟨⟩
        refine ⟨?_, by simp⟩
        intro p hp
        simp only [List.mem_singleton] at hp
        subst hp
        have := SGood.sound h3 (p := ⟨path.length, s'.space.maxMemory, path⟩) a1 rfl rfl
        exact ⟨rfl, this.nonempty, this.bits, a2, this.debug, this.order⟩
  | true =>
    intro r hr out ho
    subst ho
    have hex : ∃ s, mkScheduler P.graph P.order = .ok s := by
      unfold run search at hr
      rw [hs, Bool.not_true, if_neg (by simp)] at hr
      cases hm : mkScheduler P.graph P.order with
      | ok s => exact ⟨s, rfl⟩
      | error e =>
        exfalso
        simp only at hr
        split at hr <;> split at hr <;>
          simp [searchProb, searchDet, searchThreaded, hm, bind, Except.bind] at hr
    obtain ⟨s, hmk⟩ := hex
    obtain ⟨t, ht, rfl⟩ : ∃ t, PathGenerator.fromDependencyGraph (T := Partitioner) P.order
        (dependencyBufferNew P.graph.length) none = .ok t ∧ s = ⟨t, Graph.new P.graph⟩ := by
      unfold mkScheduler at hmk
      cases ht : PathGenerator.fromDependencyGraph (T := Partitioner) P.order
        (dependencyBufferNew P.graph.length) none with
      | error e => simp [ht, bind, Except.bind] at hmk
      | ok t =>
        simp only [ht, bind, Except.bind, pure, Except.pure, Except.ok.injEq] at hmk
        exact ⟨t, rfl, hmk.symm⟩
    obtain ⟨h1, h2⟩ := fromDependencyGraph_oinv (T := Partitioner) (fun _ => rfl) rfl _ _ ht
    have h0 := fromDependencyGraph_tinv (T := Partitioner) (fun _ => rfl) rfl _ _ ht
    have := search_sat env he (kept hP env.prof t.dependents) P.graph P.order (fun s hs' => by
      rw [hmk] at hs'
      injection hs' with hs'
      subst hs'
      exact ⟨h0, by simp, by simp, h1, SpInv.new P _⟩) args hs _ hr out rfl
    refine ⟨fun p hp => ?_, this.2⟩
    obtain ⟨a1, s', a2, a3⟩ := this.1 p hp
    exact a2.sound h2 a1 a3

end Verif.Trace
