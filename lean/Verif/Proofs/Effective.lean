import Verif.Proofs.Time
import Mathlib.Data.List.Dedup
/-!
# How the code reads an arbitrary ordering

`eff P` is the ordering as the code understands it. Dependencies of the first layer are ignored. In a later
layer a dependency counts only if it is a bit of an earlier layer, and only once; what is missing to the
length of the list (at least one if the list is empty) is never fulfilled. It is replaced by numbers that are
not nodes.
-/

namespace Verif

open Spec

/-- The bits of the layers before layer `i`. -/
def before (P : Problem) (i : Nat) : List Nat := (P.order.take i).flatten.map (·.1)

/-- The dependencies that are seen. -/
def realDeps (P : Problem) (i : Nat) (ds : List Nat) : List Nat :=
  (ds.filter fun d => decide (d ∈ before P i)).dedup

/-- The dependencies of an entry of layer `i` as the code understands them. -/
def effDeps (P : Problem) (i : Nat) (ds : List Nat) : List Nat :=
  if i = 0 then [] else
    realDeps P i ds ++ List.range' P.n (if ds = [] then 1 else ds.length - (realDeps P i ds).length)

/-- The problem as the code understands it. -/
def eff (P : Problem) : Problem :=
  ⟨P.graph, P.order.mapIdx fun i layer => layer.map fun e => (e.1, effDeps P i e.2)⟩

theorem eff_n (P : Problem) : (eff P).n = P.n := rfl

theorem mem_before {P : Problem} {i d : Nat} : d ∈ before P i ↔
    ∃ j, j < i ∧ ∃ layer, P.order[j]? = some layer ∧ ∃ e ∈ layer, e.1 = d := by
  simp only [before, List.mem_map, List.mem_flatten]
  constructor
  · rintro ⟨e, ⟨l, hl, he⟩, rfl⟩
    obtain ⟨j, hj⟩ := List.getElem?_of_mem hl
    rw [List.getElem?_take] at hj
    split at hj
    · exact ⟨j, by assumption, l, hj, e, he, rfl⟩
    · simp at hj
  · rintro ⟨j, hj, l, hl, e, he, rfl⟩
    refine ⟨e, ⟨l, ?_, he⟩, rfl⟩
    apply List.mem_of_getElem? (i := j)
    rw [List.getElem?_take, if_pos hj]; exact hl

theorem before_bits {P : Problem} {i d : Nat} (h : d ∈ before P i) : d ∈ P.bits := by
  obtain ⟨j, _, l, hl, e, he, rfl⟩ := mem_before.1 h
  exact List.mem_map.2 ⟨e, mem_entries_iff.2 ⟨j, l, hl, he⟩, rfl⟩

theorem eff_layer {P : Problem} {i : Nat} : (eff P).order[i]? =
    P.order[i]?.map fun layer => layer.map fun e => (e.1, effDeps P i e.2) := by
  simp [eff]

theorem mem_eff_entries {P : Problem} {b : Nat} {ds : List Nat} : (b, ds) ∈ (eff P).entries ↔
    ∃ i layer ds', P.order[i]? = some layer ∧ (b, ds') ∈ layer ∧ ds = effDeps P i ds' := by
  rw [mem_entries_iff]
  constructor
  · rintro ⟨i, l, hl, he⟩
    rw [eff_layer] at hl
    cases ho : P.order[i]? with
    | none => simp [ho] at hl
    | some layer =>
      simp only [ho, Option.map_some, Option.some.injEq] at hl
      subst hl
      obtain ⟨⟨b', ds'⟩, he', heq⟩ := List.mem_map.1 he
      simp only [Prod.mk.injEq] at heq
      obtain ⟨rfl, rfl⟩ := heq
      exact ⟨i, layer, ds', ho, he', rfl⟩
  · rintro ⟨i, layer, ds', ho, he, rfl⟩
    exact ⟨i, _, by rw [eff_layer, ho]; rfl, List.mem_map.2 ⟨_, he, rfl⟩⟩

theorem map_mapIdx_flatten (o : OrderGraph) : ∀ (f : Nat → Nat × List Nat → List Nat),
    ((o.mapIdx fun i layer => layer.map fun e => (e.1, f i e)).flatten.map (·.1)) =
      o.flatten.map (·.1) := by
  induction o with
  | nil => simp
  | cons l o ih =>
    intro f
    have := ih fun i => f (i + 1)
    simp only [List.mapIdx_cons, List.flatten_cons, List.map_append, List.map_map]
    rw [this]
    rfl

theorem eff_bits (P : Problem) : (eff P).bits = P.bits :=
  map_mapIdx_flatten P.order fun i e => effDeps P i e.2

theorem mem_realDeps {P : Problem} {i d : Nat} {ds : List Nat} :
    d ∈ realDeps P i ds ↔ d ∈ ds ∧ d ∈ before P i := by
  simp [realDeps]

theorem realDeps_length_le (P : Problem) (i : Nat) (ds : List Nat) :
    (realDeps P i ds).length ≤ ds.length :=
  Nat.le_trans (List.dedup_sublist _).length_le (List.length_filter_le _ _)

theorem effDeps_nodup {P : Problem} (hP : P.Loose) (i : Nat) (ds : List Nat) : (effDeps P i ds).Nodup := by
  unfold effDeps
  split
  · simp
  · rw [List.nodup_append']
    refine ⟨List.nodup_dedup _, List.nodup_range', ?_⟩
    rw [List.disjoint_left]
    intro d h1 h2
    have := hP.bits_lt d (before_bits (mem_realDeps.1 h1).2)
    have := (List.mem_range'_1.1 h2).1
    omega

theorem mem_effDeps {P : Problem} (hP : P.Loose) {i d : Nat} {ds : List Nat} (hd : d ∈ P.bits) :
    d ∈ effDeps P i ds ↔ i ≠ 0 ∧ d ∈ ds ∧ d ∈ before P i := by
  unfold effDeps
  have := hP.bits_lt d hd
  split
  · rename_i h; simp [h]
  · rename_i h
    simp only [List.mem_append, mem_realDeps, List.mem_range'_1, ne_eq, h, not_false_eq_true, true_and]
    constructor
    · rintro (h | ⟨h, _⟩)
      · exact h
      · omega
    · exact Or.inl

theorem effDeps_length {P : Problem} {i : Nat} {ds : List Nat} (hi : i ≠ 0) (hds : ds ≠ []) :
    (effDeps P i ds).length = ds.length := by
  have := realDeps_length_le P i ds
  simp only [effDeps, hi, hds, ↓reduceIte, List.length_append, List.length_range']
  omega

theorem effDeps_ne {P : Problem} {i : Nat} {ds : List Nat} (hi : i ≠ 0) : effDeps P i ds ≠ [] := by
  by_cases hds : ds = []
  · simp [effDeps, hi, hds]
  · rw [← List.length_pos_iff, effDeps_length hi hds]
    exact List.length_pos_iff.2 hds

theorem Spec.Problem.Loose.lax {P : Problem} (hP : P.Loose) : Lax (eff P) := by
  refine ⟨by rw [eff_bits]; exact hP.bits_nodup, by rw [eff_bits]; exact hP.bits_lt, hP.nbrs_lt, ?_, hP.size⟩
  rintro ⟨b, ds⟩ he
  obtain ⟨i, _, ds', _, _, rfl⟩ := mem_eff_entries.1 he
  exact effDeps_nodup hP i ds'

theorem Spec.Problem.WF.loose {P : Problem} (hP : P.WF) : P.Loose :=
  ⟨hP.bits_nodup, hP.bits_lt, hP.nbrs_lt, hP.size⟩

/-- A well-formed ordering is understood as it is. -/
theorem eff_of_wf {P : Problem} (hP : P.WF) : eff P = P := by
  obtain ⟨g, o⟩ := P
  simp only [eff, Problem.mk.injEq, true_and]
  apply List.ext_getElem?
  intro i
  rw [List.getElem?_mapIdx]
  cases ho : o[i]? with
  | none => rfl
  | some layer =>
    simp only [Option.map_some, Option.some.injEq]
    conv_rhs => rw [← List.map_id layer]
    apply List.map_congr_left
    intro e he
    obtain ⟨h0, hn, hd⟩ := hP.layers i layer ho e he
    have key : effDeps ⟨g, o⟩ i e.2 = e.2 := by
      by_cases hi : i = 0
      · simp [effDeps, hi, h0.1 hi]
      · have hr : realDeps ⟨g, o⟩ i e.2 = e.2 := by
          unfold realDeps
          rw [List.filter_eq_self.2, List.dedup_eq_self.2 hn]
          intro d hde
          simpa using mem_before.2 (hd d hde)
        have hne : e.2 ≠ [] := fun h => hi (h0.2 h)
        simp [effDeps, hi, hr, hne]
    rw [key]; rfl

/-- Splitting at a layer. -/
theorem order_split {P : Problem} {pre : OrderGraph} {layer : List (Nat × List Nat)} {post : OrderGraph}
    (ho : P.order = pre ++ layer :: post) : P.order[pre.length]? = some layer := by rw [ho]; simp

/-- The dependents collected from the layers behind the layer of `b` are all dependents of `b`. -/
theorem collectDependents_needs {P : Problem} (hP : P.Loose) {pre : OrderGraph}
    {layer : List (Nat × List Nat)} {post : OrderGraph} (ho : P.order = pre ++ layer :: post)
    {e : Nat × List Nat} (he : e ∈ layer) (x : Nat) :
    x ∈ PathGenerator.collectDependents e.1 post ↔ (eff P).Needs x e.1 := by
  have hbit : e.1 ∈ P.bits := List.mem_map.2 ⟨e, mem_entries_iff.2 ⟨_, _, order_split ho, he⟩, rfl⟩
  rw [mem_collectDependents]
  constructor
  · rintro ⟨ds, h, hb⟩
    obtain ⟨l, hl, hx⟩ := List.mem_flatten.1 h
    obtain ⟨k, hk⟩ := List.getElem?_of_mem hl
    have hl' : P.order[pre.length + 1 + k]? = some l := by
      rw [ho, List.getElem?_append_right (by omega), show pre.length + 1 + k - pre.length = k + 1 by omega]
      simpa using hk
    refine ⟨effDeps P (pre.length + 1 + k) ds, mem_eff_entries.2 ⟨_, l, ds, hl', hx, rfl⟩, ?_⟩
    rw [mem_effDeps hP hbit]
    exact ⟨by omega, hb, mem_before.2 ⟨pre.length, by omega, layer, order_split ho, e, he, rfl⟩⟩
  · rintro ⟨ds, h, hb⟩
    obtain ⟨i, l, ds', hl, hx, rfl⟩ := mem_eff_entries.1 h
    obtain ⟨_, hb', hbef⟩ := (mem_effDeps hP hbit).1 hb
    obtain ⟨j, hji, l', hl', e', he', hee⟩ := mem_before.1 hbef
    have hj : j = pre.length := layer_unique hP.bits_nodup hl' (order_split ho) he' he hee
    refine ⟨ds', ?_, hb'⟩
    rw [ho, List.getElem?_append_right (by omega)] at hl
    obtain ⟨k, hk⟩ : ∃ k, i - pre.length = k + 1 := ⟨i - pre.length - 1, by omega⟩
    rw [hk, List.getElem?_cons_succ] at hl
    exact List.mem_flatten.2 ⟨l, List.mem_of_getElem? hl, hx⟩

theorem collectDependents_nodup {P : Problem} (hP : P.bits.Nodup) {pre : OrderGraph}
    {layer : List (Nat × List Nat)} {post : OrderGraph} (ho : P.order = pre ++ layer :: post)
    (b : Nat) : (PathGenerator.collectDependents b post).Nodup := by
  refine (collectDependents_sublist b post).nodup ?_
  have := hP
  simp only [Problem.bits, Problem.entries, ho, List.flatten_append, List.flatten_cons,
    List.map_append, List.nodup_append'] at this
  exact this.2.1.2.1

/-- `from_dependency_graph` with any large enough buffer, whatever the buffer contained before. -/
theorem fromDependencyGraph_loose {P : Problem} (hP : P.Loose) {T : Type} [MeasurableSet T]
    (hT : MeasurableSet.init (T := T) [] = MeasurableSet.dflt)
    (buffer : Dependents) (hb : P.n ≤ buffer.length) :
    ∃ set deps look, PathGenerator.fromDependencyGraph (T := T) P.order buffer none =
        .ok ⟨MeasurableSet.init set, deps, look⟩ ∧ TimeFor (eff P) [] set deps look := by
  cases ho : P.order with
  | nil =>
    have hbits : (eff P).bits = [] := by rw [eff_bits]; simp [Problem.bits, Problem.entries, ho]
    refine ⟨[], [], buffer, by simp [PathGenerator.fromDependencyGraph, hT, pure, Except.pure], ?_⟩
    refine ⟨by simp, ?_, ?_, by simp [AMap.keys], by simp, ?_⟩
    · intro b
      simp only [List.not_mem_nil, false_iff]
      intro h; have := h.bit; simp [hbits] at this
    · intro b; simpa [curCount, hbits] using CountIs.refl _ _ _
    · intro b hb; simp [hbits] at hb
  | cons first rest =>
    have hnd := hP.bits_nodup
    have hflat : P.entries = first ++ rest.flatten := by simp [Problem.entries, ho]
    simp only [Problem.bits, hflat, List.map_append, List.nodup_append'] at hnd
    obtain ⟨hn1, hn2, hdis⟩ := hnd
    have hlt : ∀ e ∈ P.entries, e.1 < buffer.length := fun e he =>
      Nat.lt_of_lt_of_le (hP.bits_lt e.1 (List.mem_map.2 ⟨e, he, rfl⟩)) hb
    obtain ⟨l1, a1, a2, a3⟩ := resolveFirst_spec rest first buffer
      (fun e he => hlt e (by rw [hflat]; simp [he]))
    obtain ⟨l2, d2, b1, b2, b3, b4, b5, b6⟩ := resolveRest_spec rest l1 []
      (fun e he => by rw [a2]; exact hlt e (by rw [hflat]; exact List.mem_append_right _ he))
      hn2 (by simp [AMap.keys])
    have hnd' : (eff P).bits.Nodup := by rw [eff_bits]; exact hP.bits_nodup
    -- the entry of a bit
    have hdeps : ∀ (i : Nat) layer (e : Nat × List Nat), P.order[i]? = some layer → e ∈ layer → depsOf (eff P) e.1 = effDeps P i e.2 := by
      intro i layer e hl he
      have : AMap.get (eff P).entries e.1 = some (effDeps P i e.2) :=
        (get_entries hnd').2 (mem_eff_entries.2 ⟨i, layer, e.2, hl, he, rfl⟩)
      simp [depsOf, this]
    have hbit : ∀ (i : Nat) layer (e : Nat × List Nat), P.order[i]? = some layer → e ∈ layer → e.1 ∈ (eff P).bits := by
      intro i layer e hl he
      rw [eff_bits]
      exact List.mem_map.2 ⟨e, mem_entries_iff.2 ⟨i, layer, hl, he⟩, rfl⟩
    have hsplit : ∀ b ∈ (eff P).bits, ∃ (i : Nat) (layer : _), ∃ e : Nat × List Nat, P.order[i]? = some layer ∧ e ∈ layer ∧ e.1 = b := by
      intro b hb
      rw [eff_bits] at hb
      obtain ⟨e, he, rfl⟩ := List.mem_map.1 hb
      obtain ⟨i, l, hl, hel⟩ := mem_entries_iff.1 he
      exact ⟨i, l, e, hl, hel, rfl⟩
    refine ⟨first.map (·.1), d2, l2, ?_, hn1, ?_, ?_, b6, by simp, ?_⟩
    · simp only [PathGenerator.fromDependencyGraph, PathGenerator.applyMapping, a1, bind, Except.bind, b1,
        pure, Except.pure]
    · -- measurable
      intro b
      constructor
      · intro h
        obtain ⟨e, he, rfl⟩ := List.mem_map.1 h
        have h0 : P.order[0]? = some first := by simp [ho]
        refine ⟨hbit 0 first e h0 he, by simp, ?_⟩
        intro d hd
        rw [needs_iff hnd', hdeps 0 first e h0 he] at hd
        simp [effDeps] at hd
      · rintro ⟨h1, _, h3⟩
        obtain ⟨i, layer, e, hl, he, rfl⟩ := hsplit b h1
        by_cases hi : i = 0
        · subst hi
          simp only [ho, List.getElem?_cons_zero, Option.some.injEq] at hl
          subst hl
          exact List.mem_map.2 ⟨e, he, rfl⟩
        · obtain ⟨d, hd⟩ := List.exists_mem_of_ne_nil _ (effDeps_ne (P := P) (ds := e.2) hi)
          have := h3 d ((needs_iff hnd').2 (by rw [hdeps i layer e hl he]; exact hd))
          simp at this
    · -- counters
      intro b
      rw [b5 b]
      by_cases hbr : b ∈ rest.flatten.map (·.1)
      · rw [if_pos hbr]
        obtain ⟨e, he, rfl⟩ := List.mem_map.1 hbr
        have hg1 : AMap.get rest.flatten e.1 = some e.2 := AMap.get_of_mem hn2 he
        obtain ⟨l, hl, hel⟩ := List.mem_flatten.1 he
        obtain ⟨i, hi⟩ := List.getElem?_of_mem hl
        have hl' : P.order[i + 1]? = some l := by simp [ho, hi]
        have hd := hdeps (i + 1) l e hl' hel
        have hu : unmet (eff P) [] e.1 = (effDeps P (i + 1) e.2).length := by simp [unmet, hd]
        have hpos : 0 < (effDeps P (i + 1) e.2).length :=
          List.length_pos_iff.2 (effDeps_ne (by omega))
        have hc : curCount (eff P) [] e.1 = some (effDeps P (i + 1) e.2).length := by
          simp [curCount, hu, hpos, hbit _ _ _ hl' hel]
        rw [hc, hg1]
        refine ⟨rfl, ?_⟩
        intro d hnd'' hdb
        rw [needs_iff hnd', hd, mem_effDeps hP (by rwa [eff_bits] at hdb)] at hnd''
        rw [effDeps_length (by omega) (List.ne_nil_of_mem hnd''.2.1)]
        rfl
      · rw [if_neg hbr]
        have hc : curCount (eff P) [] b = none := by
          unfold curCount
          rw [if_neg]
          rintro ⟨h1, h2⟩
          obtain ⟨i, layer, e, hl, he, rfl⟩ := hsplit b h1
          by_cases hi : i = 0
          · simp [unmet, hdeps i layer e hl he, effDeps, hi] at h2
          · obtain ⟨k, rfl⟩ : ∃ k, i = k + 1 := ⟨i - 1, by omega⟩
            rw [ho, List.getElem?_cons_succ] at hl
            exact hbr (List.mem_map.2 ⟨e, List.mem_flatten.2 ⟨layer, List.mem_of_getElem? hl, he⟩, rfl⟩)
        rw [hc]
        exact .refl _ _ _
    · -- look-up
      intro b hbit
      rw [eff_bits] at hbit
      obtain ⟨e, he, rfl⟩ := List.mem_map.1 hbit
      rw [hflat, List.mem_append] at he
      rcases he with he | he
      · have hm1 : e.1 ∈ first.map (·.1) := List.mem_map.2 ⟨e, he, rfl⟩
        have ho' : P.order = [] ++ first :: rest := by simp [ho]
        refine ⟨PathGenerator.collectDependents e.1 rest, ?_,
          collectDependents_nodup hP.bits_nodup ho' _, fun x => collectDependents_needs hP ho' he x⟩
        rw [b3 e.1 (fun h => hdis hm1 h), a3, if_pos hm1]
      · obtain ⟨layer, hl, hel⟩ := List.mem_flatten.1 he
        obtain ⟨pre, post, hpp⟩ := List.append_of_mem hl
        have ho' : P.order = (first :: pre) ++ layer :: post := by simp [ho, hpp]
        exact ⟨_, b4 pre layer post hpp e hel, collectDependents_nodup hP.bits_nodup ho' _,
          fun x => collectDependents_needs hP ho' hel x⟩

/-- `from_dependency_graph` on a well-formed problem. -/
theorem fromDependencyGraph_spec {P : Problem} (hP : P.WF) {T : Type} [MeasurableSet T]
    (hT : MeasurableSet.init (T := T) [] = MeasurableSet.dflt)
    (buffer : Dependents) (hb : P.n ≤ buffer.length) :
    ∃ set deps look, PathGenerator.fromDependencyGraph (T := T) P.order buffer none =
        .ok ⟨MeasurableSet.init set, deps, look⟩ ∧ TimeFor P [] set deps look := by
  have h := fromDependencyGraph_loose hP.loose hT buffer hb
  rwa [eff_of_wf hP] at h

end Verif
