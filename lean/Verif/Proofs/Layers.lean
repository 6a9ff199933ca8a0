import Verif.Proofs.SameLists
import Verif.Proofs.Time
/-!
# The division of a well-formed ordering into layers
-/

namespace Verif.Layers

open Spec PathGenerator

variable {P P' : Problem}

/-- Those that depend on `b`. -/
def users (es : List (Nat × List Nat)) (b : Nat) : List Nat := es.filterMap fun e => if e.2.contains b then some e.1 else none

theorem collectDependents_flatten (b : Nat) (o : OrderGraph) : collectDependents b o = users o.flatten b := by
  unfold collectDependents users
  induction o with
  | nil => rfl
  | cons l o ih => rw [List.flatMap_cons, List.flatten_cons, List.filterMap_append, ih]

/-- What the later layers are turned into, without the layers. -/
def resolveAll (all : List (Nat × List Nat)) : List (Nat × List Nat) → Dependents → AMap Nat → R (Dependents × AMap Nat)
  | [], look, deps => pure (look, deps)
  | e :: es, look, deps =>
    if e.1 < look.length then resolveAll all es (look.set e.1 (users all e.1))
      (if e.2 = [] then deps else deps.insert e.1 e.2.length)
    else .error .indexOutOfBounds

theorem resolveAll_append (all : List (Nat × List Nat)) (es fs : List (Nat × List Nat)) : ∀ look deps,
    resolveAll all (es ++ fs) look deps = resolveAll all es look deps >>= fun r => resolveAll all fs r.1 r.2 := by
  induction es with
  | nil => intro look deps; rfl
  | cons e es ih =>
    intro look deps
    rw [List.cons_append, resolveAll.eq_2, resolveAll.eq_2]
    split
    · exact ih _ _
    · rfl

/-- Only later layers use a qubit. -/
theorem users_rest (hP : P.WF) {pre rest : OrderGraph} {layer : List (Nat × List Nat)}
    (h : P.order = pre ++ layer :: rest) {e : Nat × List Nat} (he : e ∈ layer) :
    collectDependents e.1 rest = users P.entries e.1 := by
  have hat : ∀ {i l}, (pre ++ [layer])[i]? = some l → P.order[i]? = some l ∧ i ≤ pre.length := by
    intro i l hi
    have hlt := (List.getElem?_eq_some_iff.1 hi).1
    rw [List.length_append, List.length_singleton] at hlt
    refine ⟨?_, by omega⟩
    rw [h, show pre ++ layer :: rest = (pre ++ [layer]) ++ rest by simp, List.getElem?_append_left (by simp; omega)]
    exact hi
  have hpos : P.order[pre.length]? = some layer := by rw [h]; simp
  have hnil : users (pre ++ [layer]).flatten e.1 = [] := by
    unfold users
    rw [List.filterMap_eq_nil_iff]
    intro x hx
    obtain ⟨l, hl, hxl⟩ := List.mem_flatten.1 hx
    obtain ⟨i, hi⟩ := List.getElem?_of_mem hl
    obtain ⟨hi, hip⟩ := hat hi
    rw [if_neg]
    rw [List.contains_iff_mem]
    intro hmem
    obtain ⟨j, hj, l', hl', e', he', hee⟩ := (hP.layers i l hi x hxl).2.2 e.1 hmem
    have := layer_unique hP.bits_nodup hl' hpos he' he hee
    omega
  rw [collectDependents_flatten, Problem.entries, h, show pre ++ layer :: rest = (pre ++ [layer]) ++ rest by simp,
    List.flatten_append]
  unfold users at hnil ⊢
  rw [List.filterMap_append, hnil, List.nil_append]

theorem resolveFirst_eq (hP : P.WF) {layer : List (Nat × List Nat)} {rest : OrderGraph} (h : P.order = layer :: rest) :
    ∀ (es : List (Nat × List Nat)), (∀ e ∈ es, e ∈ layer) → ∀ look deps,
      (resolveFirst rest es look >>= fun l => pure (l, deps)) = resolveAll P.entries es look deps := by
  intro es
  induction es with
  | nil => intro _ look deps; rfl
  | cons e es ih =>
    intro hes look deps
    have he := hes e (List.mem_cons_self ..)
    have hnil : e.2 = [] := ((hP.layers 0 layer (by rw [h]; rfl) e he).1).1 rfl
    unfold resolveFirst resolveAll resolve
    rw [users_rest hP (pre := []) h he, if_pos hnil]
    split
    · exact ih (fun x hx => hes x (List.mem_cons_of_mem _ hx)) _ _
    · rfl

theorem resolveLayer_eq (hP : P.WF) {pre rest : OrderGraph} {layer : List (Nat × List Nat)} (hp : pre ≠ [])
    (h : P.order = pre ++ layer :: rest) : ∀ (es : List (Nat × List Nat)), (∀ e ∈ es, e ∈ layer) → ∀ look deps,
      resolveLayer rest es look deps = resolveAll P.entries es look deps := by
  intro es
  induction es with
  | nil => intro _ look deps; rfl
  | cons e es ih =>
    intro hes look deps
    have he := hes e (List.mem_cons_self ..)
    have hnil : e.2 ≠ [] := by
      intro hn
      have := ((hP.layers pre.length layer (by rw [h]; simp) e he).1).2 hn
      exact hp (List.length_eq_zero_iff.1 this)
    unfold resolveLayer resolveAll resolve
    rw [users_rest hP h he, if_neg hnil]
    split
    · exact ih (fun x hx => hes x (List.mem_cons_of_mem _ hx)) _ _
    · rfl

theorem resolveRest_eq (hP : P.WF) : ∀ (rest pre : OrderGraph), pre ≠ [] → P.order = pre ++ rest → ∀ look deps,
    resolveRest rest look deps = resolveAll P.entries rest.flatten look deps := by
  intro rest
  induction rest with
  | nil => intro pre _ _ look deps; rfl
  | cons layer rest ih =>
    intro pre hp h look deps
    unfold resolveRest
    rw [resolveLayer_eq hP hp h layer (fun _ h => h), List.flatten_cons, resolveAll_append]
    congr 1
    funext r
    exact ih (pre ++ [layer]) (by simp) (by rw [h]; simp) _ _

/-- The first layer is the list of the qubits without dependencies. -/
theorem first_eq (hP : P.WF) {layer : List (Nat × List Nat)} {rest : OrderGraph} (h : P.order = layer :: rest) :
    layer.map (·.1) = (P.entries.filter fun e => e.2 = []).map (·.1) := by
  rw [Problem.entries, h, List.flatten_cons, List.filter_append]
  rw [List.filter_eq_self.2, List.filter_eq_nil_iff.2, List.append_nil]
  · intro e he
    obtain ⟨l, hl, hel⟩ := List.mem_flatten.1 he
    obtain ⟨i, hi⟩ := List.getElem?_of_mem hl
    have := (hP.layers (i + 1) l (by rw [h]; simpa using hi) e hel).1
    simp only [decide_eq_true_eq]
    intro hn
    exact absurd (this.2 hn) (by omega)
  · intro e he
    simpa using ((hP.layers 0 layer (by rw [h]; rfl) e he).1).1 rfl

theorem fromDependencyGraph_eq {T : Type} [MeasurableSet T] (hT : (MeasurableSet.dflt : T) = MeasurableSet.init [])
    (hP : P.WF) (buf : Dependents) :
    fromDependencyGraph (T := T) P.order buf none = (resolveAll P.entries P.entries buf [] >>= fun r =>
      pure ⟨MeasurableSet.init ((P.entries.filter fun e => e.2 = []).map (·.1)), r.2, r.1⟩) := by
  cases h : P.order with
  | nil =>
    unfold fromDependencyGraph
    simp only [Problem.entries, h, List.flatten_nil, resolveAll, hT]
    rfl
  | cons layer rest =>
    unfold fromDependencyGraph applyMapping
    simp only
    rw [← first_eq hP h]
    have e1 : P.entries = layer ++ rest.flatten := by rw [Problem.entries, h]; rfl
    conv_rhs => rw [e1, resolveAll_append, ← e1]
    rw [← resolveFirst_eq hP h layer (fun _ h => h)]
    simp only [bind_assoc, pure_bind]
    congr 1
    funext look
    rw [resolveRest_eq hP rest [layer] (by simp) (by rw [h]; rfl)]

theorem fromDependencyGraph_same {T : Type} [MeasurableSet T] (hT : (MeasurableSet.dflt : T) = MeasurableSet.init [])
    (hP : P.WF) (hP' : P'.WF) (h : P.entries = P'.entries) (buf : Dependents) :
    fromDependencyGraph (T := T) P.order buf none = fromDependencyGraph P'.order buf none := by
  rw [fromDependencyGraph_eq hT hP, fromDependencyGraph_eq hT hP', h]

theorem sim_eq (prof : Profile) : Simulate.Sim prof (fun s s' => s = s') where
  next := by
    rintro s _ rfl
    refine (Simulate.Both.same _).mono ?_
    rintro r _ rfl
    refine ⟨rfl, ?_⟩
    cases r.2 with
    | none => exact .none
    | some v => exact .some ⟨rfl, rfl⟩
  time := by rintro s _ rfl; rfl
  cur := by rintro s _ rfl; rfl
  max := by rintro s _ rfl; rfl
  len := by rintro s _ rfl; rfl

theorem run_same {F σ : Type} [Search.FloatOps F] (hP : P.WF) (hP' : P'.WF) (hg : P.graph = P'.graph)
    (h : P.entries = P'.entries) (env : Env F σ) (args : Args F) :
    run env P.graph P.order args = run env P'.graph P'.order args := by
  unfold run Search.getTimeOptimal
  have hm : Search.mkScheduler P.graph P.order = Search.mkScheduler P'.graph P'.order := by
    unfold Search.mkScheduler
    rw [fromDependencyGraph_same rfl hP hP' h, hg]
  rw [fromDependencyGraph_same rfl hP hP' h, hg]
  split
  · rfl
  · refine Simulate.search_same env (sim_eq env.prof) _ _ _ _ rfl ?_ _ _ _ _
    rw [← hg, hm, hg]
    exact Simulate.Both.same _

end Verif.Layers
