import Verif.Proofs.Simulate
import Verif.Proofs.Space
import Verif.Proofs.Clip
/-!
# Inputs that differ in the order and repetitions inside of their lists
-/

namespace Verif.SameLists

open Spec Search Simulate

/-- The same numbers of nodes and the same neighbours, apart from the node itself. -/
def Nbrs (L L' : List (List Nat)) : Prop :=
  L.length = L'.length ∧ ∀ b v, v ≠ b → (v ∈ L.getD b [] ↔ v ∈ L'.getD b [])

/-- The same qubits in the same places, with equally many dependencies and the same ones. -/
def Deps (o o' : OrderGraph) : Prop :=
  List.Forall₂ (List.Forall₂ fun e e' => e.1 = e'.1 ∧ e.2.length = e'.2.length ∧ ∀ d, d ∈ e.2 ↔ d ∈ e'.2) o o'

/-! ### The orderings give the same generator -/

theorem collectDependents_same (b : Nat) {o o' : OrderGraph} (h : Deps o o') :
    PathGenerator.collectDependents b o = PathGenerator.collectDependents b o' := by
  unfold PathGenerator.collectDependents
  induction h with
  | nil => rfl
  | cons h _ ih =>
    rw [List.flatMap_cons, List.flatMap_cons, ih]
    congr 1
    induction h with
    | nil => rfl
    | cons h _ ih' =>
      rw [List.filterMap_cons, List.filterMap_cons, ih', h.1]
      simp only [List.contains_iff_mem, h.2.2]

theorem resolve_same (b : Nat) {o o' : OrderGraph} (h : Deps o o') (look : Dependents) :
    PathGenerator.resolve b o look = PathGenerator.resolve b o' look := by
  unfold PathGenerator.resolve
  rw [collectDependents_same b h]

theorem resolveFirst_same {o o' : OrderGraph} (h : Deps o o') : ∀ {es es' : List (Nat × List Nat)}, es.map (·.1) = es'.map (·.1) →
    ∀ look, PathGenerator.resolveFirst o es look = PathGenerator.resolveFirst o' es' look
  | [], [], _, _ => rfl
  | [], _ :: _, he, _ => by simp at he
  | _ :: _, [], he, _ => by simp at he
  | e :: es, e' :: es', he, look => by
    simp only [List.map_cons, List.cons.injEq] at he
    unfold PathGenerator.resolveFirst
    rw [he.1, resolve_same _ h]
    congr 1
    funext look
    exact resolveFirst_same h he.2 look

theorem resolveLayer_same {o o' : OrderGraph} (h : Deps o o') {es es' : List (Nat × List Nat)}
    (he : List.Forall₂ (fun e e' => e.1 = e'.1 ∧ e.2.length = e'.2.length ∧ ∀ d, d ∈ e.2 ↔ d ∈ e'.2) es es') :
    ∀ look deps, PathGenerator.resolveLayer o es look deps = PathGenerator.resolveLayer o' es' look deps := by
  induction he with
  | nil => intro look deps; rfl
  | cons h1 _ ih =>
    intro look deps
    unfold PathGenerator.resolveLayer
    rw [h1.1, h1.2.1, resolve_same _ h]
    congr 1
    funext look
    exact ih look _

theorem resolveRest_same {o o' : OrderGraph} (h : Deps o o') :
    ∀ look deps, PathGenerator.resolveRest o look deps = PathGenerator.resolveRest o' look deps := by
  induction h with
  | nil => intro look deps; rfl
  | cons h1 h2 ih =>
    intro look deps
    unfold PathGenerator.resolveRest
    rw [resolveLayer_same h2 h1]
    congr 1
    funext v
    exact ih v.1 v.2

/-- As `Deps`, but nothing is said about the dependencies of the first layer. -/
inductive Orders : OrderGraph → OrderGraph → Prop
  | nil : Orders [] []
  | cons {f f' r r'} (h : f.map (·.1) = f'.map (·.1)) (hr : Deps r r') : Orders (f :: r) (f' :: r')

theorem fromDependencyGraph_same {T : Type} [MeasurableSet T] {o o' : OrderGraph} (h : Orders o o') (buf : Dependents) :
    PathGenerator.fromDependencyGraph (T := T) o buf none = PathGenerator.fromDependencyGraph o' buf none := by
  cases h with
  | nil => rfl
  | @cons f f' r r' h1 h2 =>
    unfold PathGenerator.fromDependencyGraph PathGenerator.applyMapping
    simp only [resolveFirst_same h2 h1, resolveRest_same h2, h1]

/-! ### Graphs -/

variable {L L' : List (List Nat)}

/-- Same states, same counters. -/
def GRel (L L' : List (List Nat)) (g g' : Graph) : Prop :=
  (∃ f, g.nodes = mkNodes ⟨L, []⟩ f ∧ g'.nodes = mkNodes ⟨L', []⟩ f) ∧
    g.currentMemory = g'.currentMemory ∧ g.maxMemory = g'.maxMemory

theorem mkNodes_fst (P : Problem) (f : Nat → NodeState) :
    (mkNodes P f).map (·.1) = (List.range P.graph.length).map f := by
  apply List.ext_getElem?
  intro i
  simp only [mkNodes, List.getElem?_map, List.getElem?_mapIdx]
  by_cases h : i < P.graph.length
  · simp [h]
  · simp [h]

theorem awake_eq (h : L.length = L'.length) (f : Nat → NodeState) :
    awake (mkNodes ⟨L, []⟩ f) = awake (mkNodes ⟨L', []⟩ f) := by
  have key : ∀ P : Problem, awake (mkNodes P f) = ((List.range P.graph.length).map f).countP fun x => x ≠ .sleeping := by
    intro P
    rw [← mkNodes_fst, List.countP_map]
    rfl
  rw [key, key]
  simp only [h]

theorem GRel.length (hL : Nbrs L L') {g g' : Graph} (h : GRel L L' g g') : g.nodes.length = g'.nodes.length := by
  obtain ⟨⟨f, h1, h2⟩, _⟩ := h
  rw [h1, h2]
  simpa [mkNodes] using hL.1

theorem getD_get {b : Nat} {nb : List Nat} (h : L[b]? = some nb) : L.getD b [] = nb := by
  rw [List.getD_eq_getElem?_getD, h]; rfl

/-- The neighbours of a measured node. -/
theorem initializeAll_same (hL : Nbrs L L') {b : Nat} {nb nb' : List Nat} (hb : L[b]? = some nb) (hb' : L'[b]? = some nb')
    {f : Nat → NodeState} (hf : f b = .measured) {g g' : Graph} (h1 : g.nodes = mkNodes ⟨L, []⟩ f)
    (h2 : g'.nodes = mkNodes ⟨L', []⟩ f) (h3 : g.currentMemory = g'.currentMemory) (h4 : g.maxMemory = g'.maxMemory) :
    Both (GRel L L') (g.initializeAll nb) (g'.initializeAll nb') := by
  have hlt : b < L.length := (List.getElem?_eq_some_iff.1 hb).1
  have hn : ∀ v, v ≠ b → (v ∈ nb ↔ v ∈ nb') := by
    intro v hv
    have := hL.2 b v hv
    rwa [getD_get hb, getD_get hb'] at this
  have hl : g.nodes.length = L.length := by rw [h1]; simp [mkNodes]
  have hl' : g'.nodes.length = L'.length := by rw [h2]; simp [mkNodes]
  by_cases hbad : ∃ v ∈ nb, L.length ≤ v
  · obtain ⟨v, hv, hlv⟩ := hbad
    rw [Clip.initializeAll_bad nb g ⟨v, hv, by omega⟩,
      Clip.initializeAll_bad nb' g' ⟨v, (hn v (by omega)).1 hv, by rw [hl', ← hL.1]; exact hlv⟩]
    exact Both.error _
  · have hok : ∀ v ∈ nb, v < L.length := by
      intro v hv
      by_contra hlv
      exact hbad ⟨v, hv, by omega⟩
    have hok' : ∀ v ∈ nb', v < L'.length := by
      intro v hv
      rw [← hL.1]
      by_cases hvb : v = b
      · omega
      · exact hok v ((hn v hvb).2 hv)
    obtain ⟨k, e1, e2, e3, e4⟩ := initializeAll_spec ⟨L, []⟩ nb hok f g h1
    obtain ⟨k', e1', e2', e3', e4'⟩ := initializeAll_spec ⟨L', []⟩ nb' hok' f g' h2
    have hff : (fun v => if v ∈ nb ∧ f v = .sleeping then NodeState.inMemory else f v) =
        fun v => if v ∈ nb' ∧ f v = .sleeping then NodeState.inMemory else f v := by
      funext v
      by_cases hvb : v = b
      · subst hvb
        simp [hf]
      · simp only [hn v hvb]
    rw [e1, e1']
    rw [hff] at e2
    refine Both.pure ⟨⟨_, e2, e2'⟩, ?_, ?_⟩
    · rw [h1, e2, awake_eq hL.1 f, awake_eq hL.1] at e4
      rw [h2, e2'] at e4'
      omega
    · omega

theorem node_same (hL : Nbrs L L') {g g' : Graph} (h : GRel L L' g g') (b : Nat) :
    (g.nodes[b]? = none ∧ g'.nodes[b]? = none) ∨
    ∃ st nb nb', g.nodes[b]? = some (st, nb) ∧ g'.nodes[b]? = some (st, nb') ∧ L[b]? = some nb ∧ L'[b]? = some nb' := by
  obtain ⟨⟨f, h1, h2⟩, _⟩ := h
  rw [h1, h2, getElem?_mkNodes, getElem?_mkNodes]
  by_cases hb : b < L.length
  · refine .inr ⟨f b, L[b], L'[b]'(hL.1 ▸ hb), ?_, ?_, ?_, ?_⟩
    · simp [hb]
    · simp [hL.1 ▸ hb]
    · simp [hb]
    · simp [hL.1 ▸ hb]
  · exact .inl ⟨by simp; omega, by simp [← hL.1]; omega⟩

theorem measured_same (hL : Nbrs L L') {g g' : Graph} (h : GRel L L' g g') {b : Nat} {nb nb' : List Nat}
    (hb : L[b]? = some nb) (hb' : L'[b]? = some nb') {m m' : Nat} (hm : m = m') :
    Both (GRel L L')
      (({ g with nodes := g.nodes.set b (.measured, nb), currentMemory := m } : Graph).initializeAll nb)
      (({ g' with nodes := g'.nodes.set b (.measured, nb'), currentMemory := m' } : Graph).initializeAll nb') := by
  obtain ⟨⟨f, h1, h2⟩, h3, h4⟩ := h
  refine initializeAll_same hL hb hb' (f := fun v => if v = b then .measured else f v) (by simp) ?_ ?_ hm h4
  · simp only [h1]
    exact mkNodes_set _ _ _ _ _ hb
  · simp only [h2]
    exact mkNodes_set _ _ _ _ _ hb'

theorem measure_same (hL : Nbrs L L') {g g' : Graph} (h : GRel L L' g g') (b : Nat) :
    Both (fun r r' => GRel L L' r.1 r'.1 ∧ r.2 = r'.2) (g.measure b) (g'.measure b) := by
  unfold Graph.measure
  rcases node_same hL h b with ⟨h1, h2⟩ | ⟨st, nb, nb', h1, h2, h3, h4⟩
  · simp only [idx, h1, h2]
    exact Both.error _
  · simp only [idx_of_getElem? h1, idx_of_getElem? h2, bind, Except.bind]
    cases st with
    | sleeping =>
      exact Both.bind (measured_same hL h h3 h4 (by rw [h.2.1])) fun a b hab => Both.pure ⟨hab, rfl⟩
    | inMemory =>
      exact Both.bind (measured_same hL h h3 h4 h.2.1) fun a b hab => Both.pure ⟨hab, rfl⟩
    | measured => exact Both.pure ⟨h, rfl⟩

theorem measureUnchecked_same (hL : Nbrs L L') {g g' : Graph} (h : GRel L L' g g') (b : Nat) :
    Both (GRel L L') (g.measureUnchecked b) (g'.measureUnchecked b) := by
  unfold Graph.measureUnchecked
  rcases node_same hL h b with ⟨h1, h2⟩ | ⟨st, nb, nb', h1, h2, h3, h4⟩
  · simp only [idx, h1, h2]
    exact Both.error _
  · simp only [idx_of_getElem? h1, idx_of_getElem? h2, bind, Except.bind]
    cases st with
    | sleeping => exact measured_same hL h h3 h4 (by rw [h.2.1])
    | inMemory => exact measured_same hL h h3 h4 h.2.1
    | measured => exact Both.pure h

theorem updateMemory_same (prof : Profile) {g g' : Graph} (h : GRel L L' g g') (len : Nat) :
    Both (GRel L L') (g.updateMemory prof len) (g'.updateMemory prof len) := by
  unfold Graph.updateMemory
  rw [h.2.1, h.2.2]
  refine Both.bind (Both.same _) ?_
  rintro c _ rfl
  exact Both.pure ⟨h.1, rfl, rfl⟩

theorem measureAll_same (hL : Nbrs L L') (ms : List Nat) : ∀ (g g' : Graph), GRel L L' g g' →
    Both (fun r r' => GRel L L' r.1 r'.1 ∧ r.2 = r'.2) (g.measureAll ms) (g'.measureAll ms) := by
  induction ms with
  | nil => intro g g' h; exact Both.pure ⟨h, rfl⟩
  | cons m ms ih =>
    intro g g' h
    unfold Graph.measureAll
    refine Both.bind (measure_same hL h m) fun r r' hr => ?_
    obtain ⟨a, r⟩ := r
    obtain ⟨a', r'⟩ := r'
    obtain ⟨h1, h2⟩ := hr
    simp only at h2
    subst h2
    cases r with
    | error e => exact Both.pure ⟨h1, rfl⟩
    | ok u => exact ih a a' h1

theorem measureAllUnchecked_same (hL : Nbrs L L') (ms : List Nat) : ∀ (g g' : Graph), GRel L L' g g' →
    Both (GRel L L') (g.measureAllUnchecked ms) (g'.measureAllUnchecked ms) := by
  induction ms with
  | nil => intro g g' h; exact Both.pure h
  | cons m ms ih =>
    intro g g' h
    unfold Graph.measureAllUnchecked
    exact Both.bind (measureUnchecked_same hL h m) fun a a' ha => ih a a' ha

theorem focusInplace_same (hL : Nbrs L L') (prof : Profile) (ms : List Nat) {g g' : Graph} (h : GRel L L' g g') :
    Both (fun r r' => GRel L L' r.1 r'.1 ∧ r.2 = r'.2) (g.focusInplace prof ms) (g'.focusInplace prof ms) := by
  unfold Graph.focusInplace
  refine Both.bind (measureAll_same hL ms g g' h) fun r r' hr => ?_
  obtain ⟨a, r⟩ := r
  obtain ⟨a', r'⟩ := r'
  obtain ⟨h1, h2⟩ := hr
  simp only at h2
  subst h2
  cases r with
  | error e => exact Both.pure ⟨h1, rfl⟩
  | ok u => exact Both.bind (updateMemory_same prof h1 _) fun b b' hb => Both.pure ⟨hb, rfl⟩

theorem focusUnchecked_same (hL : Nbrs L L') (prof : Profile) (ms : List Nat) {g g' : Graph} (h : GRel L L' g g') :
    Both (GRel L L') (g.focusUnchecked prof ms) (g'.focusUnchecked prof ms) := by
  unfold Graph.focusUnchecked
  exact Both.bind (measureAllUnchecked_same hL ms g g' h) fun a a' ha => updateMemory_same prof ha _

theorem focusSpace_same (hL : Nbrs L L') (prof : Profile) (ms : List Nat) {g g' : Graph} (h : GRel L L' g g') :
    Both (GRel L L') (Scheduler.focusSpace prof g ms) (Scheduler.focusSpace prof g' ms) := by
  unfold Scheduler.focusSpace
  cases prof with
  | release => exact focusUnchecked_same hL _ ms h
  | debug =>
    unfold Graph.focus
    simp only [bind_assoc]
    refine Both.bind (focusInplace_same hL _ ms h) fun r r' hr => ?_
    obtain ⟨a, r⟩ := r
    obtain ⟨a', r'⟩ := r'
    obtain ⟨h1, h2⟩ := hr
    simp only at h2
    subst h2
    cases r with
    | error e => exact Both.error _
    | ok u => exact Both.pure h1

/-! ### Schedulers -/

def SRel {T : Type} (L L' : List (List Nat)) (s s' : Scheduler T) : Prop := s.time = s'.time ∧ GRel L L' s.space s'.space

theorem sim (hL : Nbrs L L') (prof : Profile) : Sim prof (SRel L L') where
  next := by
    intro s s' h
    unfold Scheduler.nextAndFocus
    rw [h.1]
    refine Both.bind (Both.same _) ?_
    rintro ⟨t, r⟩ _ rfl
    cases r with
    | none => exact Both.pure ⟨⟨rfl, h.2⟩, .none⟩
    | some v =>
      obtain ⟨nt, m⟩ := v
      exact Both.bind (focusSpace_same hL prof m h.2) fun a a' ha =>
        Both.pure ⟨⟨rfl, h.2⟩, .some ⟨⟨rfl, ha⟩, rfl⟩⟩
  time := fun h => h.1
  cur := fun h => h.2.2.1
  max := fun h => h.2.2.2
  len := fun h => h.2.length hL

theorem sched_focusInplace_same (hL : Nbrs L L') (prof : Profile) (ms : List Nat) {s s' : Scheduler (List Nat)}
    (h : SRel L L' s s') : Both (fun r r' => SRel L L' r.1 r'.1 ∧ r.2 = r'.2) (s.focusInplace prof ms)
      (s'.focusInplace prof ms) := by
  unfold Scheduler.focusInplace
  rw [h.1]
  refine Both.bind (Both.same _) ?_
  rintro ⟨t, r⟩ _ rfl
  cases r with
  | error e => exact Both.pure ⟨⟨rfl, h.2⟩, rfl⟩
  | ok u =>
    cases prof with
    | debug =>
      refine Both.bind (focusInplace_same hL _ ms h.2) fun r r' hr => ?_
      obtain ⟨a, r⟩ := r
      obtain ⟨a', r'⟩ := r'
      obtain ⟨h1, h2⟩ := hr
      simp only at h2
      subst h2
      cases r with
      | error e => exact Both.pure ⟨⟨rfl, h1⟩, rfl⟩
      | ok u => exact Both.pure ⟨⟨rfl, h1⟩, rfl⟩
    | release => exact Both.bind (focusUnchecked_same hL _ ms h.2) fun a a' ha => Both.pure ⟨⟨rfl, ha⟩, rfl⟩

theorem timeOptimalLoop_same (hL : Nbrs L L') (prof : Profile) (fuel : Nat) : ∀ (s s' : Scheduler (List Nat))
    (path : Steps) (m : Nat), SRel L L' s s' → timeOptimalLoop prof fuel s path m = timeOptimalLoop prof fuel s' path m := by
  induction fuel with
  | zero => intro s s' path m _; rfl
  | succ fuel ih =>
    intro s s' path m h
    unfold timeOptimalLoop
    rw [h.1]
    split
    · rfl
    · apply Both.eq
      refine Both.bind (sched_focusInplace_same hL prof _ h) fun r r' hr => ?_
      obtain ⟨a, r⟩ := r
      obtain ⟨a', r'⟩ := r'
      obtain ⟨h1, h2⟩ := hr
      simp only at h2
      subst h2
      cases r with
      | error e => exact Both.error _
      | ok u =>
        apply Both.of_eq
        simp only
        rw [h1.2.2.2]
        exact ih a a' _ _ h1

theorem new_same : GRel L L' (Graph.new L) (Graph.new L') := by
  refine ⟨⟨fun _ => .sleeping, ?_, ?_⟩, rfl, rfl⟩
  · apply List.ext_getElem?; intro i; simp [Graph.new, mkNodes]
  · apply List.ext_getElem?; intro i; simp [Graph.new, mkNodes]

theorem run_same {F σ : Type} [FloatOps F] (hL : Nbrs L L') {o o' : OrderGraph} (ho : Orders o o') (env : Env F σ)
    (args : Args F) : run env L o args = run env L' o' args := by
  unfold run
  split
  · unfold getTimeOptimal
    rw [hL.1, fromDependencyGraph_same ho]
    congr 1
    funext t
    rw [timeOptimalLoop_same hL env.prof env.fuel ⟨t, Graph.new L⟩ ⟨t, Graph.new L'⟩ [] 0 ⟨rfl, new_same⟩]
  · refine search_same env (sim hL env.prof) L L' o o' hL.1 ?_ _ _ _ _
    unfold mkScheduler
    rw [hL.1, fromDependencyGraph_same ho]
    refine Both.bind (Both.same _) ?_
    rintro t _ rfl
    exact Both.pure ⟨rfl, new_same⟩

end Verif.SameLists
