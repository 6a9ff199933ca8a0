import Verif.Proofs.RunAll
/-!
# Orderings without qubits
-/

namespace Verif

open Spec Search Search.Threaded

theorem prefix_empty {P : Problem} (hb : P.bits = []) {p : Schedule} (h : Prefix P p) : p = [] := by
  cases p with
  | nil => rfl
  | cons s p =>
    have h1 := h.nonempty s List.mem_cons_self
    obtain ⟨b, hbs⟩ := List.exists_mem_of_ne_nil s h1
    have := h.sub b (by simp [hbs])
    rw [hb] at this
    cases this

theorem chain_empty {P : Problem} (hb : P.bits = []) {p0 p : Schedule} {s : Scheduler Partitioner}
    {st : List (Scheduler Partitioner)} (h : Chain P p0 p s st) : st = [] := by
  cases h with
  | base => rfl
  | push h hc _ =>
    have := prefix_empty hb hc.pre
    simp at this

theorem iterStep_empty {P : Problem} (hb : P.bits = []) {Det : Prop} {p0 : Schedule} {l l' : Loc}
    {stop : Bool} (h : IterStep P Det l l' stop) (hl : LocOK P p0 l) :
    stop = true ∧ l'.results = l.results := by
  have hst := chain_empty hb hl.chain
  have noChild : ∀ {p : Schedule} {s s' c : Scheduler Partitioner} {k m : List Nat},
      NextSome P p s s' c k m → False := by
    intro p s s' c k m hn
    have := prefix_empty hb hn.child.pre
    simp at this
  cases h with
  | stop => exact ⟨rfl, rfl⟩
  | backLeaf h => rw [h] at hst; cases hst
  | backInner h => rw [h] at hst; cases hst
  | skip hn => exact (noChild hn).elim
  | push hn => exact (noChild hn).elim

/-- No task has or will have a result. -/
def NoResults {σ : Type} (g : Global σ) : Prop :=
  g.results = [] ∧ ∀ t ∈ g.tasks, match t with
    | .ready _ init _ => init = none
    | .running loc _ _ wasInit => loc.results = [] ∧ wasInit = false
    | .finishing loc => loc.results = []
    | .done => True

theorem noResults_set {σ : Type} {g : Global σ} (h : NoResults g) {best : List Nat} {i : Nat}
    {t : TaskState σ} (ht : match t with
      | .ready _ init _ => init = none
      | .running loc _ _ wasInit => loc.results = [] ∧ wasInit = false
      | .finishing loc => loc.results = []
      | .done => True) : NoResults ⟨best, g.results, g.tasks.set i t⟩ := by
  refine ⟨h.1, fun t' ht' => ?_⟩
  rcases List.mem_or_eq_of_mem_set ht' with h1 | rfl
  · exact h.2 t' h1
  · exact ht

theorem move_empty {F σ : Type} [FloatOps F] {mode : Mode F σ} {P : Problem} (hP : P.WF)
    (hb : P.bits = []) {g g' : Global σ} (hg : GlobalOK P g) (hn : NoResults g) {i : Nat}
    {tb : Bool} {prof : Profile} (h : move mode prof g i tb = .ok g') : NoResults g' := by
  rw [move.eq_def] at h
  cases ht : g.tasks[i]? with
  | none =>
    rw [ht] at h
    injection h with h
    exact h ▸ hn
  | some t =>
    rw [ht] at h
    have hok := hg.tasks t (List.mem_of_getElem? ht)
    have hno := hn.2 t (List.mem_of_getElem? ht)
    cases t with
    | ready sched init rng =>
      injection h with h
      subst h
      have hno : init = none := hno
      subst hno
      exact noResults_set hn ⟨rfl, rfl⟩
    | running loc rng counter wasInit =>
      cases hok with
      | running p0 hl hr hc =>
      obtain ⟨l', rng', stop, h1, h2⟩ := modeIter_spec mode rng hP.lax hl
      obtain ⟨h3, h4⟩ := iterStep_empty hb h2 hl
      have hno : loc.results = [] ∧ wasInit = false := hno
      subst h3
      simp only [h1, bind, Except.bind, if_true, finishLoop, hno.2, pure, Except.pure,
        Bool.false_eq_true, and_false, if_false, Except.ok.injEq] at h
      subst h
      exact noResults_set hn (h4.trans hno.1)
    | finishing loc =>
      have hno : loc.results = [] := hno
      simp only [hno, List.isEmpty_nil, if_true, pure, Except.pure, Except.ok.injEq] at h
      subst h
      exact noResults_set hn trivial
    | done =>
      injection h with h
      exact h ▸ hn

theorem runMoves_empty {F σ : Type} [FloatOps F] {mode : Mode F σ} {P : Problem} (hP : P.WF)
    (hb : P.bits = []) {prof : Profile} : ∀ (moves : List (Nat × Bool)) (g g' : Global σ),
    GlobalOK P g → NoResults g → runMoves mode prof g moves = .ok g' → NoResults g' := by
  intro moves
  induction moves with
  | nil =>
    intro g g' _ hn h
    injection h with h
    exact h ▸ hn
  | cons m ms ih =>
    intro g g' hg hn h
    obtain ⟨g1, h1, h2, _⟩ := move_spec mode hP.lax hg m.1 m.2
    simp only [runMoves, h1 prof, bind, Except.bind] at h
    exact ih g1 g' h2 (move_empty hP hb hg hn (h1 prof)) h

theorem post_empty {n : Nat} {out : List Path} (h : Post [] n out) : out = [] := by
  rw [List.eq_nil_iff_forall_not_mem]
  intro p hp
  have := ((h.mem p).1 hp).2.1
  simp [AMap.get] at this

theorem searchThreaded_empty {F σ : Type} [FloatOps F] {mode : Mode F σ} {P : Problem} (hP : P.WF)
    (hb : P.bits = []) {prof : Profile} {hashIter : MappedPaths → MappedPaths}
    (hh : ∀ m, (hashIter m).Perm m) {tb : Int} {seeds : Nat → σ} {moves : List (Nat × Bool)}
    {out : List Path}
    (h : searchThreaded mode prof hashIter tb seeds moves P.graph P.order = .ok (some out)) :
    out = [] := by
  obtain ⟨s, h1, h2, h3⟩ := mkScheduler_spec hP
  obtain ⟨g, h4, h5⟩ := initGlobal_spec hP.lax tb seeds h2 h3
  obtain ⟨g', h6, h7⟩ := runMoves_spec mode hP.lax moves g h5
  obtain ⟨o, h9, h10⟩ := postprocess_spec hashIter hh P.n g'.results
  have hn : NoResults g := by
    obtain ⟨ts, rest, k1, -, -, k2, -⟩ :=
      spawnLoop_spec hP.lax tb (s.time.measurable.iter.length + 1) s 0 h2 h3.iterOK (by omega)
    have hts : ts = [] := by
      cases ts with
      | nil => rfl
      | cons t ts =>
        have := prefix_empty hb (k2 t List.mem_cons_self).1.pre
        simp at this
    have := h4 prof
    simp only [initGlobal, spawn, k1, hts, bind, Except.bind, pure, Except.pure, Except.ok.injEq]
      at this
    subst this
    exact ⟨rfl, by simp⟩
  have hn' := runMoves_empty hP hb moves g g' h5 hn (h6 prof)
  have h4' : initGlobal prof tb seeds s P.graph.length = .ok g := h4 prof
  have h9' : postprocess hashIter P.graph.length g'.results = .ok o := h9
  simp only [searchThreaded, h1, h4', h6, h9', bind, Except.bind, pure, Except.pure] at h
  split at h
  · injection h with h
    injection h with h
    subst h
    rw [hn'.1] at h10
    exact post_empty h10
  · cases h

theorem searchProb_empty {F σ : Type} [FloatOps F] {accept : Accept F} {gen : Rng F σ} {rng : σ}
    {P : Problem} (hP : P.WF) (hb : P.bits = []) {prof : Profile}
    {hashIter : MappedPaths → MappedPaths} (hh : ∀ m, (hashIter m).Perm m) {timer : Nat → Bool}
    {fuel : Nat} {out : List Path}
    (h : searchProb prof hashIter accept gen rng timer fuel P.graph P.order = .ok (some out)) :
    out = [] := by
  obtain ⟨s, h1, h2, h3⟩ := mkScheduler_spec hP
  have hi := init_inv h2 h3
  obtain ⟨l', rng', stop, h4, h5⟩ := probIter_spec accept gen rng hP.lax hi.ok
  obtain ⟨h6, h7⟩ := iterStep_empty hb h5 hi.ok
  subst h6
  cases fuel with
  | zero =>
    simp [searchProb, h1, doProbabilisticSearch, probLoop, bind, Except.bind, pure, Except.pure] at h
  | succ fuel =>
    obtain ⟨o, h9, h10⟩ := postprocess_spec hashIter hh P.n l'.results
    have h4' : probIter prof accept gen (Loc.init s P.graph.length) rng = .ok (l', rng', true) :=
      h4 prof
    have h9' : postprocess hashIter P.graph.length l'.results = .ok o := h9
    simp only [searchProb, h1, doProbabilisticSearch, probLoop, h4', h9', if_true, bind, Except.bind,
      pure, Except.pure, Except.ok.injEq, Option.some.injEq] at h
    subst h
    rw [h7] at h10
    exact post_empty h10

end Verif
