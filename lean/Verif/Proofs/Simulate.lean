import Verif.Model.Interface
import Mathlib.Data.List.Forall2
/-!
# Two runs side by side

If two schedulers behave in the same way - same measurements, same panics, same numbers - then so do the searches.
-/

namespace Verif.Simulate

open Search Search.Threaded

/-- Both computations panic in the same way, or both return and the values are related. -/
def Both {α β : Type} (Q : α → β → Prop) (x : R α) (y : R β) : Prop :=
  (∃ a b, x = .ok a ∧ y = .ok b ∧ Q a b) ∨ ∃ e, x = .error e ∧ y = .error e

namespace Both

variable {α β γ δ : Type} {Q : α → β → Prop} {W : γ → δ → Prop} {x : R α} {y : R β}

theorem bind {f : α → R γ} {g : β → R δ} (h : Both Q x y) (hf : ∀ a b, Q a b → Both W (f a) (g b)) :
    Both W (x >>= f) (y >>= g) := by
  rcases h with ⟨a, b, rfl, rfl, h⟩ | ⟨e, rfl, rfl⟩
  · exact hf a b h
  · exact .inr ⟨e, rfl, rfl⟩

theorem pure {a : α} {b : β} (h : Q a b) : Both Q (pure a) (pure b) := .inl ⟨a, b, rfl, rfl, h⟩

theorem error (e : Panic) : Both Q (.error e) (.error e) := .inr ⟨e, rfl, rfl⟩

theorem same (x : R α) : Both Eq x x := by
  cases x with
  | error e => exact error e
  | ok a => exact .inl ⟨a, a, rfl, rfl, rfl⟩

theorem of_eq {x y : R α} (h : x = y) : Both Eq x y := h ▸ same x

theorem eq {x y : R α} (h : Both Eq x y) : x = y := by
  rcases h with ⟨a, b, rfl, rfl, rfl⟩ | ⟨e, rfl, rfl⟩ <;> rfl

theorem mono {Q' : α → β → Prop} (h : Both Q x y) (hQ : ∀ a b, Q a b → Q' a b) : Both Q' x y := by
  rcases h with ⟨a, b, h1, h2, h⟩ | h
  · exact .inl ⟨a, b, h1, h2, hQ a b h⟩
  · exact .inr h

end Both

/-- Related schedulers do the same. -/
structure Sim (prof : Profile) (S : Scheduler Partitioner → Scheduler Partitioner → Prop) : Prop where
  next : ∀ {s s'}, S s s' → Both (fun r r' => S r.1 r'.1 ∧ Option.Rel (fun v v' => S v.1 v'.1 ∧ v.2 = v'.2) r.2 r'.2)
    (s.nextAndFocus prof) (s'.nextAndFocus prof)
  time : ∀ {s s'}, S s s' → s.time = s'.time
  cur : ∀ {s s'}, S s s' → s.space.currentMemory = s'.space.currentMemory
  max : ∀ {s s'}, S s s' → s.space.maxMemory = s'.space.maxMemory
  len : ∀ {s s'}, S s s' → s.space.nodes.length = s'.space.nodes.length

section

variable {S : Scheduler Partitioner → Scheduler Partitioner → Prop} {prof : Profile}

def SweepRel (S : Scheduler Partitioner → Scheduler Partitioner → Prop) (w w' : Sweep (Scheduler Partitioner)) : Prop :=
  S w.current w'.current ∧ List.Forall₂ S w.stack w'.stack

structure LocRel (S : Scheduler Partitioner → Scheduler Partitioner → Prop) (l l' : Loc) : Prop where
  sweep : SweepRel S l.sweep l'.sweep
  path : l.path = l'.path
  best : l.best = l'.best
  results : l.results = l'.results

theorem sweep_next (h : Sim prof S) {w w' : Sweep (Scheduler Partitioner)} (hw : SweepRel S w w') :
    Both (fun r r' => SweepRel S r.1 r'.1 ∧ r.2 = r'.2) (w.next (Scheduler.focusIter prof))
      (w'.next (Scheduler.focusIter prof)) := by
  unfold Sweep.next
  refine Both.bind (h.next hw.1) fun r r' hr => ?_
  obtain ⟨c, r⟩ := r
  obtain ⟨c', r'⟩ := r'
  obtain ⟨h1, h2⟩ := hr
  cases h2 with
  | some h2 =>
    obtain ⟨h3, h4⟩ := h2
    refine Both.pure ⟨⟨h3, .cons h1 hw.2⟩, by simp [h4]⟩
  | none =>
    have hl : (Scheduler.focusIter prof).atLeaf c = (Scheduler.focusIter prof).atLeaf c' := by
      simp only at h1
      simp only [Scheduler.focusIter, Scheduler.atLeaf, h.time h1, h.max h1]
    obtain ⟨cur, st⟩ := w
    obtain ⟨cur', st'⟩ := w'
    have h5 := hw.2
    simp only at h5
    cases h5 with
    | nil => exact Both.pure ⟨⟨h1, .nil⟩, rfl⟩
    | cons h6 h7 => exact Both.pure ⟨⟨h6, h7⟩, by simp [hl]⟩

theorem skipCurrent_rel {w w' : Sweep (Scheduler Partitioner)} (hw : SweepRel S w w') :
    SweepRel S w.skipCurrent.1 w'.skipCurrent.1 ∧ w.skipCurrent.2 = w'.skipCurrent.2 := by
  obtain ⟨cur, st⟩ := w
  obtain ⟨cur', st'⟩ := w'
  obtain ⟨h1, h2⟩ := hw
  simp only at h2
  cases h2 with
  | nil => exact ⟨⟨h1, .nil⟩, rfl⟩
  | cons h3 h4 => exact ⟨⟨h3, h4⟩, rfl⟩

theorem forward_rel (h : Sim prof S) (m : List Nat) {l l' : Loc} (hl : LocRel S l l') :
    Both (fun r r' => LocRel S r.1 r'.1 ∧ r.2 = r'.2) (forward m l) (forward m l') := by
  obtain ⟨sw0, path, best, results⟩ := l
  obtain ⟨sw0', path', best', results'⟩ := l'
  obtain ⟨hsw, hp, hb, hr⟩ := hl
  simp only at hsw hp hb hr
  subst hp hb hr
  unfold forward
  simp only [h.time hsw.1, h.max hsw.1]
  refine Both.bind (Both.same _) ?_
  rintro b _ rfl
  obtain ⟨k1, k2⟩ := skipCurrent_rel hsw
  split
  · revert k1 k2
    rcases sw0.skipCurrent with ⟨sw, e⟩
    rcases sw0'.skipCurrent with ⟨sw', e'⟩
    intro k1 k2
    simp only at k2
    subst k2
    cases e <;> exact Both.pure ⟨⟨k1, rfl, rfl, rfl⟩, rfl⟩
  · exact Both.pure ⟨⟨hsw, rfl, rfl, rfl⟩, rfl⟩

theorem backward_rel (leaf : Option Nat) {l l' : Loc} (hl : LocRel S l l') :
    Both (LocRel S) (backward leaf l) (backward leaf l') := by
  unfold backward
  cases leaf with
  | none => exact Both.pure ⟨hl.sweep, by simp [hl.path], hl.best, hl.results⟩
  | some m =>
    simp only [hl.path, hl.best, hl.results]
    split
    · exact Both.pure ⟨hl.sweep, rfl, rfl, rfl⟩
    · exact Both.error _

theorem searchIter_rel (h : Sim prof S) {l l' : Loc} (hl : LocRel S l l') :
    Both (fun r r' => LocRel S r.1 r'.1 ∧ r.2 = r'.2) (searchIter prof l) (searchIter prof l') := by
  unfold searchIter
  refine Both.bind (sweep_next h hl.sweep) fun r r' hr => ?_
  obtain ⟨w, r⟩ := r
  obtain ⟨w', r'⟩ := r'
  obtain ⟨h1, h2⟩ := hr
  simp only at h2
  subst h2
  have hl' : LocRel S { l with sweep := w } { l' with sweep := w' } := ⟨h1, hl.path, hl.best, hl.results⟩
  cases r with
  | none => exact Both.pure ⟨hl', rfl⟩
  | some st =>
    cases st with
    | forward m => exact forward_rel h m hl'
    | backward leaf => exact Both.bind (backward_rel leaf hl') fun a b hab => Both.pure ⟨hab, rfl⟩

variable {F σ : Type} [FloatOps F]

theorem probabilisticForward_rel (h : Sim prof S) (accept : Accept F) (gen : Rng F σ) (m : List Nat) (c mx : Nat)
    (rng : σ) {l l' : Loc} (hl : LocRel S l l') :
    Both (fun r r' => LocRel S r.1 r'.1 ∧ r.2 = r'.2) (probabilisticForward accept gen m c mx l rng)
      (probabilisticForward accept gen m c mx l' rng) := by
  obtain ⟨sw0, path, best, results⟩ := l
  obtain ⟨sw0', path', best', results'⟩ := l'
  obtain ⟨hsw, hp, hb, hr⟩ := hl
  simp only at hsw hp hb hr
  subst hp hb hr
  unfold probabilisticForward
  simp only [h.time hsw.1, h.max hsw.1, h.cur hsw.1, h.len hsw.1]
  refine Both.bind (Both.same _) ?_
  rintro b _ rfl
  have skip : ∀ rng : σ, Both (fun r r' => LocRel S r.1 r'.1 ∧ r.2 = r'.2)
      (match sw0.skipCurrent with
        | (sw, .error _) => Pure.pure (⟨sw, path, best, results⟩, rng, true)
        | (sw, .ok ()) => Pure.pure (⟨sw, path, best, results⟩, rng, false) : R (Loc × σ × Bool))
      (match sw0'.skipCurrent with
        | (sw, .error _) => Pure.pure (⟨sw, path, best, results⟩, rng, true)
        | (sw, .ok ()) => Pure.pure (⟨sw, path, best, results⟩, rng, false)) := by
    intro rng
    obtain ⟨k1, k2⟩ := skipCurrent_rel hsw
    revert k1 k2
    rcases sw0.skipCurrent with ⟨sw, e⟩
    rcases sw0'.skipCurrent with ⟨sw', e'⟩
    intro k1 k2
    simp only at k2
    subst k2
    cases e <;> exact Both.pure ⟨⟨k1, rfl, rfl, rfl⟩, rfl⟩
  have go : ∀ rng : σ, Both (fun r r' => LocRel S r.1 r'.1 ∧ r.2 = r'.2)
      (Pure.pure (⟨sw0, path ++ [m], best, results⟩, rng, false) : R (Loc × σ × Bool))
      (Pure.pure (⟨sw0', path ++ [m], best, results⟩, rng, false)) := fun rng =>
    Both.pure ⟨⟨hsw, rfl, rfl, rfl⟩, rfl⟩
  split
  · exact skip rng
  · split
    · exact Both.error _
    · split
      · exact go rng
      · split
        · exact go (gen.sample rng).2
        · exact skip (gen.sample rng).2

theorem probIter_rel (h : Sim prof S) (accept : Accept F) (gen : Rng F σ) (rng : σ) {l l' : Loc} (hl : LocRel S l l') :
    Both (fun r r' => LocRel S r.1 r'.1 ∧ r.2 = r'.2) (probIter prof accept gen l rng)
      (probIter prof accept gen l' rng) := by
  unfold probIter
  simp only [h.max hl.sweep.1, h.cur hl.sweep.1]
  refine Both.bind (sweep_next h hl.sweep) fun r r' hr => ?_
  obtain ⟨w, r⟩ := r
  obtain ⟨w', r'⟩ := r'
  obtain ⟨h1, h2⟩ := hr
  simp only at h2
  subst h2
  have hl' : LocRel S { l with sweep := w } { l' with sweep := w' } := ⟨h1, hl.path, hl.best, hl.results⟩
  cases r with
  | none => exact Both.pure ⟨hl', rfl⟩
  | some st =>
    cases st with
    | forward m => exact probabilisticForward_rel h accept gen m _ _ rng hl'
    | backward leaf => exact Both.bind (backward_rel leaf hl') fun a b hab => Both.pure ⟨hab, rfl⟩

theorem searchLoop_rel (h : Sim prof S) (timer : Nat → Bool) (fuel : Nat) : ∀ (k : Nat) (l l' : Loc), LocRel S l l' →
    Both (Option.Rel (LocRel S)) (searchLoop prof timer fuel k l) (searchLoop prof timer fuel k l') := by
  induction fuel with
  | zero => intro k l l' _; exact Both.pure .none
  | succ fuel ih =>
    intro k l l' hl
    unfold searchLoop
    refine Both.bind (searchIter_rel h hl) fun r r' hr => ?_
    obtain ⟨a, s⟩ := r
    obtain ⟨a', s'⟩ := r'
    obtain ⟨h1, h2⟩ := hr
    simp only at h2
    subst h2
    simp only
    split
    · exact Both.pure (.some h1)
    · split
      · exact Both.pure (.some h1)
      · exact ih _ _ _ h1

theorem probLoop_rel (h : Sim prof S) (accept : Accept F) (gen : Rng F σ) (timer : Nat → Bool) (fuel : Nat) :
    ∀ (k : Nat) (l l' : Loc) (rng : σ), LocRel S l l' →
    Both (Option.Rel fun v v' => LocRel S v.1 v'.1) (probLoop prof accept gen timer fuel k l rng)
      (probLoop prof accept gen timer fuel k l' rng) := by
  induction fuel with
  | zero => intro k l l' rng _; exact Both.pure .none
  | succ fuel ih =>
    intro k l l' rng hl
    unfold probLoop
    refine Both.bind (probIter_rel h accept gen rng hl) fun r r' hr => ?_
    obtain ⟨a, g, s⟩ := r
    obtain ⟨a', g', s'⟩ := r'
    obtain ⟨h1, h2⟩ := hr
    simp only [Prod.mk.injEq] at h2
    obtain ⟨rfl, rfl⟩ := h2
    simp only
    split
    · exact Both.pure (.some h1)
    · split
      · exact Both.pure (.some h1)
      · exact ih _ _ _ _ h1

/-! ### Threads -/

inductive TaskRel (S : Scheduler Partitioner → Scheduler Partitioner → Prop) : TaskState σ → TaskState σ → Prop
  | ready {s s' init rng} : S s s' → TaskRel S (.ready s init rng) (.ready s' init rng)
  | running {l l' rng c w} : LocRel S l l' → TaskRel S (.running l rng c w) (.running l' rng c w)
  | finishing {l l'} : LocRel S l l' → TaskRel S (.finishing l) (.finishing l')
  | done : TaskRel S .done .done

structure GlobalRel (S : Scheduler Partitioner → Scheduler Partitioner → Prop) (g g' : Global σ) : Prop where
  best : g.best = g'.best
  results : g.results = g'.results
  tasks : List.Forall₂ (TaskRel S) g.tasks g'.tasks

theorem forall₂_getElem? {α β : Type} {Q : α → β → Prop} {l : List α} {l' : List β} (h : List.Forall₂ Q l l') :
    ∀ i : Nat, Option.Rel Q l[i]? l'[i]? := by
  induction h with
  | nil => intro i; simp
  | cons h _ ih =>
    intro i
    cases i with
    | zero => simpa using Option.Rel.some h
    | succ i => simpa using ih i

theorem forall₂_set {α β : Type} {Q : α → β → Prop} {l : List α} {l' : List β} (h : List.Forall₂ Q l l') {a : α} {b : β}
    (hab : Q a b) : ∀ i : Nat, List.Forall₂ Q (l.set i a) (l'.set i b) := by
  induction h with
  | nil => intro i; simp
  | cons h h' ih =>
    intro i
    cases i with
    | zero => exact .cons hab h'
    | succ i => exact .cons h (ih i)

theorem modeIter_rel (h : Sim prof S) (mode : Mode F σ) (rng : σ) {l l' : Loc} (hl : LocRel S l l') :
    Both (fun r r' => LocRel S r.1 r'.1 ∧ r.2 = r'.2) (modeIter mode prof l rng) (modeIter mode prof l' rng) := by
  cases mode with
  | det => exact Both.bind (searchIter_rel h hl) fun r r' hr => Both.pure ⟨hr.1, by simp [hr.2]⟩
  | prob accept gen => exact probIter_rel h accept gen rng hl

theorem finishLoop_rel (h : Sim prof S) (c : Nat) (w : Bool) {l l' : Loc} (hl : LocRel S l l') :
    Both (LocRel S) (finishLoop l c w) (finishLoop l' c w) := by
  unfold finishLoop
  split
  · rw [h.max hl.sweep.1]
    exact backward_rel _ hl
  · exact Both.pure hl

theorem move_rel (h : Sim prof S) (mode : Mode F σ) (i : Nat) (bit : Bool) {g g' : Global σ} (hg : GlobalRel S g g') :
    Both (GlobalRel S) (move mode prof g i bit) (move mode prof g' i bit) := by
  have ht := forall₂_getElem? hg.tasks i
  have set : ∀ {best best' : List Nat} {results results' : MappedPaths} {t t' : TaskState σ}, best = best' → results = results' →
      TaskRel S t t' → GlobalRel S ⟨best, results, g.tasks.set i t⟩ ⟨best', results', g'.tasks.set i t'⟩ :=
    fun hb hr h => ⟨hb, hr, forall₂_set hg.tasks h i⟩
  unfold move
  revert ht
  cases g.tasks[i]? with
  | none =>
    cases g'.tasks[i]? with
    | none => exact fun _ => Both.pure hg
    | some t' => intro ht; cases ht
  | some t =>
    cases g'.tasks[i]? with
    | none => intro ht; cases ht
    | some t' =>
      intro ht
      cases ht with
      | some ht =>
        cases ht with
        | ready hs =>
          refine Both.pure (set hg.best hg.results (.running ⟨⟨hs, .nil⟩, rfl, hg.best, rfl⟩))
        | @running l l' rng c w hl =>
          refine Both.bind (modeIter_rel h mode rng hl) fun r r' hr => ?_
          obtain ⟨a, gen, s⟩ := r
          obtain ⟨a', gen', s'⟩ := r'
          obtain ⟨h1, h2⟩ := hr
          simp only [Prod.mk.injEq] at h2
          obtain ⟨rfl, rfl⟩ := h2
          simp only
          split
          · exact Both.bind (finishLoop_rel h c w h1) fun b b' hb =>
              Both.pure (set hg.best hg.results (.finishing hb))
          · split
            · have hb : a.best = a'.best := h1.best
              simp only [← hg.best, ← hb]
              split
              · exact Both.pure (set rfl hg.results (.finishing ⟨h1.sweep, h1.path, rfl, h1.results⟩))
              · exact Both.pure (set rfl hg.results (.running ⟨h1.sweep, h1.path, rfl, h1.results⟩))
            · exact Both.pure (set hg.best hg.results (.running h1))
        | finishing hl =>
          simp only [hl.results, hl.best, hg.best, hg.results]
          split
          · exact Both.pure (set rfl rfl .done)
          · exact Both.pure (set rfl rfl .done)
        | done => exact Both.pure hg

theorem runMoves_rel (h : Sim prof S) (mode : Mode F σ) (ms : List (Nat × Bool)) : ∀ (g g' : Global σ), GlobalRel S g g' →
    Both (GlobalRel S) (runMoves mode prof g ms) (runMoves mode prof g' ms) := by
  induction ms with
  | nil => intro g g' hg; exact Both.pure hg
  | cons m ms ih =>
    intro g g' hg
    unfold runMoves
    exact Both.bind (move_rel h mode m.1 m.2 hg) fun a b hab => ih a b hab

theorem spawnLoop_rel (h : Sim prof S) (tb : Int) (fuel : Nat) : ∀ (s s' : Scheduler Partitioner) (k : Int), S s s' →
    Both (fun r r' => List.Forall₂ (fun v v' => S v.1 v'.1 ∧ v.2 = v'.2) r.1 r'.1 ∧ S r.2 r'.2)
      (spawnLoop prof tb fuel s k) (spawnLoop prof tb fuel s' k) := by
  induction fuel with
  | zero => intro s s' k hs; exact Both.pure ⟨.nil, hs⟩
  | succ fuel ih =>
    intro s s' k hs
    unfold spawnLoop
    refine Both.bind (h.next hs) fun r r' hr => ?_
    obtain ⟨c, r⟩ := r
    obtain ⟨c', r'⟩ := r'
    obtain ⟨h1, h2⟩ := hr
    cases h2 with
    | none => exact Both.pure ⟨.nil, h1⟩
    | @some v v' h2 =>
      obtain ⟨f, m⟩ := v
      obtain ⟨f', m'⟩ := v'
      simp only
      split
      · exact Both.pure ⟨.cons h2 .nil, h1⟩
      · exact Both.bind (ih c c' (k + 1) h1) fun a b hab => Both.pure ⟨.cons h2 hab.1, hab.2⟩

theorem forall₂_mapIdx {α β γ δ : Type} {Q : α → β → Prop} {W : γ → δ → Prop} {l : List α} {l' : List β}
    (h : List.Forall₂ Q l l') : ∀ (f : Nat → α → γ) (g : Nat → β → δ), (∀ i a b, Q a b → W (f i a) (g i b)) →
    List.Forall₂ W (l.mapIdx f) (l'.mapIdx g) := by
  induction h with
  | nil => intro f g _; simp
  | cons h _ ih =>
    intro f g hfg
    simp only [List.mapIdx_cons]
    exact .cons (hfg 0 _ _ h) (ih _ _ fun i a b hab => hfg (i + 1) a b hab)

theorem initGlobal_rel (h : Sim prof S) (tb : Int) (seeds : Nat → σ) (n : Nat) {s s' : Scheduler Partitioner} (hs : S s s') :
    Both (GlobalRel S) (initGlobal prof tb seeds s n) (initGlobal prof tb seeds s' n) := by
  unfold initGlobal spawn
  rw [h.time hs]
  simp only [bind_assoc, pure_bind]
  refine Both.bind (spawnLoop_rel h tb _ s s' 0 hs) fun r r' hr => Both.pure ⟨rfl, rfl, ?_⟩
  refine List.rel_append (forall₂_mapIdx hr.1 _ _ fun i a b hab => ?_) (.cons ?_ .nil)
  · rw [hab.2]
    exact .ready hab.1
  · rw [hr.1.length_eq]
    exact .ready hr.2

theorem finished_rel {g g' : Global σ} (hg : GlobalRel S g g') : g.finished = g'.finished := by
  unfold Global.finished
  have := hg.tasks
  revert this
  generalize g.tasks = ts
  generalize g'.tasks = ts'
  intro h
  induction h with
  | nil => rfl
  | cons h _ ih =>
    simp only [List.all_cons, ih]
    cases h <;> rfl

/-- The searches on two inputs of the same size whose schedulers are related. -/
theorem search_same (env : Env F σ) (h : Sim env.prof S) (L L' : List (List Nat)) (order order' : OrderGraph)
    (hn : L.length = L'.length) (hm : Both S (mkScheduler L order) (mkScheduler L' order')) (timeout : Option Nat)
    (nthreads : Nat) (p : Option (Accept F × Option Nat)) (tb : Int) :
    search env L order timeout nthreads p tb = search env L' order' timeout nthreads p tb := by
  have init : ∀ {s s'}, S s s' → LocRel S (Loc.init s L.length) (Loc.init s' L'.length) := fun hs =>
    ⟨⟨hs, .nil⟩, rfl, by simp [Loc.init, hn], rfl⟩
  apply Both.eq
  unfold search
  split
  · split
    · unfold searchProb doProbabilisticSearch
      refine Both.bind hm fun s s' hs => ?_
      refine Both.bind (probLoop_rel h _ _ _ _ _ _ _ _ (init hs)) fun r r' hr => ?_
      cases hr with
      | none => exact Both.pure rfl
      | some hr => simp only [hr.results, hn]; exact Both.same _
    · unfold searchDet doSearch
      refine Both.bind hm fun s s' hs => ?_
      refine Both.bind (searchLoop_rel h _ _ _ _ _ (init hs)) fun r r' hr => ?_
      cases hr with
      | none => exact Both.pure rfl
      | some hr => simp only [hr.results, hn]; exact Both.same _
  · have thr : ∀ (mode : Mode F σ) (seeds : Nat → σ) (ms : List (Nat × Bool)),
        Both Eq (searchThreaded mode env.prof env.hashIter tb seeds ms L order)
          (searchThreaded mode env.prof env.hashIter tb seeds ms L' order') := by
      intro mode seeds ms
      unfold searchThreaded
      refine Both.bind hm fun s s' hs => ?_
      rw [← hn]
      refine Both.bind (initGlobal_rel h tb seeds _ hs) fun g g' hg => ?_
      refine Both.bind (runMoves_rel h mode ms g g' hg) fun k k' hk => ?_
      rw [finished_rel hk, hk.results]
      exact Both.same _
    split
    · exact thr _ _ _
    · exact thr _ _ _

end

end Verif.Simulate
