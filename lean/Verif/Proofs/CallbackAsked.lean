import Verif.Proofs.Callback
import Verif.Proofs.AcceptCall
import Verif.Proofs.Sweep
/-!
# Accept functions with a state: equal answers, and the questions
-/

namespace Verif.Callbacks

open Spec Search Search.Threaded

section Same

variable {F σ ω : Type} [FloatOps F] {cb : Callback F ω} {f : Accept F} {gen : Rng F σ}

/-- In every state the callback answers as the function does, or both accept. -/
def Agrees (cb : Callback F ω) (f : Accept F) : Prop :=
  ∀ a b c d e g h w, ∃ x w', cb a b c d e g h w = .ok (x, w') ∧
    (x = f a b c d e g h ∨ FloatOps.geOne x = true ∧ FloatOps.geOne (f a b c d e g h) = true)

/-- The same result, with some state. -/
def SameIter (x : R (Loc × σ × ω × Bool)) (y : R (Loc × σ × Bool)) : Prop :=
  (∃ l rng w stop, x = .ok (l, rng, w, stop) ∧ y = .ok (l, rng, stop)) ∨ ∃ e, x = .error e ∧ y = .error e

theorem forward_same (h : Agrees cb f) (measure : List Nat) (lc lm : Nat) (s : Loc) (rng : σ) (w : ω) :
    SameIter (probabilisticForwardS cb gen measure lc lm s rng w) (probabilisticForward f gen measure lc lm s rng) := by
  unfold probabilisticForwardS probabilisticForward
  simp only [bind, Except.bind]
  cases hb : idx s.best (minimumPathLength s.sweep.current.time s.path) with
  | error e => exact Or.inr ⟨_, rfl, rfl⟩
  | ok bound =>
    simp only
    by_cases hge : s.sweep.current.space.maxMemory ≥ bound
    · rw [if_pos hge, if_pos hge]
      rcases hsk : s.sweep.skipCurrent with ⟨sw, r⟩
      cases r <;> exact Or.inl ⟨_, _, _, _, rfl, rfl⟩
    · rw [if_neg hge, if_neg hge]
      cases hl : s.best.getLast? with
      | none => exact Or.inr ⟨_, rfl, rfl⟩
      | some minimal =>
        simp only
        obtain ⟨x, w', h1, h2⟩ := h (FloatOps.ofUsize bound) (FloatOps.ofUsize minimal) (FloatOps.ofUsize lm)
          (FloatOps.ofUsize lc) (FloatOps.ofUsize s.sweep.current.space.currentMemory)
          (FloatOps.ofUsize s.sweep.current.time.numRemainingNodes)
          (FloatOps.ofUsize s.sweep.current.space.nodes.length) w
        rw [h1]
        simp only
        rcases h2 with h2 | ⟨h2, h3⟩
        · rw [← h2]
          by_cases hg : FloatOps.geOne x = true
          · rw [if_pos hg, if_pos hg]
            exact Or.inl ⟨_, _, _, _, rfl, rfl⟩
          · rw [if_neg hg, if_neg hg]
            by_cases hr : FloatOps.lt (gen.sample rng).1 x = true
            · rw [if_pos hr, if_pos hr]
              exact Or.inl ⟨_, _, _, _, rfl, rfl⟩
            · rw [if_neg hr, if_neg hr]
              rcases hsk : s.sweep.skipCurrent with ⟨sw, r⟩
              cases r <;> exact Or.inl ⟨_, _, _, _, rfl, rfl⟩
        · rw [if_pos h2, if_pos h3]
          exact Or.inl ⟨_, _, _, _, rfl, rfl⟩

theorem iter_same (h : Agrees cb f) (prof : Profile) (s : Loc) (rng : σ) (w : ω) :
    SameIter (probIterS prof cb gen s rng w) (probIter prof f gen s rng) := by
  unfold probIterS probIter
  simp only [bind, Except.bind]
  cases hn : s.sweep.next (Scheduler.focusIter prof) with
  | error e => exact Or.inr ⟨_, rfl, rfl⟩
  | ok v =>
    obtain ⟨sw, step⟩ := v
    cases step with
    | none => exact Or.inl ⟨_, _, _, _, rfl, rfl⟩
    | some st =>
      cases st with
      | forward m => exact forward_same h m _ _ _ rng w
      | backward leaf =>
        simp only
        cases hbk : backward leaf { s with sweep := sw } with
        | error e => exact Or.inr ⟨_, rfl, rfl⟩
        | ok s' => exact Or.inl ⟨_, _, _, _, rfl, rfl⟩

theorem loop_same (h : Agrees cb f) (prof : Profile) (timer : Nat → Bool) :
    ∀ (fuel k : Nat) (s : Loc) (rng : σ) (w : ω),
      (∃ w', probLoopS prof cb gen timer fuel k s rng w =
        (probLoop prof f gen timer fuel k s rng).map fun o => o.map fun r => (r.1, r.2, w')) := by
  intro fuel
  induction fuel with
  | zero => intro k s rng w; exact ⟨w, rfl⟩
  | succ fuel ih =>
    intro k s rng w
    simp only [probLoopS, probLoop]
    rcases iter_same h prof s rng w (gen := gen) with ⟨l, rng', w', stop, e1, e2⟩ | ⟨e, e1, e2⟩
    · rw [e1, e2]
      simp only [bind, Except.bind]
      by_cases hs : stop = true
      · rw [if_pos hs, if_pos hs]
        exact ⟨w', rfl⟩
      · rw [if_neg hs, if_neg hs]
        by_cases ht : timer k = true
        · rw [if_pos ht, if_pos ht]
          exact ⟨w', rfl⟩
        · rw [if_neg ht, if_neg ht]
          exact ih (k + 1) l rng' w'
    · rw [e1, e2]
      exact ⟨w, rfl⟩

theorem searchProbS_same (h : Agrees cb f) (prof : Profile) (hashIter : MappedPaths → MappedPaths) (rng : σ) (w : ω)
    (timer : Nat → Bool) (fuel : Nat) (L : List (List Nat)) (o : OrderGraph) :
    searchProbS prof hashIter cb gen rng w timer fuel L o = searchProb prof hashIter f gen rng timer fuel L o := by
  unfold searchProbS searchProb doProbabilisticSearch
  simp only [bind, Except.bind]
  cases mkScheduler L o with
  | error e => rfl
  | ok s =>
    simp only
    obtain ⟨w', e⟩ := loop_same (gen := gen) h prof timer fuel 0 (Loc.init s L.length) rng w
    rw [e]
    cases probLoop prof f gen timer fuel 0 (Loc.init s L.length) rng with
    | error e => rfl
    | ok r => cases r <;> rfl

theorem move_same (h : Agrees cb f) (prof : Profile) (g : Global σ) (w : ω) (i : Nat) (b : Bool) :
    (∃ g' w', moveS cb gen prof g w i b = .ok (g', w') ∧ move (.prob f gen) prof g i b = .ok g') ∨
      ∃ e, moveS cb gen prof g w i b = .error e ∧ move (.prob f gen) prof g i b = .error e := by
  unfold moveS move
  cases hg : g.tasks[i]? with
  | none => exact Or.inl ⟨_, _, rfl, rfl⟩
  | some t =>
    cases t with
    | ready s i r => exact Or.inl ⟨_, _, rfl, rfl⟩
    | running loc rng counter wasInit =>
      simp only [modeIter]
      rcases iter_same h prof loc rng w (gen := gen) with ⟨l, rng', w', stop, e1, e2⟩ | ⟨e, e1, e2⟩
      · rw [e1, e2]
        simp only [bind, Except.bind]
        by_cases hs : stop = true
        · rw [if_pos hs, if_pos hs]
          cases finishLoop l counter wasInit with
          | error e => exact Or.inr ⟨_, rfl, rfl⟩
          | ok l' => exact Or.inl ⟨_, _, rfl, rfl⟩
        · rw [if_neg hs, if_neg hs]
          by_cases hc : counter = updateInterval
          · rw [if_pos hc, if_pos hc]
            cases b <;> exact Or.inl ⟨_, _, rfl, rfl⟩
          · rw [if_neg hc, if_neg hc]
            exact Or.inl ⟨_, _, rfl, rfl⟩
      · rw [e1, e2]
        exact Or.inr ⟨_, rfl, rfl⟩
    | finishing loc =>
      simp only
      by_cases he : loc.results.isEmpty = true
      · rw [if_pos he, if_pos he]
        exact Or.inl ⟨_, _, rfl, rfl⟩
      · rw [if_neg he, if_neg he]
        exact Or.inl ⟨_, _, rfl, rfl⟩
    | done => exact Or.inl ⟨_, _, rfl, rfl⟩

theorem runMoves_same (h : Agrees cb f) (prof : Profile) : ∀ (ms : List (Nat × Bool)) (g : Global σ) (w : ω),
    ∃ w', runMovesS cb gen prof g w ms = (runMoves (.prob f gen) prof g ms).map fun g => (g, w') := by
  intro ms
  induction ms with
  | nil => intro g w; exact ⟨w, rfl⟩
  | cons m ms ih =>
    intro g w
    rw [runMovesS, runMoves]
    rcases move_same h prof g w m.1 m.2 (gen := gen) with ⟨g', w', e1, e2⟩ | ⟨e, e1, e2⟩
    · rw [e1, e2]
      exact ih g' w'
    · rw [e1, e2]
      exact ⟨w, rfl⟩

theorem runS_same (h : Agrees cb f) (env : Env F σ) (w : ω) (seed : Option Nat) (L : List (List Nat)) (o : OrderGraph)
    (args : Args F) :
    runS env cb w seed L o args = run env L o { args with probabilistic := some (f, seed) } := by
  unfold runS run
  by_cases hd : args.doSearch = true
  · simp only [hd, Bool.not_true, Bool.false_eq_true, if_false]
    rw [search.eq_def]
    by_cases hn : args.nthreads < 2
    · rw [if_pos hn, if_pos hn]
      exact searchProbS_same h _ _ _ _ _ _ _ _
    · rw [if_neg hn, if_neg hn]
      simp only [searchThreadedS, searchThreaded, bind, Except.bind]
      cases mkScheduler L o with
      | error e => rfl
      | ok s =>
        simp only
        cases initGlobal env.prof ((args.taskBound.map fun b => (b : Int)).getD 100000) (env.taskRng seed) s L.length with
        | error e => rfl
        | ok g =>
          simp only
          obtain ⟨w', e⟩ := runMoves_same (gen := env.gen) h env.prof
            (env.moves.map fun m => (m.1, args.timeout.isSome && m.2)) g w
          rw [e]
          cases runMoves (.prob f env.gen) env.prof g (env.moves.map fun m => (m.1, args.timeout.isSome && m.2)) with
          | error e => rfl
          | ok g' => rfl
  · simp only [hd, Bool.not_false, if_true]

end Same

/-- The answer of a callback. -/
def askS {F ω : Type} [FloatOps F] (q : Query) (cb : Callback F ω) (w : ω) : R (F × ω) :=
  cb (FloatOps.ofUsize q.bound) (FloatOps.ofUsize q.minimal) (FloatOps.ofUsize q.lastMax) (FloatOps.ofUsize q.lastCur)
    (FloatOps.ofUsize q.cur) (FloatOps.ofUsize q.remaining) (FloatOps.ofUsize q.total) w

/-- One iteration asks no question, or one that belongs to the state of the search. -/
theorem probIterS_asked {P : Problem} (hP : P.WF) {l : Loc} (hl : LInv P [] (best0 P) l) :
    (∃ l' stop, ∀ {F σ ω : Type} [FloatOps F] (cb : Callback F ω) (gen : Rng F σ) (rng : σ) (w : ω) prof,
        probIterS prof cb gen l rng w = .ok (l', rng, w, stop)) ∨
    ∃ m q l₁ l₂, Asked P l.results l.path m q ∧
      ∀ {F σ ω : Type} [FloatOps F] (cb : Callback F ω) (gen : Rng F σ) (rng : σ) (w : ω) prof,
        probIterS prof cb gen l rng w = match askS q cb w with
          | .error e => .error e
          | .ok (a, w') => .ok (
            if FloatOps.geOne a then (l₁, rng, w', false)
            else if FloatOps.lt (gen.sample rng).1 a then (l₁, (gen.sample rng).2, w', false)
            else (l₂, (gen.sample rng).2, w', false)) := by
  have hok := hl.ok
  obtain ⟨hs, hi⟩ := hok.chain.state
  rcases nextAndFocus_spec hP.lax hs hi with ⟨s', hn, hs', hi'⟩ | ⟨s', c, k, m, hn⟩
  · left
    cases hst : l.sweep.stack with
    | nil =>
      refine ⟨{ l with sweep := ⟨s', []⟩ }, true, fun cb gen rng w prof => ?_⟩
      simp [probIterS, Sweep.next, Scheduler.focusIter, hn.eq prof, hst, bind, Except.bind, pure,
          Except.pure]
    | cons top rest =>
      by_cases hleaf : l.sweep.current.time.measurable.set = []
      · have ha : s'.atLeaf = some l.sweep.current.space.maxMemory := by
          rw [hn.atLeaf, atLeaf_eq, if_pos hleaf]
        refine ⟨⟨⟨top, rest⟩, l.path.dropLast,
          updateBest l.best l.path.length l.sweep.current.space.maxMemory,
          l.results.insert l.path.length (l.sweep.current.space.maxMemory, l.path)⟩, false,
          fun cb gen rng w prof => ?_⟩
        simp [probIterS, Sweep.next, Scheduler.focusIter, hn.eq prof, hst, bind, Except.bind, pure,
            Except.pure, ha, backward, path_length_lt hP.lax hok]
      · have ha : s'.atLeaf = none := by
          rw [hn.atLeaf, atLeaf_eq, if_neg hleaf]
        refine ⟨{ l with sweep := ⟨top, rest⟩, path := l.path.dropLast }, false,
          fun cb gen rng w prof => ?_⟩
        simp [probIterS, Sweep.next, Scheduler.focusIter, hn.eq prof, hst, bind, Except.bind, pure,
            Except.pure, ha, backward]
  · have hle := minimumPathLength_le hP.lax hn.child
    have hlt : minimumPathLength c.time l.path < l.best.length := by have := hok.best; omega
    have hb : l.best[minimumPathLength c.time l.path]? = some l.best[minimumPathLength c.time l.path] := by
      simp [hlt]
    have hne : l.best ≠ [] := by rintro h; simp [h] at hlt
    obtain ⟨last, hlast⟩ : ∃ x, l.best.getLast? = some x := ⟨_, List.getLast?_eq_some_getLast hne⟩
    by_cases hcut : l.best[minimumPathLength c.time l.path] ≤ c.space.maxMemory
    · left
      refine ⟨{ l with sweep := ⟨s', l.sweep.stack⟩ }, false, fun cb gen rng w prof => ?_⟩
      simp [probIterS, Sweep.next, Scheduler.focusIter, hn.eq prof, bind, Except.bind, pure,
          Except.pure, probabilisticForwardS, idx_of_getElem? hb, hcut, Sweep.skipCurrent]
    · right
      refine ⟨m, ⟨l.best[minimumPathLength c.time l.path], last, P.peak l.path, P.held l.path, P.held (l.path ++ [m]),
        P.blocked (l.path ++ [m]), P.n⟩, { l with sweep := ⟨c, s' :: l.sweep.stack⟩, path := l.path ++ [m] },
        { l with sweep := ⟨s', l.sweep.stack⟩ }, ?_, ?_⟩
      · obtain ⟨rest, hrest⟩ := hn.child.pre.extend hP
        have e1 := hl.least hP hle
        have e0 := at0_of_getElem? hb
        generalize l.best[minimumPathLength c.time l.path] = bound at e0 hcut ⊢
        rw [e0, minimumPathLength_eq hP hn.child] at e1
        have e2 := hl.least hP (Nat.le_refl P.n)
        rw [← getLast?_at0 hl.ok.best hlast] at e2
        exact ⟨e1, e2, rfl, rfl, rfl, rfl, rfl, ⟨rest, by simpa using hrest⟩, hn.ne,
          by rw [← hn.child.space.max]; exact Nat.lt_of_not_le hcut,
          fun t' m' S h => ⟨(maximal_iff hP).1 (hl.sound t' m' S h).1, (hl.sound t' m' S h).2⟩⟩
      · intro F σ ω _ cb gen rng w prof
        have q1 := hs.space.max
        have q2 := hs.space.held hs.pre.nodup fun b hb => hP.bits_lt b (hs.pre.sub b hb)
        have q3 := hn.child.space.held hn.child.pre.nodup
          fun b hb => hP.bits_lt b (hn.child.pre.sub b hb)
        have q4 := hn.child.blocked hP
        have q5 : c.space.nodes.length = P.n := by rw [hn.child.space.nodes, length_nodesOf]
        generalize ha : askS ⟨l.best[minimumPathLength c.time l.path], last, P.peak l.path,
          P.held l.path, P.held (l.path ++ [m]), P.blocked (l.path ++ [m]), P.n⟩ cb w = a
        simp only [askS, ← q1, ← q2, ← q3, ← q4, ← q5] at ha
        rcases a with e | ⟨a, w'⟩
        · simp [probIterS, Sweep.next, Scheduler.focusIter, hn.eq prof, bind, Except.bind, pure,
            Except.pure, probabilisticForwardS, idx_of_getElem? hb, hcut, hlast, ha]
        · by_cases hg : FloatOps.geOne a = true
          · simp [probIterS, Sweep.next, Scheduler.focusIter, hn.eq prof, bind, Except.bind, pure,
              Except.pure, probabilisticForwardS, idx_of_getElem? hb, hcut, hlast, ha, hg]
          · by_cases hr : FloatOps.lt (gen.sample rng).1 a = true
            · simp [probIterS, Sweep.next, Scheduler.focusIter, hn.eq prof, bind, Except.bind, pure,
                Except.pure, probabilisticForwardS, idx_of_getElem? hb, hcut, hlast, ha, hg, hr]
            · simp [probIterS, Sweep.next, Scheduler.focusIter, hn.eq prof, bind, Except.bind, pure,
                Except.pure, probabilisticForwardS, idx_of_getElem? hb, hcut, hlast, ha, hg, hr,
                Sweep.skipCurrent]

section Asked

variable {F σ ω : Type} [FloatOps F]

/-- The invariant is kept whatever the callback answers. -/
theorem probIterS_inv {cb : Callback F ω} {gen : Rng F σ} {P : Problem} (hP : P.WF) {prof : Profile} {l l' : Loc}
    {rng rng' : σ} {w w' : ω} {stop : Bool} (hl : LInv P [] (best0 P) l)
    (h : probIterS prof cb gen l rng w = .ok (l', rng', w', stop)) : LInv P [] (best0 P) l' := by
  have h1 := iter_lift (cb := cb) (gen := gen) prof l rng w
  rw [h] at h1
  obtain ⟨ds, h2⟩ := h1
  obtain ⟨l1, rng1, stop1, e1, e2⟩ := probIter_spec follow popGen (0, ds ++ []) hP.lax hl.ok
  have := (e1 prof).symm.trans (h2 0 [])
  simp only [Except.ok.injEq, Prod.mk.injEq] at this
  rw [← this.1]
  exact (e2.inv hl).1

theorem probLoopS_raise {cb : Callback F ω} {gen : Rng F σ} {P : Problem} (hP : P.WF) (prof : Profile) (timer : Nat → Bool)
    {e : Panic} : ∀ (fuel k : Nat) (l : Loc) (rng : σ) (w : ω), LInv P [] (best0 P) l →
      probLoopS prof cb gen timer fuel k l rng w = .error e →
      ∃ found p m q w', Asked P found p m q ∧ askS q cb w' = .error e := by
  intro fuel
  induction fuel with
  | zero => intro k l rng w _ h; simp [probLoopS, pure, Except.pure] at h
  | succ fuel ih =>
    intro k l rng w hl h
    rw [probLoopS] at h
    cases hi : probIterS prof cb gen l rng w with
    | error e' =>
      rw [hi] at h
      simp only [bind, Except.bind, Except.error.injEq] at h
      subst h
      rcases probIterS_asked hP hl with ⟨l', stop, h2⟩ | ⟨m, q, l₁, l₂, hq, h2⟩
      · rw [h2] at hi; cases hi
      · rw [h2] at hi
        cases ha : askS q cb w with
        | error e =>
          rw [ha] at hi
          simp only [Except.error.injEq] at hi
          subst hi
          exact ⟨_, _, _, q, w, hq, ha⟩
        | ok a => rw [ha] at hi; simp at hi
    | ok r =>
      obtain ⟨l', rng', w', stop⟩ := r
      have hl' := probIterS_inv hP hl hi
      rw [hi] at h
      simp only [bind, Except.bind] at h
      split at h
      · simp [pure, Except.pure] at h
      · split at h
        · simp [pure, Except.pure] at h
        · exact ih _ _ _ _ hl' h

theorem searchProbS_raise {cb : Callback F ω} {gen : Rng F σ} {P : Problem} (hP : P.WF) {prof : Profile}
    {hashIter : MappedPaths → MappedPaths} (hh : ∀ m, (hashIter m).Perm m) {rng : σ} {w : ω} {timer : Nat → Bool}
    {fuel : Nat} {e : Panic} (h : searchProbS prof hashIter cb gen rng w timer fuel P.graph P.order = .error e) :
    ∃ found p m q w', Asked P found p m q ∧ askS q cb w' = .error e := by
  obtain ⟨s, e1, e2, e3⟩ := mkScheduler_spec hP
  unfold searchProbS at h
  rw [e1] at h
  simp only [bind, Except.bind] at h
  cases hl : probLoopS prof cb gen timer fuel 0 (Loc.init s P.graph.length) rng w with
  | error e' =>
    rw [hl] at h
    simp only [Except.error.injEq] at h
    subst h
    exact probLoopS_raise hP prof timer fuel 0 _ _ _ (init_inv e2 e3) hl
  | ok r =>
    rw [hl] at h
    cases r with
    | none => simp [pure, Except.pure] at h
    | some x =>
      obtain ⟨out, b1, _⟩ := postprocess_spec hashIter hh P.n x.1.results
      have b1' : postprocess hashIter P.graph.length x.1.results = .ok out := b1
      simp only [b1', pure, Except.pure] at h
      cases h

/-- The first question. -/
theorem searchProbS_first {P : Problem} (hP : P.WF) (hb : P.bits ≠ []) :
    ∃ m q, Asked P [] [] m q ∧ ∀ {F σ ω : Type} [FloatOps F] (cb : Callback F ω) (gen : Rng F σ) (prof : Profile)
      (hashIter : MappedPaths → MappedPaths) (rng : σ) (w : ω) (timer : Nat → Bool) (fuel : Nat) (e : Panic),
      askS q cb w = .error e →
      searchProbS prof hashIter cb gen rng w timer (fuel + 1) P.graph P.order = .error e := by
  obtain ⟨s, e1, e2, e3⟩ := mkScheduler_spec hP
  have hl := init_inv e2 e3
  rcases probIterS_asked hP hl with ⟨l', stop, h2⟩ | ⟨m, q, l₁, l₂, hq, h2⟩
  · exfalso
    rcases nextAndFocus_spec hP.lax e2 e3.iterOK with ⟨s', hn, _, _⟩ | ⟨s', c, k, m, hn⟩
    · have := hn.fresh_leaf e3
      exact not_valid_nil hb ((maximal_iff hP).1 ((leaf_maximal e2).1 this))
    · have h3 := h2 (F := Decision) (σ := Unit) (ω := Unit) (fun _ _ _ _ _ _ _ _ => .error .unwrapFailed)
        ⟨fun _ => (⟨true⟩, ())⟩ () () .debug
      have hle := minimumPathLength_le hP.lax hn.child
      have hb : idx (Loc.init s P.n).best (minimumPathLength c.time []) = .ok usizeMax := by
        refine idx_of_getElem? ?_
        have hle' : minimumPathLength c.time [] < P.n + 1 := by omega
        simp [Loc.init, hle']
      have hlast : (Loc.init s P.n).best.getLast? = some usizeMax := by
        simp [Loc.init, List.getLast?_replicate]
      have hcut : ¬ usizeMax ≤ c.space.maxMemory := by
        rw [hn.child.space.max]
        have := peak_lt_max hP ([] ++ [m])
        omega
      have hnext := next_some hn .debug []
      simp only [probIterS, bind, Except.bind] at h3
      have hsw : (Loc.init s P.n).sweep = ⟨s, []⟩ := rfl
      rw [hsw, hnext] at h3
      simp only [probabilisticForwardS, bind, Except.bind] at h3
      have hp : (Loc.init s P.n).path = [] := rfl
      rw [hp, hb] at h3
      simp only [hcut, hlast, if_false] at h3
      cases h3
  · refine ⟨m, q, hq, ?_⟩
    intro F σ ω _ cb gen prof hashIter rng w timer fuel e h
    unfold searchProbS
    rw [e1]
    simp only [bind, Except.bind]
    have : probLoopS prof cb gen timer (fuel + 1) 0 (Loc.init s P.graph.length) rng w = .error e := by
      rw [probLoopS]
      have h3 := h2 cb gen rng w prof
      rw [h] at h3
      change probIterS prof cb gen (Loc.init s P.graph.length) rng w = .error e at h3
      rw [h3]
      rfl
    rw [this]

end Asked

end Verif.Callbacks
