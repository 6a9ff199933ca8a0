import Verif.Proofs.Run
/-!
# The multi-threaded search: soundness and termination for every interleaving
-/

namespace Verif

open Spec Search Search.Threaded

theorem exchange_length (s t : List Nat) :
    (exchange s t).1.length = s.length ∧ (exchange s t).2.length = t.length := by
  induction s generalizing t with
  | nil => cases t <;> simp [exchange]
  | cons a s ih =>
    cases t with
    | nil => simp [exchange]
    | cons b t =>
      simp only [exchange]
      have := ih t
      split
      · simpa using this
      · split <;> simpa using this

theorem exchange_at (s t : List Nat) (h : s.length = t.length) (i : Nat) :
    at0 (exchange s t).1 i = min (at0 s i) (at0 t i) ∧
    at0 (exchange s t).2 i = min (at0 s i) (at0 t i) := by
  induction s generalizing t i with
  | nil => cases t with
    | nil => simp [exchange, at0]
    | cons b t => simp at h
  | cons a s ih =>
    cases t with
    | nil => simp at h
    | cons b t =>
      simp only [List.length_cons, Nat.add_right_cancel_iff] at h
      simp only [exchange]
      cases i with
      | zero =>
        split
        · simp [at0]; omega
        · split
          · simp [at0]; omega
          · simp [at0]; omega
      | succ i =>
        have := ih t h i
        simp only [at0] at this
        split
        · simpa [at0] using this
        · split <;> simpa [at0] using this

/-- What a merge does, entry by entry. -/
theorem mergeLoop_spec : ∀ (s t : List Nat) (k : Nat) (new results : MappedPaths),
    s.length = t.length →
    (mergeLoop k s t new results).1.length = s.length ∧
    (∀ i, at0 (mergeLoop k s t new results).1 i = min (at0 s i) (at0 t i)) ∧
    (∀ i, (mergeLoop k s t new results).2.get i =
      if k ≤ i ∧ i < k + s.length ∧ at0 t (i - k) ≤ at0 s (i - k) ∧ (new.get i).isSome then new.get i
      else results.get i) := by
  intro s
  induction s with
  | nil =>
    intro t k new results h
    cases t with
    | nil =>
      refine ⟨rfl, fun i => by simp [mergeLoop, at0], fun i => ?_⟩
      simp only [mergeLoop, List.length_nil]
      rw [if_neg (by omega)]
    | cons b t => simp at h
  | cons a s ih =>
    intro t k new results h
    cases t with
    | nil => simp at h
    | cons b t =>
      simp only [List.length_cons, Nat.add_right_cancel_iff] at h
      have hat : ∀ (x : Nat) (l : List Nat) (i : Nat), at0 (x :: l) (i + 1) = at0 l i := by
        intro x l i; simp [at0]
      have hat0 : ∀ (x : Nat) (l : List Nat), at0 (x :: l) 0 = x := by
        intro x l; simp [at0]
      -- the entry at index `i`, shifted
      have hshift : ∀ (i : Nat), k + 1 ≤ i → ∀ x l, at0 (x :: l) (i - k) = at0 l (i - (k + 1)) := by
        intro i hi x l
        obtain ⟨j, rfl⟩ : ∃ j, i = k + 1 + j := ⟨i - (k + 1), by omega⟩
        rw [show k + 1 + j - k = j + 1 by omega, show k + 1 + j - (k + 1) = j by omega, hat]
      by_cases hab : b ≤ a
      · cases hg : new.get k with
        | some r =>
          obtain ⟨h1, h2, h3⟩ := ih t (k + 1) (new.erase k) (results.insert k r) h
          simp only [mergeLoop, ge_iff_le, hab, ↓reduceIte, hg]
          refine ⟨by simp [h1], ?_, ?_⟩
          · intro i
            cases i with
            | zero => simp only [hat0]; omega
            | succ i => rw [hat, hat, hat]; exact h2 i
          · intro i
            rw [h3 i]
            by_cases hik : i = k
            · subst hik
              rw [if_neg (by omega), if_pos]
              · rw [AMap.get_insert, if_pos rfl, hg]
              · refine ⟨by omega, by simp, ?_, by simp [hg]⟩
                simp only [Nat.sub_self, hat0]; exact hab
            · rw [AMap.get_erase, if_neg hik, AMap.get_insert, if_neg hik]
              by_cases hki : k + 1 ≤ i
              · simp only [List.length_cons, hshift i hki]
                refine if_congr ?_ rfl rfl
                constructor <;> rintro ⟨a1, a2, a3⟩ <;> exact ⟨by omega, by omega, a3⟩
              · rw [if_neg (by omega), if_neg (by omega)]
        | none =>
          obtain ⟨h1, h2, h3⟩ := ih t (k + 1) new results h
          simp only [mergeLoop, ge_iff_le, hab, ↓reduceIte, hg]
          refine ⟨by simp [h1], ?_, ?_⟩
          · intro i
            cases i with
            | zero => simp only [hat0]; omega
            | succ i => rw [hat, hat, hat]; exact h2 i
          · intro i
            rw [h3 i]
            by_cases hik : i = k
            · subst hik
              rw [if_neg (by omega), if_neg (by simp [hg])]
            · by_cases hki : k + 1 ≤ i
              · simp only [List.length_cons, hshift i hki]
                refine if_congr ?_ rfl rfl
                constructor <;> rintro ⟨a1, a2, a3⟩ <;> exact ⟨by omega, by omega, a3⟩
              · rw [if_neg (by omega), if_neg (by omega)]
      · obtain ⟨h1, h2, h3⟩ := ih t (k + 1) new results h
        simp only [mergeLoop, ge_iff_le, hab, ↓reduceIte]
        refine ⟨by simp [h1], ?_, ?_⟩
        · intro i
          cases i with
          | zero => simp only [hat0]; omega
          | succ i => rw [hat, hat, hat]; exact h2 i
        · intro i
          rw [h3 i]
          by_cases hik : i = k
          · subst hik
            rw [if_neg (by omega), if_neg]
            rintro ⟨_, _, h4, _⟩
            simp only [Nat.sub_self, hat0] at h4
            exact hab h4
          · by_cases hki : k + 1 ≤ i
            · simp only [List.length_cons, hshift i hki]
              refine if_congr ?_ rfl rfl
              constructor <;> rintro ⟨a1, a2, a3⟩ <;> exact ⟨by omega, by omega, a3⟩
            · rw [if_neg (by omega), if_neg (by omega)]

/-- The path at which a task starts. -/
def startPath : Option (List Nat) → Schedule
  | some m => [m]
  | none => []

/-- The shape invariant of a task. -/
inductive TaskOK (P : Problem) {σ : Type} : TaskState σ → Prop
  | ready {sched : Scheduler Partitioner} {init : Option (List Nat)} {rng : σ}
      (hs : StateFor P (startPath init) sched) (hi : IterOK sched)
      (hf : init.isSome = true → Fresh sched) : TaskOK P (.ready sched init rng)
  | running {loc : Loc} {rng : σ} {counter : Nat} {wasInit : Bool} (p0 : Schedule)
      (hl : LocOK P p0 loc) (hr : ResultsOK P loc.results)
      (hc : counter = 0 → wasInit = true → Fresh loc.sweep.current ∧ loc.sweep.stack = [])
      : TaskOK P (.running loc rng counter wasInit)
  | finishing {loc : Loc} (hb : loc.best.length = P.n + 1) (hr : ResultsOK P loc.results) :
      TaskOK P (.finishing loc)
  | done : TaskOK P .done

/-- The shape invariant of the pool. -/
structure GlobalOK (P : Problem) {σ : Type} (g : Global σ) : Prop where
  best : g.best.length = P.n + 1
  results : ResultsOK P g.results
  tasks : ∀ t ∈ g.tasks, TaskOK P t

/-- One iteration in either mode. -/
theorem modeIter_spec {F σ : Type} [FloatOps F] (mode : Mode F σ) (rng : σ)
    {P : Problem} (hP : Lax P) {p0 : Schedule} {l : Loc} (hl : LocOK P p0 l) :
    ∃ l' rng' stop, (∀ prof, modeIter mode prof l rng = .ok (l', rng', stop)) ∧
      IterStep P (match mode with | .det => True | .prob _ _ => False) l l' stop := by
  cases mode with
  | det =>
    obtain ⟨l', stop, e1, e2⟩ := searchIter_spec hP hl
    refine ⟨l', rng, stop, ?_, e2⟩
    intro prof
    simp [modeIter, e1 prof, bind, Except.bind, pure, Except.pure]
  | prob accept gen => exact probIter_spec accept gen rng hP hl

theorem IterStep.resultsOK {P : Problem} {Det : Prop} {p0 : Schedule} {l l' : Loc}
    {stop : Bool} (h : IterStep P Det l l' stop) (hl : LocOK P p0 l) (hr : ResultsOK P l.results) :
    ResultsOK P l'.results := by
  cases h with
  | backLeaf hst hn hleaf hlen =>
    have hstate := hl.chain.state.1
    rw [leaf_max hstate]
    exact hr.insert ((leaf_maximal hstate).1 hleaf)
  | _ => exact hr

/-- `next_and_focus` on a fresh state finds nothing only if there is nothing to measure. -/
theorem NextNone.fresh_leaf {s s' : Scheduler Partitioner} (h : NextNone s s') (hf : Fresh s) :
    s.time.measurable.set = [] := by
  have hr := h.rem
  rw [hf.rem] at hr
  apply Classical.byContradiction
  intro hne
  obtain ⟨l, hl⟩ := exists_items_of_sublist (List.Sublist.refl s.time.measurable.set)
  rcases hr with hr | hr
  · rw [hr] at hl; simp at hl
  · rw [hr] at hl
    simp only [List.mem_singleton, Prod.mk.injEq] at hl
    exact hne hl.2

/-- The code after the loop. -/
theorem finishLoop_spec {P : Problem} (hP : Lax P) {Det : Prop} {p0 : Schedule} {l l' : Loc}
    {counter : Nat} {wasInit : Bool}
    (h : IterStep P Det l l' true) (hl : LocOK P p0 l) (hr : ResultsOK P l.results)
    (hc : counter = 0 → wasInit = true → Fresh l.sweep.current ∧ l.sweep.stack = []) :
    (∃ l'', finishLoop l' counter wasInit = .ok l'' ∧ l''.best.length = P.n + 1 ∧
      ResultsOK P l''.results) ∧
    ((¬ (counter = 0 ∧ wasInit = true) ∧ finishLoop l' counter wasInit = .ok l') ∨
     (counter = 0 ∧ wasInit = true ∧ Maximal P p0 ∧ l'.path = p0 ∧ l'.best = l.best ∧
      l'.results = l.results ∧ p0.length < l.best.length ∧
      finishLoop l' counter wasInit = .ok
        { l' with best := updateBest l.best p0.length (P.peak p0),
                  results := l.results.insert p0.length (P.peak p0, p0),
                  path := p0.dropLast })) := by
  have hok := h.locOK hl
  have hres := h.resultsOK hl hr
  by_cases hcw : counter = 0 ∧ wasInit = true
  · cases h with
    | @stop s' hst hn hs hi =>
      obtain ⟨hf, _⟩ := hc hcw.1 hcw.2
      have hleaf := hn.fresh_leaf hf
      have h1 := hl.chain
      rw [hst] at h1
      have hp := h1.base_path
      have hstate := hl.chain.state.1
      have hv := (leaf_maximal hstate).1 hleaf
      have hlt := path_length_lt hP hl
      have hmax : s'.space.maxMemory = P.peak l.path := by rw [hn.space]; exact leaf_max hstate
      have e : finishLoop { l with sweep := ⟨s', []⟩ } counter wasInit = .ok
          { l with sweep := ⟨s', []⟩, best := updateBest l.best l.path.length (P.peak l.path),
                   results := l.results.insert l.path.length (P.peak l.path, l.path),
                   path := l.path.dropLast } := by
        simp [finishLoop, hcw, backward, hlt, hmax, pure, Except.pure]
      refine ⟨⟨_, e, by simpa [updateBest] using hl.best, hr.insert hv⟩, Or.inr ?_⟩
      refine ⟨hcw.1, hcw.2, hp ▸ hv, hp, rfl, rfl, hp ▸ hlt, ?_⟩
      rw [e]; simp only [hp]
  · have e : finishLoop l' counter wasInit = .ok l' := by
      simp [finishLoop, hcw, pure, Except.pure]
    exact ⟨⟨l', e, hok.best, hres⟩, Or.inl ⟨hcw, e⟩⟩

/-- Setting one task. -/
theorem tasks_set {P : Problem} {σ : Type} {ts : List (TaskState σ)} {t : TaskState σ} {i : Nat}
    (h : ∀ t ∈ ts, TaskOK P t) (ht : TaskOK P t) : ∀ t' ∈ ts.set i t, TaskOK P t' := by
  intro t' ht'
  rcases List.mem_or_eq_of_mem_set ht' with h1 | h1
  · exact h t' h1
  · exact h1 ▸ ht

/-- A bound on the number of moves a task can still make. -/
def taskPotential (P : Problem) {σ : Type} : TaskState σ → Nat
  | .ready sched init _ => 3 + levelCost P (startPath init, sched)
  | .running loc _ _ _ => 2 + potential P loc
  | .finishing _ => 1
  | .done => 0

/-- Task `i` exists and has not returned. -/
def Live {σ : Type} (g : Global σ) (i : Nat) : Prop :=
  ∃ t, g.tasks[i]? = some t ∧ t ≠ .done

theorem start_locOK {P : Problem} {sched : Scheduler Partitioner} {init : Option (List Nat)}
    {best : List Nat} (hs : StateFor P (startPath init) sched) (hi : IterOK sched)
    (hb : best.length = P.n + 1) : LocOK P (startPath init) (startLoc sched init best) := by
  refine ⟨?_, hb⟩
  cases init with
  | none => exact .base hs hi
  | some m => exact .base hs hi

/-- Every move keeps the pool in shape, never panics, is the same in both profiles, and a move of
a live task uses up potential. -/
theorem move_spec {F σ : Type} [FloatOps F] (mode : Mode F σ) {P : Problem} (hP : Lax P)
    {g : Global σ} (hg : GlobalOK P g) (i : Nat) (tb : Bool) :
    ∃ g', (∀ prof, move mode prof g i tb = .ok g') ∧ GlobalOK P g' ∧
      ((∃ t t', g.tasks[i]? = some t ∧ t ≠ .done ∧ g'.tasks = g.tasks.set i t' ∧
          taskPotential P t' < taskPotential P t) ∨
        (¬ Live g i ∧ g' = g)) := by
  cases ht : g.tasks[i]? with
  | none =>
    refine ⟨g, ?_, hg, Or.inr ⟨?_, rfl⟩⟩
    · intro prof; simp [move, ht, pure, Except.pure]
    · rintro ⟨t, h, _⟩; rw [ht] at h; simp at h
  | some t =>
    have hok := hg.tasks t (List.mem_of_getElem? ht)
    cases t with
    | ready sched init rng =>
      cases hok with
      | ready hs hi hf =>
      have hl := start_locOK hs hi hg.best
      refine ⟨⟨g.best, g.results,
        g.tasks.set i (.running (startLoc sched init g.best) rng 0 init.isSome)⟩, ?_, ?_,
        Or.inl ⟨_, _, rfl, by simp, rfl, ?_⟩⟩
      · intro prof; simp [move, ht, pure, Except.pure]
      · refine ⟨hg.best, hg.results, tasks_set hg.tasks ?_⟩
        refine .running (startPath init) hl (by intro t m S h; simp [startLoc] at h) ?_
        intro _ hw
        exact ⟨hf hw, rfl⟩
      · have : potential P (startLoc sched init g.best) = levelCost P (startPath init, sched) := by
          cases init <;> simp [potential, startLoc, Sweep.new, levels, startPath]
        simp only [taskPotential, this]; omega
    | running loc rng counter wasInit =>
      cases hok with
      | running p0 hl hr hc =>
      obtain ⟨l', rng', stop, e1, e2⟩ := modeIter_spec mode rng hP hl
      have hok' := e2.locOK hl
      have hres := e2.resultsOK hl hr
      cases stop with
      | true =>
        obtain ⟨⟨l'', f1, f2, f3⟩, _⟩ := finishLoop_spec hP e2 hl hr hc
        refine ⟨⟨g.best, g.results, g.tasks.set i (.finishing l'')⟩, ?_, ?_,
          Or.inl ⟨_, _, rfl, by simp, rfl, ?_⟩⟩
        · intro prof; simp [move, ht, e1 prof, f1, bind, Except.bind, pure, Except.pure]
        · exact ⟨hg.best, hg.results, tasks_set hg.tasks (.finishing f2 f3)⟩
        · simp only [taskPotential]; omega
      | false =>
        have hpot := e2.potential rfl
        by_cases hcu : counter = updateInterval
        · have hlen := exchange_length g.best l'.best
          have hok2 : LocOK P p0 { l' with best := (exchange g.best l'.best).2 } :=
            ⟨hok'.chain, by rw [hlen.2]; exact hok'.best⟩
          cases tb with
          | true =>
            refine ⟨⟨(exchange g.best l'.best).1, g.results,
              g.tasks.set i (.finishing { l' with best := (exchange g.best l'.best).2 })⟩, ?_, ?_,
              Or.inl ⟨_, _, rfl, by simp, rfl, ?_⟩⟩
            · intro prof; simp [move, ht, e1 prof, hcu, bind, Except.bind, pure, Except.pure]
            · exact ⟨by rw [hlen.1]; exact hg.best, hg.results,
                tasks_set hg.tasks (.finishing hok2.best hres)⟩
            · simp only [taskPotential]; omega
          | false =>
            refine ⟨⟨(exchange g.best l'.best).1, g.results,
              g.tasks.set i
                (.running { l' with best := (exchange g.best l'.best).2 } rng' 1 wasInit)⟩, ?_, ?_,
              Or.inl ⟨_, _, rfl, by simp, rfl, ?_⟩⟩
            · intro prof; simp [move, ht, e1 prof, hcu, bind, Except.bind, pure, Except.pure]
            · exact ⟨by rw [hlen.1]; exact hg.best, hg.results,
                tasks_set hg.tasks (.running p0 hok2 hres (by simp))⟩
            · simp only [taskPotential]
              have : potential P { l' with best := (exchange g.best l'.best).2 } = potential P l' := rfl
              omega
        · refine ⟨⟨g.best, g.results, g.tasks.set i (.running l' rng' (counter + 1) wasInit)⟩,
            ?_, ?_, Or.inl ⟨_, _, rfl, by simp, rfl, ?_⟩⟩
          · intro prof; simp [move, ht, e1 prof, hcu, bind, Except.bind, pure, Except.pure]
          · exact ⟨hg.best, hg.results, tasks_set hg.tasks (.running p0 hok' hres (by simp))⟩
          · simp only [taskPotential]; omega
    | finishing loc =>
      cases hok with
      | finishing hb hr =>
      cases hemp : loc.results.isEmpty with
      | true =>
        refine ⟨⟨g.best, g.results, g.tasks.set i .done⟩, ?_, ?_,
          Or.inl ⟨_, _, rfl, by simp, rfl, ?_⟩⟩
        · intro prof; simp [move, ht, hemp, pure, Except.pure]
        · exact ⟨hg.best, hg.results, tasks_set hg.tasks .done⟩
        · simp [taskPotential]
      | false =>
        obtain ⟨m1, m2, m3⟩ := mergeLoop_spec g.best loc.best 0 loc.results g.results
          (by rw [hg.best, hb])
        refine ⟨⟨(mergeLoop 0 g.best loc.best loc.results g.results).1,
          (mergeLoop 0 g.best loc.best loc.results g.results).2, g.tasks.set i .done⟩, ?_, ?_,
          Or.inl ⟨_, _, rfl, by simp, rfl, ?_⟩⟩
        · intro prof; simp [move, ht, hemp, pure, Except.pure]
        · refine ⟨by rw [m1]; exact hg.best, ?_, tasks_set hg.tasks .done⟩
          intro t m S h
          rw [m3 t] at h
          split at h
          · exact hr t m S h
          · exact hg.results t m S h
        · simp [taskPotential]
    | done =>
      refine ⟨g, ?_, hg, Or.inr ⟨?_, rfl⟩⟩
      · intro prof; simp [move, ht, pure, Except.pure]
      · rintro ⟨t, h, hne⟩
        rw [ht] at h
        simp only [Option.some.injEq] at h
        exact hne h.symm

theorem runMoves_spec {F σ : Type} [FloatOps F] (mode : Mode F σ) {P : Problem} (hP : Lax P) :
    ∀ (moves : List (Nat × Bool)) (g : Global σ), GlobalOK P g →
    ∃ g', (∀ prof, runMoves mode prof g moves = .ok g') ∧ GlobalOK P g' := by
  intro moves
  induction moves with
  | nil => intro g hg; exact ⟨g, fun prof => rfl, hg⟩
  | cons m moves ih =>
    intro g hg
    obtain ⟨g1, e1, e2, _⟩ := move_spec mode hP hg m.1 m.2
    obtain ⟨g2, f1, f2⟩ := ih g1 e2
    refine ⟨g2, ?_, f2⟩
    intro prof
    simp [runMoves, e1 prof, f1 prof, bind, Except.bind]

/-- The spawning loop: the spawned tasks and the rest together are all items of the root. -/
theorem spawnLoop_spec {P : Problem} (hP : Lax P) (tb : Int) :
    ∀ (fuel : Nat) (s : Scheduler Partitioner) (k : Int), StateFor P [] s → IterOK s →
    s.time.measurable.iter.length < fuel →
    ∃ ts rest, (∀ prof, spawnLoop prof tb fuel s k = .ok (ts, rest)) ∧
      StateFor P [] rest ∧ IterOK rest ∧
      (∀ t ∈ ts, StateFor P [t.2] t.1 ∧ Fresh t.1 ∧ t.2 ≠ []) ∧
      rest.time.measurable.set = s.time.measurable.set ∧
      (∃ tail, (rem s).map (·.2) = ts.map (·.2) ++ tail ∧
        ((rem rest).map (·.2) = tail ∨ (rem rest = [] ∧ ∀ m ∈ tail, m = []))) ∧
      (k < tb → (ts.length : Int) ≤ tb - k) ∧
      rest.time.measurable.iter.length ≤ s.time.measurable.iter.length ∧
      ((tb ≤ k ∨ k + s.time.measurable.iter.length < tb) → rest.time.measurable.iter = []) := by
  intro fuel
  induction fuel with
  | zero => intro s k _ _ h; omega
  | succ fuel ih =>
    intro s k hs hi hf
    rcases nextAndFocus_spec hP hs hi with ⟨s', hn, hs', hi'⟩ | ⟨s', c, l, m, hn⟩
    · refine ⟨[], s', ?_, hs', hi', by simp, hn.set, ⟨(rem s).map (·.2), by simp, Or.inr ⟨?_, ?_⟩⟩, ?_⟩
      · intro prof
        simp [spawnLoop, hn.eq prof, bind, Except.bind, pure, Except.pure]
      · simp [rem, hn.done]
      · intro m hm
        obtain ⟨x, hx, rfl⟩ := List.mem_map.1 hm
        exact hn.no_item (l := x.1) hx
      · refine ⟨?_, ?_, ?_⟩
        · intro hb; simp; omega
        · simp [hn.done]
        · intro _; simp [hn.done]
    · by_cases hb : k + 1 = tb
      · refine ⟨[(c, m)], s', ?_, hn.state', hn.iter', ?_, hn.set,
          ⟨(rem s').map (·.2), by simp [hn.rem], Or.inl rfl⟩, ?_⟩
        · intro prof
          simp [spawnLoop, hn.eq prof, hb, bind, Except.bind, pure, Except.pure]
        · intro t ht
          simp only [List.mem_singleton] at ht
          subst ht
          exact ⟨by simpa using hn.child, hn.fresh, hn.ne⟩
        · have := hn.len
          refine ⟨?_, by omega, by omega⟩
          intro _; simp; omega
      · obtain ⟨ts, rest, f1, f2, f3, f4, f5, ⟨tail, f6, f7⟩, f8, f9, f10⟩ := ih s' (k + 1) hn.state' hn.iter'
          (by have := hn.len; omega)
        refine ⟨(c, m) :: ts, rest, ?_, f2, f3, ?_, by rw [f5, hn.set],
          ⟨tail, by simp [hn.rem, f6], f7⟩, ?_⟩
        · intro prof
          simp [spawnLoop, hn.eq prof, hb, f1 prof, bind, Except.bind, pure, Except.pure]
        · intro t ht
          simp only [List.mem_cons] at ht
          rcases ht with rfl | ht
          · exact ⟨by simpa using hn.child, hn.fresh, hn.ne⟩
          · exact f4 t ht
        · have hlen := hn.len
          refine ⟨?_, by omega, ?_⟩
          · intro hk
            have := f8 (by omega)
            simp only [List.length_cons]
            omega
          · intro h
            apply f10
            omega

/-- The pool at the beginning. -/
theorem initGlobal_spec {σ : Type} {P : Problem} (hP : Lax P) (tb : Int) (seeds : Nat → σ)
    {s : Scheduler Partitioner} (hs : StateFor P [] s) (hf : Fresh s) :
    ∃ g : Global σ, (∀ prof, initGlobal prof tb seeds s P.n = .ok g) ∧ GlobalOK P g := by
  obtain ⟨ts, rest, f1, f2, f3, f4, _⟩ := spawnLoop_spec hP tb (s.time.measurable.iter.length + 1) s 0
    hs hf.iterOK (by omega)
  refine ⟨⟨best0 P, [], (ts.mapIdx fun k t => .ready t.1 (some t.2) (seeds k))
    ++ [.ready rest none (seeds ts.length)]⟩, ?_, ?_⟩
  · intro prof
    simp [initGlobal, spawn, f1 prof, bind, Except.bind, pure, Except.pure]
  · refine ⟨by simp, resultsOK_nil P, ?_⟩
    intro t ht
    simp only [List.mem_append, List.mem_singleton, List.mem_mapIdx] at ht
    rcases ht with ⟨k, hk, rfl⟩ | rfl
    · obtain ⟨h1, h2, _⟩ := f4 _ (List.getElem_mem hk)
      exact .ready h1 h2.iterOK fun _ => h2
    · exact .ready f2 f3 (by simp)

/-- Whatever the interleaving: no panic, the same in both profiles, and the output is sound. -/
theorem searchThreaded_loose {F σ : Type} [FloatOps F] (mode : Mode F σ) {P : Problem} (hP : P.Loose)
    (tb : Int) (seeds : Nat → σ) (moves : List (Nat × Bool)) :
    ∃ out : Option (List Path),
      (∀ prof hashIter, (∀ m, (hashIter m).Perm m) →
        searchThreaded mode prof hashIter tb seeds moves P.graph P.order = .ok out) ∧
      ∀ o, out = some o → SoundMax (eff P) o := by
  obtain ⟨s, e1, hs, hf⟩ := mkScheduler_loose hP
  obtain ⟨g, e2, hg⟩ := initGlobal_spec hP.lax tb seeds hs hf
  obtain ⟨g', e3, hg'⟩ := runMoves_spec mode hP.lax moves g hg
  obtain ⟨out, p1, p2⟩ := postprocess_spec id (fun m => List.Perm.refl m) P.n g'.results
  refine ⟨if g'.finished then some out else none, ?_, ?_⟩
  · intro prof hashIter hh
    obtain ⟨out', k1, k2⟩ := postprocess_spec hashIter hh P.n g'.results
    have := k2.unique p2
    subst this
    have k1' : postprocess hashIter P.graph.length g'.results = .ok out' := k1
    have e2' : initGlobal prof tb seeds s P.graph.length = .ok g := e2 prof
    simp only [searchThreaded, e1, e2', e3 prof, bind, Except.bind, pure, Except.pure]
    cases g'.finished <;> simp [k1']
  · intro o ho
    split at ho
    · simp only [Option.some.injEq] at ho
      exact ho ▸ p2.sound hg'.results
    · simp at ho

theorem searchThreaded_spec {F σ : Type} [FloatOps F] (mode : Mode F σ) {P : Problem} (hP : P.WF)
    (tb : Int) (seeds : Nat → σ) (moves : List (Nat × Bool)) :
    ∃ out : Option (List Path),
      (∀ prof hashIter, (∀ m, (hashIter m).Perm m) →
        searchThreaded mode prof hashIter tb seeds moves P.graph P.order = .ok out) ∧
      ∀ o, out = some o → Sound P o := by
  obtain ⟨out, h1, h2⟩ := searchThreaded_loose mode hP.loose tb seeds moves
  rw [eff_of_wf hP] at h2
  exact ⟨out, h1, fun o ho => (h2 o ho).sound hP⟩

/-- What is left to do for task `i` when it is scheduled. -/
theorem runMoves_count {F σ : Type} [FloatOps F] (mode : Mode F σ) {P : Problem} (hP : Lax P)
    {prof : Profile} : ∀ (moves : List (Nat × Bool)) (g g' : Global σ), GlobalOK P g →
    runMoves mode prof g moves = .ok g' →
    g'.tasks.length = g.tasks.length ∧
    ∀ i (t : TaskState σ), g.tasks[i]? = some t →
      ∃ t', g'.tasks[i]? = some t' ∧
        taskPotential P t' ≤ taskPotential P t - (moves.map (·.1)).count i := by
  intro moves
  induction moves with
  | nil =>
    intro g g' _ h
    simp only [runMoves, pure, Except.pure, Except.ok.injEq] at h
    subst h
    exact ⟨rfl, fun i t ht => ⟨t, ht, by simp⟩⟩
  | cons m moves ih =>
    intro g g' hg h
    obtain ⟨g1, e1, e2, e3⟩ := move_spec mode hP hg m.1 m.2
    simp only [runMoves, e1 prof, bind, Except.bind] at h
    obtain ⟨k1, k2⟩ := ih g1 g' e2 h
    refine ⟨?_, ?_⟩
    · rw [k1]
      rcases e3 with ⟨_, _, _, _, h1, _⟩ | ⟨_, rfl⟩
      · rw [h1]; simp
      · rfl
    · intro i t ht
      simp only [List.map_cons, List.count_cons]
      rcases e3 with ⟨t0, t1, h0, _, h1, h2⟩ | ⟨hnl, rfl⟩
      · by_cases hi : m.1 = i
        · subst hi
          rw [ht] at h0
          simp only [Option.some.injEq] at h0
          subst h0
          obtain ⟨t', h3, h4⟩ := k2 m.1 t1 (by
            rw [h1]; simp [(List.getElem?_eq_some_iff.1 ht).1])
          exact ⟨t', h3, by simp; omega⟩
        · obtain ⟨t', h3, h4⟩ := k2 i t (by rw [h1, List.getElem?_set_ne hi]; exact ht)
          exact ⟨t', h3, by simpa [hi] using h4⟩
      · obtain ⟨t', h3, h4⟩ := k2 i t ht
        by_cases hi : m.1 = i
        · subst hi
          have : t = .done := by
            apply Classical.byContradiction
            intro hne
            exact hnl ⟨t, ht, hne⟩
          subst this
          exact ⟨t', h3, by simp only [taskPotential] at h4 ⊢; omega⟩
        · exact ⟨t', h3, by simpa [hi] using h4⟩

theorem taskPotential_zero {P : Problem} {σ : Type} {t : TaskState σ} (h : taskPotential P t = 0) :
    t = .done := by
  cases t <;> simp [taskPotential] at h ⊢

/-- The tasks at the beginning: how many there are and what they may cost. -/
theorem initGlobal_cost {σ : Type} {P : Problem} (hP : Lax P) (tb : Int) (seeds : Nat → σ)
    {s : Scheduler Partitioner} (hs : StateFor P [] s) (hf : Fresh s) {prof : Profile}
    {g : Global σ} (h : initGlobal prof tb seeds s P.n = .ok g) :
    ∀ t ∈ g.tasks, ∃ sched init rng, t = .ready sched init rng ∧
      (levelCost P (startPath init, sched) ≤ searchBound P.bits.length) ∧
      ((tb ≤ 0 ∨ ((2 ^ P.bits.length : Nat) : Int) < tb) →
        levelCost P (startPath init, sched) ≤ searchBound (P.bits.length - 1)) := by
  obtain ⟨ts, rest, f1, f2, f3, f4, f5, _, _, f9, f10⟩ :=
    spawnLoop_spec hP tb (s.time.measurable.iter.length + 1) s 0 hs hf.iterOK (by omega)
  simp only [initGlobal, spawn, f1 prof, bind, Except.bind, pure, Except.pure,
    Except.ok.injEq] at h
  subst h
  have hbound : ∀ {u v : Nat}, u ≤ v → searchBound u ≤ searchBound v := by
    intro u v huv
    unfold searchBound
    have := Nat.mul_le_mul (Nat.pow_le_pow_right (show 0 < 2 by omega) huv) (itemCost_mono huv)
    omega
  have hlen : s.time.measurable.iter.length ≤ 2 ^ P.bits.length := by
    rw [hf, length_powerset]
    have := set_length_le hs
    simp only [unmeasured, List.flatten_nil, List.length_nil, Nat.sub_zero] at this
    exact Nat.pow_le_pow_right (by omega) this
  intro t ht
  simp only [List.mem_append, List.mem_singleton, List.mem_mapIdx] at ht
  rcases ht with ⟨k, hk, rfl⟩ | rfl
  · obtain ⟨h1, h2, h3⟩ := f4 _ (List.getElem_mem hk)
    refine ⟨_, _, _, rfl, ?_⟩
    have h4 := levelCost_fresh h1 h2
    have h5 : unmeasured P [ts[k].2] ≤ P.bits.length - 1 := by
      have := List.length_pos_iff.2 h3
      simp only [unmeasured, List.flatten_cons, List.flatten_nil, List.append_nil]
      omega
    have h6 := hbound h5
    have h7 := hbound (Nat.sub_le P.bits.length 1)
    simp only [startPath]
    exact ⟨by omega, fun _ => by omega⟩
  · refine ⟨_, _, _, rfl, ?_, ?_⟩
    · have h4 := levelCost_fresh hs hf
      have h5 := Nat.mul_le_mul_right (itemCost (unmeasured P [])) f9
      simp only [startPath, levelCost, unmeasured, List.flatten_nil, List.length_nil,
        Nat.sub_zero] at h4 h5 ⊢
      omega
    · intro htb
      have := f10 (by omega)
      simp only [startPath, levelCost, this, List.length_nil, Nat.zero_mul, Nat.add_zero]
      unfold searchBound
      omega

/-- Whatever the interleaving: if every task is scheduled often enough, all tasks return. -/
theorem runMoves_finishes {F σ : Type} [FloatOps F] (mode : Mode F σ) {P : Problem} (hP : Lax P)
    {prof : Profile} (tb : Int) (seeds : Nat → σ)
    {s : Scheduler Partitioner} (hs : StateFor P [] s) (hf : Fresh s)
    {g g' : Global σ} (hg : GlobalOK P g) (h : initGlobal prof tb seeds s P.n = .ok g)
    {moves : List (Nat × Bool)} (hr : runMoves mode prof g moves = .ok g')
    (hfair : ∀ i < g.tasks.length, searchBound P.bits.length + 3 ≤ (moves.map (·.1)).count i) :
    g'.finished = true := by
  obtain ⟨k1, k2⟩ := runMoves_count mode hP moves g g' hg hr
  unfold Global.finished
  rw [List.all_eq_true]
  intro t' ht'
  obtain ⟨i, hi, rfl⟩ := List.getElem_of_mem ht'
  rw [k1] at hi
  obtain ⟨t', h3, h4⟩ := k2 i g.tasks[i] (by simp [hi])
  obtain ⟨sched, init, rng, h5, h6, _⟩ := initGlobal_cost hP tb seeds hs hf h _ (List.getElem_mem hi)
  have h7 := hfair i hi
  have h8 : taskPotential P t' = 0 := by
    rw [h5] at h4
    change _ ≤ (3 + levelCost P (startPath init, sched)) - _ at h4
    omega
  have := taskPotential_zero h8
  subst this
  rw [List.getElem?_eq_some_iff] at h3
  obtain ⟨_, h3⟩ := h3
  rw [h3]

end Verif
