import Verif.Proofs.Trace
import Verif.Proofs.Terminate
import Verif.Props.MinTimeProps
/-!
# When a timeout is noticed
-/

namespace Verif.Timeout

open Spec Search Search.Threaded Trace

variable {F σ : Type} [FloatOps F]

/-- How many moves a task still makes when the time is over. -/
def rem : TaskState σ → Nat
  | .ready _ _ _ => updateInterval + 3
  | .running _ _ counter _ => updateInterval + 2 - counter
  | .finishing _ => 1
  | .done => 0

/-- The counter never exceeds the interval. -/
def Counted (t : TaskState σ) : Prop := ∀ l rng c w, t = .running l rng c w → c ≤ updateInterval

/-- The effect of a move on the tasks. -/
theorem move_rem (mode : Mode F σ) (prof : Profile) (g : Global σ) (i : Nat) (bit : Bool)
    (h : ∀ t ∈ g.tasks, Counted t) :
    Sat (fun g' => (∀ t ∈ g'.tasks, Counted t) ∧ g'.tasks.length = g.tasks.length ∧
      (∀ j, j ≠ i → g'.tasks[j]? = g.tasks[j]?) ∧
      (bit = true → ∀ t, g.tasks[i]? = some t → ∃ t', g'.tasks[i]? = some t' ∧ rem t' ≤ rem t - 1))
      (move mode prof g i bit) := by
  have same : ∀ t, g.tasks[i]? = some t → rem t = 0 → bit = true → ∀ t, g.tasks[i]? = some t →
      ∃ t', g.tasks[i]? = some t' ∧ rem t' ≤ rem t - 1 := by
    intro t ht h0 _ t1 ht1
    rw [ht] at ht1
    cases ht1
    exact ⟨t, ht, by omega⟩
  have set : ∀ (best : List Nat) (results : MappedPaths) (t t' : TaskState σ), g.tasks[i]? = some t → Counted t' →
      (bit = true → rem t' ≤ rem t - 1) →
      (fun g' : Global σ => (∀ t ∈ g'.tasks, Counted t) ∧ g'.tasks.length = g.tasks.length ∧
        (∀ j, j ≠ i → g'.tasks[j]? = g.tasks[j]?) ∧
        (bit = true → ∀ t, g.tasks[i]? = some t → ∃ t', g'.tasks[i]? = some t' ∧ rem t' ≤ rem t - 1))
        ⟨best, results, g.tasks.set i t'⟩ := by
    intro best results t t' ht hc hr
    refine ⟨?_, by simp, fun j hj => by simp [List.getElem?_set_ne (Ne.symm hj)], ?_⟩
    · intro x hx
      rcases List.mem_or_eq_of_mem_set hx with hx | rfl
      · exact h x hx
      · exact hc
    · intro hb t1 ht1
      rw [ht] at ht1
      cases ht1
      exact ⟨t', by simp [(List.getElem?_eq_some_iff.1 ht).1], hr hb⟩
  unfold move
  cases ht : g.tasks[i]? with
  | none =>
    refine Sat.pure ⟨h, rfl, fun _ _ => rfl, fun _ t ht' => ?_⟩
    cases ht'
  | some t =>
    rw [← ht]
    have hg := h t (List.mem_of_getElem? ht)
    rw [ht]
    cases t with
    | ready s init rng =>
      have := set g.best g.results _ (.running (startLoc s init g.best) rng 0 init.isSome) ht
        (by rintro l r c w ⟨⟩; exact Nat.zero_le _) (fun _ => by simp [rem])
      rw [ht] at this
      exact Sat.pure this
    | running l rng counter wasInit =>
      have hc : counter ≤ updateInterval := hg _ _ _ _ rfl
      refine Sat.bind (Sat.any _) fun r _ => ?_
      obtain ⟨l', rng', stop⟩ := r
      simp only
      have fin : ∀ best l'', (fun g' : Global σ => (∀ t ∈ g'.tasks, Counted t) ∧ g'.tasks.length = g.tasks.length ∧
        (∀ j, j ≠ i → g'.tasks[j]? = g.tasks[j]?) ∧
        (bit = true → ∀ t, g.tasks[i]? = some t → ∃ t', g'.tasks[i]? = some t' ∧ rem t' ≤ rem t - 1))
        ⟨best, g.results, g.tasks.set i (.finishing l'')⟩ := fun best l'' =>
        set best g.results _ (.finishing l'') ht (by rintro l r c w ⟨⟩) (fun _ => by simp only [rem]; omega)
      rw [ht] at fin
      split
      · exact Sat.bind (Sat.any _) fun l'' _ => Sat.pure (fin _ _)
      · split
        · split
          · exact Sat.pure (fin _ _)
          · rename_i hb
            have := set (exchange g.best l'.best).1 g.results _
              (.running { l' with best := (exchange g.best l'.best).2 } rng' 1 wasInit) ht
              (by rintro l r c w ⟨⟩; simp [updateInterval]) (fun h => absurd h hb)
            rw [ht] at this
            exact Sat.pure this
        · rename_i hne
          have := set g.best g.results _ (.running l' rng' (counter + 1) wasInit) ht
            (by rintro l r c w ⟨⟩; omega) (fun _ => by simp only [rem]; omega)
          rw [ht] at this
          exact Sat.pure this
    | finishing l =>
      simp only
      have fin : ∀ best results, (fun g' : Global σ => (∀ t ∈ g'.tasks, Counted t) ∧ g'.tasks.length = g.tasks.length ∧
        (∀ j, j ≠ i → g'.tasks[j]? = g.tasks[j]?) ∧
        (bit = true → ∀ t, g.tasks[i]? = some t → ∃ t', g'.tasks[i]? = some t' ∧ rem t' ≤ rem t - 1))
        ⟨best, results, g.tasks.set i .done⟩ := fun best results =>
        set best results _ .done ht (by rintro l r c w ⟨⟩) (fun _ => by simp [rem])
      rw [ht] at fin
      split
      · exact Sat.pure (fin _ _)
      · exact Sat.pure (fin _ _)
    | done =>
      refine Sat.pure ⟨h, rfl, fun _ _ => rfl, fun hb t1 ht1 => ?_⟩
      exact same _ ht rfl hb t1 (ht.trans ht1)

/-- Moves before the time is over. -/
theorem runMoves_counted (mode : Mode F σ) (prof : Profile) (ms : List (Nat × Bool)) : ∀ (g : Global σ),
    (∀ t ∈ g.tasks, Counted t) →
    Sat (fun g' => (∀ t ∈ g'.tasks, Counted t) ∧ g'.tasks.length = g.tasks.length) (runMoves mode prof g ms) := by
  induction ms with
  | nil => intro g h; exact Sat.pure ⟨h, rfl⟩
  | cons m ms ih =>
    intro g h
    unfold runMoves
    refine Sat.bind (move_rem mode prof g m.1 m.2 h) fun g' hg => ?_
    exact (ih g' hg.1).mono fun v hv => ⟨hv.1, hv.2.trans hg.2.1⟩

/-- Moves after the time is over. -/
theorem runMoves_rem (mode : Mode F σ) (prof : Profile) (ms : List (Nat × Bool)) (hm : ∀ m ∈ ms, m.2 = true) :
    ∀ (g : Global σ), (∀ t ∈ g.tasks, Counted t) →
    Sat (fun g' => g'.tasks.length = g.tasks.length ∧ ∀ i t, g.tasks[i]? = some t →
      ∃ t', g'.tasks[i]? = some t' ∧ rem t' ≤ rem t - (ms.map (·.1)).count i) (runMoves mode prof g ms) := by
  induction ms with
  | nil => intro g h; exact Sat.pure ⟨rfl, fun i t ht => ⟨t, ht, by simp⟩⟩
  | cons m ms ih =>
    intro g h
    unfold runMoves
    refine Sat.bind (move_rem mode prof g m.1 m.2 h) fun g' hg => ?_
    refine (ih (fun x hx => hm x (List.mem_cons_of_mem _ hx)) g' hg.1).mono fun v hv => ⟨hv.1.trans hg.2.1, ?_⟩
    intro i t ht
    by_cases hi : i = m.1
    · subst hi
      obtain ⟨t', h1, h2⟩ := hg.2.2.2 (hm m (by simp)) t ht
      obtain ⟨t'', h3, h4⟩ := hv.2 _ t' h1
      refine ⟨t'', h3, ?_⟩
      rw [List.map_cons, List.count_cons_self]
      omega
    · obtain ⟨t'', h3, h4⟩ := hv.2 i t (by rw [hg.2.2.1 i hi]; exact ht)
      refine ⟨t'', h3, ?_⟩
      rw [List.map_cons, List.count_cons_of_ne (Ne.symm hi)]
      exact h4

theorem rem_zero {t : TaskState σ} (h : Counted t) (hr : rem t = 0) : t = .done := by
  cases t with
  | done => rfl
  | ready s i r => simp [rem, updateInterval] at hr
  | running l r c w =>
    have := h _ _ _ _ rfl
    simp only [rem] at hr
    omega
  | finishing l => simp [rem] at hr

theorem runMoves_append (mode : Mode F σ) (prof : Profile) (m1 m2 : List (Nat × Bool)) : ∀ (g : Global σ),
    runMoves mode prof g (m1 ++ m2) = runMoves mode prof g m1 >>= fun g' => runMoves mode prof g' m2 := by
  induction m1 with
  | nil => intro g; rfl
  | cons m m1 ih =>
    intro g
    simp only [List.cons_append, runMoves, bind_assoc]
    congr 1
    funext g'
    exact ih g'

theorem rem_le (t : TaskState σ) : rem t ≤ updateInterval + 3 := by
  cases t <;> simp [rem]
  omega

theorem runMoves_finished (mode : Mode F σ) (prof : Profile) (m1 m2 : List (Nat × Bool))
    (hm : ∀ m ∈ m2, m.2 = true) (g : Global σ) (h : ∀ t ∈ g.tasks, Counted t)
    (hc : ∀ i, i < g.tasks.length → 1003 ≤ (m2.map (·.1)).count i) :
    Sat (fun g' => g'.finished = true) (runMoves mode prof g (m1 ++ m2)) := by
  rw [runMoves_append]
  refine Sat.bind (runMoves_counted mode prof m1 g h) fun g1 hg1 => ?_
  intro g2 hg2
  obtain ⟨h1, h2⟩ := runMoves_rem mode prof m2 hm g1 hg1.1 g2 hg2
  obtain ⟨h3, _⟩ := runMoves_counted mode prof m2 g1 hg1.1 g2 hg2
  unfold Global.finished
  rw [List.all_eq_true]
  intro t ht
  obtain ⟨i, hi, rfl⟩ := List.mem_iff_getElem.1 ht
  have hi1 : i < g1.tasks.length := by omega
  obtain ⟨t', h4, h5⟩ := h2 i g1.tasks[i] (List.getElem?_eq_getElem hi1)
  rw [List.getElem?_eq_getElem hi] at h4
  cases h4
  have h6 := hc i (by omega)
  have h7 := rem_le g1.tasks[i]
  have : g2.tasks[i] = .done := rem_zero (h3 _ ht) (by
    simp only [updateInterval] at h7
    omega)
  rw [this]

/-! ### The number of tasks -/

theorem nextAndFocus_iter (prof : Profile) (s : Scheduler Partitioner) :
    Sat (fun r => r.1.time.measurable.iter.length ≤ s.time.measurable.iter.length ∧
      ∀ v, r.2 = some v → r.1.time.measurable.iter.length + 1 = s.time.measurable.iter.length)
      (s.nextAndFocus prof) := by
  unfold Scheduler.nextAndFocus
  refine Sat.bind (I := fun r => r.1.measurable.iter.length ≤ s.time.measurable.iter.length ∧
      ∀ v, r.2 = some v → r.1.measurable.iter.length + 1 = s.time.measurable.iter.length) ?_ fun r hr => ?_
  · intro r hr
    unfold PathGenerator.nextAndFocus at hr
    cases hit : s.time.measurable.iter with
    | nil =>
      simp only [Partition.next, hit, pure, Except.pure, Except.ok.injEq] at hr
      subst hr
      simp [hit]
    | cons sub rest =>
      simp only [Partition.next, hit] at hr
      split at hr
      · simp only [pure, Except.pure, Except.ok.injEq] at hr
        subst hr
        simp
      · cases hf : PathGenerator.focusUnchecked prof { s.time with measurable := { s.time.measurable with iter := rest } }
          (Partition.split s.time.measurable.set 0 sub).2 (Partition.split s.time.measurable.set 0 sub).1 with
        | error e => simp [hf, bind, Except.bind] at hr
        | ok t' =>
          simp only [hf, bind, Except.bind, pure, Except.pure, Except.ok.injEq] at hr
          subst hr
          simp
  · obtain ⟨t', r⟩ := r
    cases r with
    | none => exact Sat.pure ⟨hr.1, by simp⟩
    | some v => exact Sat.bind (Sat.any _) fun g _ => Sat.pure ⟨hr.1, fun w _ => hr.2 v rfl⟩

theorem spawnLoop_length (prof : Profile) (tb : Int) (fuel : Nat) : ∀ (s : Scheduler Partitioner) (k : Int),
    Sat (fun r => r.1.length ≤ s.time.measurable.iter.length ∧ (k < tb → (r.1.length : Int) ≤ tb - k))
      (spawnLoop prof tb fuel s k) := by
  induction fuel with
  | zero => intro s k; exact Sat.pure ⟨by simp, fun h => by simp; omega⟩
  | succ fuel ih =>
    intro s k
    unfold spawnLoop
    refine Sat.bind (nextAndFocus_iter prof s) fun r hr => ?_
    obtain ⟨s', r⟩ := r
    cases r with
    | none => exact Sat.pure ⟨by simp, fun h => by simp; omega⟩
    | some v =>
      obtain ⟨focused, measure⟩ := v
      have h1 := hr.2 _ rfl
      simp only at h1 ⊢
      split
      · refine Sat.pure ⟨by simp; omega, fun h => by simp; omega⟩
      · rename_i hne
        refine Sat.bind (ih s' (k + 1)) fun w hw => Sat.pure ⟨?_, fun h => ?_⟩
        · simp only [List.length_cons]
          omega
        · have := hw.2 (by omega)
          simp only [List.length_cons]
          push_cast
          omega

theorem mkScheduler_iter (L : List (List Nat)) (order : OrderGraph) :
    Sat (fun s => s.time.measurable.iter.length = 2 ^ (order.headD []).length) (mkScheduler L order) := by
  unfold mkScheduler
  refine Sat.bind (I := fun t => t.measurable.iter.length = 2 ^ (order.headD []).length) ?_ fun t ht => Sat.pure ht
  intro t h
  cases order with
  | nil =>
    simp only [PathGenerator.fromDependencyGraph, pure, Except.pure, Except.ok.injEq] at h
    subst h
    exact length_powerset 0
  | cons first rest =>
    simp only [PathGenerator.fromDependencyGraph, PathGenerator.applyMapping, bind, Except.bind] at h
    cases h1 : PathGenerator.resolveFirst rest first (dependencyBufferNew L.length) with
    | error x => simp [h1] at h
    | ok look =>
      simp only [h1] at h
      cases h2 : PathGenerator.resolveRest rest look [] with
      | error x => simp [h2] at h
      | ok v =>
        simp only [h2, pure, Except.pure, Except.ok.injEq] at h
        subst h
        have := length_powerset (first.map (·.1)).length
        simpa [MeasurableSet.init, Partition.new] using this

theorem initGlobal_tasks (prof : Profile) (tb : Int) (seeds : Nat → σ) (s : Scheduler Partitioner) (n : Nat) :
    Sat (fun g => (∀ t ∈ g.tasks, ∃ s i r, t = .ready s i r) ∧
      g.tasks.length ≤ s.time.measurable.iter.length + 1 ∧ (0 < tb → (g.tasks.length : Int) ≤ tb + 1))
      (initGlobal prof tb seeds s n) := by
  unfold initGlobal spawn
  simp only [bind_assoc, pure_bind]
  refine Sat.bind (spawnLoop_length prof tb _ s 0) fun r hr => ?_
  refine Sat.pure ⟨?_, ?_, ?_⟩
  · intro t ht
    rcases List.mem_append.1 ht with ht | ht
    · obtain ⟨k, hk, rfl⟩ := List.mem_mapIdx.1 ht
      exact ⟨_, _, _, rfl⟩
    · simp only [List.mem_singleton] at ht
      exact ⟨_, _, _, ht⟩
  · simp only [List.length_append, List.length_mapIdx, List.length_singleton]
    have := hr.1
    omega
  · intro h
    have := hr.2 h
    simp only [List.length_append, List.length_mapIdx, List.length_singleton]
    push_cast
    omega

/-! ### The searches -/

theorem searchThreaded_finishes (mode : Mode F σ) (prof : Profile) (hashIter : MappedPaths → MappedPaths) (tb : Int)
    (seeds : Nat → σ) (m1 m2 : List (Nat × Bool)) (hm : ∀ m ∈ m2, m.2 = true) (L : List (List Nat))
    (order : OrderGraph)
    (hc : ∀ i : Nat, i < 2 ^ (order.headD []).length + 1 → (0 < tb → (i : Int) < tb + 1) → 1003 ≤ (m2.map (·.1)).count i) :
    Sat (fun r => r ≠ none) (searchThreaded mode prof hashIter tb seeds (m1 ++ m2) L order) := by
  unfold searchThreaded
  refine Sat.bind (mkScheduler_iter L order) fun s hs => ?_
  refine Sat.bind (initGlobal_tasks prof tb seeds s _) fun g hg => ?_
  refine Sat.bind (runMoves_finished mode prof m1 m2 hm g ?_ ?_) fun g' hg' => ?_
  · intro t ht l rng c w hr
    obtain ⟨s, i, r, rfl⟩ := hg.1 t ht
    cases hr
  · intro i hi
    refine hc i (by have := hg.2.1; rw [hs] at this; exact Nat.lt_of_lt_of_le hi this) fun h => ?_
    have := hg.2.2 h
    omega
  · rw [hg', if_pos rfl]
    exact Sat.bind (Sat.any _) fun out _ => Sat.pure (by simp)

theorem searchLoop_finishes (prof : Profile) (timer : Nat → Bool) (fuel : Nat) : ∀ (k : Nat) (l : Loc) (K : Nat),
    k ≤ K → timer K = true → K < k + fuel → Sat (fun r => r ≠ none) (searchLoop prof timer fuel k l) := by
  induction fuel with
  | zero => intro k l K h1 _ h3; omega
  | succ fuel ih =>
    intro k l K h1 h2 h3
    unfold searchLoop
    refine Sat.bind (Sat.any _) fun r _ => ?_
    obtain ⟨l', stop⟩ := r
    simp only
    split
    · exact Sat.pure (by simp)
    · split
      · exact Sat.pure (by simp)
      · rename_i hk
        have : k ≠ K := by
          rintro rfl
          exact hk h2
        exact ih (k + 1) l' K (by omega) h2 (by omega)

theorem probLoop_finishes (prof : Profile) (accept : Accept F) (gen : Rng F σ) (timer : Nat → Bool) (fuel : Nat) :
    ∀ (k : Nat) (l : Loc) (rng : σ) (K : Nat), k ≤ K → timer K = true → K < k + fuel →
    Sat (fun r => r ≠ none) (probLoop prof accept gen timer fuel k l rng) := by
  induction fuel with
  | zero => intro k l rng K h1 _ h3; omega
  | succ fuel ih =>
    intro k l rng K h1 h2 h3
    unfold probLoop
    refine Sat.bind (Sat.any _) fun r _ => ?_
    obtain ⟨l', rng', stop⟩ := r
    simp only
    split
    · exact Sat.pure (by simp)
    · split
      · exact Sat.pure (by simp)
      · rename_i hk
        have : k ≠ K := by
          rintro rfl
          exact hk h2
        exact ih (k + 1) l' rng' K (by omega) h2 (by omega)

/-- Without a refresh the answers of the timer are not looked at. -/
theorem move_quiet (mode : Mode F σ) (prof : Profile) {g : Global σ} {i : Nat} (h : Quiet g i) (b b' : Bool) :
    move mode prof g i b = move mode prof g i b' := by
  unfold move
  cases ht : g.tasks[i]? with
  | none => rfl
  | some t =>
    cases t with
    | running l rng c w =>
      have hc := h l rng c w ht
      simp only [hc, if_false]
    | ready s init rng => rfl
    | finishing l => rfl
    | done => rfl

theorem runMoves_quiet (mode : Mode F σ) (prof : Profile) (ms : List (Nat × Bool)) : ∀ (ms' : List (Nat × Bool))
    (g : Global σ), ms'.map (·.1) = ms.map (·.1) → QuietRun mode prof g ms →
    runMoves mode prof g ms = runMoves mode prof g ms' := by
  induction ms with
  | nil =>
    intro ms' g h _
    simp only [List.map_nil, List.map_eq_nil_iff] at h
    subst h
    rfl
  | cons m ms ih =>
    intro ms' g h hq
    cases ms' with
    | nil => simp at h
    | cons m' ms' =>
      simp only [List.map_cons, List.cons.injEq] at h
      unfold runMoves
      rw [h.1, ← move_quiet mode prof hq.1 m.2 m'.2]
      cases hmv : move mode prof g m.1 m.2 with
      | error e => rfl
      | ok g' => exact ih ms' g' h.2 (hq.2 g' hmv)

theorem searchThreaded_quiet (mode : Mode F σ) (prof : Profile) (hashIter : MappedPaths → MappedPaths) (tb : Int)
    (seeds : Nat → σ) (ms ms' : List (Nat × Bool)) (hm : ms'.map (·.1) = ms.map (·.1)) (L : List (List Nat))
    (order : OrderGraph) (hc : ∀ i, movesOf i ms ≤ 1001) :
    searchThreaded mode prof hashIter tb seeds ms L order = searchThreaded mode prof hashIter tb seeds ms' L order := by
  unfold searchThreaded
  congr 1
  funext s
  cases hg : initGlobal prof tb seeds s L.length with
  | error e => rfl
  | ok g =>
    simp only [bind, Except.bind]
    rw [runMoves_quiet mode prof ms ms' g hm]
    apply Few.quietRun
    intro i
    cases hi : g.tasks[i]? with
    | none => trivial
    | some t =>
      obtain ⟨s, j, r, rfl⟩ := (initGlobal_tasks prof tb seeds s _ g hg).1 t (List.mem_of_getElem? hi)
      exact hc i

end Verif.Timeout
