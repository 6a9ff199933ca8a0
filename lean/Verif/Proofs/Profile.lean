import Verif.Model.Interface
/-!
# Debug and release builds on arbitrary inputs

Whatever a debug build returns, a release build returns too.
-/

namespace Verif.Refine

open Search Search.Threaded

/-- If `x` returns a value, so does `y`. -/
def Le {α : Type} (x y : R α) : Prop := ∀ v, x = .ok v → y = .ok v

namespace Le

variable {α β : Type}

theorem rfl {x : R α} : Le x x := fun _ h => h

theorem bind {x y : R α} {f g : α → R β} (h : Le x y) (hf : ∀ v, Le (f v) (g v)) : Le (x >>= f) (y >>= g) := by
  intro w hw
  cases x with
  | error e => simp [Bind.bind, Except.bind] at hw
  | ok v =>
    rw [h v _root_.rfl]
    exact hf v w hw

theorem error {e : Panic} {y : R α} : Le (.error e) y := fun v h => by cases h

end Le

theorem usizeSub_le (a b : Nat) : Le (usizeSub .debug a b) (usizeSub .release a b) := by
  unfold usizeSub
  split
  · exact Le.rfl
  · exact Le.error

/-! ### Space -/

theorem updateMemory_le (g : Graph) (len : Nat) : Le (g.updateMemory .debug len) (g.updateMemory .release len) := by
  unfold Graph.updateMemory
  exact Le.bind (usizeSub_le _ _) fun _ => Le.rfl

theorem measure_unchecked (g : Graph) (b : Nat) (g' : Graph) (h : g.measure b = .ok (g', .ok ())) :
    g.measureUnchecked b = .ok g' := by
  unfold Graph.measure at h
  unfold Graph.measureUnchecked
  cases hi : idx g.nodes b with
  | error e => simp [hi, bind, Except.bind] at h
  | ok nd =>
    simp only [hi, bind, Except.bind] at h ⊢
    split at h
    · simp only [pure, Except.pure] at h ⊢
      split at h
      · simp at h
      · simp only [Except.ok.injEq, Prod.mk.injEq, and_true] at h
        subst h
        assumption
    · simp only [pure, Except.pure] at h ⊢
      split at h
      · simp at h
      · simp only [Except.ok.injEq, Prod.mk.injEq, and_true] at h
        subst h
        assumption
    · simp [pure, Except.pure] at h

theorem measureAll_unchecked (ms : List Nat) : ∀ (g g' : Graph), g.measureAll ms = .ok (g', .ok ()) →
    g.measureAllUnchecked ms = .ok g' := by
  induction ms with
  | nil =>
    intro g g' h
    simp only [Graph.measureAll, pure, Except.pure, Except.ok.injEq, Prod.mk.injEq, and_true] at h
    subst h
    rfl
  | cons b ms ih =>
    intro g g' h
    unfold Graph.measureAll at h
    unfold Graph.measureAllUnchecked
    cases hm : g.measure b with
    | error e => simp [hm, bind, Except.bind] at h
    | ok v =>
      obtain ⟨g1, r⟩ := v
      cases r with
      | error e => simp [hm, bind, Except.bind, pure, Except.pure] at h
      | ok u =>
        simp only [hm, bind, Except.bind] at h
        simp only [measure_unchecked g b g1 hm, bind, Except.bind]
        exact ih g1 g' h

theorem focusInplace_unchecked (g g' : Graph) (ms : List Nat) (h : g.focusInplace .debug ms = .ok (g', .ok ())) :
    g.focusUnchecked .release ms = .ok g' := by
  unfold Graph.focusInplace at h
  unfold Graph.focusUnchecked
  cases hm : g.measureAll ms with
  | error e => simp [hm, bind, Except.bind] at h
  | ok v =>
    obtain ⟨g1, r⟩ := v
    cases r with
    | error e => simp [hm, bind, Except.bind, pure, Except.pure] at h
    | ok u =>
      simp only [hm, bind, Except.bind] at h
      simp only [measureAll_unchecked ms g g1 hm, bind, Except.bind]
      cases hu : g1.updateMemory .debug ms.length with
      | error e => simp [hu] at h
      | ok g2 =>
        simp only [hu, pure, Except.pure, Except.ok.injEq, Prod.mk.injEq, and_true] at h
        subst h
        exact updateMemory_le g1 ms.length _ hu

theorem focusSpace_le (g : Graph) (ms : List Nat) :
    Le (Scheduler.focusSpace .debug g ms) (Scheduler.focusSpace .release g ms) := by
  intro g' h
  unfold Scheduler.focusSpace Graph.focus at h
  cases hm : g.focusInplace .debug ms with
  | error e => simp [hm, bind, Except.bind] at h
  | ok v =>
    obtain ⟨g1, r⟩ := v
    cases r with
    | error e => simp [hm, bind, Except.bind, pure, Except.pure] at h
    | ok u =>
      simp only [hm, bind, Except.bind, pure, Except.pure, Except.ok.injEq] at h
      subst h
      exact focusInplace_unchecked g g1 ms hm

/-! ### Time -/

theorem updateDependents_le (bits : List Nat) : ∀ (deps : AMap Nat) (new : List Nat),
    Le (PathGenerator.updateDependents .debug bits deps new) (PathGenerator.updateDependents .release bits deps new) := by
  induction bits with
  | nil => intro deps new; exact Le.rfl
  | cons b bits ih =>
    intro deps new
    unfold PathGenerator.updateDependents
    split
    · exact Le.rfl
    · refine Le.bind (usizeSub_le _ _) fun c => ?_
      split
      · exact ih _ _
      · exact ih _ _

theorem updateUnchecked_le (look : Dependents) (ms : List Nat) : ∀ (deps : AMap Nat) (new : List Nat),
    Le (PathGenerator.updateUnchecked .debug look ms deps new)
      (PathGenerator.updateUnchecked .release look ms deps new) := by
  induction ms with
  | nil => intro deps new; exact Le.rfl
  | cons b bits ih =>
    intro deps new
    unfold PathGenerator.updateUnchecked
    refine Le.bind Le.rfl fun l => ?_
    exact Le.bind (updateDependents_le _ _ _) fun r => ih _ _

theorem capacityCheck_le (a b : Nat) :
    Le (PathGenerator.capacityCheck .debug a b) (PathGenerator.capacityCheck .release a b) := by
  unfold PathGenerator.capacityCheck
  split
  · exact Le.rfl
  · exact Le.error

section
variable {T : Type} [MeasurableSet T]

theorem partition_le (g : PathGenerator T) (ms : List Nat) : Le (g.partition .debug ms) (g.partition .release ms) := by
  unfold PathGenerator.partition
  exact Le.bind (capacityCheck_le _ _) fun _ => Le.rfl

theorem time_focusUnchecked_le (g : PathGenerator T) (ms new : List Nat) :
    Le (g.focusUnchecked .debug ms new) (g.focusUnchecked .release ms new) := by
  unfold PathGenerator.focusUnchecked
  exact Le.bind (updateUnchecked_le _ _ _ _) fun _ => Le.rfl

theorem time_focusInplace_le (g : PathGenerator T) (ms : List Nat) :
    Le (g.focusInplace .debug ms) (g.focusInplace .release ms) := by
  unfold PathGenerator.focusInplace
  refine Le.bind (partition_le g ms) fun r => ?_
  cases r with
  | error e => exact Le.rfl
  | ok new => exact Le.bind (updateUnchecked_le _ _ _ _) fun _ => Le.rfl

end

theorem time_nextAndFocus_le (g : PathGenerator Partitioner) :
    Le (g.nextAndFocus .debug) (g.nextAndFocus .release) := by
  unfold PathGenerator.nextAndFocus
  split
  · exact Le.rfl
  · simp only
    split
    · exact Le.rfl
    · exact Le.bind (time_focusUnchecked_le _ _ _) fun _ => Le.rfl

/-! ### Schedulers and searches -/

theorem nextAndFocus_le (s : Scheduler Partitioner) : Le (s.nextAndFocus .debug) (s.nextAndFocus .release) := by
  unfold Scheduler.nextAndFocus
  refine Le.bind (time_nextAndFocus_le _) fun r => ?_
  obtain ⟨t', r⟩ := r
  cases r with
  | none => exact Le.rfl
  | some v => exact Le.bind (focusSpace_le _ _) fun _ => Le.rfl

theorem next_le (sw : Sweep (Scheduler Partitioner)) :
    Le (sw.next (Scheduler.focusIter .debug)) (sw.next (Scheduler.focusIter .release)) := by
  unfold Sweep.next
  exact Le.bind (nextAndFocus_le _) fun _ => Le.rfl

theorem searchIter_le (l : Loc) : Le (searchIter .debug l) (searchIter .release l) := by
  unfold searchIter
  exact Le.bind (next_le _) fun _ => Le.rfl

theorem searchLoop_le (timer : Nat → Bool) (fuel : Nat) : ∀ (k : Nat) (l : Loc),
    Le (searchLoop .debug timer fuel k l) (searchLoop .release timer fuel k l) := by
  induction fuel with
  | zero => intro k l; exact Le.rfl
  | succ fuel ih =>
    intro k l
    unfold searchLoop
    refine Le.bind (searchIter_le l) fun r => ?_
    obtain ⟨l', stop⟩ := r
    simp only
    split
    · exact Le.rfl
    · split
      · exact Le.rfl
      · exact ih _ _

variable {F σ : Type} [FloatOps F]

theorem probIter_le (accept : Accept F) (gen : Rng F σ) (l : Loc) (rng : σ) :
    Le (probIter .debug accept gen l rng) (probIter .release accept gen l rng) := by
  unfold probIter
  exact Le.bind (next_le _) fun _ => Le.rfl

theorem probLoop_le (accept : Accept F) (gen : Rng F σ) (timer : Nat → Bool) (fuel : Nat) : ∀ (k : Nat) (l : Loc)
    (rng : σ), Le (probLoop .debug accept gen timer fuel k l rng) (probLoop .release accept gen timer fuel k l rng) := by
  induction fuel with
  | zero => intro k l rng; exact Le.rfl
  | succ fuel ih =>
    intro k l rng
    unfold probLoop
    refine Le.bind (probIter_le accept gen l rng) fun r => ?_
    obtain ⟨l', rng', stop⟩ := r
    simp only
    split
    · exact Le.rfl
    · split
      · exact Le.rfl
      · exact ih _ _ _

theorem modeIter_le (mode : Mode F σ) (l : Loc) (rng : σ) :
    Le (modeIter mode .debug l rng) (modeIter mode .release l rng) := by
  cases mode with
  | det => exact Le.bind (searchIter_le l) fun _ => Le.rfl
  | prob accept gen => exact probIter_le accept gen l rng

theorem move_le (mode : Mode F σ) (g : Global σ) (i : Nat) (bit : Bool) :
    Le (move mode .debug g i bit) (move mode .release g i bit) := by
  unfold move
  split
  · exact Le.rfl
  · exact Le.rfl
  · exact Le.bind (modeIter_le mode _ _) fun _ => Le.rfl
  · exact Le.rfl
  · exact Le.rfl

theorem runMoves_le (mode : Mode F σ) (ms : List (Nat × Bool)) : ∀ (g : Global σ),
    Le (runMoves mode .debug g ms) (runMoves mode .release g ms) := by
  induction ms with
  | nil => intro g; exact Le.rfl
  | cons m ms ih =>
    intro g
    unfold runMoves
    exact Le.bind (move_le mode g m.1 m.2) fun g' => ih g'

theorem spawnLoop_le (taskBound : Int) (fuel : Nat) : ∀ (s : Scheduler Partitioner) (k : Int),
    Le (spawnLoop .debug taskBound fuel s k) (spawnLoop .release taskBound fuel s k) := by
  induction fuel with
  | zero => intro s k; exact Le.rfl
  | succ fuel ih =>
    intro s k
    unfold spawnLoop
    refine Le.bind (nextAndFocus_le s) fun r => ?_
    obtain ⟨s', r⟩ := r
    cases r with
    | none => exact Le.rfl
    | some v =>
      simp only
      split
      · exact Le.rfl
      · exact Le.bind (ih _ _) fun _ => Le.rfl

theorem searchThreaded_le (mode : Mode F σ) (hashIter : MappedPaths → MappedPaths) (tb : Int) (seeds : Nat → σ)
    (moves : List (Nat × Bool)) (L : List (List Nat)) (order : OrderGraph) :
    Le (searchThreaded mode .debug hashIter tb seeds moves L order)
      (searchThreaded mode .release hashIter tb seeds moves L order) := by
  unfold searchThreaded
  refine Le.bind Le.rfl fun s => ?_
  refine Le.bind ?_ fun g => Le.bind (runMoves_le mode moves g) fun _ => Le.rfl
  unfold initGlobal spawn
  simp only [bind_assoc]
  exact Le.bind (spawnLoop_le tb _ s 0) fun _ => Le.rfl

theorem scheduler_focusInplace_le {T : Type} [MeasurableSet T] (s : Scheduler T) (ms : List Nat) (s' : Scheduler T)
    (h : s.focusInplace .debug ms = .ok (s', .ok ())) : s.focusInplace .release ms = .ok (s', .ok ()) := by
  unfold Scheduler.focusInplace at h ⊢
  cases ht : s.time.focusInplace .debug ms with
  | error e => simp [ht, bind, Except.bind] at h
  | ok v =>
    obtain ⟨t', r⟩ := v
    simp only [time_focusInplace_le _ _ _ ht, bind, Except.bind]
    simp only [ht, bind, Except.bind] at h
    cases r with
    | error e => simp [pure, Except.pure] at h
    | ok u =>
      simp only at h ⊢
      cases hm : s.space.focusInplace .debug ms with
      | error e => simp [hm] at h
      | ok w =>
        obtain ⟨g', r⟩ := w
        cases r with
        | error e => simp [hm, pure, Except.pure] at h
        | ok u =>
          simp only [hm, pure, Except.pure] at h
          simp only [focusInplace_unchecked _ _ _ hm, pure, Except.pure]
          exact h

theorem timeOptimalLoop_le (fuel : Nat) : ∀ (s : Scheduler (List Nat)) (p : Steps) (m : Nat),
    Le (timeOptimalLoop .debug fuel s p m) (timeOptimalLoop .release fuel s p m) := by
  induction fuel with
  | zero => intro s p m; exact Le.rfl
  | succ fuel ih =>
    intro s p m r h
    unfold timeOptimalLoop at h ⊢
    split at h
    · rename_i he
      rw [if_pos he]
      exact h
    · rename_i he
      rw [if_neg he]
      cases hm : s.focusInplace .debug s.time.measurable with
      | error e => simp [hm, bind, Except.bind] at h
      | ok v =>
        obtain ⟨s', w⟩ := v
        cases w with
        | error e => simp [hm, bind, Except.bind] at h
        | ok u =>
          simp only [scheduler_focusInplace_le _ _ _ hm, bind, Except.bind]
          simp only [hm, bind, Except.bind] at h
          exact ih _ _ _ r h

theorem run_le (env : Env F σ) (L : List (List Nat)) (order : OrderGraph) (args : Args F) :
    Le (run { env with prof := .debug } L order args) (run { env with prof := .release } L order args) := by
  unfold run
  simp only
  split
  · unfold getTimeOptimal
    exact Le.bind Le.rfl fun t => Le.bind (timeOptimalLoop_le _ _ _ _) fun _ => Le.rfl
  · unfold search
    simp only
    split
    · split
      · exact Le.bind Le.rfl fun s => Le.bind (probLoop_le _ _ _ _ _ _ _) fun _ => Le.rfl
      · exact Le.bind Le.rfl fun s => Le.bind (searchLoop_le _ _ _ _) fun _ => Le.rfl
    · split
      · exact searchThreaded_le _ _ _ _ _ _ _
      · exact searchThreaded_le _ _ _ _ _ _ _

end Verif.Refine
