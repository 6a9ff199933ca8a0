import Verif.Model.Callback
import Verif.Proofs.Trace
/-!
# Accept functions with a state: a path costs calls

`rk` counts the calls: every call that returns raises it. A task appends a step to its path only after a call, except for the
first step of a task of the thread pool.
-/

namespace Verif.Callbacks

open Search Search.Threaded Trace

section

variable {F σ ω : Type} [FloatOps F] {cb : Callback F ω} {gen : Rng F σ} {rk : ω → Nat} {r0 k c : Nat}

/-- Every call that returns raises `rk`, up to at most `k`. -/
def Counts (cb : Callback F ω) (rk : ω → Nat) (k : Nat) : Prop :=
  ∀ a b d e f g h w x w', cb a b d e f g h w = .ok (x, w') → rk w < rk w' ∧ rk w' ≤ k

/-- All paths have at most `N - r0` steps. -/
def ResLe (r0 N : Nat) (m : MappedPaths) : Prop := ∀ e ∈ m, e.1 + r0 ≤ N

/-- So has the current one. -/
def LocLe (r0 N : Nat) (l : Loc) : Prop := l.path.length + r0 ≤ N ∧ ResLe r0 N l.results

theorem ResLe.mono {N N' : Nat} (hN : N ≤ N') {m : MappedPaths} (h : ResLe r0 N m) : ResLe r0 N' m :=
  fun e he => Nat.le_trans (h e he) hN

theorem LocLe.mono {N N' : Nat} (hN : N ≤ N') {l : Loc} (h : LocLe r0 N l) : LocLe r0 N' l :=
  ⟨Nat.le_trans h.1 hN, h.2.mono hN⟩

theorem mem_erase {β : Type} {m : AMap β} {t : Nat} {e : Nat × β} : e ∈ m.erase t → e ∈ m := by
  induction m with
  | nil => simp [AMap.erase]
  | cons x m ih =>
    obtain ⟨a, v⟩ := x
    intro h
    simp only [AMap.erase] at h
    split at h
    · exact List.mem_cons_of_mem _ (ih h)
    · rcases List.mem_cons.1 h with rfl | h
      · exact List.mem_cons_self
      · exact List.mem_cons_of_mem _ (ih h)

theorem ResLe.erase {N : Nat} {m : MappedPaths} (h : ResLe r0 N m) (t : Nat) : ResLe r0 N (m.erase t) :=
  fun e he => h e (mem_erase he)

theorem ResLe.insert {N t : Nat} {m : MappedPaths} (h : ResLe r0 N m) (ht : t + r0 ≤ N) (v : Nat × Steps) :
    ResLe r0 N (m.insert t v) := by
  intro e he
  rcases List.mem_cons.1 he with rfl | he
  · exact ht
  · exact h e (mem_erase he)

theorem backward_le {N : Nat} (leaf : Option Nat) {l : Loc} (h : LocLe r0 N l) : Sat (LocLe r0 N) (backward leaf l) := by
  have hd : l.path.dropLast.length + r0 ≤ N := by
    have := h.1
    rw [List.length_dropLast]
    omega
  unfold backward
  split
  · split
    · exact Sat.pure ⟨hd, h.2.insert h.1 _⟩
    · exact Sat.error _
  · exact Sat.pure ⟨hd, h.2⟩

theorem forwardS_le (hcb : Counts cb rk k) (measure : List Nat) (lc lm : Nat) {l : Loc} {w : ω} (hw : rk w ≤ k)
    (h : LocLe r0 (rk w + c) l) (rng : σ) :
    Sat (fun r => rk w ≤ rk r.2.2.1 ∧ rk r.2.2.1 ≤ k ∧ LocLe r0 (rk r.2.2.1 + c) r.1)
      (probabilisticForwardS cb gen measure lc lm l rng w) := by
  unfold probabilisticForwardS
  refine Sat.bind (Sat.any _) fun bound _ => ?_
  split
  · split
    · exact Sat.pure ⟨Nat.le_refl _, hw, h⟩
    · exact Sat.pure ⟨Nat.le_refl _, hw, h⟩
  · split
    · exact Sat.error _
    · refine Sat.bind (I := fun r => rk w < rk r.2 ∧ rk r.2 ≤ k)
        (fun v hv => hcb _ _ _ _ _ _ _ w v.1 v.2 hv) fun v hv => ?_
      obtain ⟨x, w'⟩ := v
      simp only at hv ⊢
      have h1 : LocLe r0 (rk w' + c) l := h.mono (by omega)
      have h2 : LocLe r0 (rk w' + c) { l with path := l.path ++ [measure] } := by
        refine ⟨?_, h1.2⟩
        have := h.1
        rw [List.length_append, List.length_singleton]
        omega
      split
      · exact Sat.pure ⟨by simp only; omega, hv.2, h2⟩
      · split
        · exact Sat.pure ⟨by simp only; omega, hv.2, h2⟩
        · split
          · exact Sat.pure ⟨by simp only; omega, hv.2, h1⟩
          · exact Sat.pure ⟨by simp only; omega, hv.2, h1⟩

theorem iterS_le (hcb : Counts cb rk k) (prof : Profile) {l : Loc} {w : ω} (hw : rk w ≤ k)
    (h : LocLe r0 (rk w + c) l) (rng : σ) :
    Sat (fun r => rk w ≤ rk r.2.2.1 ∧ rk r.2.2.1 ≤ k ∧ LocLe r0 (rk r.2.2.1 + c) r.1)
      (probIterS prof cb gen l rng w) := by
  unfold probIterS
  refine Sat.bind (Sat.any _) fun v _ => ?_
  obtain ⟨sw, step⟩ := v
  cases step with
  | none => exact Sat.pure ⟨Nat.le_refl _, hw, h⟩
  | some st =>
    cases st with
    | forward m =>
      have h' : LocLe r0 (rk w + c) { l with sweep := sw } := ⟨h.1, h.2⟩
      exact forwardS_le hcb m _ _ hw h' rng
    | backward leaf =>
      have h' : LocLe r0 (rk w + c) { l with sweep := sw } := ⟨h.1, h.2⟩
      exact Sat.bind (backward_le leaf h') fun l' hl => Sat.pure ⟨Nat.le_refl _, hw, hl⟩

theorem loopS_le (hcb : Counts cb rk k) (prof : Profile) (timer : Nat → Bool) : ∀ (fuel j : Nat) (l : Loc) (rng : σ) (w : ω),
    rk w ≤ k → LocLe r0 (rk w + c) l →
    Sat (fun r => ∀ x, r = some x → ResLe r0 (k + c) x.1.results) (probLoopS prof cb gen timer fuel j l rng w) := by
  intro fuel
  induction fuel with
  | zero => intro j l rng w _ _; exact Sat.pure fun x hx => by cases hx
  | succ fuel ih =>
    intro j l rng w hw h
    unfold probLoopS
    refine Sat.bind (iterS_le hcb prof hw h rng) fun v hv => ?_
    obtain ⟨l', rng', w', stop⟩ := v
    simp only at hv ⊢
    have h1 : ResLe r0 (k + c) l'.results := hv.2.2.2.mono (by omega)
    split
    · exact Sat.pure fun x hx => by cases hx; exact h1
    · split
      · exact Sat.pure fun x hx => by cases hx; exact h1
      · exact ih _ _ _ _ hv.2.1 hv.2.2

theorem post_le {hashIter : MappedPaths → MappedPaths} (hh : ∀ m, (hashIter m).Perm m) (n : Nat) {N : Nat}
    {results : MappedPaths} (hr : ResLe r0 N results) :
    Sat (fun out => ∀ p ∈ out, p.time + r0 ≤ N) (postprocess hashIter n results) := by
  intro out ho
  obtain ⟨o, h1, h2⟩ := postprocess_spec hashIter hh n results
  rw [h1] at ho
  injection ho with ho
  subst ho
  exact fun p hp => hr _ (AMap.mem_of_get ((h2.mem p).1 hp).2.1)

theorem searchProbS_le (hcb : Counts cb rk k) (prof : Profile) {hashIter : MappedPaths → MappedPaths}
    (hh : ∀ m, (hashIter m).Perm m) (rng : σ) {w : ω} (hw : rk w ≤ k) (timer : Nat → Bool) (fuel : Nat)
    (L : List (List Nat)) (o : OrderGraph) :
    Sat (fun r => ∀ out, r = some out → ∀ p ∈ out, p.time + rk w ≤ k)
      (searchProbS prof hashIter cb gen rng w timer fuel L o) := by
  unfold searchProbS
  refine Sat.bind (Sat.any _) fun s _ => ?_
  refine Sat.bind (loopS_le (r0 := rk w) (c := 0) hcb prof timer fuel 0 _ rng w hw
    ⟨by simp [Loc.init], fun e he => by simp [Loc.init] at he⟩) fun v hv => ?_
  cases v with
  | none => exact Sat.pure fun out ho => by cases ho
  | some x =>
    refine Sat.bind (post_le hh _ (hv x rfl)) fun out ho => ?_
    exact Sat.pure fun out' ho' => by cases ho'; exact ho

/-! ### Threads -/

def TaskLe (r0 N : Nat) : TaskState σ → Prop
  | .ready _ _ _ => True
  | .running l _ _ _ => LocLe r0 N l
  | .finishing l => ResLe r0 N l.results
  | .done => True

structure GlobalLe (r0 N : Nat) (g : Global σ) : Prop where
  tasks : ∀ t ∈ g.tasks, TaskLe r0 N t
  results : ResLe r0 N g.results

theorem TaskLe.mono {N N' : Nat} (hN : N ≤ N') {t : TaskState σ} (h : TaskLe r0 N t) : TaskLe r0 N' t := by
  cases t with
  | ready s i r => trivial
  | running l r n b => exact LocLe.mono hN h
  | finishing l => exact ResLe.mono hN h
  | done => trivial

theorem GlobalLe.set {N : Nat} {g : Global σ} (h : ∀ t ∈ g.tasks, TaskLe r0 N t) (i : Nat) {t : TaskState σ}
    (ht : TaskLe r0 N t) : ∀ x ∈ g.tasks.set i t, TaskLe r0 N x := by
  intro x hx
  rcases List.mem_or_eq_of_mem_set hx with hx | rfl
  · exact h x hx
  · exact ht

theorem mergeLoop_le' {N : Nat} (ss : List Nat) : ∀ (time : Nat) (ts : List Nat) (new results : MappedPaths),
    ResLe r0 N new → ResLe r0 N results → ResLe r0 N (mergeLoop time ss ts new results).2 := by
  induction ss with
  | nil => intro time ts new results _ h; simpa [mergeLoop] using h
  | cons s ss ih =>
    intro time ts new results hn h
    cases ts with
    | nil => simpa [mergeLoop] using h
    | cons t ts =>
      unfold mergeLoop
      split
      · split
        · rename_i r hget
          exact ih _ _ _ _ (hn.erase _) (h.insert (hn _ (AMap.mem_of_get hget)) _)
        · exact ih _ _ _ _ hn h
      · exact ih _ _ _ _ hn h

theorem finishLoop_le {N : Nat} {l : Loc} (h : LocLe r0 N l) (counter : Nat) (wasInit : Bool) :
    Sat (LocLe r0 N) (finishLoop l counter wasInit) := by
  unfold finishLoop
  split
  · exact backward_le _ h
  · exact Sat.pure h

theorem moveS_le (hcb : Counts cb rk k) (prof : Profile) {g : Global σ} {w : ω} (hw : rk w ≤ k) (h0 : r0 ≤ rk w)
    (h : GlobalLe r0 (rk w + 1) g) (i : Nat) (bit : Bool) :
    Sat (fun r => rk w ≤ rk r.2 ∧ rk r.2 ≤ k ∧ GlobalLe r0 (rk r.2 + 1) r.1) (moveS cb gen prof g w i bit) := by
  unfold moveS
  cases ht : g.tasks[i]? with
  | none => exact Sat.pure ⟨Nat.le_refl _, hw, h⟩
  | some t =>
    have hg := h.tasks t (List.mem_of_getElem? ht)
    cases t with
    | ready s init rng =>
      refine Sat.pure ⟨Nat.le_refl _, hw, GlobalLe.set h.tasks i ?_, h.results⟩
      refine ⟨?_, fun e he => by simp [startLoc] at he⟩
      cases init <;> simp [startLoc] <;> omega
    | running l rng counter wasInit =>
      refine Sat.bind (iterS_le hcb prof hw hg rng) fun v hv => ?_
      obtain ⟨l', rng', w', stop⟩ := v
      simp only at hv ⊢
      obtain ⟨h1, h2, h3⟩ := hv
      have ht' : ∀ t ∈ g.tasks, TaskLe r0 (rk w' + 1) t := fun t ht => (h.tasks t ht).mono (by omega)
      have hr' : ResLe r0 (rk w' + 1) g.results := h.results.mono (by omega)
      split
      · refine Sat.bind (finishLoop_le h3 counter wasInit) fun l'' hl => ?_
        exact Sat.pure ⟨h1, h2, GlobalLe.set ht' i hl.2, hr'⟩
      · split
        · split
          · exact Sat.pure ⟨h1, h2, GlobalLe.set ht' i h3.2, hr'⟩
          · exact Sat.pure ⟨h1, h2, GlobalLe.set ht' i ⟨h3.1, h3.2⟩, hr'⟩
        · exact Sat.pure ⟨h1, h2, GlobalLe.set ht' i h3, hr'⟩
    | finishing l =>
      simp only
      split
      · exact Sat.pure ⟨Nat.le_refl _, hw, GlobalLe.set h.tasks i trivial, h.results⟩
      · exact Sat.pure ⟨Nat.le_refl _, hw, GlobalLe.set h.tasks i trivial, mergeLoop_le' _ _ _ _ _ hg h.results⟩
    | done => exact Sat.pure ⟨Nat.le_refl _, hw, h⟩

theorem runMovesS_le (hcb : Counts cb rk k) (prof : Profile) (ms : List (Nat × Bool)) : ∀ (g : Global σ) (w : ω),
    rk w ≤ k → r0 ≤ rk w → GlobalLe r0 (rk w + 1) g →
    Sat (fun r => ResLe r0 (k + 1) r.1.results) (runMovesS cb gen prof g w ms) := by
  induction ms with
  | nil => intro g w hw _ h; exact Sat.pure (h.results.mono (by omega))
  | cons m ms ih =>
    intro g w hw h0 h
    unfold runMovesS
    refine Sat.bind (moveS_le hcb prof hw h0 h m.1 m.2) fun v hv => ?_
    obtain ⟨g', w'⟩ := v
    exact ih g' w' hv.2.1 (Nat.le_trans h0 hv.1) hv.2.2

theorem initGlobal_le {prof : Profile} {tb : Int} {seeds : Nat → σ} {s : Scheduler Partitioner} {n N : Nat} :
    Sat (fun g : Global σ => GlobalLe r0 N g) (initGlobal prof tb seeds s n) := by
  unfold initGlobal spawn
  simp only [bind_assoc, pure_bind]
  refine Sat.bind (Sat.any _) fun r _ => ?_
  refine Sat.pure ⟨?_, fun e he => by simp at he⟩
  intro t ht
  rcases List.mem_append.1 ht with ht | ht
  · obtain ⟨k, hk, rfl⟩ := List.mem_mapIdx.1 ht
    trivial
  · simp only [List.mem_singleton] at ht
    subst ht
    trivial

theorem searchThreadedS_le (hcb : Counts cb rk k) (prof : Profile) {hashIter : MappedPaths → MappedPaths}
    (hh : ∀ m, (hashIter m).Perm m) {w : ω} (hw : rk w ≤ k) (tb : Int) (seeds : Nat → σ) (moves : List (Nat × Bool))
    (L : List (List Nat)) (o : OrderGraph) :
    Sat (fun r => ∀ out, r = some out → ∀ p ∈ out, p.time + rk w ≤ k + 1)
      (searchThreadedS cb gen w prof hashIter tb seeds moves L o) := by
  unfold searchThreadedS
  refine Sat.bind (Sat.any _) fun s _ => ?_
  refine Sat.bind (initGlobal_le (r0 := rk w) (N := rk w + 1)) fun g hg => ?_
  refine Sat.bind (runMovesS_le (r0 := rk w) hcb prof moves g w hw (Nat.le_refl _) hg) fun v hv => ?_
  obtain ⟨g', w'⟩ := v
  simp only
  split
  · refine Sat.bind (post_le hh _ hv) fun out ho => ?_
    exact Sat.pure fun out' ho' => by cases ho'; exact ho
  · exact Sat.pure fun out ho => by cases ho

end

end Verif.Callbacks
