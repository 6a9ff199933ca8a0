import Verif.Model.Pool
import Verif.Proofs.ThreadedOpt
/-!
# Runs of a pool with a fixed number of workers
-/

namespace Verif

open Spec Search Search.Threaded

section
variable {F σ : Type} [FloatOps F] {mode : Mode F σ} {prof : Profile}

/-! ## What one move does to the list of tasks -/

/-- A move changes nothing or sets one task that had not returned. -/
theorem move_tasks {g g' : Global σ} {i : Nat} {tb : Bool} (h : move mode prof g i tb = .ok g') :
    g' = g ∨ ∃ t t' : TaskState σ, g.tasks[i]? = some t ∧ t.isDone = false ∧ g'.tasks = g.tasks.set i t' := by
  unfold move at h
  split at h
  · left; simpa [pure, Except.pure, eq_comm] using h
  · rename_i ht
    simp only [pure, Except.pure, Except.ok.injEq] at h
    subst h
    exact Or.inr ⟨_, _, ht, rfl, rfl⟩
  · rename_i loc rng counter wasInit ht
    right
    cases hm : modeIter mode prof loc rng with
    | error e => simp [hm, bind, Except.bind] at h
    | ok r =>
      obtain ⟨l', rng', stop⟩ := r
      simp only [hm, bind, Except.bind, pure, Except.pure] at h
      split at h
      · cases hf : finishLoop l' counter wasInit with
        | error e => simp [hf] at h
        | ok l'' =>
          simp only [hf, Except.ok.injEq] at h
          subst h
          exact ⟨_, _, ht, rfl, rfl⟩
      · split at h
        · split at h <;>
          · simp only [Except.ok.injEq] at h
            subst h
            exact ⟨_, _, ht, rfl, rfl⟩
        · simp only [Except.ok.injEq] at h
          subst h
          exact ⟨_, _, ht, rfl, rfl⟩
  · rename_i loc ht
    right
    split at h <;>
    · simp only [pure, Except.pure, Except.ok.injEq] at h
      subst h
      exact ⟨_, _, ht, rfl, rfl⟩
  · left; simpa [pure, Except.pure, eq_comm] using h

theorem move_elsewhere {g g' : Global σ} {i j : Nat} {tb : Bool} (h : move mode prof g i tb = .ok g') (hij : j ≠ i) :
    g'.tasks[j]? = g.tasks[j]? := by
  rcases move_tasks h with rfl | ⟨t, t', _, _, h1⟩
  · rfl
  · rw [h1, List.getElem?_set_ne (fun h => hij h.symm)]

theorem move_len {g g' : Global σ} {i : Nat} {tb : Bool} (h : move mode prof g i tb = .ok g') :
    g'.tasks.length = g.tasks.length := by
  rcases move_tasks h with rfl | ⟨t, t', _, _, h1⟩
  · rfl
  · rw [h1, List.length_set]

/-- A task that has returned, or that does not exist, does not move. -/
theorem move_idle {g : Global σ} {i : Nat} (tb : Bool) (h : ∀ t, g.tasks[i]? = some t → t.isDone = true) :
    move mode prof g i tb = .ok g := by
  unfold move
  cases ht : g.tasks[i]? with
  | none => rfl
  | some t =>
    have := h t ht
    cases t <;> simp_all [TaskState.isDone, pure, Except.pure]

theorem runMoves_cons {g g' : Global σ} {m : Nat × Bool} {ms : List (Nat × Bool)}
    (h : runMoves mode prof g (m :: ms) = .ok g') :
    ∃ g1, move mode prof g m.1 m.2 = .ok g1 ∧ runMoves mode prof g1 ms = .ok g' := by
  cases hm : move mode prof g m.1 m.2 with
  | error e => simp [runMoves, hm, bind, Except.bind] at h
  | ok g1 =>
    simp only [runMoves, hm, bind, Except.bind] at h
    exact ⟨g1, rfl, h⟩

theorem runMoves_append {g g1 : Global σ} {a b : List (Nat × Bool)} (h : runMoves mode prof g a = .ok g1) :
    runMoves mode prof g (a ++ b) = runMoves mode prof g1 b := by
  induction a generalizing g with
  | nil =>
    simp only [runMoves, pure, Except.pure, Except.ok.injEq] at h
    subst h; rfl
  | cons m a ih =>
    obtain ⟨g2, h1, h2⟩ := runMoves_cons h
    simp only [List.cons_append, runMoves, h1, bind, Except.bind]
    exact ih h2

theorem runMoves_other {ms : List (Nat × Bool)} {g g' : Global σ} {j : Nat} (h : runMoves mode prof g ms = .ok g')
    (hj : j ∉ ms.map (·.1)) : g'.tasks[j]? = g.tasks[j]? := by
  induction ms generalizing g with
  | nil =>
    simp only [runMoves, pure, Except.pure, Except.ok.injEq] at h
    subst h; rfl
  | cons m ms ih =>
    obtain ⟨g1, h1, h2⟩ := runMoves_cons h
    simp only [List.map_cons, List.mem_cons, not_or] at hj
    rw [ih h2 hj.2, move_elsewhere h1 hj.1]

theorem finished_iff {g : Global σ} :
    g.finished = true ↔ ∀ (j : Nat) (t : TaskState σ), g.tasks[j]? = some t → t.isDone = true := by
  unfold Global.finished
  rw [List.all_eq_true]
  constructor
  · intro h j t hj
    have := h t (List.mem_of_getElem? hj)
    cases t <;> simp_all [TaskState.isDone]
  · intro h t ht
    obtain ⟨j, hj⟩ := List.getElem?_of_mem ht
    have := h j t hj
    cases t <;> simp_all [TaskState.isDone]

/-- In a run that completes, a task that does not move any more has returned. -/
theorem done_of_other {ms : List (Nat × Bool)} {g g' : Global σ} {j : Nat} (h : runMoves mode prof g ms = .ok g')
    (hf : g'.finished = true) (hj : j ∉ ms.map (·.1)) {t : TaskState σ} (ht : g.tasks[j]? = some t) :
    t.isDone = true := finished_iff.1 hf j t (by rw [runMoves_other h hj, ht])

/-! ## The workers -/

theorem possible_cons {n : Nat} {g : Global σ} {m : Nat × Bool} {ms : List (Nat × Bool)}
    (h : possibleMoves mode prof n g (m :: ms) = .ok true) :
    hasWorker n g.tasks m.1 = true ∧ ∃ g1, move mode prof g m.1 m.2 = .ok g1 ∧
      possibleMoves mode prof n g1 ms = .ok true := by
  unfold possibleMoves at h
  split at h
  · rename_i hw
    cases hm : move mode prof g m.1 m.2 with
    | error e => simp [hm, bind, Except.bind] at h
    | ok g1 =>
      simp only [hm, bind, Except.bind] at h
      exact ⟨hw, g1, rfl, h⟩
  · simp [pure, Except.pure] at h

theorem possible_mono {n n' : Nat} (hn : n ≤ n') {ms : List (Nat × Bool)} {g : Global σ}
    (h : possibleMoves mode prof n g ms = .ok true) : possibleMoves mode prof n' g ms = .ok true := by
  induction ms generalizing g with
  | nil => rfl
  | cons m ms ih =>
    obtain ⟨h1, g1, h2, h3⟩ := possible_cons h
    have h1' : hasWorker n' g.tasks m.1 = true := by
      simp only [hasWorker, decide_eq_true_eq] at h1 ⊢
      omega
    simp only [possibleMoves, h1', if_true, h2, bind, Except.bind]
    exact ih h3

theorem possible_append {n : Nat} {a b : List (Nat × Bool)} {g g1 : Global σ}
    (h : possibleMoves mode prof n g a = .ok true) (hr : runMoves mode prof g a = .ok g1)
    (hb : possibleMoves mode prof n g1 b = .ok true) : possibleMoves mode prof n g (a ++ b) = .ok true := by
  induction a generalizing g with
  | nil =>
    simp only [runMoves, pure, Except.pure, Except.ok.injEq] at hr
    subst hr; exact hb
  | cons m a ih =>
    obtain ⟨h1, g2, h2, h3⟩ := possible_cons h
    obtain ⟨g2', h4, h5⟩ := runMoves_cons hr
    rw [h2] at h4
    cases h4
    simp only [List.cons_append, possibleMoves, h1, if_true, h2, bind, Except.bind]
    exact ih h3 h5

/-- One task after the other, in the order of the queue: one worker is enough. -/
theorem possible_sorted {n : Nat} (hn : 1 ≤ n) {ms : List (Nat × Bool)} {g g' : Global σ}
    (hs : (ms.map (·.1)).Pairwise (· ≤ ·)) (hr : runMoves mode prof g ms = .ok g') (hf : g'.finished = true) :
    possibleMoves mode prof n g ms = .ok true := by
  induction ms generalizing g with
  | nil => rfl
  | cons m ms ih =>
    obtain ⟨g1, h1, h2⟩ := runMoves_cons hr
    simp only [List.map_cons, List.pairwise_cons] at hs
    have hw : hasWorker n g.tasks m.1 = true := by
      have : (g.tasks.take m.1).filter (fun t => !t.isDone) = [] := by
        rw [List.filter_eq_nil_iff]
        intro t ht
        obtain ⟨j, hj⟩ := List.getElem?_of_mem ht
        rw [List.getElem?_take] at hj
        split at hj
        · rename_i hlt
          have := done_of_other hr hf (j := j) (by
            simp only [List.map_cons, List.mem_cons, not_or]
            refine ⟨by omega, fun h => ?_⟩
            have := hs.1 j h
            omega) hj
          simp [this]
        · simp at hj
      simp only [hasWorker, this, List.length_nil, decide_eq_true_eq]
      omega
    simp only [possibleMoves, hw, if_true, h1, bind, Except.bind]
    exact ih hs.2 h2

/-- The first `n` jobs of the queue have a worker at once. -/
theorem possible_first {n : Nat} {ms : List (Nat × Bool)} {g g' : Global σ} (hn : ∀ m ∈ ms, m.1 < n)
    (hr : runMoves mode prof g ms = .ok g') : possibleMoves mode prof n g ms = .ok true := by
  induction ms generalizing g with
  | nil => rfl
  | cons m ms ih =>
    obtain ⟨g1, h1, h2⟩ := runMoves_cons hr
    have hw : hasWorker n g.tasks m.1 = true := by
      have h3 := List.length_filter_le (fun t : TaskState σ => !t.isDone) (g.tasks.take m.1)
      have h4 := List.length_take_le m.1 g.tasks
      have h5 := hn m (by simp)
      simp only [hasWorker, decide_eq_true_eq]
      omega
    simp only [possibleMoves, hw, if_true, h1, bind, Except.bind]
    exact ih (fun x hx => hn x (List.mem_cons_of_mem _ hx)) h2

/-- A worker is at work on the task. -/
def atWork : TaskState σ → Bool
  | .running .. => true
  | .finishing _ => true
  | _ => false

theorem filter_length_le {α : Type} {p q : α → Bool} : ∀ (l l' : List α), l'.length ≤ l.length →
    (∀ (j : Nat) (a b : α), l[j]? = some a → l'[j]? = some b → q b = true → p a = true) →
    (l'.filter q).length ≤ (l.filter p).length
  | _, [], _, _ => by simp
  | [], b :: l', h, _ => by simp at h
  | a :: l, b :: l', h, hj => by
    have ih := filter_length_le l l' (by simpa using h) fun j a b h1 h2 => hj (j + 1) a b (by simpa using h1) (by simpa using h2)
    have h0 := hj 0 a b rfl rfl
    cases hb : q b
    · rw [List.filter_cons_of_neg (by simp [hb])]
      exact Nat.le_trans ih (by by_cases ha : p a = true <;> simp [ha])
    · rw [List.filter_cons_of_pos hb, List.filter_cons_of_pos (h0 hb)]
      simpa using ih

/-- The jobs taken so far are a beginning of the queue, and all but `n` of them have returned. -/
def Taken (n : Nat) (g : Global σ) : Prop := ∃ k, hasWorker n g.tasks k = true ∧
  ∀ (i : Nat) (t : TaskState σ), k < i → g.tasks[i]? = some t → ∃ sched init rng, t = .ready sched init rng

theorem Taken.move {n : Nat} {g g' : Global σ} (h : Taken n g) {i : Nat} {tb : Bool} (hw : hasWorker n g.tasks i = true)
    (hm : move mode prof g i tb = .ok g') : Taken n g' := by
  obtain ⟨k, h1, h2⟩ := h
  have hle : ∀ c, ((g'.tasks.take c).filter fun t => !t.isDone).length ≤ ((g.tasks.take c).filter fun t => !t.isDone).length := by
    intro c
    apply filter_length_le
    · simp [move_len hm]
    · intro j a b ha hb hd
      rw [List.getElem?_take] at ha hb
      split at ha
      · rename_i hlt
        rw [if_pos hlt] at hb
        by_cases hj : j = i
        · subst hj
          rcases move_tasks hm with rfl | ⟨t, t', e1, e2, e3⟩
          · rw [ha] at hb; cases hb; exact hd
          · rw [ha] at e1; cases e1; simpa using e2
        · rw [move_elsewhere hm hj, ha] at hb
          cases hb; exact hd
      · simp at ha
  have hcount : ∀ c, hasWorker n g.tasks c = true → hasWorker n g'.tasks c = true := by
    intro c hc
    have := hle c
    simp only [hasWorker, decide_eq_true_eq] at hc ⊢
    omega
  by_cases hik : i ≤ k
  · exact ⟨k, hcount k h1, fun j t hj ht => h2 j t hj (by rw [move_elsewhere hm (by omega)] at ht; exact ht)⟩
  · exact ⟨i, hcount i hw, fun j t hj ht => h2 j t (by omega) (by rw [move_elsewhere hm (by omega)] at ht; exact ht)⟩

theorem Taken.run {n : Nat} {ms : List (Nat × Bool)} {g g' : Global σ} (h : Taken n g)
    (hp : possibleMoves mode prof n g ms = .ok true) (hr : runMoves mode prof g ms = .ok g') : Taken n g' := by
  induction ms generalizing g with
  | nil =>
    simp only [runMoves, pure, Except.pure, Except.ok.injEq] at hr
    exact hr ▸ h
  | cons m ms ih =>
    obtain ⟨h1, g1, h2, h3⟩ := possible_cons hp
    obtain ⟨g2, h4, h5⟩ := runMoves_cons hr
    rw [h2] at h4; cases h4
    exact ih (h.move h1 h2) h3 h5

theorem Taken.at_work {n : Nat} {g : Global σ} (h : Taken n g) :
    (g.tasks.filter atWork).length ≤ n := by
  obtain ⟨k, h1, h2⟩ := h
  rw [← List.take_append_drop (k + 1) g.tasks, List.filter_append, List.length_append]
  have hd : (g.tasks.drop (k + 1)).filter atWork = [] := by
    rw [List.filter_eq_nil_iff]
    intro t ht
    obtain ⟨j, hj⟩ := List.getElem?_of_mem ht
    rw [List.getElem?_drop] at hj
    obtain ⟨a, b, c, rfl⟩ := h2 _ t (by omega) hj
    simp [atWork]
  have ht : ((g.tasks.take (k + 1)).filter atWork).length
      ≤ ((g.tasks.take k).filter fun t => !t.isDone).length + 1 := by
    rw [List.take_add_one, List.filter_append, List.length_append]
    refine Nat.add_le_add (filter_length_le _ _ (Nat.le_refl _) ?_) ?_
    · intro j a b ha hb hq
      rw [ha] at hb; cases hb
      cases a <;> simp_all [atWork, TaskState.isDone]
    · refine Nat.le_trans (List.length_filter_le _ _) ?_
      cases g.tasks[k]? <;> simp
  rw [hd, List.length_nil]
  simp only [hasWorker, decide_eq_true_eq] at h1
  omega

/-- In the order of the queue there is only one way to work. -/
theorem sorted_unique {g : Global σ} : ∀ (ms ms' : List (Nat × Bool)) (g1 g1' : Global σ),
    (ms.map (·.1)).Pairwise (· ≤ ·) → (ms'.map (·.1)).Pairwise (· ≤ ·) →
    (∀ m ∈ ms, m.2 = false) → (∀ m ∈ ms', m.2 = false) →
    runMoves mode prof g ms = .ok g1 → runMoves mode prof g ms' = .ok g1' → g1.finished = true → g1'.finished = true →
    g1 = g1' := by
  intro ms ms'
  generalize hN : ms.length + ms'.length = N
  induction N using Nat.strongRecOn generalizing g ms ms' with
  | _ N ih =>
    intro g1 g1' s1 s2 b1 b2 r1 r2 f1 f2
    -- moves of tasks that have returned can be left out
    have skip : ∀ (m : Nat × Bool) (l : List (Nat × Bool)) (h : Global σ),
        (∀ t, g.tasks[m.1]? = some t → t.isDone = true) → runMoves mode prof g (m :: l) = .ok h →
        runMoves mode prof g l = .ok h := by
      intro m l h h1 h2
      obtain ⟨g2, h3, h4⟩ := runMoves_cons h2
      rw [move_idle m.2 h1] at h3
      cases h3; exact h4
    have all : ∀ (l : List (Nat × Bool)) (h : Global σ), g.finished = true → runMoves mode prof g l = .ok h → h = g := by
      intro l h hf hr
      induction l with
      | nil => simpa [runMoves, pure, Except.pure, eq_comm] using hr
      | cons m l ih' => exact ih' (skip m l h (finished_iff.1 hf m.1) hr)
    cases ms with
    | nil =>
      simp only [runMoves, pure, Except.pure, Except.ok.injEq] at r1
      subst r1
      exact (all ms' g1' f1 r2).symm
    | cons m ms =>
      cases ms' with
      | nil =>
        simp only [runMoves, pure, Except.pure, Except.ok.injEq] at r2
        subst r2
        exact all _ g1 f2 r1
      | cons m' ms' =>
        simp only [List.length_cons] at hN
        simp only [List.map_cons, List.pairwise_cons] at s1 s2
        by_cases d1 : ∀ t, g.tasks[m.1]? = some t → t.isDone = true
        · exact ih (ms.length + (m' :: ms').length) (by simp only [List.length_cons]; omega) ms (m' :: ms') rfl g1 g1' s1.2
            (by simpa using s2) (fun x hx => b1 x (List.mem_cons_of_mem _ hx)) b2 (skip m ms g1 d1 r1) r2 f1 f2
        · by_cases d2 : ∀ t, g.tasks[m'.1]? = some t → t.isDone = true
          · exact ih ((m :: ms).length + ms'.length) (by simp only [List.length_cons]; omega) (m :: ms) ms' rfl g1 g1'
              (by simpa using s1) s2.2 b1 (fun x hx => b2 x (List.mem_cons_of_mem _ hx)) r1 (skip m' ms' g1' d2 r2) f1 f2
          · have mem : ∀ (i : Nat) (l : List (Nat × Bool)) (h : Global σ), runMoves mode prof g l = .ok h →
                h.finished = true → (¬ ∀ t, g.tasks[i]? = some t → t.isDone = true) → i ∈ l.map (·.1) := by
              intro i l h hr hf hd
              by_contra hi
              exact hd fun t ht => done_of_other hr hf hi ht
            have e1 := mem m.1 _ _ r2 f2 d1
            have e2 := mem m'.1 _ _ r1 f1 d2
            simp only [List.map_cons, List.mem_cons] at e1 e2
            have e3 : m.1 = m'.1 := by
              rcases e1 with e1 | e1
              · exact e1
              · rcases e2 with e2 | e2
                · exact e2.symm
                · have := s2.1 _ e1
                  have := s1.1 _ e2
                  omega
            have e4 : m = m' := Prod.ext e3 (by rw [b1 m (by simp), b2 m' (by simp)])
            subst e4
            obtain ⟨g2, k1, k2⟩ := runMoves_cons r1
            obtain ⟨g2', k3, k4⟩ := runMoves_cons r2
            rw [k1] at k3; cases k3
            exact ih (ms.length + ms'.length) (by omega) ms ms' rfl g1 g1' s1.2 s2.2
              (fun x hx => b1 x (List.mem_cons_of_mem _ hx)) (fun x hx => b2 x (List.mem_cons_of_mem _ hx)) k2 k4 f1 f2

/-! ## Calls of `run` -/

theorem searchThreaded_ok {hashIter : MappedPaths → MappedPaths} {tb : Int} {seeds : Nat → σ} {moves : List (Nat × Bool)}
    {L : List (List Nat)} {order : OrderGraph} {out : List Path}
    (h : searchThreaded mode prof hashIter tb seeds moves L order = .ok (some out)) :
    ∃ s g g', mkScheduler L order = .ok s ∧ initGlobal prof tb seeds s L.length = .ok g ∧
      runMoves mode prof g moves = .ok g' ∧ g'.finished = true ∧ postprocess hashIter L.length g'.results = .ok out := by
  unfold searchThreaded at h
  cases h1 : mkScheduler L order with
  | error e => simp [h1, bind, Except.bind] at h
  | ok s =>
    simp only [h1, bind, Except.bind] at h
    cases h2 : initGlobal prof tb seeds s L.length with
    | error e => simp [h2] at h
    | ok g =>
      simp only [h2] at h
      cases h3 : runMoves mode prof g moves with
      | error e => simp [h3] at h
      | ok g' =>
        simp only [h3] at h
        split at h
        · rename_i hf
          cases h4 : postprocess hashIter L.length g'.results with
          | error e => simp [h4] at h
          | ok o =>
            simp only [h4, pure, Except.pure, Except.ok.injEq, Option.some.injEq] at h
            exact ⟨s, g, g', rfl, h2, h3, hf, by rw [h4, h]⟩
        · simp [pure, Except.pure] at h

/-- First anything by the first `nthreads` tasks, then one task after the other in the order of the queue: a pool can do
that. -/
theorem possible_of_run {env : Env F σ} {args : Args F} {L : List (List Nat)} {order : OrderGraph} {out : List Path}
    {a b : List (Nat × Bool)} (hm : env.moves = a ++ b) (ha : ∀ m ∈ a, m.1 < args.nthreads)
    (hb : (b.map (·.1)).Pairwise (· ≤ ·)) (h : run env L order args = .ok (some out)) :
    possible env L order args = .ok true := by
  unfold possible
  split
  · rfl
  · rename_i hn
    simp only [Bool.or_eq_true, Bool.not_eq_true', decide_eq_true_eq, not_or, Bool.not_eq_false, Nat.not_lt] at hn
    have key : ∀ (mode : Mode F σ) (tb : Int) (seeds : Nat → σ),
        searchThreaded mode env.prof env.hashIter tb seeds (env.moves.map fun m => (m.1, args.timeout.isSome && m.2)) L order =
          .ok (some out) →
        possibleThreaded mode env.prof args.nthreads tb seeds (env.moves.map fun m => (m.1, args.timeout.isSome && m.2)) L
          order = .ok true := by
      intro mode tb seeds hr
      obtain ⟨s, g, g', h1, h2, h3, h4, _⟩ := searchThreaded_ok hr
      simp only [possibleThreaded, h1, h2, bind, Except.bind]
      rw [hm, List.map_append] at h3 ⊢
      cases h5 : runMoves mode env.prof g (a.map fun m => (m.1, args.timeout.isSome && m.2)) with
      | error e =>
        exfalso
        have : ∀ (l l' : List (Nat × Bool)) (g : Global σ), runMoves mode env.prof g l = .error e →
            runMoves mode env.prof g (l ++ l') = .error e := by
          intro l l'
          induction l with
          | nil => intro g h; simp [runMoves, pure, Except.pure] at h
          | cons m l ih =>
            intro g h
            cases hm : move mode env.prof g m.1 m.2 with
            | error e' =>
              simp only [runMoves, hm, bind, Except.bind, List.cons_append] at h ⊢
              exact h
            | ok g1 =>
              simp only [runMoves, hm, bind, Except.bind, List.cons_append] at h ⊢
              exact ih g1 h
        rw [this _ _ _ h5] at h3
        simp at h3
      | ok g1 =>
        rw [runMoves_append h5] at h3
        refine possible_append (possible_first ?_ h5) h5 (possible_sorted (by omega) ?_ h3 h4)
        · intro m hm
          obtain ⟨x, hx, rfl⟩ := List.mem_map.1 hm
          exact ha x hx
        · simpa [List.map_map, Function.comp_def] using hb
    rw [run, hn.1, Bool.not_true, if_neg (by simp), Verif.search.eq_def, if_neg (by omega)] at h
    cases hp : args.probabilistic with
    | none => rw [hp] at h; exact key _ _ _ h
    | some x => rw [hp] at h; exact key _ _ _ h

/-- The number of workers does not matter for what a run with given moves returns. -/
theorem run_workers {env : Env F σ} {args : Args F} {L : List (List Nat)} {order : OrderGraph} (hn : 2 ≤ args.nthreads)
    {n : Nat} (hn' : 2 ≤ n) : run env L order { args with nthreads := n } = run env L order args := by
  simp only [run, search, if_neg (by omega : ¬ args.nthreads < 2), if_neg (by omega : ¬ n < 2)]

/-- What a pool can do, a larger pool can do. -/
theorem possible_workers {env : Env F σ} {args : Args F} {L : List (List Nat)} {order : OrderGraph} {n : Nat}
    (h2 : 2 ≤ args.nthreads) (hn : args.nthreads ≤ n) (h : possible env L order args = .ok true) :
    possible env L order { args with nthreads := n } = .ok true := by
  unfold possible at h ⊢
  simp only at h ⊢
  split
  · rfl
  · rename_i hc
    simp only [Bool.or_eq_true, Bool.not_eq_true', decide_eq_true_eq, not_or, Bool.not_eq_false, Nat.not_lt] at hc
    have key : ∀ (mode : Mode F σ) (tb : Int) (seeds : Nat → σ) (moves : List (Nat × Bool)) (k : Nat),
        k ≤ n → possibleThreaded mode env.prof k tb seeds moves L order = .ok true →
        possibleThreaded mode env.prof n tb seeds moves L order = .ok true := by
      intro mode tb seeds moves k hk hp
      unfold possibleThreaded at hp ⊢
      cases h1 : mkScheduler L order with
      | error e => simp [h1, bind, Except.bind] at hp
      | ok s =>
        simp only [h1, bind, Except.bind] at hp ⊢
        cases h2 : initGlobal env.prof tb seeds s L.length with
        | error e => simp [h2] at hp
        | ok g =>
          simp only [h2] at hp ⊢
          exact possible_mono hk hp
    rw [if_neg (by simp [hc.1]; omega)] at h
    cases hp : args.probabilistic with
    | none => rw [hp] at h; exact key _ _ _ _ _ hn h
    | some x => rw [hp] at h; exact key _ _ _ _ _ hn h


/-- A search with a pool, for all moves. -/
theorem run_pool {env : Env F σ} {args : Args F} {L : List (List Nat)} {order : OrderGraph} (hs : args.doSearch = true)
    (hn : 2 ≤ args.nthreads) : ∃ (mode : Mode F σ) (tb : Int) (seeds : Nat → σ),
    (args.probabilistic = none → mode = .det) ∧
    (∀ (moves : List (Nat × Bool)) (fuel : Nat), run { env with moves, fuel } L order args =
      searchThreaded mode env.prof env.hashIter tb seeds (moves.map fun m => (m.1, args.timeout.isSome && m.2)) L order) ∧
    ∀ moves : List (Nat × Bool), possible { env with moves } L order args =
      possibleThreaded mode env.prof args.nthreads tb seeds (moves.map fun m => (m.1, args.timeout.isSome && m.2)) L
        order := by
  have hn' : ¬ args.nthreads < 2 := by omega
  cases hp : args.probabilistic with
  | none =>
    refine ⟨.det, (args.taskBound.map fun b => (b : Int)).getD 100000, env.taskRng none, fun _ => rfl, ?_, ?_⟩
    · intro moves fuel
      simp [run, search, hs, hp, hn']
      rfl
    · intro moves
      simp [possible, hs, hp, hn']
      rfl
  | some x =>
    refine ⟨.prob x.1 env.gen, (args.taskBound.map fun b => (b : Int)).getD 100000, env.taskRng x.2, by simp, ?_, ?_⟩
    · intro moves fuel
      simp [run, search, hs, hp, hn']
      rfl
    · intro moves
      simp [possible, hs, hp, hn']
      rfl

theorem possible_runs {n : Nat} {ms : List (Nat × Bool)} {g : Global σ} (h : possibleMoves mode prof n g ms = .ok true) :
    ∃ g', runMoves mode prof g ms = .ok g' := by
  induction ms generalizing g with
  | nil => exact ⟨g, rfl⟩
  | cons m ms ih =>
    obtain ⟨_, g1, h1, h2⟩ := possible_cons h
    obtain ⟨g', h3⟩ := ih h2
    exact ⟨g', by simp [runMoves, h1, h3, bind, Except.bind]⟩

/-- If the workers can begin in a way that can be completed in the order of the tasks, then they can do that. -/
theorem possible_extend {env : Env F σ} {args : Args F} {L : List (List Nat)} {order : OrderGraph} {out : List Path}
    {more : List (Nat × Bool)} (hs : args.doSearch = true) (hn : 2 ≤ args.nthreads)
    (hp : possible env L order args = .ok true) (hb : (more.map (·.1)).Pairwise (· ≤ ·))
    (h : run { env with moves := env.moves ++ more } L order args = .ok (some out)) :
    possible { env with moves := env.moves ++ more } L order args = .ok true := by
  obtain ⟨mode, tb, seeds, _, h1, h2⟩ := run_pool (env := env) (L := L) (order := order) hs hn
  rw [h2]
  have hp' := (h2 env.moves).symm.trans hp
  have h' := (h1 (env.moves ++ more) env.fuel).symm.trans h
  rw [List.map_append] at h' ⊢
  obtain ⟨s, g, g', e1, e2, e3, e4, _⟩ := searchThreaded_ok h'
  simp only [possibleThreaded, e1, e2, bind, Except.bind] at hp' ⊢
  obtain ⟨g1, e5⟩ := possible_runs hp'
  refine possible_append hp' e5 (possible_sorted (by omega) ?_ ((runMoves_append e5).symm.trans e3) e4)
  simpa [List.map_map, Function.comp_def] using hb

theorem initGlobal_ready {tb : Int} {seeds : Nat → σ} {s : Scheduler Partitioner} {k : Nat} {g : Global σ}
    (h : initGlobal prof tb seeds s k = .ok g) : ∀ t ∈ g.tasks, ∃ sched init rng, t = .ready sched init rng := by
  unfold initGlobal at h
  unfold spawn at h
  cases hsp : spawnLoop prof tb (s.time.measurable.iter.length + 1) s 0 with
  | error e => simp [hsp, bind, Except.bind] at h
  | ok x =>
    simp only [hsp, bind, Except.bind, pure, Except.pure, Except.ok.injEq] at h
    subst h
    intro t ht
    simp only [List.mem_append, List.mem_singleton, List.mem_mapIdx] at ht
    rcases ht with ⟨_, _, rfl⟩ | rfl
    · exact ⟨_, _, _, rfl⟩
    · exact ⟨_, _, _, rfl⟩

theorem taken_init {n : Nat} (hn : 1 ≤ n) {g : Global σ} (h : ∀ t ∈ g.tasks, ∃ sched init rng, t = TaskState.ready sched init rng) :
    Taken n g := by
  refine ⟨0, by simp only [hasWorker, List.take_zero, List.filter_nil, List.length_nil]; exact decide_eq_true (by omega), fun i t _ ht => h t (List.mem_of_getElem? ht)⟩

theorem Taken.started {n : Nat} {g : Global σ} (h : Taken n g) {i : Nat} {t : TaskState σ} (ht : g.tasks[i]? = some t)
    (hst : ∀ sched init rng, t ≠ .ready sched init rng) :
    ((g.tasks.take i).filter fun t => !t.isDone).length < n := by
  obtain ⟨k, h1, h2⟩ := h
  simp only [hasWorker, decide_eq_true_eq] at h1
  have hik : i ≤ k := by
    rcases Nat.lt_or_ge k i with h3 | h3
    · obtain ⟨a, b, c, h4⟩ := h2 i t h3 ht
      exact absurd h4 (hst a b c)
    · exact h3
  refine Nat.lt_of_le_of_lt ?_ h1
  refine List.Sublist.length_le (List.Sublist.filter _ ?_)
  exact List.take_sublist_take_left hik

end

end Verif
