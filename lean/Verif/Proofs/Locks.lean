import Verif.Model.Locks
import Verif.Proofs.Threaded
/-!
# The lock protocol: mutual exclusion, progress, refinement of the atomic moves
-/

namespace Verif

open Spec Search Search.Threaded

namespace Search.Threaded

variable {F σ : Type} [FloatOps F]

/-- The phase is inside a critical section of `best_memory`. -/
def Phase.inB : Phase σ → Bool
  | .logB .. | .startB .. | .startedB .. | .updB .. | .updDoneB .. | .mergeB .. | .mergeBR ..
  | .mergedBR | .mergedB => true
  | _ => false

/-- The phase is inside a critical section of `results`. -/
def Phase.inR : Phase σ → Bool
  | .mergeBR .. | .mergedBR => true
  | _ => false

/-- The next thing the task does is acquiring `best_memory`. -/
def Phase.wantsB : Phase σ → Bool
  | .free (.ready ..) | .logged .. | .updWant .. => true
  | .free (.finishing loc) => !loc.results.isEmpty
  | _ => false

/-- The next thing the task does is acquiring `results`. -/
def Phase.wantsR : Phase σ → Bool
  | .mergeB .. => true
  | _ => false

/-- The task has returned. -/
def Phase.isDone : Phase σ → Bool
  | .free .done => true
  | _ => false

/-- The mutexes are owned by exactly the tasks that are inside the critical sections. -/
structure LockInv (f : Fine σ) : Prop where
  b : ∀ i, f.lockB = some i ↔ ∃ p, f.phases[i]? = some p ∧ p.inB = true
  r : ∀ i, f.lockR = some i ↔ ∃ p, f.phases[i]? = some p ∧ p.inR = true

/-- What an effective step does to the locks. -/
inductive LockStep (f : Fine σ) (i : Nat) (p : Phase σ) : Fine σ → Prop
  | keep {f' : Fine σ} {p' : Phase σ} (hB : p'.inB = p.inB) (hR : p'.inR = p.inR)
      (h1 : f'.phases = f.phases.set i p') (h2 : f'.lockB = f.lockB) (h3 : f'.lockR = f.lockR) :
      LockStep f i p f'
  | acqB {f' : Fine σ} {p' : Phase σ} (hw : p.wantsB = true) (h0 : f.lockB = none) (hB : p'.inB = true)
      (hR : p'.inR = p.inR)
      (h1 : f'.phases = f.phases.set i p') (h2 : f'.lockB = some i) (h3 : f'.lockR = f.lockR) :
      LockStep f i p f'
  | relB {f' : Fine σ} {p' : Phase σ} (hp : p.inB = true) (hB : p'.inB = false)
      (hR : p'.inR = p.inR)
      (h1 : f'.phases = f.phases.set i p') (h2 : f'.lockB = none) (h3 : f'.lockR = f.lockR) :
      LockStep f i p f'
  | acqR {f' : Fine σ} {p' : Phase σ} (hw : p.wantsR = true) (h0 : f.lockR = none) (hR : p'.inR = true)
      (hB : p'.inB = p.inB)
      (h1 : f'.phases = f.phases.set i p') (h2 : f'.lockR = some i) (h3 : f'.lockB = f.lockB) :
      LockStep f i p f'
  | relR {f' : Fine σ} {p' : Phase σ} (hp : p.inR = true) (hR : p'.inR = false)
      (hB : p'.inB = p.inB)
      (h1 : f'.phases = f.phases.set i p') (h2 : f'.lockR = none) (h3 : f'.lockB = f.lockB) :
      LockStep f i p f'

theorem acquireB_step {f f' : Fine σ} {i : Nat} {p p' : Phase σ}
    (h : f.acquireB i p' = some f') (hw : p.wantsB = true)
    (hB : p'.inB = true) (hR : p'.inR = p.inR) :
    LockStep f i p f' := by
  unfold Fine.acquireB at h
  split at h
  · rename_i h0
    simp only [Option.some.injEq] at h
    subst h
    exact .acqB hw h0 hB hR rfl rfl rfl
  · simp at h

theorem acquireR_step {f f' : Fine σ} {i : Nat} {p p' : Phase σ}
    (h : f.acquireR i p' = some f') (hw : p.wantsR = true)
    (hR : p'.inR = true) (hB : p'.inB = p.inB) :
    LockStep f i p f' := by
  unfold Fine.acquireR at h
  split at h
  · rename_i h0
    simp only [Option.some.injEq] at h
    subst h
    exact .acqR hw h0 hR hB rfl rfl rfl
  · simp at h

theorem fineStep_lock {mode : Mode F σ} {prof : Profile} {trace : Bool} {f f' : Fine σ} {i : Nat}
    {b : Bool} (h : fineStep mode prof trace f i b = .ok (some f')) :
    ∃ p, f.phases[i]? = some p ∧ LockStep f i p f' := by
  unfold fineStep at h
  split at h
  · simp [pure, Except.pure] at h
  · rename_i sched init rng hp
    refine ⟨_, hp, ?_⟩
    split at h <;> simp only [pure, Except.pure, Except.ok.injEq] at h
    · exact acquireB_step h rfl rfl rfl
    · exact acquireB_step h rfl rfl rfl
  · rename_i hp
    simp only [pure, Except.pure, Except.ok.injEq, Option.some.injEq] at h
    subst h
    exact ⟨_, hp, .relB rfl (p' := .logged _ _ _) rfl rfl rfl rfl rfl⟩
  · rename_i hp
    simp only [pure, Except.pure, Except.ok.injEq] at h
    exact ⟨_, hp, acquireB_step h rfl rfl rfl⟩
  · rename_i hp
    simp only [pure, Except.pure, Except.ok.injEq, Option.some.injEq] at h
    subst h
    exact ⟨_, hp, .keep (p' := .startedB _ _ _) rfl rfl rfl rfl rfl⟩
  · rename_i hp
    simp only [pure, Except.pure, Except.ok.injEq, Option.some.injEq] at h
    subst h
    exact ⟨_, hp, .relB rfl (p' := .free (.running _ _ _ _)) rfl rfl rfl rfl rfl⟩
  · rename_i loc rng counter wasInit hp
    refine ⟨_, hp, ?_⟩
    cases he : modeIter mode prof loc rng with
    | error e => simp [he, bind, Except.bind] at h
    | ok x =>
      obtain ⟨loc', rng', stop⟩ := x
      simp only [he, bind, Except.bind] at h
      cases stop with
      | true =>
        cases hf : finishLoop loc' counter wasInit with
        | error e => simp [hf] at h
        | ok l =>
          simp only [if_true, hf, pure, Except.pure, Except.ok.injEq, Option.some.injEq] at h
          subst h
          exact .keep (p' := .free (.finishing _)) rfl rfl rfl rfl rfl
      | false =>
        simp only [Bool.false_eq_true, if_false] at h
        split at h <;> simp only [pure, Except.pure, Except.ok.injEq, Option.some.injEq] at h <;>
          subst h
        · exact .keep (p' := .updWant _ _ _) rfl rfl rfl rfl rfl
        · exact .keep (p' := .free (.running loc' rng' (counter + 1) wasInit)) rfl rfl rfl rfl rfl
  · rename_i hp
    simp only [pure, Except.pure, Except.ok.injEq] at h
    exact ⟨_, hp, acquireB_step h rfl rfl rfl⟩
  · rename_i hp
    simp only [pure, Except.pure, Except.ok.injEq, Option.some.injEq] at h
    subst h
    exact ⟨_, hp, .keep (p' := .updDoneB _ _ _) rfl rfl rfl rfl rfl⟩
  · rename_i hp
    simp only [pure, Except.pure, Except.ok.injEq, Option.some.injEq] at h
    subst h
    exact ⟨_, hp, .relB rfl (p' := .updAsk _ _ _) rfl rfl rfl rfl rfl⟩
  · rename_i hp
    refine ⟨_, hp, ?_⟩
    split at h <;> simp only [pure, Except.pure, Except.ok.injEq, Option.some.injEq] at h <;> subst h
    · exact .keep (p' := .free (.finishing _)) rfl rfl rfl rfl rfl
    · exact .keep (p' := .free (.running _ _ _ _)) rfl rfl rfl rfl rfl
  · rename_i loc hp
    refine ⟨_, hp, ?_⟩
    split at h <;> simp only [pure, Except.pure, Except.ok.injEq, Option.some.injEq] at h
    · subst h
      exact .keep (p' := .free .done) rfl rfl rfl rfl rfl
    · rename_i hne
      exact acquireB_step h (by simpa [Phase.wantsB] using hne) rfl rfl
  · rename_i hp
    simp only [pure, Except.pure, Except.ok.injEq] at h
    exact ⟨_, hp, acquireR_step h rfl rfl rfl⟩
  · rename_i hp
    simp only [pure, Except.pure, Except.ok.injEq, Option.some.injEq] at h
    subst h
    exact ⟨_, hp, .keep (p' := .mergedBR) rfl rfl rfl rfl rfl⟩
  · rename_i hp
    simp only [pure, Except.pure, Except.ok.injEq, Option.some.injEq] at h
    subst h
    exact ⟨_, hp, .relR rfl (p' := .mergedB) rfl rfl rfl rfl rfl⟩
  · rename_i hp
    simp only [pure, Except.pure, Except.ok.injEq, Option.some.injEq] at h
    subst h
    exact ⟨_, hp, .relB rfl (p' := .free .done) rfl rfl rfl rfl rfl⟩
  · simp [pure, Except.pure] at h

theorem holds_set {ps : List (Phase σ)} {i : Nat} {p : Phase σ} (hp : ps[i]? = some p)
    (p' : Phase σ) (q : Phase σ → Bool) (j : Nat) :
    (∃ x, (ps.set i p')[j]? = some x ∧ q x = true) ↔
      if j = i then q p' = true else ∃ x, ps[j]? = some x ∧ q x = true := by
  have hi := (List.getElem?_eq_some_iff.1 hp).1
  by_cases h : j = i
  · subst h
    simp [hi]
  · rw [if_neg h, List.getElem?_set_ne (fun h' => h h'.symm)]

theorem wantsB_not_inB {p : Phase σ} (h : p.wantsB = true) : p.inB = false := by
  cases p <;> simp_all [Phase.wantsB, Phase.inB]

theorem wantsR_not_inR {p : Phase σ} (h : p.wantsR = true) : p.inR = false := by
  cases p <;> simp_all [Phase.wantsR, Phase.inR]

theorem LockStep.inv {f f' : Fine σ} {i : Nat} {p : Phase σ} (hp : f.phases[i]? = some p)
    (h : LockStep f i p f') (hf : LockInv f) : LockInv f' := by
  have hB := hf.b i
  have hR := hf.r i
  simp only [hp, Option.some.injEq, exists_eq_left'] at hB hR
  cases h with
  | @keep p' kB kR h1 h2 h3 =>
    constructor <;> intro j <;> rw [h1, holds_set hp]
    · rw [h2]; split
      · rename_i e; rw [e, kB]; exact hB
      · exact hf.b j
    · rw [h3]; split
      · rename_i e; rw [e, kR]; exact hR
      · exact hf.r j
  | @acqB p' hw h0 kB kR h1 h2 h3 =>
    constructor <;> intro j <;> rw [h1, holds_set hp]
    · rw [h2]; split
      · rename_i e; simp [e, kB]
      · rename_i e
        have := hf.b j
        rw [h0] at this
        simp only [reduceCtorEq, false_iff] at this
        simp only [Option.some.injEq]
        exact ⟨fun h => (e h.symm).elim, fun h => (this h).elim⟩
    · rw [h3]; split
      · rename_i e; rw [e, kR]; exact hR
      · exact hf.r j
  | @relB p' hpB kB kR h1 h2 h3 =>
    constructor <;> intro j <;> rw [h1, holds_set hp]
    · rw [h2]; split
      · simp [kB]
      · rename_i e
        have := hf.b j
        rw [hB.2 hpB] at this
        simp only [reduceCtorEq, false_iff]
        intro h
        have := this.2 h
        simp only [Option.some.injEq] at this
        exact e this.symm
    · rw [h3]; split
      · rename_i e; rw [e, kR]; exact hR
      · exact hf.r j
  | @acqR p' hw h0 kR kB h1 h2 h3 =>
    constructor <;> intro j <;> rw [h1, holds_set hp]
    · rw [h3]; split
      · rename_i e; rw [e, kB]; exact hB
      · exact hf.b j
    · rw [h2]; split
      · rename_i e; simp [e, kR]
      · rename_i e
        have := hf.r j
        rw [h0] at this
        simp only [reduceCtorEq, false_iff] at this
        simp only [Option.some.injEq]
        exact ⟨fun h => (e h.symm).elim, fun h => (this h).elim⟩
  | @relR p' hpR kR kB h1 h2 h3 =>
    constructor <;> intro j <;> rw [h1, holds_set hp]
    · rw [h3]; split
      · rename_i e; rw [e, kB]; exact hB
      · exact hf.b j
    · rw [h2]; split
      · simp [kR]
      · rename_i e
        have := hf.r j
        rw [hR.2 hpR] at this
        simp only [reduceCtorEq, false_iff]
        intro h
        have := this.2 h
        simp only [Option.some.injEq] at this
        exact e this.symm

theorem fineRun_lock {mode : Mode F σ} {prof : Profile} {trace : Bool} (steps : List (Nat × Bool)) :
    ∀ {f f' : Fine σ}, LockInv f → fineRun mode prof trace f steps = .ok f' → LockInv f' := by
  induction steps with
  | nil =>
    intro f f' h e
    simp only [fineRun, pure, Except.pure, Except.ok.injEq] at e
    exact e ▸ h
  | cons m ms ih =>
    intro f f' h e
    rw [fineRun] at e
    cases hs : fineStep mode prof trace f m.1 m.2 with
    | error x => simp [hs, bind, Except.bind] at e
    | ok r =>
      cases r with
      | none =>
        simp only [hs, bind, Except.bind] at e
        exact ih h e
      | some f1 =>
        simp only [hs, bind, Except.bind] at e
        obtain ⟨p, hp, hl⟩ := fineStep_lock hs
        exact ih (hl.inv hp h) e

/-! ## Refinement -/

/-- The atomic state a phase stands for. `bit` is what the timer is going to answer, should the task be
about to ask. -/
inductive AbsPhase (mode : Mode F σ) (bit : Bool) : Phase σ → TaskState σ → Prop
  | free {t} : AbsPhase mode bit (.free t) t
  | logB {s i r} : AbsPhase mode bit (.logB s i r) (.ready s i r)
  | logged {s i r} : AbsPhase mode bit (.logged s i r) (.ready s i r)
  | startB {s i r} : AbsPhase mode bit (.startB s i r) (.ready s i r)
  | startedB {l r w} : AbsPhase mode bit (.startedB l r w) (.running l r 0 w)
  | updWant {l0 r0 l r w} (h : ∀ prof, modeIter mode prof l0 r0 = .ok (l, r, false)) :
      AbsPhase mode bit (.updWant l r w) (.running l0 r0 updateInterval w)
  | updB {l0 r0 l r w} (h : ∀ prof, modeIter mode prof l0 r0 = .ok (l, r, false)) :
      AbsPhase mode bit (.updB l r w) (.running l0 r0 updateInterval w)
  | updDoneB {l r w} :
      AbsPhase mode bit (.updDoneB l r w) (if bit then .finishing l else .running l r 1 w)
  | updAsk {l r w} :
      AbsPhase mode bit (.updAsk l r w) (if bit then .finishing l else .running l r 1 w)
  | mergeB {l} (h : l.results.isEmpty = false) : AbsPhase mode bit (.mergeB l) (.finishing l)
  | mergeBR {l} (h : l.results.isEmpty = false) : AbsPhase mode bit (.mergeBR l) (.finishing l)
  | mergedBR : AbsPhase mode bit .mergedBR .done
  | mergedB : AbsPhase mode bit .mergedB .done

/-- The atomic pool a fine pool stands for. -/
structure Rel (mode : Mode F σ) (bits : Nat → Bool) (f : Fine σ) (g : Global σ) : Prop where
  best : f.best = g.best
  results : f.results = g.results
  len : f.phases.length = g.tasks.length
  abs : ∀ i p t, f.phases[i]? = some p → g.tasks[i]? = some t → AbsPhase mode (bits i) p t

/-- A bound on the number of effective steps a task can still make. -/
def phasePotential (P : Problem) : Phase σ → Nat
  | .free (.ready s i r) => 8 * taskPotential P (.ready s i r)
  | .logB s i r => 8 * taskPotential P (.ready s i r) - 1
  | .logged s i r => 8 * taskPotential P (.ready s i r) - 2
  | .startB s i r => 8 * taskPotential P (.ready s i r) - 3
  | .startedB l r w => 8 * taskPotential P (.running l r 0 w) + 1
  | .free (.running l r c w) => 8 * taskPotential P (.running l r c w)
  | .updWant l r w => 8 * taskPotential P (.running l r 0 w) + 4
  | .updB l r w => 8 * taskPotential P (.running l r 0 w) + 3
  | .updDoneB l r w => 8 * taskPotential P (.running l r 0 w) + 2
  | .updAsk l r w => 8 * taskPotential P (.running l r 0 w) + 1
  | .free (.finishing _) => 8
  | .mergeB _ => 7
  | .mergeBR _ => 6
  | .mergedBR => 5
  | .mergedB => 4
  | .free .done => 0

/-- Bits after the next step of task `i`: if it asks the timer, it gets `b`. -/
def ahead (bits : Nat → Bool) (f : Fine σ) (i : Nat) (b : Bool) (j : Nat) : Bool :=
  if j = i then
    match f.phases[i]? with
    | some (.updAsk ..) => b
    | _ => bits i
  else bits j

theorem Rel.task {mode : Mode F σ} {bits : Nat → Bool} {f : Fine σ} {g : Global σ}
    (h : Rel mode bits f g) {i : Nat} {p : Phase σ} (hp : f.phases[i]? = some p) :
    ∃ t, g.tasks[i]? = some t ∧ AbsPhase mode (bits i) p t := by
  have hi := (List.getElem?_eq_some_iff.1 hp).1
  have hi' : i < g.tasks.length := h.len ▸ hi
  exact ⟨g.tasks[i], by simp [hi'], h.abs i p _ hp (by simp [hi'])⟩

theorem Rel.set {mode : Mode F σ} {bits bits' : Nat → Bool} {f f' : Fine σ} {g g' : Global σ}
    (h : Rel mode bits' f g) {i : Nat} (hb : ∀ j, j ≠ i → bits' j = bits j) {p' : Phase σ} {t' : TaskState σ}
    (ha : AbsPhase mode (bits i) p' t') (h1 : f'.phases = f.phases.set i p')
    (h2 : g'.tasks = g.tasks.set i t') (h3 : f'.best = g'.best) (h4 : f'.results = g'.results) :
    Rel mode bits f' g' := by
  refine ⟨h3, h4, by simp [h1, h2, h.len], ?_⟩
  intro j p t hp ht
  rw [h1, List.getElem?_set] at hp
  rw [h2, List.getElem?_set] at ht
  by_cases hj : i = j
  · subst hj
    simp only [if_true] at hp ht
    split at hp <;> simp at hp
    split at ht <;> simp at ht
    exact hp ▸ ht ▸ ha
  · rw [if_neg hj] at hp ht
    rw [← hb j (fun e => hj e.symm)]
    exact h.abs j p t hp ht

/-- A step that stands for no move. -/
theorem Rel.stay {mode : Mode F σ} {bits bits' : Nat → Bool} {f f' : Fine σ} {g : Global σ}
    (h : Rel mode bits' f g) {i : Nat} (hb : ∀ j, j ≠ i → bits' j = bits j) {p' : Phase σ} {t : TaskState σ}
    (ht : g.tasks[i]? = some t)
    (ha : AbsPhase mode (bits i) p' t) (h1 : f'.phases = f.phases.set i p')
    (h3 : f'.best = f.best) (h4 : f'.results = f.results) :
    Rel mode bits f' g := by
  refine h.set hb ha h1 ?_ (h3.trans h.best) (h4.trans h.results)
  obtain ⟨hi, rfl⟩ := List.getElem?_eq_some_iff.1 ht
  simp

/-- What an attempt of task `i` does. -/
structure StepSpec (mode : Mode F σ) (trace : Bool) (P : Problem) (bits : Nat → Bool) (f : Fine σ)
    (g : Global σ) (i : Nat) (b : Bool) (r : Option (Fine σ)) : Prop where
  eq : ∀ prof, fineStep mode prof trace f i b = .ok r
  blocked : r = none → ∀ p, f.phases[i]? = some p →
    p.isDone = true ∨ (p.wantsB = true ∧ f.lockB ≠ none) ∨ (p.wantsR = true ∧ f.lockR ≠ none)
  step : ∀ f', r = some f' → ∃ moves g' p p', (∀ prof, runMoves mode prof g moves = .ok g') ∧
    Rel mode bits f' g' ∧ GlobalOK P g' ∧
    f.phases[i]? = some p ∧ f'.phases = f.phases.set i p' ∧
    phasePotential P p' < phasePotential P p ∧
    (∀ m ∈ moves, m.2 = ahead bits f i b m.1)

theorem runMoves_one {mode : Mode F σ} {prof : Profile} {g g' : Global σ} {i : Nat} {b : Bool}
    (h : move mode prof g i b = .ok g') : runMoves mode prof g [(i, b)] = .ok g' := by
  simp [runMoves, h, bind, Except.bind, pure, Except.pure]

theorem acquireB_none {f : Fine σ} {i : Nat} {p : Phase σ} (h : f.acquireB i p = none) :
    f.lockB ≠ none := by
  intro h0
  simp [Fine.acquireB, h0] at h

theorem acquireR_none {f : Fine σ} {i : Nat} {p : Phase σ} (h : f.acquireR i p = none) :
    f.lockR ≠ none := by
  intro h0
  simp [Fine.acquireR, h0] at h

theorem acquireB_some {f f' : Fine σ} {i : Nat} {p : Phase σ} (h : f.acquireB i p = some f') :
    f'.phases = f.phases.set i p ∧ f'.best = f.best ∧ f'.results = f.results := by
  unfold Fine.acquireB at h
  split at h <;> simp only [Option.some.injEq, reduceCtorEq] at h
  subst h
  exact ⟨rfl, rfl, rfl⟩

theorem acquireR_some {f f' : Fine σ} {i : Nat} {p : Phase σ} (h : f.acquireR i p = some f') :
    f'.phases = f.phases.set i p ∧ f'.best = f.best ∧ f'.results = f.results := by
  unfold Fine.acquireR at h
  split at h <;> simp only [Option.some.injEq, reduceCtorEq] at h
  subst h
  exact ⟨rfl, rfl, rfl⟩

theorem ahead_ne {bits : Nat → Bool} {f : Fine σ} {i : Nat} {b : Bool} {j : Nat} (h : j ≠ i) :
    ahead bits f i b j = bits j := if_neg h

/-- An attempt that acquires a lock stands for no move. -/
theorem StepSpec.acquire {mode : Mode F σ} {trace : Bool} {P : Problem} {bits : Nat → Bool}
    {f : Fine σ} {g : Global σ} {i : Nat} {b : Bool} {r : Option (Fine σ)} {p p' : Phase σ}
    {t : TaskState σ}
    (hg : GlobalOK P g) (hr : Rel mode (ahead bits f i b) f g) (hp : f.phases[i]? = some p)
    (ht : g.tasks[i]? = some t) (ha : AbsPhase mode (bits i) p' t)
    (hpot : phasePotential P p' < phasePotential P p)
    (eq : ∀ prof, fineStep mode prof trace f i b = .ok r)
    (hB : (r = f.acquireB i p' ∧ p.wantsB = true) ∨ (r = f.acquireR i p' ∧ p.wantsR = true)) :
    StepSpec mode trace P bits f g i b r := by
  refine ⟨eq, ?_, ?_⟩
  · intro h q hq
    rw [hp] at hq
    simp only [Option.some.injEq] at hq
    subst hq
    rcases hB with ⟨h1, h2⟩ | ⟨h1, h2⟩
    · exact Or.inr (Or.inl ⟨h2, acquireB_none (h1.symm.trans h)⟩)
    · exact Or.inr (Or.inr ⟨h2, acquireR_none (h1.symm.trans h)⟩)
  · intro f' h
    have h3 : f'.phases = f.phases.set i p' ∧ f'.best = f.best ∧ f'.results = f.results := by
      rcases hB with ⟨h1, _⟩ | ⟨h1, _⟩
      · exact acquireB_some (h1.symm.trans h)
      · exact acquireR_some (h1.symm.trans h)
    exact ⟨[], g, p, p', fun prof => rfl, hr.stay (fun j hj => ahead_ne hj) ht ha h3.1 h3.2.1 h3.2.2,
      hg, hp, h3.1, hpot, by simp⟩

/-- An effective step that stands for no move. -/
theorem StepSpec.silent {mode : Mode F σ} {trace : Bool} {P : Problem} {bits : Nat → Bool}
    {f f' : Fine σ} {g : Global σ} {i : Nat} {b : Bool} {p p' : Phase σ} {t : TaskState σ}
    (hg : GlobalOK P g) (hr : Rel mode (ahead bits f i b) f g) (hp : f.phases[i]? = some p)
    (ht : g.tasks[i]? = some t) (ha : AbsPhase mode (bits i) p' t)
    (hpot : phasePotential P p' < phasePotential P p)
    (eq : ∀ prof, fineStep mode prof trace f i b = .ok (some f'))
    (h1 : f'.phases = f.phases.set i p') (h2 : f'.best = f.best) (h3 : f'.results = f.results) :
    StepSpec mode trace P bits f g i b (some f') := by
  refine ⟨eq, by simp, ?_⟩
  intro f1 h
  simp only [Option.some.injEq] at h
  subst h
  exact ⟨[], g, p, p', fun prof => rfl, hr.stay (fun j hj => ahead_ne hj) ht ha h1 h2 h3,
      hg, hp, h1, hpot, by simp⟩

/-- An effective step that stands for one move. -/
theorem StepSpec.moved {mode : Mode F σ} {trace : Bool} {P : Problem} (hP : P.WF) {bits : Nat → Bool}
    {f f' : Fine σ} {g g' : Global σ} {i : Nat} {b : Bool} {p p' : Phase σ} {t' : TaskState σ}
    (hg : GlobalOK P g) (hr : Rel mode (ahead bits f i b) f g) (hp : f.phases[i]? = some p)
    (ha : AbsPhase mode (bits i) p' t')
    (hpot : phasePotential P p' < phasePotential P p)
    (eq : ∀ prof, fineStep mode prof trace f i b = .ok (some f'))
    (hm : ∀ prof, move mode prof g i (ahead bits f i b i) = .ok g')
    (h1 : f'.phases = f.phases.set i p') (h2 : g'.tasks = g.tasks.set i t')
    (h3 : f'.best = g'.best) (h4 : f'.results = g'.results) :
    StepSpec mode trace P bits f g i b (some f') := by
  refine ⟨eq, by simp, ?_⟩
  intro f1 h
  simp only [Option.some.injEq] at h
  subst h
  obtain ⟨g1, e1, e2, _⟩ := move_spec mode hP.lax hg i (ahead bits f i b i)
  have : g1 = g' := by
    have := (e1 .debug).symm.trans (hm .debug)
    simpa using this
  subst this
  exact ⟨[(i, ahead bits f i b i)], g1, p, p', fun prof => runMoves_one (e1 prof),
    hr.set (fun j hj => ahead_ne hj) ha h1 h2 h3 h4, e2, hp, h1, hpot, by simp⟩

theorem fineStep_spec (mode : Mode F σ) (trace : Bool) {P : Problem} (hP : P.WF) {f : Fine σ}
    {g : Global σ} (hg : GlobalOK P g) (bits : Nat → Bool) (i : Nat) (b : Bool)
    (hr : Rel mode (ahead bits f i b) f g) :
    ∃ r, StepSpec mode trace P bits f g i b r := by
  cases hp : f.phases[i]? with
  | none =>
    refine ⟨none, ?_, ?_, by simp⟩
    · intro prof; simp [fineStep, hp, pure, Except.pure]
    · intro _ p h; rw [hp] at h; simp at h
  | some p =>
  obtain ⟨t, ht, ha⟩ := hr.task hp
  have hok := hg.tasks t (List.mem_of_getElem? ht)
  cases p with
  | logB s i' r =>
    cases ha
    refine ⟨some { f.goto i (.logged s i' r) with lockB := none }, .silent hg hr hp ht .logged ?_ (fun prof => ?_) ?_ ?_ ?_⟩
    rotate_left
    · simp only [fineStep, hp]; rfl
    · rfl
    · rfl
    · rfl
    · simp only [phasePotential, taskPotential]; omega
  | logged s i' r =>
    cases ha
    refine ⟨_, .acquire hg hr hp ht .startB ?_ (fun prof => ?_) (Or.inl ⟨rfl, rfl⟩)⟩
    · simp only [phasePotential, taskPotential]; omega
    · simp only [fineStep, hp]; rfl
  | startB sched init rng =>
    cases ha
    cases hok with
    | ready hs hi hf =>
    refine ⟨some (f.goto i (.startedB (startLoc sched init f.best) rng init.isSome)), .moved hP hg hr hp
      (p' := .startedB (startLoc sched init g.best) rng init.isSome) .startedB ?_ (fun prof => ?_)
      (g' := ⟨g.best, g.results, g.tasks.set i (.running (startLoc sched init g.best) rng 0 init.isSome)⟩)
      (fun prof => ?_) ?_ rfl ?_ ?_⟩
    rotate_left
    · simp only [fineStep, hp]; rfl
    · simp [move, ht, pure, Except.pure]
    · simp only [Fine.goto, hr.best]
    · exact hr.best
    · exact hr.results
    · have : potential P (startLoc sched init g.best) = levelCost P (startPath init, sched) := by
        cases init <;> simp [potential, startLoc, Sweep.new, levels, startPath]
      simp only [phasePotential, taskPotential, this]; omega
  | startedB l r w =>
    cases ha
    refine ⟨some { f.goto i (.free (.running l r 0 w)) with lockB := none }, .silent hg hr hp ht .free ?_ (fun prof => ?_) ?_ ?_ ?_⟩
    rotate_left
    · simp only [fineStep, hp]; rfl
    · rfl
    · rfl
    · rfl
    · simp only [phasePotential, taskPotential]; omega
  | updWant l r w =>
    cases ha with
    | updWant h =>
    refine ⟨_, .acquire hg hr hp ht (.updB h) ?_ (fun prof => ?_) (Or.inl ⟨rfl, rfl⟩)⟩
    · simp only [phasePotential, taskPotential]; omega
    · simp only [fineStep, hp]; rfl
  | updB l r w =>
    cases ha with
    | @updB l0 r0 _ _ _ h =>
    have hbit : ahead bits f i b i = bits i := by simp [ahead, hp]
    refine ⟨some { f.goto i (.updDoneB { l with best := (exchange f.best l.best).2 } r w) with
        best := (exchange f.best l.best).1 }, .moved hP hg hr hp
      (p' := .updDoneB { l with best := (exchange g.best l.best).2 } r w)
      .updDoneB ?_ (fun prof => ?_)
      (g' := ⟨(exchange g.best l.best).1, g.results, g.tasks.set i
        (if bits i then .finishing { l with best := (exchange g.best l.best).2 }
         else .running { l with best := (exchange g.best l.best).2 } r 1 w)⟩)
      (fun prof => ?_) ?_ rfl ?_ ?_⟩
    rotate_left
    · simp only [fineStep, hp]; rfl
    · rw [hbit]
      cases bits i <;> simp [move, ht, h prof, bind, Except.bind, pure, Except.pure]
    · simp only [Fine.goto, hr.best]
    · simp only [hr.best]
    · exact hr.results
    · have : potential P { l with best := (exchange g.best l.best).2 } = potential P l := rfl
      simp only [phasePotential, taskPotential, this]; omega
  | updDoneB l r w =>
    have hbit : ahead bits f i b i = bits i := by simp [ahead, hp]
    rw [hbit] at ha
    cases ha
    refine ⟨some { f.goto i (.updAsk l r w) with lockB := none }, .silent hg hr hp ht .updAsk ?_ (fun prof => ?_) ?_ ?_ ?_⟩
    rotate_left
    · simp only [fineStep, hp]; rfl
    · rfl
    · rfl
    · rfl
    · simp only [phasePotential, taskPotential]; omega
  | updAsk l r w =>
    have hbit : ahead bits f i b i = b := by simp [ahead, hp]
    rw [hbit] at ha
    cases ha
    cases b with
    | true =>
      refine ⟨some (f.goto i (.free (.finishing l))), .silent hg hr hp ht .free ?_ (fun prof => ?_) ?_ ?_ ?_⟩
      rotate_left
      · simp only [fineStep, hp]; rfl
      · rfl
      · rfl
      · rfl
      · simp only [phasePotential, taskPotential, if_true]; omega
    | false =>
      refine ⟨some (f.goto i (.free (.running l r 1 w))), .silent hg hr hp ht .free ?_ (fun prof => ?_) ?_ ?_ ?_⟩
      rotate_left
      · simp only [fineStep, hp]; rfl
      · rfl
      · rfl
      · rfl
      · simp only [phasePotential, taskPotential, Bool.false_eq_true, if_false]; omega
  | mergeB l =>
    cases ha with
    | mergeB h =>
    refine ⟨_, .acquire hg hr hp ht (.mergeBR h) ?_ (fun prof => ?_) (Or.inr ⟨rfl, rfl⟩)⟩
    · simp only [phasePotential]; omega
    · simp only [fineStep, hp]; rfl
  | mergeBR l =>
    cases ha with
    | mergeBR h =>
    refine ⟨some { f.goto i .mergedBR with
        best := (mergeLoop 0 f.best l.best l.results f.results).1,
        results := (mergeLoop 0 f.best l.best l.results f.results).2 }, .moved hP hg hr hp .mergedBR ?_ (fun prof => ?_)
      (g' := ⟨(mergeLoop 0 g.best l.best l.results g.results).1,
          (mergeLoop 0 g.best l.best l.results g.results).2, g.tasks.set i .done⟩)
      (fun prof => ?_) ?_ rfl ?_ ?_⟩
    rotate_left
    · simp only [fineStep, hp]; rfl
    · simp [move, ht, h, pure, Except.pure]
    · rfl
    · simp only [hr.best, hr.results]
    · simp only [hr.best, hr.results]
    · simp only [phasePotential]; omega
  | mergedBR =>
    cases ha
    refine ⟨some { f.goto i .mergedB with lockR := none }, .silent hg hr hp ht .mergedB ?_ (fun prof => ?_) ?_ ?_ ?_⟩
    rotate_left
    · simp only [fineStep, hp]; rfl
    · rfl
    · rfl
    · rfl
    · simp only [phasePotential]; omega
  | mergedB =>
    cases ha
    refine ⟨some { f.goto i (.free .done) with lockB := none }, .silent hg hr hp ht .free ?_ (fun prof => ?_) ?_ ?_ ?_⟩
    rotate_left
    · simp only [fineStep, hp]; rfl
    · rfl
    · rfl
    · rfl
    · simp only [phasePotential]; omega
  | free t =>
    cases ha
    cases t with
    | ready s i' r =>
      cases trace with
      | true =>
        refine ⟨_, .acquire hg hr hp ht .logB ?_ (fun prof => ?_) (Or.inl ⟨rfl, rfl⟩)⟩
        · simp only [phasePotential, taskPotential]; omega
        · simp only [fineStep, hp]; rfl
      | false =>
        refine ⟨_, .acquire hg hr hp ht .startB ?_ (fun prof => ?_) (Or.inl ⟨rfl, rfl⟩)⟩
        · simp only [phasePotential, taskPotential]; omega
        · simp only [fineStep, hp]; rfl
    | running loc rng counter wasInit =>
      cases hok with
      | running p0 hl hres hc =>
      obtain ⟨l', rng', stop, e1, e2⟩ := modeIter_spec mode rng hP.lax hl
      cases stop with
      | true =>
        obtain ⟨⟨l'', f1, f2, f3⟩, _⟩ := finishLoop_spec hP.lax e2 hl hres hc
        refine ⟨some (f.goto i (.free (.finishing l''))), .moved hP hg hr hp .free ?_ (fun prof => ?_)
          (g' := ⟨g.best, g.results, g.tasks.set i (.finishing l'')⟩)
          (fun prof => ?_) ?_ rfl ?_ ?_⟩
        rotate_left
        · simp only [fineStep, hp, e1 prof, f1, bind, Except.bind, if_true]; rfl
        · simp [move, ht, e1 prof, f1, bind, Except.bind, pure, Except.pure]
        · rfl
        · exact hr.best
        · exact hr.results
        · have := potential_pos P loc
          simp only [phasePotential, taskPotential]; omega
      | false =>
        have hpot := e2.potential rfl
        by_cases hcu : counter = updateInterval
        · subst hcu
          refine ⟨some (f.goto i (.updWant l' rng' wasInit)), .silent hg hr hp ht (.updWant e1) ?_ (fun prof => ?_) ?_ ?_ ?_⟩
          rotate_left
          · simp only [fineStep, hp, e1 prof, bind, Except.bind, if_true, Bool.false_eq_true, if_false]
            rfl
          · rfl
          · rfl
          · rfl
          · simp only [phasePotential, taskPotential]; omega
        · refine ⟨some (f.goto i (.free (.running l' rng' (counter + 1) wasInit))), .moved hP hg hr hp
            (p' := .free (.running l' rng' (counter + 1) wasInit))
            .free ?_ (fun prof => ?_)
            (g' := ⟨g.best, g.results, g.tasks.set i (.running l' rng' (counter + 1) wasInit)⟩)
            (fun prof => ?_) ?_ rfl ?_ ?_⟩
          rotate_left
          · simp only [fineStep, hp, e1 prof, bind, Except.bind, hcu, Bool.false_eq_true, if_false]
            rfl
          · simp [move, ht, e1 prof, hcu, bind, Except.bind, pure, Except.pure]
          · rfl
          · exact hr.best
          · exact hr.results
          · simp only [phasePotential, taskPotential]; omega
    | finishing loc =>
      cases hemp : loc.results.isEmpty with
      | true =>
        refine ⟨some (f.goto i (.free .done)), .moved hP hg hr hp .free ?_ (fun prof => ?_)
          (g' := ⟨g.best, g.results, g.tasks.set i .done⟩)
          (fun prof => ?_) ?_ rfl ?_ ?_⟩
        rotate_left
        · simp only [fineStep, hp, hemp, if_true]; rfl
        · simp [move, ht, hemp, pure, Except.pure]
        · rfl
        · exact hr.best
        · exact hr.results
        · simp only [phasePotential]; omega
      | false =>
        refine ⟨_, .acquire hg hr hp ht (.mergeB hemp) ?_ (fun prof => ?_)
          (Or.inl ⟨rfl, by simp [Phase.wantsB, hemp]⟩)⟩
        · simp only [phasePotential]; omega
        · simp only [fineStep, hp, hemp, Bool.false_eq_true, if_false]; rfl
    | done =>
      refine ⟨none, ?_, ?_, by simp⟩
      · intro prof; simp [fineStep, hp, pure, Except.pure]
      · intro _ p h
        rw [hp] at h
        simp only [Option.some.injEq] at h
        subst h
        exact Or.inl rfl

theorem runMoves_append {mode : Mode F σ} {prof : Profile} (ms ms' : List (Nat × Bool)) :
    ∀ {g g' g'' : Global σ}, runMoves mode prof g ms = .ok g' → runMoves mode prof g' ms' = .ok g'' →
    runMoves mode prof g (ms ++ ms') = .ok g'' := by
  induction ms with
  | nil =>
    intro g g' g'' h1 h2
    simp only [runMoves, pure, Except.pure, Except.ok.injEq] at h1
    subst h1
    exact h2
  | cons m ms ih =>
    intro g g' g'' h1 h2
    rw [List.cons_append, runMoves]
    rw [runMoves] at h1
    cases hm : move mode prof g m.1 m.2 with
    | error e => simp [hm, bind, Except.bind] at h1
    | ok g1 =>
      simp only [hm, bind, Except.bind] at h1 ⊢
      exact ih h1 h2

/-- The pool `f` stands, for every future of the timer, for a pool that atomic moves reach. `fired`:
the timer has already fired. -/
def Simulated (mode : Mode F σ) (P : Problem) (g0 : Global σ) (fired : Bool) (f : Fine σ) : Prop :=
  ∀ bits : Nat → Bool, ∃ moves g, (∀ prof, runMoves mode prof g0 moves = .ok g) ∧
    Rel mode bits f g ∧ GlobalOK P g ∧ ∀ m ∈ moves, m.2 = true → bits m.1 = true ∨ fired = true

theorem Simulated.step {mode : Mode F σ} {P : Problem} (hP : P.WF) {g0 : Global σ} {fired : Bool}
    {f : Fine σ} (h : Simulated mode P g0 fired f) (trace : Bool) (i : Nat) (b : Bool) :
    ∃ r, (∀ prof, fineStep mode prof trace f i b = .ok r) ∧
      (r = none → ∀ p, f.phases[i]? = some p →
        p.isDone = true ∨ (p.wantsB = true ∧ f.lockB ≠ none) ∨ (p.wantsR = true ∧ f.lockR ≠ none)) ∧
      ∀ f', r = some f' → Simulated mode P g0 (fired || b) f' ∧
        ∃ p p', f.phases[i]? = some p ∧ f'.phases = f.phases.set i p' ∧
          phasePotential P p' < phasePotential P p := by
  obtain ⟨_, g, _, hr, hg, _⟩ := h (ahead (fun _ => false) f i b)
  obtain ⟨r, hs⟩ := fineStep_spec mode trace hP hg (fun _ => false) i b hr
  refine ⟨r, hs.eq, hs.blocked, ?_⟩
  intro f' hf'
  refine ⟨?_, ?_⟩
  · intro bits
    obtain ⟨ms, g, h1, h2, h3, h4⟩ := h (ahead bits f i b)
    obtain ⟨r', hs'⟩ := fineStep_spec mode trace hP h3 bits i b h2
    have : r' = r := by
      have := (hs'.eq .debug).symm.trans (hs.eq .debug)
      simpa using this
    subst this
    obtain ⟨ms', g', p, p', k1, k2, k3, _, _, _, k4⟩ := hs'.step f' hf'
    have key : ∀ j, ahead bits f i b j = true → bits j = true ∨ (fired || b) = true := by
      intro j hj
      unfold ahead at hj
      split at hj
      · rename_i e
        split at hj
        · exact Or.inr (by simp [hj])
        · exact Or.inl (e ▸ hj)
      · exact Or.inl hj
    refine ⟨ms ++ ms', g', fun prof => runMoves_append _ _ (h1 prof) (k1 prof), k2, k3, ?_⟩
    intro m hm hb
    rcases List.mem_append.1 hm with hm | hm
    · rcases h4 m hm hb with h | h
      · exact key _ h
      · exact Or.inr (by simp [h])
    · rw [k4 m hm] at hb
      exact key _ hb
  · obtain ⟨_, _, p, p', _, _, _, k1, k2, k3, _⟩ := hs.step f' hf'
    exact ⟨p, p', k1, k2, k3⟩

theorem Simulated.run {mode : Mode F σ} {P : Problem} (hP : P.WF) {g0 : Global σ} (trace : Bool)
    (steps : List (Nat × Bool)) : ∀ {fired : Bool} {f : Fine σ}, Simulated mode P g0 fired f →
    ∃ f', (∀ prof, fineRun mode prof trace f steps = .ok f') ∧
      Simulated mode P g0 (fired || steps.any (·.2)) f' := by
  induction steps with
  | nil => intro fired f h; exact ⟨f, fun prof => rfl, by simpa using h⟩
  | cons m ms ih =>
    intro fired f h
    obtain ⟨r, h1, _, h3⟩ := h.step hP trace m.1 m.2
    cases r with
    | none =>
      obtain ⟨f', k1, k2⟩ := ih h
      refine ⟨f', fun prof => by simp only [fineRun, h1 prof, bind, Except.bind]; exact k1 prof, ?_⟩
      intro bits
      obtain ⟨moves, g, j1, j2, j3, j4⟩ := k2 bits
      refine ⟨moves, g, j1, j2, j3, fun m' hm hb => ?_⟩
      rcases j4 m' hm hb with h | h
      · exact Or.inl h
      · right
        simp only [Bool.or_eq_true, List.any_cons] at h ⊢
        rcases h with h | h
        · exact Or.inl h
        · exact Or.inr (Or.inr h)
    | some f1 =>
      obtain ⟨f', k1, k2⟩ := ih (h3 f1 rfl).1
      refine ⟨f', fun prof => by simp only [fineRun, h1 prof, bind, Except.bind]; exact k1 prof, ?_⟩
      simpa [Bool.or_assoc] using k2

/-- The pool at the beginning. -/
theorem initFine_spec {P : Problem} (hP : P.WF) (mode : Mode F σ) (tb : Int) (seeds : Nat → σ)
    {s : Scheduler Partitioner} (hs : StateFor P [] s) (hf : Fresh s) :
    ∃ (f : Fine σ) (g : Global σ), (∀ prof, initFine prof tb seeds s P.n = .ok f) ∧
      (∀ prof, initGlobal prof tb seeds s P.n = .ok g) ∧
      LockInv f ∧ Simulated mode P g false f ∧ (∀ p ∈ f.phases, ∃ s i r, p = .free (.ready s i r)) := by
  obtain ⟨g, h1, h2⟩ := initGlobal_spec hP.lax tb seeds hs hf
  have hc := fun prof => initGlobal_cost hP.lax tb seeds hs hf (prof := prof) (h1 prof)
  have hsp : ∃ tasks, g = ⟨List.replicate (P.n + 1) usizeMax, [], tasks⟩ ∧
      ∀ prof, spawn prof tb seeds s = .ok tasks := by
    have : ∀ prof, ∃ tasks, g = ⟨List.replicate (P.n + 1) usizeMax, [], tasks⟩ ∧
        spawn prof tb seeds s = .ok tasks := by
      intro prof
      have := h1 prof
      rw [initGlobal] at this
      cases h : spawn prof tb seeds s with
      | error e => simp [h, bind, Except.bind] at this
      | ok tasks =>
        simp only [h, bind, Except.bind, pure, Except.pure, Except.ok.injEq] at this
        exact ⟨tasks, this.symm, rfl⟩
    obtain ⟨tasks, e1, e2⟩ := this .debug
    refine ⟨tasks, e1, fun prof => ?_⟩
    obtain ⟨tasks', e3, e4⟩ := this prof
    rw [e1] at e3
    simp only [Global.mk.injEq, true_and] at e3
    rw [e4, e3]
  obtain ⟨tasks, rfl, e2⟩ := hsp
  refine ⟨⟨List.replicate (P.n + 1) usizeMax, [], none, none, tasks.map .free⟩, _, ?_, h1, ?_, ?_, ?_⟩
  · intro prof
    simp [initFine, e2 prof, bind, Except.bind, pure, Except.pure]
  · constructor <;> intro i <;> simp only [reduceCtorEq, List.getElem?_map, Option.map_eq_some_iff, false_iff] <;>
      rintro ⟨p, ⟨t, _, rfl⟩, h⟩ <;> simp [Phase.inB, Phase.inR] at h
  · intro bits
    refine ⟨[], _, fun prof => rfl, ⟨rfl, rfl, by simp, ?_⟩, h2, by simp⟩
    intro i p t hp ht
    simp only [List.getElem?_map, Option.map_eq_some_iff] at hp
    obtain ⟨t', ht', rfl⟩ := hp
    simp only [ht', Option.some.injEq] at ht
    subst ht
    exact .free
  · intro p hp
    simp only [List.mem_map] at hp
    obtain ⟨t, ht, rfl⟩ := hp
    obtain ⟨sched, init, rng, rfl, _⟩ := hc .debug t ht
    exact ⟨sched, init, rng, rfl⟩

/-- If all tasks have returned, the atomic pool is finished with the same results. -/
theorem Rel.finished {mode : Mode F σ} {bits : Nat → Bool} {f : Fine σ} {g : Global σ}
    (h : Rel mode bits f g) (hf : f.finished = true) : g.finished = true := by
  simp only [Global.finished, Fine.finished, List.all_eq_true] at hf ⊢
  intro t ht
  obtain ⟨i, hi, rfl⟩ := List.getElem_of_mem ht
  have hi' : i < f.phases.length := h.len ▸ hi
  have ha := h.abs i f.phases[i] g.tasks[i] (by simp [hi']) (by simp [hi])
  have := hf f.phases[i] (List.getElem_mem hi')
  generalize f.phases[i] = p at this ha
  generalize g.tasks[i] = t at ha
  cases ha with
  | @free t => cases t <;> simp_all
  | _ => simp at this

end Search.Threaded

end Verif
