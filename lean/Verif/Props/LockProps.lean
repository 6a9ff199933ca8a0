import Verif.Proofs.Locks
import Verif.Props.Run
/-!
# The locks of the multi-threaded search
-/

namespace Verif

open Spec Search Search.Threaded Example

variable {F σ : Type} [FloatOps F] {P : Problem}

/-- The pool of `threaded::search` after an arbitrary sequence of attempts to take a step. -/
def poolAfter (mode : Mode F σ) (prof : Profile) (trace : Bool) (tb : Int) (seeds : Nat → σ) (P : Problem)
    (steps : List (Nat × Bool)) : R (Fine σ) := do
  let s ← mkScheduler P.graph P.order
  let f ← initFine prof tb seeds s P.graph.length
  fineRun mode prof trace f steps

/-- Task `i` can take a step. -/
def CanStep (mode : Mode F σ) (prof : Profile) (trace : Bool) (f : Fine σ) (i : Nat) : Prop :=
  ∀ b, ∃ f', fineStep mode prof trace f i b = .ok (some f')

/-- Task `i` exists and has not returned. -/
def Unfinished (f : Fine σ) (i : Nat) : Prop := ∃ p, f.phases[i]? = some p ∧ p.isDone = false

/-- Task `i` is between acquiring and releasing `best_memory`. -/
def InBest (f : Fine σ) (i : Nat) : Prop := ∃ p, f.phases[i]? = some p ∧ p.inB = true

/-- Task `i` is between acquiring and releasing `results`. -/
def InResults (f : Fine σ) (i : Nat) : Prop := ∃ p, f.phases[i]? = some p ∧ p.inR = true

theorem poolAfter_spec (hP : P.WF) (mode : Mode F σ) (trace : Bool) (tb : Int) (seeds : Nat → σ)
    (steps : List (Nat × Bool)) :
    ∃ (s : Scheduler Partitioner) (f0 f : Fine σ) (g : Global σ), mkScheduler P.graph P.order = .ok s ∧
      (∀ prof, initFine prof tb seeds s P.graph.length = .ok f0) ∧
      (∀ prof, initGlobal prof tb seeds s P.graph.length = .ok g) ∧
      (∀ prof, fineRun mode prof trace f0 steps = .ok f) ∧
      (∀ prof, poolAfter mode prof trace tb seeds P steps = .ok f) ∧
      LockInv f ∧ Simulated mode P g (steps.any (·.2)) f := by
  obtain ⟨s, h1, h2, h3⟩ := mkScheduler_spec hP
  obtain ⟨f0, g, k1, k2, k3, k4, _⟩ := initFine_spec hP mode tb seeds h2 h3
  obtain ⟨f, j1, j2⟩ := k4.run hP trace steps
  refine ⟨s, f0, f, g, h1, k1, k2, j1, ?_, fineRun_lock steps k3 (j1 .debug), by simpa using j2⟩
  intro prof
  have := k1 prof
  rw [show P.n = P.graph.length from rfl] at this
  simp only [poolAfter, h1, bind, Except.bind, this, j1 prof]

/-- **C45** No panic and mutual exclusion: whatever the interleaving, no two tasks are in a critical
section of the same mutex. -/
theorem C45_exclusive (hP : P.WF) (mode : Mode F σ) (prof : Profile) (trace : Bool) (tb : Int)
    (seeds : Nat → σ) (steps : List (Nat × Bool)) :
    ∃ f, poolAfter mode prof trace tb seeds P steps = .ok f ∧
      (∀ i j, InBest f i → InBest f j → i = j) ∧ (∀ i j, InResults f i → InResults f j → i = j) := by
  obtain ⟨_, _, f, _, _, _, _, _, h, hl, _⟩ := poolAfter_spec hP mode trace tb seeds steps
  refine ⟨f, h prof, ?_, ?_⟩
  · intro i j hi hj
    have := (hl.b i).2 hi
    rw [(hl.b j).2 hj] at this
    simpa using this.symm
  · intro i j hi hj
    have := (hl.r i).2 hi
    rw [(hl.r j).2 hj] at this
    simpa using this.symm

/-- **C45** No deadlock: in every reachable state an unfinished task can take a step, or it waits for
a task inside a critical section and such a task can take a step. -/
theorem C45_no_deadlock (hP : P.WF) (mode : Mode F σ) (prof : Profile) (trace : Bool) (tb : Int)
    (seeds : Nat → σ) (steps : List (Nat × Bool)) {f : Fine σ}
    (hf : poolAfter mode prof trace tb seeds P steps = .ok f) {i : Nat} (hi : Unfinished f i) :
    CanStep mode prof trace f i ∨ ∃ j, InBest f j ∧ CanStep mode prof trace f j := by
  obtain ⟨_, _, f1, g, _, _, _, _, h, hl, hs⟩ := poolAfter_spec hP mode trace tb seeds steps
  rw [h prof] at hf
  injection hf with hf
  subst hf
  have key : ∀ k p, f1.phases[k]? = some p → p.isDone = false →
      CanStep mode prof trace f1 k ∨ (p.wantsB = true ∧ f1.lockB ≠ none) ∨
        (p.wantsR = true ∧ f1.lockR ≠ none) := by
    intro k p hp hd
    by_cases hb : (p.wantsB = true ∧ f1.lockB ≠ none) ∨ (p.wantsR = true ∧ f1.lockR ≠ none)
    · exact Or.inr hb
    · left
      intro b
      obtain ⟨r, k1, k2, _⟩ := hs.step hP trace k b
      cases r with
      | some f' => exact ⟨f', k1 prof⟩
      | none =>
        rcases k2 rfl p hp with h1 | h1
        · rw [hd] at h1; simp at h1
        · exact (hb h1).elim
  -- whoever is inside `results` can take a step
  have keyR : f1.lockR ≠ none → ∃ j, InBest f1 j ∧ CanStep mode prof trace f1 j := by
    intro hr
    obtain ⟨k, hk⟩ := Option.ne_none_iff_exists'.1 hr
    obtain ⟨q, hq, hqr⟩ := (hl.r k).1 hk
    refine ⟨k, ⟨q, hq, ?_⟩, ?_⟩
    · cases q <;> simp_all [Phase.inB, Phase.inR]
    · rcases key k q hq (by cases q <;> simp_all [Phase.isDone, Phase.inR]) with h1 | h1 | h1
      · exact h1
      · cases q <;> simp_all [Phase.wantsB, Phase.inR]
      · cases q <;> simp_all [Phase.wantsR, Phase.inR]
  obtain ⟨p, hp, hd⟩ := hi
  rcases key i p hp hd with h1 | ⟨_, hb⟩ | ⟨_, hr⟩
  · exact Or.inl h1
  · right
    obtain ⟨k, hk⟩ := Option.ne_none_iff_exists'.1 hb
    obtain ⟨q, hq, hqb⟩ := (hl.b k).1 hk
    rcases key k q hq (by cases q <;> simp_all [Phase.isDone, Phase.inB]) with h1 | h1 | ⟨_, hr⟩
    · exact ⟨k, ⟨q, hq, hqb⟩, h1⟩
    · cases q <;> simp_all [Phase.wantsB, Phase.inB]
    · exact keyR hr
  · exact Or.inr (keyR hr)

/-- `n` effective steps lead from one state of the pool to another. -/
inductive Effective (mode : Mode F σ) (prof : Profile) (trace : Bool) : Nat → Fine σ → Fine σ → Prop
  | refl (f) : Effective mode prof trace 0 f f
  | step {n f i b f' f''} (h : fineStep mode prof trace f i b = .ok (some f'))
      (h' : Effective mode prof trace n f' f'') : Effective mode prof trace (n + 1) f f''

theorem sum_set_lt {α : Type} {w : α → Nat} {l : List α} {i : Nat} {x x' : α} (h : l[i]? = some x)
    (hw : w x' < w x) : ((l.set i x').map w).sum < (l.map w).sum := by
  induction l generalizing i with
  | nil => simp at h
  | cons a l ih =>
    cases i with
    | zero =>
      simp only [List.getElem?_cons_zero, Option.some.injEq] at h
      subst h
      simp [hw]
    | succ i =>
      simp only [List.getElem?_cons_succ] at h
      have := ih h
      simp only [List.set_cons_succ, List.map_cons, List.sum_cons]
      omega

/-- **C45** From the beginning only a bounded number of effective steps is possible, so together with
`C45_no_deadlock` every execution in which some task that can take a step does so ends with all
tasks returned. -/
theorem C45_terminates (hP : P.WF) (mode : Mode F σ) (prof : Profile) (trace : Bool) (tb : Int)
    (seeds : Nat → σ) {f0 : Fine σ} (h0 : poolAfter mode prof trace tb seeds P [] = .ok f0) :
    ∃ N, ∀ n f, Effective mode prof trace n f0 f → n ≤ N ∧
      (f.finished = false → ∃ i, CanStep mode prof trace f i) := by
  refine ⟨(f0.phases.map (phasePotential P)).sum, ?_⟩
  obtain ⟨_, _, f1, g, _, _, _, _, h, hl, hs⟩ := poolAfter_spec hP mode trace tb seeds []
  rw [h prof] at h0
  injection h0 with h0
  subst h0
  have main : ∀ n f f', Effective mode prof trace n f f' → ∀ fired, Simulated mode P g fired f →
      n ≤ (f.phases.map (phasePotential P)).sum := by
    intro n f f' he
    induction he with
    | refl f => intro _ _; omega
    | @step n f i b f' f'' he _ ih =>
      intro fired hs
      obtain ⟨r, k1, _, k3⟩ := hs.step hP trace i b
      rw [k1 prof] at he
      injection he with he
      obtain ⟨k4, p, p', k5, k6, k7⟩ := k3 f' he
      have := ih _ k4
      have h2 := sum_set_lt (w := phasePotential P) k5 k7
      rw [k6] at this
      omega
  have reach : ∀ n f f', Effective mode prof trace n f f' →
      ∃ steps, fineRun mode prof trace f steps = .ok f' := by
    intro n f f' he
    induction he with
    | refl f => exact ⟨[], rfl⟩
    | @step n f i b f' f'' he _ ih =>
      obtain ⟨steps, ih⟩ := ih
      exact ⟨(i, b) :: steps, by simp only [fineRun, he, bind, Except.bind]; exact ih⟩
  intro n f he
  refine ⟨main n _ f he _ hs, ?_⟩
  intro hnf
  obtain ⟨steps, hst⟩ := reach n _ f he
  have hpool : poolAfter mode prof trace tb seeds P steps = .ok f := by
    have h2 := h prof
    simp only [poolAfter, fineRun] at h2 ⊢
    cases e1 : mkScheduler P.graph P.order with
    | error e => simp [e1, bind, Except.bind] at h2
    | ok s =>
      cases e2 : initFine prof tb seeds s P.graph.length with
      | error e => simp [e1, e2, bind, Except.bind] at h2
      | ok f2 =>
        simp only [e1, e2, bind, Except.bind, pure, Except.pure, Except.ok.injEq] at h2 ⊢
        rw [h2]
        exact hst
  simp only [Fine.finished, List.all_eq_false] at hnf
  obtain ⟨p, hp, hd⟩ := hnf
  obtain ⟨i, hi, rfl⟩ := List.getElem_of_mem hp
  have hu : Unfinished f i := ⟨f.phases[i], by simp [hi], by
    generalize f.phases[i] = q at hd
    rcases q with t | _ | _ | _ | _ | _ | _ | _ | _ | _ | _ | _ | _ <;>
      first | rfl | (cases t <;> first | rfl | exact (hd rfl).elim)⟩
  rcases C45_no_deadlock hP mode prof trace tb seeds steps hpool hu with h1 | ⟨j, _, h1⟩
  · exact ⟨i, h1⟩
  · exact ⟨j, h1⟩

/-- **C45** The atomic moves are a faithful picture: whatever the pool with explicit locks returns,
it also returns for some interleaving of atomic moves, in which the timer fires only if it fired. So
everything proved about all interleavings of moves holds for the pool with locks. -/
theorem C45_atomic (hP : P.WF) (mode : Mode F σ) (prof : Profile) (trace : Bool)
    (hashIter : MappedPaths → MappedPaths) (tb : Int) (seeds : Nat → σ) (steps : List (Nat × Bool))
    {out : List Path}
    (h : searchFine mode prof trace hashIter tb seeds steps P.graph P.order = .ok (some out)) :
    ∃ moves, searchThreaded mode prof hashIter tb seeds moves P.graph P.order = .ok (some out) ∧
      ((∀ m ∈ steps, m.2 = false) → ∀ m ∈ moves, m.2 = false) := by
  obtain ⟨s, f0, f, g, h1, h2, h3, h4, _, _, hs⟩ := poolAfter_spec hP mode trace tb seeds steps
  obtain ⟨moves, g', k1, k2, _, k4⟩ := hs fun _ => false
  simp only [searchFine, h1, h2 prof, h4 prof, bind, Except.bind] at h
  refine ⟨moves, ?_, ?_⟩
  · cases hfin : f.finished with
    | false => simp [hfin, pure, Except.pure] at h
    | true =>
      simp only [hfin, if_true] at h
      simp only [searchThreaded, h1, h3 prof, k1 prof, bind, Except.bind, k2.finished hfin, if_true]
      rw [← k2.results]
      exact h
  · intro hq m hm
    cases hb : m.2 with
    | false => rfl
    | true =>
      rcases k4 m hm hb with h5 | h5
      · simp at h5
      · simp only [List.any_eq_true] at h5
        obtain ⟨m', hm', hb'⟩ := h5
        rw [hq m' hm'] at hb'
        simp at hb'

/-- An edge with both ends measured: four tasks (three first steps and the rest) run through the locks
in turns, sometimes blocked, and finish. -/
example : searchFine (F := Bool) (.det (σ := Unit)) .debug true id 100000 (fun _ => ()) (roundRobin 4 60)
      [[1], [0]] [[(0, []), (1, [])]] =
    .ok (some [⟨1, 2, [[0, 1]]⟩]) ∧
    (⟨[[1], [0]], [[(0, []), (1, [])]]⟩ : Problem).WF := by
  exact ⟨by decide +kernel, wf_of_check (by decide +kernel)⟩

/-- In the first round task 0 takes `best_memory` for its message and the others have to wait. -/
example : ∃ f, poolAfter (F := Bool) (.det (σ := Unit)) .debug true 100000 (fun _ => ())
      ⟨[[1], [0]], [[(0, []), (1, [])]]⟩ (roundRobin 4 1) = .ok f ∧ InBest f 0 ∧
      Unfinished f 1 ∧ (match fineStep (F := Bool) .det .debug true f 1 false with | .ok none => true | _ => false) = true ∧
      f.lockB = some 0 := by
  refine ⟨_, rfl, ⟨_, rfl, rfl⟩, ⟨_, rfl, rfl⟩, by decide +kernel, rfl⟩

end Verif
