import Verif.Proofs.Size
import Verif.Proofs.ThreadedOpt
/-!
# Tasks that end before their first refresh
-/

namespace Verif

open Spec Search Search.Threaded

/-- The task has so few iterations left that it cannot reach a refresh. -/
def Short (P : Problem) {σ : Type} : TaskState σ → Prop
  | .ready sched init _ => ∃ n, Todos P [(startPath init, sched)] n ∧ n ≤ updateInterval
  | .running loc _ counter _ =>
    ∃ n, Todos P (levels loc.path loc.sweep.current loc.sweep.stack) n ∧ counter + n ≤ updateInterval
  | _ => True

theorem short_quiet {P : Problem} {σ : Type} {g : Global σ} (h : ∀ t ∈ g.tasks, Short P t) (i : Nat) :
    Quiet g i := by
  intro loc rng c w ht
  obtain ⟨n, h1, h2⟩ := h _ (List.mem_of_getElem? ht)
  have := h1.pos
  omega

theorem short_set {P : Problem} {σ : Type} {tasks : List (TaskState σ)} (h : ∀ t ∈ tasks, Short P t) {i : Nat}
    {t : TaskState σ} (ht : Short P t) : ∀ a ∈ tasks.set i t, Short P a := by
  intro a ha
  rcases List.mem_or_eq_of_mem_set ha with h1 | h1
  · exact h a h1
  · exact h1 ▸ ht

theorem short_move {F σ : Type} [FloatOps F] {mode : Mode F σ} {P : Problem} (hP : P.WF)
    {g g' : Global σ} (hg : GlobalOK P g) (h : ∀ t ∈ g.tasks, Short P t) {i : Nat} {tb : Bool} {prof : Profile}
    (hm : Threaded.move mode prof g i tb = .ok g') : ∀ t ∈ g'.tasks, Short P t := by
  cases ht : g.tasks[i]? with
  | none =>
    simp only [Threaded.move, ht, pure, Except.pure, Except.ok.injEq] at hm
    exact hm ▸ h
  | some t =>
    have hok := hg.tasks t (List.mem_of_getElem? ht)
    have hsm := h t (List.mem_of_getElem? ht)
    cases hok with
    | @ready sched init rng hs hi hf =>
      simp only [Threaded.move, ht, pure, Except.pure, Except.ok.injEq] at hm
      subst hm
      refine short_set h ?_
      obtain ⟨n, h1, h2⟩ := hsm
      refine ⟨n, ?_, by omega⟩
      cases init <;> exact h1
    | @running loc rng counter wasInit p0 hl hr hc =>
      obtain ⟨l', rng', stop, e1, e2⟩ := modeIter_spec mode rng hP.lax hl
      cases stop with
      | true =>
        obtain ⟨⟨l'', f1, _, _⟩, _⟩ := finishLoop_spec hP.lax e2 hl hr hc
        simp only [Threaded.move, ht, e1 prof, f1, bind, Except.bind, pure, Except.pure,
          ↓reduceIte, Except.ok.injEq] at hm
        subst hm
        exact short_set h trivial
      | false =>
        have hq := short_quiet h i loc rng counter wasInit ht
        simp only [Threaded.move, ht, e1 prof, hq, bind, Except.bind, pure, Except.pure,
          Bool.false_eq_true, ↓reduceIte, Except.ok.injEq] at hm
        subst hm
        refine short_set h ?_
        obtain ⟨n, h1, h2⟩ := hsm
        obtain ⟨n', h3, h4⟩ := e2.todos rfl h1
        exact ⟨n', h4, by omega⟩
    | @finishing loc hb hr =>
      cases hemp : loc.results.isEmpty with
      | true =>
        simp only [Threaded.move, ht, hemp, pure, Except.pure, ↓reduceIte, Except.ok.injEq] at hm
        subst hm
        exact short_set h trivial
      | false =>
        simp only [Threaded.move, ht, hemp, pure, Except.pure, Bool.false_eq_true, ↓reduceIte,
          Except.ok.injEq] at hm
        subst hm
        exact short_set h trivial
    | done =>
      simp only [Threaded.move, ht, pure, Except.pure, Except.ok.injEq] at hm
      exact hm ▸ h

theorem short_quietRun {F σ : Type} [FloatOps F] {mode : Mode F σ} {P : Problem} (hP : P.WF)
    {prof : Profile} : ∀ (moves : List (Nat × Bool)) (g : Global σ), GlobalOK P g → (∀ t ∈ g.tasks, Short P t) →
    QuietRun mode prof g moves := by
  intro moves
  induction moves with
  | nil => intro g _ _; trivial
  | cons m moves ih =>
    intro g hg h
    refine ⟨short_quiet h _, ?_⟩
    intro g' hm
    obtain ⟨g1, e1, e2, _⟩ := move_spec mode hP.lax hg m.1 m.2
    have := e1 prof
    rw [hm] at this
    simp only [Except.ok.injEq] at this
    subst this
    exact ih g' e2 (short_move hP hg h hm)

/-- The tasks at the beginning are short if there are few beginnings at all. -/
theorem short_init {P : Problem} (hP : Lax P) (tb : Int) {s : Scheduler Partitioner} (hs : StateFor P [] s) (hf : Fresh s)
    {r : List Schedule} (hr : Tree P [] s r) (hlen : 2 * r.length < updateInterval) {σ : Type} (seeds : Nat → σ)
    {prof : Profile} {g : Global σ} (h : initGlobal prof tb seeds s P.n = .ok g) : ∀ t ∈ g.tasks, Short P t := by
  obtain ⟨W, w1, w2⟩ := initGlobal_todos hP tb hs hf hr
  obtain ⟨k1, k2⟩ := w2 seeds h
  have hready := initGlobal_cost hP tb seeds hs hf h
  intro t ht
  obtain ⟨i, hi, rfl⟩ := List.getElem_of_mem ht
  have hi' : i < W.length := by omega
  obtain ⟨t, t1, t2⟩ := k2 i hi'
  have hti : g.tasks[i] = t := by
    rw [List.getElem?_eq_some_iff] at t1
    exact t1.2
  obtain ⟨sched, init, rng, h5, _⟩ := hready _ ht
  rw [h5] at hti ⊢
  subst hti
  have hW := List.single_le_sum (by simp) _ (List.getElem_mem hi')
  have := List.length_pos_of_mem (List.getElem_mem hi')
  cases t2 with
  | ready h => exact ⟨_, h, by omega⟩

/-- The tasks at the beginning are short if all the possible steps are split off and there are few continuations of each
of them. -/
theorem short_init_split {P : Problem} (hP : Lax P) {tb : Int}
    (htb : tb ≤ 0 ∨ ((2 ^ P.bits.length : Nat) : Int) < tb) {s : Scheduler Partitioner} (hs : StateFor P [] s)
    (hf : Fresh s)
    (hlen : ∀ c m r, StateFor P [m] c → Fresh c → m ≠ [] → Tree P [m] c r → 2 * r.length < updateInterval)
    {σ : Type} (seeds : Nat → σ)
    {prof : Profile} {g : Global σ} (h : initGlobal prof tb seeds s P.n = .ok g) : ∀ t ∈ g.tasks, Short P t := by
  obtain ⟨ts, rest, f1, f2, f3, f4, f5, _, _, f9, f10⟩ :=
    spawnLoop_spec hP tb (s.time.measurable.iter.length + 1) s 0 hs hf.iterOK (by omega)
  simp only [initGlobal, spawn, f1 prof, bind, Except.bind, pure, Except.pure, Except.ok.injEq] at h
  subst h
  have hl : s.time.measurable.iter.length ≤ 2 ^ P.bits.length := by
    rw [hf, length_powerset]
    have := set_length_le hs
    simp only [unmeasured, List.flatten_nil, List.length_nil, Nat.sub_zero] at this
    exact Nat.pow_le_pow_right (by omega) this
  intro t ht
  simp only [List.mem_append, List.mem_singleton, List.mem_mapIdx] at ht
  rcases ht with ⟨k, hk, rfl⟩ | rfl
  · obtain ⟨h1, h2, h3⟩ := f4 _ (List.getElem_mem hk)
    obtain ⟨r, hr⟩ := exists_tree hP _ _ _ _ h1 h2.iterOK (Nat.le_refl _) (Nat.le_refl _)
    have := hlen _ _ _ h1 h2 h3 hr
    exact ⟨_, .cons hr .nil, by omega⟩
  · have hnil := f10 (by omega)
    obtain ⟨r, hr⟩ := exists_tree hP _ _ _ _ f2 f3 (Nat.le_refl _) (Nat.le_refl _)
    refine ⟨_, .cons hr .nil, ?_⟩
    cases hr with
    | done _ => simp [updateInterval]
    | child h _ _ =>
      have := h.len
      rw [hnil] at this
      simp at this

end Verif
