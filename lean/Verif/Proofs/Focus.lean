import Verif.Proofs.State
import Mathlib.Data.List.Count
import Mathlib.Data.Multiset.AddSub
/-!
# Manual scheduling: `focus` and `focus_inplace`
-/

namespace Verif

open Spec

theorem swapRemove_perm {l : List Nat} {e p : Nat} (h : l.findIdx? (· == e) = some p) :
    (e :: swapRemove l p).Perm l := by
  rw [List.findIdx?_eq_some_iff_getElem] at h
  obtain ⟨hp, he, _⟩ := h
  simp only [beq_iff_eq] at he
  have hne : l ≠ [] := by rintro rfl; simp at hp
  have hl : l = l.dropLast ++ [l.getLast hne] := (List.dropLast_append_getLast hne).symm
  unfold swapRemove
  rw [List.getLast?_eq_some_getLast hne]
  simp only
  generalize l.getLast hne = x at *
  generalize l.dropLast = d at *
  subst hl
  simp only [List.length_append, List.length_singleton] at hp
  by_cases hpd : p < d.length
  · rw [List.set_append_left _ _ hpd, List.dropLast_concat]
    rw [List.getElem_append_left hpd] at he
    have hd : d = d.take p ++ e :: d.drop (p + 1) := by
      rw [← he, List.getElem_cons_drop, List.take_append_drop]
    have hset : d.set p x = d.take p ++ x :: d.drop (p + 1) := by
      rw [List.set_eq_take_append_cons_drop, if_pos hpd]
    rw [hset]
    refine List.Perm.trans ?_ (List.Perm.append_right [x] (List.Perm.of_eq hd.symm))
    simp only [List.append_assoc, List.cons_append]
    refine List.Perm.trans ?_ List.perm_middle.symm
    refine List.Perm.cons e ?_
    rw [← List.append_assoc]
    refine List.Perm.trans List.perm_middle ?_
    exact (List.perm_append_singleton x _).symm
  · have hpe : p = d.length := by omega
    subst hpe
    rw [List.set_append_right _ _ (Nat.le_refl _)]
    simp only [Nat.sub_self, List.set_cons_zero, List.dropLast_concat]
    simp only [List.getElem_concat_length] at he
    subst he
    exact (List.perm_append_singleton x d).symm

theorem swapRemove_perm_erase {l : List Nat} {e p : Nat} (h : l.findIdx? (· == e) = some p) :
    (swapRemove l p).Perm (l.erase e) := by
  have h1 := (swapRemove_perm h).erase e
  simpa using h1

/-- The loop of `partition`: what is left over is the multiset difference, and the new measurable set
is the old one without the measured bits, in order. -/
theorem partitionLoop_spec (set : List Nat) (hs : set.Nodup) : ∀ (ms : List Nat),
    (PathGenerator.partitionLoop set ms).1.Perm (ms.diff set) ∧
    (PathGenerator.partitionLoop set ms).2 = set.filter (fun b => decide (b ∉ ms)) := by
  induction set with
  | nil => intro ms; simp [PathGenerator.partitionLoop]
  | cons e es ih =>
    intro ms
    rw [List.nodup_cons] at hs
    simp only [PathGenerator.partitionLoop]
    cases hf : ms.findIdx? (· == e) with
    | some p =>
      simp only
      obtain ⟨h1, h2⟩ := ih hs.2 (swapRemove ms p)
      have hp := swapRemove_perm_erase hf
      refine ⟨?_, ?_⟩
      · rw [List.diff_cons]
        exact h1.trans (hp.diff_right es)
      · rw [h2]
        have he : e ∈ ms := (swapRemove_perm hf).mem_iff.1 (by simp)
        rw [List.filter_cons]
        simp only [he, not_true_eq_false, decide_false, Bool.false_eq_true, ↓reduceIte]
        apply List.filter_congr
        intro x hx
        have hxe : x ≠ e := by rintro rfl; exact hs.1 hx
        have : x ∈ swapRemove ms p ↔ x ∈ ms := by
          rw [hp.mem_iff, List.mem_erase_of_ne hxe]
        simp only [this]
    | none =>
      simp only
      obtain ⟨h1, h2⟩ := ih hs.2 ms
      have he : e ∉ ms := by
        intro he
        rw [List.findIdx?_eq_none_iff] at hf
        simpa using hf e he
      refine ⟨?_, ?_⟩
      · rw [List.diff_cons, List.erase_of_not_mem he]
        exact h1
      · rw [h2, List.filter_cons]
        simp [he]

theorem count_diff (x : Nat) (l m : List Nat) : (l.diff m).count x = l.count x - m.count x := by
  induction m generalizing l with
  | nil => simp
  | cons a m ih =>
    rw [List.diff_cons, ih, List.count_erase, List.count_cons]
    omega

theorem diff_eq_nil_iff {set ms : List Nat} (hs : set.Nodup) :
    ms.diff set = [] ↔ ms.Nodup ∧ ∀ b ∈ ms, b ∈ set := by
  have hc : ms.diff set = [] ↔ ∀ x, ms.count x ≤ set.count x := by
    constructor
    · intro h x
      have := congrArg (List.count x) h
      rw [count_diff] at this
      simp only [List.count_nil] at this
      omega
    · intro h
      rw [List.eq_nil_iff_forall_not_mem]
      intro x hx
      have h1 := List.count_pos_iff.2 hx
      rw [count_diff] at h1
      have := h x
      omega
  rw [hc]
  constructor
  · intro h
    refine ⟨?_, ?_⟩
    · rw [List.nodup_iff_count_le_one]
      intro x
      have := List.nodup_iff_count_le_one.1 hs x
      have := h x
      omega
    · intro b hb
      have h1 := List.count_pos_iff.2 hb
      have := h b
      exact List.count_pos_iff.1 (by omega)
  · rintro ⟨h1, h2⟩ x
    by_cases hx : x ∈ ms
    · have := List.nodup_iff_count_le_one.1 h1 x
      have := List.count_pos_iff.2 (h2 x hx)
      omega
    · rw [List.count_eq_zero.2 hx]; omega

/-- Too long a set: panic. -/
theorem partition_long {T : Type} [MeasurableSet T] (g : PathGenerator T) {ms : List Nat}
    (h : (MeasurableSet.set g.measurable).length < ms.length) :
    g.partition .debug ms = .error .subOverflow ∧
      g.partition .release ms = .error .capacityOverflow := by
  have : ¬ ms.length ≤ (MeasurableSet.set g.measurable).length := by omega
  simp [PathGenerator.partition, PathGenerator.capacityCheck, this, bind, Except.bind]

/-- Otherwise: accept or reject, in both profiles. -/
theorem partition_short {T : Type} [MeasurableSet T] (g : PathGenerator T)
    (hs : (MeasurableSet.set g.measurable).Nodup) {ms : List Nat}
    (h : ms.length ≤ (MeasurableSet.set g.measurable).length) :
    ((ms.Nodup ∧ ∀ b ∈ ms, b ∈ MeasurableSet.set g.measurable) ∧
      (∀ prof, g.partition prof ms = .ok (.ok
        ((MeasurableSet.set g.measurable).filter fun b => decide (b ∉ ms))))) ∨
    (¬ (ms.Nodup ∧ ∀ b ∈ ms, b ∈ MeasurableSet.set g.measurable) ∧
      ∃ bad, bad.Perm (ms.diff (MeasurableSet.set g.measurable)) ∧
        ∀ prof, g.partition prof ms = .ok (.error ⟨bad⟩)) := by
  obtain ⟨h1, h2⟩ := partitionLoop_spec (MeasurableSet.set g.measurable) hs ms
  rw [← diff_eq_nil_iff hs]
  by_cases hd : ms.diff (MeasurableSet.set g.measurable) = []
  · left
    refine ⟨hd, fun prof => ?_⟩
    have hc : (PathGenerator.partitionLoop (MeasurableSet.set g.measurable) ms).1 = [] := by
      rw [hd] at h1; exact List.Perm.eq_nil h1
    simp [PathGenerator.partition, PathGenerator.capacityCheck, h, bind, Except.bind, hc, h2, pure,
      Except.pure]
  · right
    refine ⟨hd, _, h1, fun prof => ?_⟩
    have hc : (PathGenerator.partitionLoop (MeasurableSet.set g.measurable) ms).1 ≠ [] := by
      intro h0; rw [h0] at h1; exact hd (List.Perm.eq_nil h1.symm)
    simp [PathGenerator.partition, PathGenerator.capacityCheck, h, bind, Except.bind, hc, pure,
      Except.pure]

/-- The keep-part and the measured part together are the measurable set. -/
theorem keep_perm {set ms : List Nat} (hs : set.Nodup) (hm : ms.Nodup) (hsub : ∀ b ∈ ms, b ∈ set) :
    (set.filter (fun b => decide (b ∉ ms)) ++ ms).Perm set := by
  rw [List.perm_ext_iff_of_nodup ?_ hs]
  · intro b
    simp only [List.mem_append, List.mem_filter, decide_eq_true_eq]
    constructor
    · rintro (h | h)
      · exact h.1
      · exact hsub b h
    · intro h
      by_cases hb : b ∈ ms
      · exact Or.inr hb
      · exact Or.inl ⟨h, hb⟩
  · rw [List.nodup_append']
    refine ⟨hs.filter _, hm, ?_⟩
    intro b hb hb'
    simp only [List.mem_filter, decide_eq_true_eq] at hb
    exact hb.2 hb'

/-- The memory in use between steps never exceeds the recorded maximum. -/
theorem GraphFor.cur_le_max {P : Problem} {p : Schedule} {g : Graph} (hg : GraphFor P p g)
    (hn : p.flatten.Nodup) (hlt : ∀ b ∈ p.flatten, b < P.n) : g.currentMemory ≤ g.maxMemory := by
  have hcur := hg.cur
  rw [hg.nodes, awake_nodesOf] at hcur
  have hsplit := countP_split (l := List.range P.n) (fun v => decide (Touched P p.flatten v))
    (fun v => decide (v ∈ p.flatten)) (by
      intro v hv
      rw [decide_eq_true_eq] at hv ⊢
      exact Or.inl hv)
  rw [countP_mem_range hn hlt] at hsplit
  have hcur' : g.currentMemory = (List.range P.n).countP
      (fun v => decide (Touched P p.flatten v) && !decide (v ∈ p.flatten)) := by omega
  rcases List.eq_nil_or_concat p with rfl | ⟨q, s, rfl⟩
  · rw [hcur', List.countP_eq_zero.2]
    · omega
    · intro v _; simp [Touched]
  · rw [List.concat_eq_append] at *
    rw [hg.max, hcur', peak_snoc]
    refine Nat.le_trans ?_ (Nat.le_max_right _ _)
    rw [memAt_eq]
    apply List.countP_mono_left
    intro v _
    rw [List.take_of_length_le (by simp), List.take_left']
    · simp only [Bool.and_eq_true, decide_eq_true_eq, Bool.not_eq_true', decide_eq_false_iff_not]
      rintro ⟨h1, h2⟩
      exact ⟨h1, fun h => h2 (by rw [List.flatten_append]; exact List.mem_append_left _ h)⟩
    · rfl

/-- Focusing on the empty set changes nothing in the graph. -/
theorem focusInplace_nil {P : Problem} {p : Schedule} {g : Graph} (hg : GraphFor P p g)
    (hn : p.flatten.Nodup) (hlt : ∀ b ∈ p.flatten, b < P.n) (prof : Profile) :
    g.focusInplace prof [] = .ok (g, .ok ()) ∧ g.focus prof [] = .ok (.ok g) ∧
      g.focusUnchecked prof [] = .ok g := by
  have h := hg.cur_le_max hn hlt
  have h' : ¬ g.currentMemory > g.maxMemory := by omega
  obtain ⟨nodes, cur, mx⟩ := g
  simp only at h h'
  refine ⟨?_, ?_, ?_⟩ <;>
    simp [Graph.focusInplace, Graph.focus, Graph.focusUnchecked, Graph.measureAll,
      Graph.measureAllUnchecked, Graph.updateMemory, usizeSub, bind, Except.bind, pure,
      Except.pure] <;> omega

/-- The steps after a successful call with `ms`. -/
def addStep (p : Schedule) (ms : List Nat) : Schedule := if ms = [] then p else p ++ [ms]

theorem addStep_flatten (p : Schedule) (ms : List Nat) : (addStep p ms).flatten = p.flatten ++ ms := by
  unfold addStep
  split
  · rename_i h; simp [h]
  · simp

/-- What a manual scheduling call does. -/
inductive FocusResult {T : Type} [MeasurableSet T] (P : Problem) (p : Schedule) (s : Scheduler T)
    (ms : List Nat) : Prop
  | tooLong (h : (MeasurableSet.set s.time.measurable).length < ms.length)
      (d : s.focusInplace .debug ms = .error .subOverflow)
      (r : s.focusInplace .release ms = .error .capacityOverflow)
      (d' : s.focus .debug ms = .error .subOverflow)
      (r' : s.focus .release ms = .error .capacityOverflow)
  | reject (h : ms.length ≤ (MeasurableSet.set s.time.measurable).length)
      (hbad : ¬ (ms.Nodup ∧ ∀ b ∈ ms, b ∈ MeasurableSet.set s.time.measurable))
      (bad : List Nat) (hb : bad.Perm (ms.diff (MeasurableSet.set s.time.measurable)))
      (e : ∀ prof, s.focusInplace prof ms = .ok (s, .error (.notMeasurable ⟨bad⟩)))
      (e' : ∀ prof, s.focus prof ms = .ok (.error (.notMeasurable ⟨bad⟩)))
  | accept (h : ms.Nodup) (hsub : ∀ b ∈ ms, b ∈ MeasurableSet.set s.time.measurable)
      (s' : Scheduler T) (e : ∀ prof, s.focusInplace prof ms = .ok (s', .ok ()))
      (e' : ∀ prof, s.focus prof ms = .ok (.ok s')) (hs' : StateFor P (addStep p ms) s')

theorem focus_spec {P : Problem} (hP : Lax P) {T : Type} [MeasurableSet T]
    (hset : ∀ l, MeasurableSet.set (MeasurableSet.init (T := T) l) = l)
    {p : Schedule} {s : Scheduler T} (h : StateFor P p s) (ms : List Nat) :
    FocusResult P p s ms := by
  by_cases hl : ms.length ≤ (MeasurableSet.set s.time.measurable).length
  · rcases partition_short s.time h.time.set_nodup hl with ⟨⟨hn, hsub⟩, e⟩ | ⟨hbad, bad, hb, e⟩
    · by_cases hm : ms = []
      · subst hm
        have hf : (MeasurableSet.set s.time.measurable).filter (fun b => decide (b ∉ [])) =
            MeasurableSet.set s.time.measurable := by
          simp
        have g := focusInplace_nil h.space h.pre.nodup (fun b hb => hP.bits_lt b (h.pre.sub b hb))
        refine .accept hn hsub
          ⟨⟨MeasurableSet.init (MeasurableSet.set s.time.measurable), s.time.depsCounter,
            s.time.dependents⟩, s.space⟩ ?_ ?_ ?_
        · intro prof
          cases prof <;>
          simp [Scheduler.focusInplace, PathGenerator.focusInplace, e, (g _).1, (g _).2.2,
            PathGenerator.updateUnchecked, bind, Except.bind, pure, Except.pure]
        · intro prof
          cases prof <;>
          simp [Scheduler.focus, PathGenerator.focus, PathGenerator.focusUnchecked, e, (g _).2.1,
            (g _).2.2, PathGenerator.updateUnchecked, bind, Except.bind, pure, Except.pure]
        · refine ⟨by simpa [addStep] using h.pre, ?_, by simpa [addStep] using h.space⟩
          simpa [addStep, hset] using h.time
      · obtain ⟨deps, new, g, e1, e2, e3⟩ := stateFor_step hP hset h hm
          (keep_perm h.time.set_nodup hn hsub)
        refine .accept hn hsub _ ?_ ?_ (by simpa [addStep, hm] using e3)
        · intro prof
          have e1' := e1 prof
          simp only [decide_not] at e1' e
          cases prof <;>
          simp [Scheduler.focusInplace, PathGenerator.focusInplace, e, e1', (e2 _).1, (e2 _).2.2,
            bind, Except.bind, pure, Except.pure]
        · intro prof
          have e1' := e1 prof
          simp only [decide_not] at e1' e
          cases prof <;>
          simp [Scheduler.focus, PathGenerator.focus, PathGenerator.focusUnchecked, e, e1',
            (e2 _).2.1, (e2 _).2.2, bind, Except.bind, pure, Except.pure]
    · refine .reject hl hbad bad hb ?_ ?_
      · intro prof
        simp [Scheduler.focusInplace, PathGenerator.focusInplace, e, bind, Except.bind, pure,
          Except.pure]
      · intro prof
        simp [Scheduler.focus, PathGenerator.focus, e, bind, Except.bind, pure, Except.pure]
  · obtain ⟨e1, e2⟩ := partition_long s.time (ms := ms) (by omega)
    refine .tooLong (by omega) ?_ ?_ ?_ ?_ <;>
    simp [Scheduler.focusInplace, PathGenerator.focusInplace, Scheduler.focus, PathGenerator.focus,
      e1, e2, bind, Except.bind]

end Verif
