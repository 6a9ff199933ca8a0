import Verif.Proofs.Focus
import Verif.Proofs.Loop
/-!
# Sequences of calls to `PathGenerator::focus_inplace` and `Scheduler::focus_inplace`
-/

namespace Verif

open Spec

/-- The two kinds of measurable sets are lawful: the set is what it was initialised with. -/
structure LawfulSet (T : Type) [MeasurableSet T] : Prop where
  set_init : ∀ l, MeasurableSet.set (MeasurableSet.init (T := T) l) = l
  init_nil : MeasurableSet.init (T := T) [] = MeasurableSet.dflt

theorem lawful_vec : LawfulSet (List Nat) := ⟨fun _ => rfl, rfl⟩

theorem lawful_partitioner : LawfulSet Partitioner := ⟨fun _ => rfl, rfl⟩

/-- Call `focus_inplace` with each of the given sets and collect the outcomes. -/
def PathGenerator.instruct {T : Type} [MeasurableSet T] (prof : Profile) :
    PathGenerator T → List (List Nat) → R (PathGenerator T × List (Except NotMeasurable Unit))
  | g, [] => pure (g, [])
  | g, ms :: rest => do
    let (g', r) ← g.focusInplace prof ms
    let (g'', rs) ← g'.instruct prof rest
    pure (g'', r :: rs)

/-- Call `focus_inplace` with each of the given sets and collect the outcomes. -/
def Scheduler.instruct {T : Type} [MeasurableSet T] (prof : Profile) :
    Scheduler T → List (List Nat) → R (Scheduler T × List (Except InstructionError Unit))
  | s, [] => pure (s, [])
  | s, ms :: rest => do
    let (s', r) ← s.focusInplace prof ms
    let (s'', rs) ← s'.instruct prof rest
    pure (s'', r :: rs)

/-- The calls that succeeded. -/
def accepted {ε : Type} : List (List Nat) → List (Except ε Unit) → List (List Nat)
  | ms :: calls, .ok () :: rs => ms :: accepted calls rs
  | _ :: calls, .error _ :: rs => accepted calls rs
  | _, _ => []

/-- One call on a reachable generator. -/
inductive TimeResult {T : Type} [MeasurableSet T] (P : Problem) (M : List Nat) (g : PathGenerator T)
    (ms : List Nat) : Prop
  | tooLong (h : (MeasurableSet.set g.measurable).length < ms.length)
      (d : g.focusInplace .debug ms = .error .subOverflow)
      (r : g.focusInplace .release ms = .error .capacityOverflow)
      (d' : g.focus .debug ms = .error .subOverflow)
      (r' : g.focus .release ms = .error .capacityOverflow)
  | reject (h : ms.length ≤ (MeasurableSet.set g.measurable).length)
      (hbad : ¬ (ms.Nodup ∧ ∀ b ∈ ms, b ∈ MeasurableSet.set g.measurable))
      (bad : List Nat) (hb : bad.Perm (ms.diff (MeasurableSet.set g.measurable)))
      (e : ∀ prof, g.focusInplace prof ms = .ok (g, .error ⟨bad⟩))
      (e' : ∀ prof, g.focus prof ms = .ok (.error ⟨bad⟩))
  | accept (h : ms.Nodup) (hsub : ∀ b ∈ ms, b ∈ MeasurableSet.set g.measurable)
      (set : List Nat) (deps : AMap Nat)
      (e : ∀ prof, g.focusInplace prof ms =
        .ok (⟨MeasurableSet.init set, deps, g.dependents⟩, .ok ()))
      (e' : ∀ prof, g.focus prof ms = .ok (.ok ⟨MeasurableSet.init set, deps, g.dependents⟩))
      (ht : TimeFor P (M ++ ms) set deps g.dependents)

theorem timeFocus_spec {P : Problem} (hP : P.WF) {T : Type} [MeasurableSet T]
    {M : List Nat} {g : PathGenerator T}
    (h : TimeFor P M (MeasurableSet.set g.measurable) g.depsCounter g.dependents) (ms : List Nat) :
    TimeResult P M g ms := by
  by_cases hl : ms.length ≤ (MeasurableSet.set g.measurable).length
  · rcases partition_short g h.set_nodup hl with ⟨⟨hn, hsub⟩, e⟩ | ⟨hbad, bad, hb, e⟩
    · have hnew : ((MeasurableSet.set g.measurable).filter fun b => decide (b ∉ ms)).Nodup :=
        h.set_nodup.filter _
      have hmem : ∀ b, b ∈ ((MeasurableSet.set g.measurable).filter fun b => decide (b ∉ ms)) ↔
          Ready P M b ∧ b ∉ ms := by
        intro b
        rw [List.mem_filter, h.set_mem, decide_eq_true_eq]
      obtain ⟨deps, new, e1, ht⟩ := updateUnchecked_spec hP.lax .debug h.look_ok ms M g.depsCounter _ hn
        (fun b hb => (h.set_mem b).1 (hsub b hb)) hnew hmem h.deps_get h.deps_nodup h.closed
      have e2 : ∀ prof, PathGenerator.updateUnchecked prof g.dependents ms g.depsCounter
          ((MeasurableSet.set g.measurable).filter fun b => decide (b ∉ ms)) = .ok (deps, new) :=
        fun prof => updateUnchecked_prof ms e1
      refine .accept hn hsub new deps ?_ ?_ (ht.congr fun v => by simp [or_comm])
      · intro prof
        simp only [PathGenerator.focusInplace, e prof, e2 prof, bind, Except.bind, pure, Except.pure]
      · intro prof
        simp only [PathGenerator.focus, PathGenerator.focusUnchecked, e prof, e2 prof, bind,
          Except.bind, pure, Except.pure]
    · refine .reject hl hbad bad hb ?_ ?_
      · intro prof
        simp [PathGenerator.focusInplace, e, bind, Except.bind, pure, Except.pure]
      · intro prof
        simp [PathGenerator.focus, e, bind, Except.bind, pure, Except.pure]
  · obtain ⟨e1, e2⟩ := partition_long g (ms := ms) (by omega)
    refine .tooLong (by omega) ?_ ?_ ?_ ?_ <;>
    simp [PathGenerator.focusInplace, PathGenerator.focus, e1, e2, bind, Except.bind]

/-- After any sequence of calls that did not panic. -/
theorem PathGenerator.instruct_spec {P : Problem} (hP : P.WF) {T : Type} [MeasurableSet T]
    (hT : LawfulSet T) {prof : Profile} (calls : List (List Nat)) :
    ∀ (M : List Nat) (g g' : PathGenerator T) (rs : List (Except NotMeasurable Unit)),
    TimeFor P M (MeasurableSet.set g.measurable) g.depsCounter g.dependents →
    g.instruct prof calls = .ok (g', rs) →
    TimeFor P (M ++ (accepted calls rs).flatten) (MeasurableSet.set g'.measurable) g'.depsCounter
      g'.dependents := by
  induction calls with
  | nil =>
    intro M g g' rs h he
    simp only [PathGenerator.instruct, pure, Except.pure, Except.ok.injEq, Prod.mk.injEq] at he
    obtain ⟨rfl, rfl⟩ := he
    simpa [accepted] using h
  | cons ms calls ih =>
    intro M g g' rs h he
    cases timeFocus_spec hP h ms with
    | tooLong _ d r =>
      cases prof <;> simp [PathGenerator.instruct, d, r, bind, Except.bind] at he
    | reject _ _ bad _ e _ =>
      simp only [PathGenerator.instruct, e prof, bind, Except.bind] at he
      cases hi : g.instruct prof calls with
      | error x => rw [hi] at he; cases he
      | ok y =>
        rw [hi] at he
        simp only [pure, Except.pure, Except.ok.injEq, Prod.mk.injEq] at he
        obtain ⟨rfl, rfl⟩ := he
        exact ih M g _ _ h hi
    | accept hn hsub set deps e _ ht =>
      simp only [PathGenerator.instruct, e prof, bind, Except.bind] at he
      cases hi : PathGenerator.instruct prof
          (⟨MeasurableSet.init set, deps, g.dependents⟩ : PathGenerator T) calls with
      | error x => rw [hi] at he; cases he
      | ok y =>
        rw [hi] at he
        simp only [pure, Except.pure, Except.ok.injEq, Prod.mk.injEq] at he
        obtain ⟨rfl, rfl⟩ := he
        have ht' : TimeFor P (M ++ ms)
            (MeasurableSet.set (MeasurableSet.init (T := T) set)) deps g.dependents := by
          rw [hT.set_init]; exact ht
        have := ih (M ++ ms) _ _ _ ht' hi
        simpa [accepted] using this

theorem accepted_filter_cons (p : Schedule) (ms : List Nat) (l : List (List Nat)) :
    addStep p ms ++ l.filter (fun s => !s.isEmpty) = p ++ (ms :: l).filter (fun s => !s.isEmpty) := by
  unfold addStep
  by_cases h : ms = []
  · simp [h]
  · have : ms.isEmpty = false := by cases ms <;> simp_all
    simp [h, this]

theorem Scheduler.instruct_spec {P : Problem} (hP : P.WF) {T : Type} [MeasurableSet T]
    (hT : LawfulSet T) {prof : Profile} (calls : List (List Nat)) :
    ∀ (p : Schedule) (s s' : Scheduler T) (rs : List (Except InstructionError Unit)),
    StateFor P p s → s.instruct prof calls = .ok (s', rs) →
    StateFor P (p ++ (accepted calls rs).filter fun s => !s.isEmpty) s' ∧
      ∀ r ∈ rs, ∀ e, r ≠ .error (.alreadyMeasured e) := by
  induction calls with
  | nil =>
    intro p s s' rs h he
    simp only [Scheduler.instruct, pure, Except.pure, Except.ok.injEq, Prod.mk.injEq] at he
    obtain ⟨rfl, rfl⟩ := he
    simpa [accepted] using h
  | cons ms calls ih =>
    intro p s s' rs h he
    cases focus_spec hP.lax hT.set_init h ms with
    | tooLong _ d r =>
      cases prof <;> simp [Scheduler.instruct, d, r, bind, Except.bind] at he
    | reject _ _ bad _ e _ =>
      simp only [Scheduler.instruct, e prof, bind, Except.bind] at he
      cases hi : s.instruct prof calls with
      | error x => rw [hi] at he; cases he
      | ok y =>
        rw [hi] at he
        simp only [pure, Except.pure, Except.ok.injEq, Prod.mk.injEq] at he
        obtain ⟨rfl, rfl⟩ := he
        obtain ⟨h1, h2⟩ := ih p s _ _ h hi
        refine ⟨h1, ?_⟩
        intro r hr e'
        rcases List.mem_cons.1 hr with rfl | hr
        · simp
        · exact h2 r hr e'
    | accept hn hsub s1 e _ ht =>
      simp only [Scheduler.instruct, e prof, bind, Except.bind] at he
      cases hi : s1.instruct prof calls with
      | error x => rw [hi] at he; cases he
      | ok y =>
        rw [hi] at he
        simp only [pure, Except.pure, Except.ok.injEq, Prod.mk.injEq] at he
        obtain ⟨rfl, rfl⟩ := he
        obtain ⟨h1, h2⟩ := ih _ s1 _ _ ht hi
        refine ⟨?_, ?_⟩
        · rw [accepted_filter_cons] at h1
          exact h1
        · intro r hr e'
          rcases List.mem_cons.1 hr with rfl | hr
          · simp
          · exact h2 r hr e'

/-- The number of unmeasured, not yet measurable bits is the size of the counter table. -/
theorem TimeFor.remaining {P : Problem} (hP : P.WF) {M set : List Nat} {deps : AMap Nat}
    {look : Dependents} (h : TimeFor P M set deps look) :
    (deps.map (·.1)).Perm (P.bits.filter fun b => decide (b ∉ M ∧ b ∉ set)) := by
  refine (List.perm_ext_iff_of_nodup h.deps_nodup (hP.bits_nodup.filter _)).2 fun b => ?_
  have hg : AMap.get deps b ≠ none ↔ curCount P M b ≠ none := by
    rw [← Option.isSome_iff_ne_none, ← Option.isSome_iff_ne_none, (h.deps_get b).1]
  rw [AMap.mem_keys_iff, hg, List.mem_filter, decide_eq_true_eq, h.set_mem,
    ready_iff hP.bits_nodup]
  unfold curCount
  have hz : b ∈ M → unmet P M b = 0 := fun hb => (unmet_zero_iff hP.bits_nodup).2 (h.closed b hb)
  constructor
  · intro hc
    split at hc
    · rename_i hc'
      exact ⟨hc'.1, fun hb => by have := hz hb; omega, fun hr => by omega⟩
    · exact (hc rfl).elim
  · rintro ⟨h1, h2, h3⟩
    have : 0 < unmet P M b := by
      rcases Nat.eq_zero_or_pos (unmet P M b) with h0 | h0
      · exact (h3 ⟨h1, h2, h0⟩).elim
      · exact h0
    rw [if_pos ⟨h1, this⟩]
    simp

/-- Two look-up tables that agree on the bits of the problem. -/
def LookAgree (P : Problem) (a b : Dependents) : Prop := ∀ x ∈ P.bits, a[x]? = b[x]?

theorem updateUnchecked_agree {P : Problem} {prof : Profile} {a b : Dependents}
    (hab : LookAgree P a b) (ms : List Nat) : ∀ (deps : AMap Nat) (new : List Nat),
    (∀ x ∈ ms, x ∈ P.bits) →
    PathGenerator.updateUnchecked prof a ms deps new = PathGenerator.updateUnchecked prof b ms deps new := by
  induction ms with
  | nil => intros; rfl
  | cons m ms ih =>
    intro deps new hm
    have h1 : idx a m = idx b m := by
      unfold idx
      rw [hab m (hm m List.mem_cons_self)]
    rw [PathGenerator.updateUnchecked, PathGenerator.updateUnchecked, h1]
    cases idx b m with
    | error e => rfl
    | ok l =>
      simp only [bind, Except.bind]
      cases PathGenerator.updateDependents prof l deps new with
      | error e => rfl
      | ok r => exact ih _ _ (fun x hx => hm x (List.mem_cons_of_mem _ hx))

/-- The same generator in two buffers. -/
structure SameGen {T : Type} (P : Problem) (g g' : PathGenerator T) : Prop where
  measurable : g.measurable = g'.measurable
  deps : g.depsCounter = g'.depsCounter
  look : LookAgree P g.dependents g'.dependents

theorem instruct_agree {P : Problem} (hP : P.WF) {T : Type} [MeasurableSet T] (hT : LawfulSet T)
    (prof : Profile) (calls : List (List Nat)) : ∀ (M : List Nat) (g h : PathGenerator T),
    SameGen P g h → TimeFor P M (MeasurableSet.set g.measurable) g.depsCounter g.dependents →
    (∃ e, g.instruct prof calls = .error e ∧ h.instruct prof calls = .error e) ∨
    (∃ g' h' rs, g.instruct prof calls = .ok (g', rs) ∧ h.instruct prof calls = .ok (h', rs) ∧
      SameGen P g' h') := by
  induction calls with
  | nil =>
    intro M g h hs _
    exact Or.inr ⟨g, h, [], rfl, rfl, hs⟩
  | cons ms calls ih =>
    intro M g h hs ht
    obtain ⟨hm, hd, hl⟩ := hs
    have hpart : h.partition prof ms = g.partition prof ms := by
      simp [PathGenerator.partition, hm]
    cases timeFocus_spec hP ht ms with
    | tooLong hlong d r =>
      left
      obtain ⟨e1, e2⟩ := partition_long g (ms := ms) hlong
      cases prof
      · exact ⟨.subOverflow, by simp [PathGenerator.instruct, d, bind, Except.bind],
          by simp [PathGenerator.instruct, PathGenerator.focusInplace, hpart, e1, bind, Except.bind]⟩
      · exact ⟨.capacityOverflow, by simp [PathGenerator.instruct, r, bind, Except.bind],
          by simp [PathGenerator.instruct, PathGenerator.focusInplace, hpart, e2, bind, Except.bind]⟩
    | reject hshort hbad bad hb e e' =>
      have hh : h.focusInplace prof ms = .ok (h, .error ⟨bad⟩) := by
        have h1 := e prof
        rw [PathGenerator.focusInplace] at h1 ⊢
        rw [hpart]
        cases hp : g.partition prof ms with
        | error x => rw [hp] at h1; cases h1
        | ok y =>
          rw [hp] at h1
          cases y with
          | error x =>
            simp only [bind, Except.bind, pure, Except.pure, Except.ok.injEq, Prod.mk.injEq,
              true_and] at h1 ⊢
            exact h1
          | ok z =>
            simp only [bind, Except.bind] at h1
            cases hu : PathGenerator.updateUnchecked prof g.dependents ms g.depsCounter z with
            | error x => rw [hu] at h1; cases h1
            | ok w =>
              rw [hu] at h1
              simp only [pure, Except.pure, Except.ok.injEq, Prod.mk.injEq, reduceCtorEq,
                and_false] at h1
      rcases ih M g h ⟨hm, hd, hl⟩ ht with ⟨x, h1, h2⟩ | ⟨g', h', rs, h1, h2, h3⟩
      · exact Or.inl ⟨x, by simp [PathGenerator.instruct, e, h1, bind, Except.bind],
          by simp [PathGenerator.instruct, hh, h2, bind, Except.bind]⟩
      · exact Or.inr ⟨g', h', .error ⟨bad⟩ :: rs,
          by simp [PathGenerator.instruct, e, h1, bind, Except.bind, pure, Except.pure],
          by simp [PathGenerator.instruct, hh, h2, bind, Except.bind, pure, Except.pure], h3⟩
    | accept hn hsub set deps e e' ht' =>
      have hbits : ∀ x ∈ ms, x ∈ P.bits := fun x hx => ((ht.set_mem x).1 (hsub x hx)).bit
      have hh : h.focusInplace prof ms = .ok (⟨MeasurableSet.init set, deps, h.dependents⟩, .ok ()) := by
        have h1 := e prof
        rw [PathGenerator.focusInplace] at h1 ⊢
        rw [hpart]
        cases hp : g.partition prof ms with
        | error x => rw [hp] at h1; cases h1
        | ok y =>
          rw [hp] at h1
          cases y with
          | error x =>
            simp only [bind, Except.bind, pure, Except.pure, Except.ok.injEq, Prod.mk.injEq,
              reduceCtorEq, and_false] at h1
          | ok z =>
            simp only [bind, Except.bind] at h1 ⊢
            rw [← hd, ← updateUnchecked_agree hl ms _ _ hbits]
            cases hu : PathGenerator.updateUnchecked prof g.dependents ms g.depsCounter z with
            | error x => rw [hu] at h1; cases h1
            | ok w =>
              rw [hu] at h1
              simp only [pure, Except.pure, Except.ok.injEq, Prod.mk.injEq, PathGenerator.mk.injEq,
                and_true] at h1 ⊢
              exact h1
      have hs' : SameGen P (⟨MeasurableSet.init set, deps, g.dependents⟩ : PathGenerator T)
          ⟨MeasurableSet.init set, deps, h.dependents⟩ := ⟨rfl, rfl, hl⟩
      have ht2 : TimeFor P (M ++ ms)
          (MeasurableSet.set (MeasurableSet.init (T := T) set)) deps g.dependents := by
        rw [hT.set_init]; exact ht'
      rcases ih _ _ _ hs' ht2 with ⟨x, h1, h2⟩ | ⟨g', h', rs, h1, h2, h3⟩
      · exact Or.inl ⟨x, by simp [PathGenerator.instruct, e, h1, bind, Except.bind],
          by simp [PathGenerator.instruct, hh, h2, bind, Except.bind]⟩
      · exact Or.inr ⟨g', h', .ok () :: rs,
          by simp [PathGenerator.instruct, e, h1, bind, Except.bind, pure, Except.pure],
          by simp [PathGenerator.instruct, hh, h2, bind, Except.bind, pure, Except.pure], h3⟩

/-- Building the same problem in two buffers. -/
theorem fromDependencyGraph_agree {P : Problem} (hP : P.WF) {T : Type} [MeasurableSet T]
    (buffer buffer' : Dependents) (hb : P.n ≤ buffer.length) (hb' : P.n ≤ buffer'.length) :
    ∃ g g', PathGenerator.fromDependencyGraph (T := T) P.order buffer none = .ok g ∧
      PathGenerator.fromDependencyGraph (T := T) P.order buffer' none = .ok g' ∧ SameGen P g g' := by
  cases ho : P.order with
  | nil =>
    refine ⟨_, _, rfl, rfl, rfl, rfl, ?_⟩
    intro x hx
    have : P.bits = [] := by simp [Problem.bits, Problem.entries, ho]
    rw [this] at hx
    cases hx
  | cons first rest =>
    have hflat : P.entries = first ++ rest.flatten := by simp [Problem.entries, ho]
    have hbits : P.bits = first.map (·.1) ++ rest.flatten.map (·.1) := by
      simp [Problem.bits, hflat]
    have hlt : ∀ x ∈ P.bits, x < buffer.length ∧ x < buffer'.length := by
      intro x hx
      have := hP.bits_lt x hx
      omega
    have hnd := hP.bits_nodup
    rw [hbits, List.nodup_append] at hnd
    have hdis : ∀ x, x ∈ first.map (·.1) → x ∉ rest.flatten.map (·.1) :=
      fun x h1 h2 => hnd.2.2 x h1 x h2 rfl
    have key : ∀ buf : Dependents, (∀ x ∈ P.bits, x < buf.length) →
        ∃ look deps, PathGenerator.fromDependencyGraph (T := T) (first :: rest) buf none =
          .ok ⟨MeasurableSet.init (first.map (·.1)), deps, look⟩ ∧
          (∀ b ∈ first.map (·.1), look[b]? = some (PathGenerator.collectDependents b rest)) ∧
          (∀ pre layer post, rest = pre ++ layer :: post → ∀ e ∈ layer,
            look[e.1]? = some (PathGenerator.collectDependents e.1 post)) := by
      intro buf hbuf
      obtain ⟨look1, a1, a2, a3⟩ := resolveFirst_spec rest first buf (by
        intro e he
        exact hbuf e.1 (by rw [hbits]; exact List.mem_append_left _ (List.mem_map.2 ⟨e, he, rfl⟩)))
      obtain ⟨look2, deps, b1, b2, b3, b4, b5, b6⟩ := resolveRest_spec rest look1 [] (by
        intro e he
        rw [a2]
        exact hbuf e.1 (by rw [hbits]; exact List.mem_append_right _ (List.mem_map.2 ⟨e, he, rfl⟩)))
        hnd.2.1 (by simp [AMap.keys])
      refine ⟨look2, deps, ?_, ?_, b4⟩
      · simp only [PathGenerator.fromDependencyGraph, PathGenerator.applyMapping, a1, bind,
          Except.bind, b1, pure, Except.pure]
      · intro b hb
        rw [b3 b (hdis b hb), a3, if_pos hb]
    obtain ⟨l1, d1, e1, f1, r1⟩ := key buffer fun x hx => (hlt x hx).1
    obtain ⟨l2, d2, e2, f2, r2⟩ := key buffer' fun x hx => (hlt x hx).2
    have hdeps : d1 = d2 := by
      have hd : ∀ (es : List (Nat × List Nat)) (rest : OrderGraph) (a b : Dependents) (d : AMap Nat)
          (ra rb : Dependents × AMap Nat),
          PathGenerator.resolveLayer rest es a d = .ok ra →
          PathGenerator.resolveLayer rest es b d = .ok rb → ra.2 = rb.2 := by
        intro es
        induction es with
        | nil =>
          intro rest a b d ra rb h1 h2
          simp only [PathGenerator.resolveLayer, pure, Except.pure, Except.ok.injEq] at h1 h2
          rw [← h1, ← h2]
        | cons e es ih =>
          intro rest a b d ra rb h1 h2
          simp only [PathGenerator.resolveLayer, bind, Except.bind] at h1 h2
          cases ha : PathGenerator.resolve e.1 rest a with
          | error x => rw [ha] at h1; cases h1
          | ok a' =>
            cases hb : PathGenerator.resolve e.1 rest b with
            | error x => rw [hb] at h2; cases h2
            | ok b' =>
              rw [ha] at h1
              rw [hb] at h2
              exact ih rest a' b' _ ra rb h1 h2
      have hr : ∀ (rest : OrderGraph) (a b : Dependents) (d : AMap Nat)
          (ra rb : Dependents × AMap Nat),
          PathGenerator.resolveRest rest a d = .ok ra →
          PathGenerator.resolveRest rest b d = .ok rb → ra.2 = rb.2 := by
        intro rest
        induction rest with
        | nil =>
          intro a b d ra rb h1 h2
          simp only [PathGenerator.resolveRest, pure, Except.pure, Except.ok.injEq] at h1 h2
          rw [← h1, ← h2]
        | cons layer rest ih =>
          intro a b d ra rb h1 h2
          simp only [PathGenerator.resolveRest, bind, Except.bind] at h1 h2
          cases ha : PathGenerator.resolveLayer rest layer a d with
          | error x => rw [ha] at h1; cases h1
          | ok a' =>
            cases hb : PathGenerator.resolveLayer rest layer b d with
            | error x => rw [hb] at h2; cases h2
            | ok b' =>
              rw [ha] at h1
              rw [hb] at h2
              have := hd layer rest a b d a' b' ha hb
              simp only at h1 h2
              rw [← this] at h2
              exact ih a'.1 b'.1 _ ra rb h1 h2
      simp only [PathGenerator.fromDependencyGraph, PathGenerator.applyMapping, bind, Except.bind]
        at e1 e2
      cases hf1 : PathGenerator.resolveFirst rest first buffer with
      | error x => rw [hf1] at e1; cases e1
      | ok a =>
        cases hf2 : PathGenerator.resolveFirst rest first buffer' with
        | error x => rw [hf2] at e2; cases e2
        | ok b =>
          rw [hf1] at e1
          rw [hf2] at e2
          cases ha : PathGenerator.resolveRest rest a [] with
          | error x => simp only [ha] at e1; cases e1
          | ok ra =>
            cases hb : PathGenerator.resolveRest rest b [] with
            | error x => simp only [hb] at e2; cases e2
            | ok rb =>
              simp only [ha, pure, Except.pure, Except.ok.injEq, PathGenerator.mk.injEq] at e1
              simp only [hb, pure, Except.pure, Except.ok.injEq, PathGenerator.mk.injEq] at e2
              rw [← e1.2.1, ← e2.2.1]
              exact hr rest a b [] ra rb ha hb
    refine ⟨_, _, e1, e2, rfl, hdeps, ?_⟩
    intro x hx
    rw [hbits, List.mem_append] at hx
    rcases hx with hx | hx
    · exact (f1 x hx).trans (f2 x hx).symm
    · obtain ⟨e, he, rfl⟩ := List.mem_map.1 hx
      obtain ⟨layer, hl, hel⟩ := List.mem_flatten.1 he
      obtain ⟨pre, post, hpp⟩ := List.append_of_mem hl
      exact (r1 pre layer post hpp e hel).trans (r2 pre layer post hpp e hel).symm

end Verif
