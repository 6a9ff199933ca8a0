import Verif.Proofs.TimeApi
import Verif.Proofs.GraphApi
import Verif.Props.Example
/-!
# Manual scheduling: `PathGenerator` and `Scheduler` driven by `focus` calls

`g.instruct prof calls = .ok (g', rs)`: the calls `focus_inplace(ms)` for all `ms` in `calls`, one
after the other, did not panic, returned the results `rs` and led to `g'`; `accepted calls rs` are
the sets for which the result was `Ok`.
-/

namespace Verif

open Spec

/-- The constructor calls before manual scheduling: `PathGenerator::from_dependency_graph` with some
(possibly used) buffer and `Scheduler::new` with a fresh graph. -/
def newScheduler {T : Type} [MeasurableSet T] (P : Problem) (buffer : Dependents) : R (Scheduler T) := do
  let time ← PathGenerator.fromDependencyGraph P.order buffer none
  pure ⟨time, Graph.new P.graph⟩

section

variable {P : Problem} {T : Type} [MeasurableSet T] {prof : Profile} {buffer : Dependents}
  {calls : List (List Nat)}

theorem generator_reached (hP : P.WF) (hT : LawfulSet T) (hb : P.n ≤ buffer.length)
    {g0 g : PathGenerator T} {rs : List (Except NotMeasurable Unit)}
    (h0 : PathGenerator.fromDependencyGraph P.order buffer none = .ok g0)
    (h : g0.instruct prof calls = .ok (g, rs)) :
    TimeFor P (accepted calls rs).flatten (MeasurableSet.set g.measurable) g.depsCounter
      g.dependents := by
  obtain ⟨set, deps, look, h1, h2⟩ := fromDependencyGraph_spec hP hT.init_nil buffer hb
  rw [h1] at h0
  injection h0 with h0
  subst h0
  have h2' : TimeFor P [] (MeasurableSet.set (MeasurableSet.init (T := T) set)) deps look := by
    rw [hT.set_init]; exact h2
  simpa using PathGenerator.instruct_spec hP hT calls [] _ g rs h2' h

theorem scheduler_reached (hP : P.WF) (hT : LawfulSet T) (hb : P.n ≤ buffer.length)
    {s0 s : Scheduler T} {rs : List (Except InstructionError Unit)}
    (h0 : newScheduler P buffer = .ok s0) (h : s0.instruct prof calls = .ok (s, rs)) :
    StateFor P ((accepted calls rs).filter fun s => !s.isEmpty) s ∧
      ∀ r ∈ rs, ∀ e, r ≠ .error (.alreadyMeasured e) := by
  obtain ⟨set, deps, look, h1, h2⟩ := mkState_spec (T := T) hP hT.set_init hT.init_nil buffer hb
  simp only [newScheduler, h1, bind, Except.bind, pure, Except.pure, Except.ok.injEq] at h0
  subst h0
  simpa using Scheduler.instruct_spec hP hT calls [] _ s rs h2 h

/-- **C17** At any time during manual scheduling the measurable set contains, without repetition,
exactly the unmeasured qubits all of whose dependencies are measured, and `has_unmeasureable` tells
whether there are other unmeasured qubits. -/
theorem C17_measurable (hP : P.WF) (hT : LawfulSet T) (hb : P.n ≤ buffer.length)
    {g0 g : PathGenerator T} {rs : List (Except NotMeasurable Unit)}
    (h0 : PathGenerator.fromDependencyGraph P.order buffer none = .ok g0)
    (h : g0.instruct prof calls = .ok (g, rs)) :
    (MeasurableSet.set g.measurable).Nodup ∧
    (∀ b, b ∈ MeasurableSet.set g.measurable ↔ b ∈ P.bits ∧ b ∉ (accepted calls rs).flatten ∧
      ∀ d, P.Needs b d → d ∈ (accepted calls rs).flatten) ∧
    (g.hasUnmeasureable = true ↔ ∃ b ∈ P.bits, b ∉ (accepted calls rs).flatten ∧
      b ∉ MeasurableSet.set g.measurable) := by
  have ht := generator_reached hP hT hb h0 h
  refine ⟨ht.set_nodup, ?_, ?_⟩
  · intro b
    rw [ht.set_mem]
    exact ⟨fun h => ⟨h.bit, h.fresh, h.deps⟩, fun h => ⟨h.1, h.2.1, h.2.2⟩⟩
  · have hr := ht.remaining hP
    constructor
    · intro hu
      cases hd : g.depsCounter with
      | nil => simp [PathGenerator.hasUnmeasureable, hd] at hu
      | cons x l =>
        have : x.1 ∈ g.depsCounter.map (·.1) := by rw [hd]; simp
        have := (hr.mem_iff).1 this
        rw [List.mem_filter, decide_eq_true_eq] at this
        exact ⟨x.1, this.1, this.2⟩
    · rintro ⟨b, h1, h2⟩
      have : b ∈ g.depsCounter.map (·.1) := by
        rw [hr.mem_iff, List.mem_filter, decide_eq_true_eq]
        exact ⟨h1, h2⟩
      cases hd : g.depsCounter with
      | nil => rw [hd] at this; cases this
      | cons x l => simp [PathGenerator.hasUnmeasureable, hd]

-- a failing and two successful calls on the documentation's example; 2 is not measurable yet
example : Example.docs.WF ∧ LawfulSet (List Nat) ∧ ∃ g0 g : PathGenerator (List Nat),
    PathGenerator.fromDependencyGraph Example.docs.order (dependencyBufferNew 4) none = .ok g0 ∧
    g0.instruct .debug [[1], [0], [1]] = .ok (g, [.error ⟨[1]⟩, .ok (), .ok ()]) ∧
    g.measurable = [3] ∧ g.hasUnmeasureable = true :=
  ⟨Example.docs_wf, lawful_vec, ⟨[0], [(2, 1), (1, 1), (3, 1)], [[3, 1], [], [], [2]]⟩,
    ⟨[3], [(2, 1)], [[3, 1], [], [], [2]]⟩, by decide +kernel⟩

/-- **C18** `focus` with a set that is not longer than the measurable set succeeds iff the set has no
repetition and is contained in the measurable set. Otherwise the error lists exactly the
offending bits (with multiplicity) and the generator is unchanged. `focus` and `focus_inplace`
agree. -/
theorem C18_focus (hP : P.WF) (hT : LawfulSet T) (hb : P.n ≤ buffer.length)
    {g0 g : PathGenerator T} {rs : List (Except NotMeasurable Unit)}
    (h0 : PathGenerator.fromDependencyGraph P.order buffer none = .ok g0)
    (h : g0.instruct prof calls = .ok (g, rs)) (ms : List Nat)
    (hl : ms.length ≤ (MeasurableSet.set g.measurable).length) :
    ((ms.Nodup ∧ ∀ b ∈ ms, b ∈ MeasurableSet.set g.measurable) →
      ∃ g', g.focusInplace prof ms = .ok (g', .ok ()) ∧ g.focus prof ms = .ok (.ok g')) ∧
    (¬ (ms.Nodup ∧ ∀ b ∈ ms, b ∈ MeasurableSet.set g.measurable) →
      ∃ bad, (∀ b, bad.count b = ms.count b - (MeasurableSet.set g.measurable).count b) ∧
        bad ≠ [] ∧
        g.focusInplace prof ms = .ok (g, .error ⟨bad⟩) ∧ g.focus prof ms = .ok (.error ⟨bad⟩)) := by
  have ht := generator_reached hP hT hb h0 h
  cases timeFocus_spec hP ht ms with
  | tooLong hlong => omega
  | reject hs hbad bad hbd e e' =>
    refine ⟨fun hok => (hbad hok).elim, fun _ => ⟨bad, ?_, ?_, e prof, e' prof⟩⟩
    · intro b
      rw [hbd.count_eq, count_diff]
    · intro hnil
      subst hnil
      exact hbad ((diff_eq_nil_iff ht.set_nodup).1 hbd.symm.eq_nil)
  | accept hn hsub set deps e e' _ =>
    exact ⟨fun _ => ⟨_, e prof, e' prof⟩, fun hbad => (hbad ⟨hn, hsub⟩).elim⟩

/-- **C18** For a longer set the documented error `NotMeasurable` is never returned: both variants
panic, in both build profiles. -/
theorem C18_panics (hP : P.WF) (hT : LawfulSet T) (hb : P.n ≤ buffer.length)
    {g0 g : PathGenerator T} {rs : List (Except NotMeasurable Unit)}
    (h0 : PathGenerator.fromDependencyGraph P.order buffer none = .ok g0)
    (h : g0.instruct prof calls = .ok (g, rs)) (ms : List Nat)
    (hl : (MeasurableSet.set g.measurable).length < ms.length) (prof' : Profile) :
    ∃ p, g.focusInplace prof' ms = .error p ∧ g.focus prof' ms = .error p := by
  have ht := generator_reached hP hT hb h0 h
  cases timeFocus_spec hP ht ms with
  | tooLong _ d r d' r' =>
    cases prof'
    · exact ⟨_, d, d'⟩
    · exact ⟨_, r, r'⟩
  | reject hs => omega
  | accept hn hsub =>
    have := (hn.subperm hsub).length_le
    omega

-- the repetition `[3, 3]` is rejected and named once, `[0, 3]` names the measured bit, and the
-- three-element set panics
example : ∃ g0 g : PathGenerator Partitioner,
    PathGenerator.fromDependencyGraph Example.docs.order (dependencyBufferNew 4) none = .ok g0 ∧
    g0.instruct .debug [[0]] = .ok (g, [.ok ()]) ∧ g.measurable.set = [3, 1] ∧
    (g.focus .debug [3, 3]).map (fun r => match r with | .ok _ => none | .error e => some e) =
      .ok (some ⟨[3]⟩) ∧
    (g.focus .debug [0, 3]).map (fun r => match r with | .ok _ => none | .error e => some e) =
      .ok (some ⟨[0]⟩) ∧
    (g.focus .debug [3, 1, 2]).map (fun _ => ()) = .error .subOverflow :=
  ⟨⟨Partition.new [0] 1, [(2, 1), (1, 1), (3, 1)], [[3, 1], [], [], [2]]⟩,
    ⟨Partition.new [3, 1] 2, [(2, 1)], [[3, 1], [], [], [2]]⟩, by decide +kernel⟩

/-- What can be observed of a generator built in `buffer` after a sequence of calls: the results of
the calls, the measurable set (in its order), `num_remaining_nodes` and `has_unmeasureable`. -/
def observe (T : Type) [MeasurableSet T] (prof : Profile) (order : OrderGraph) (buffer : Dependents)
    (calls : List (List Nat)) : R (List (Except NotMeasurable Unit) × List Nat × Nat × Bool) := do
  let g0 ← PathGenerator.fromDependencyGraph (T := T) order buffer none
  let (g, rs) ← g0.instruct prof calls
  pure (rs, MeasurableSet.set g.measurable, g.numRemainingNodes, g.hasUnmeasureable)

/-- **C24** A generator built in a used buffer (any contents, large enough) behaves exactly like one
built in a fresh buffer, for every sequence of calls (including calls that panic). -/
theorem C24_buffer_reuse (hP : P.WF) (hT : LawfulSet T) (hb : P.n ≤ buffer.length) :
    observe T prof P.order buffer calls =
      observe T prof P.order (dependencyBufferNew P.n) calls := by
  obtain ⟨g, g', e, e', hs⟩ := fromDependencyGraph_agree (T := T) hP buffer
    (dependencyBufferNew P.n) hb (by simp [dependencyBufferNew])
  have ht := generator_reached (prof := prof) (calls := []) (rs := []) hP hT hb e rfl
  simp only [accepted, List.flatten_nil] at ht
  rcases instruct_agree hP hT prof calls [] g g' hs ht with ⟨x, h1, h2⟩ | ⟨k, k', rs, h1, h2, h3⟩
  · simp [observe, e, e', h1, h2, bind, Except.bind]
  · have h4 : PathGenerator.numRemainingNodes k = PathGenerator.numRemainingNodes k' := by
      simp [PathGenerator.numRemainingNodes, h3.deps]
    have h5 : PathGenerator.hasUnmeasureable k = PathGenerator.hasUnmeasureable k' := by
      simp [PathGenerator.hasUnmeasureable, h3.deps]
    simp only [observe, e, e', h1, h2, h3.measurable, h4, h5, bind, Except.bind]

-- a buffer full of leftovers; the observation is not trivial
example : observe (List Nat) .debug Example.docs.order [[7], [7, 7], [0], [1, 2, 3], [9]]
      [[0], [3], [0], [1, 2]] =
    .ok ([.ok (), .ok (), .error ⟨[0]⟩, .ok ()], [], 0, false) := by decide +kernel

/-- **C26** The debug and the release build agree on every sequence of calls of
`Scheduler::focus_inplace`, except that a too long set panics with a different message. -/
theorem C26_manual (hP : P.WF) (hT : LawfulSet T) (hb : P.n ≤ buffer.length)
    {s0 : Scheduler T} (h0 : newScheduler P buffer = .ok s0) (calls : List (List Nat)) :
    s0.instruct .debug calls = s0.instruct .release calls ∨
      (s0.instruct .debug calls = .error .subOverflow ∧
        s0.instruct .release calls = .error .capacityOverflow) := by
  have hs0 : StateFor P [] s0 := by
    simpa [accepted] using
      (scheduler_reached (calls := []) (prof := .debug) (rs := []) hP hT hb h0 rfl).1
  have key : ∀ (calls : List (List Nat)) (p : Schedule) (s : Scheduler T), StateFor P p s →
      s.instruct .debug calls = s.instruct .release calls ∨
      (s.instruct .debug calls = .error .subOverflow ∧
        s.instruct .release calls = .error .capacityOverflow) := by
    intro calls
    induction calls with
    | nil => intro p s _; exact Or.inl rfl
    | cons ms calls ih =>
      intro p s hs
      cases focus_spec hP.lax hT.set_init hs ms with
      | tooLong _ d r =>
        exact Or.inr ⟨by simp [Scheduler.instruct, d, bind, Except.bind],
          by simp [Scheduler.instruct, r, bind, Except.bind]⟩
      | reject _ _ bad _ e _ =>
        rcases ih p s hs with h | ⟨h1, h2⟩
        · exact Or.inl (by simp [Scheduler.instruct, e, h, bind, Except.bind])
        · exact Or.inr ⟨by simp [Scheduler.instruct, e, h1, bind, Except.bind],
            by simp [Scheduler.instruct, e, h2, bind, Except.bind]⟩
      | accept _ _ s' e _ hs' =>
        rcases ih _ s' hs' with h | ⟨h1, h2⟩
        · exact Or.inl (by simp [Scheduler.instruct, e, h, bind, Except.bind])
        · exact Or.inr ⟨by simp [Scheduler.instruct, e, h1, bind, Except.bind],
            by simp [Scheduler.instruct, e, h2, bind, Except.bind]⟩
  exact key calls [] s0 hs0

/-- **C38** `num_remaining_nodes` is the number of unmeasured qubits that are *not yet measurable*:
together with the measurable ones they are the nodes left to be measured. -/
theorem C38_counts_blocked (hP : P.WF) (hT : LawfulSet T) (hb : P.n ≤ buffer.length)
    {g0 g : PathGenerator T} {rs : List (Except NotMeasurable Unit)}
    (h0 : PathGenerator.fromDependencyGraph P.order buffer none = .ok g0)
    (h : g0.instruct prof calls = .ok (g, rs)) :
    g.numRemainingNodes + (MeasurableSet.set g.measurable).length =
      (P.bits.filter fun b => decide (b ∉ (accepted calls rs).flatten)).length ∧
    (g.numRemainingNodes = (P.bits.filter fun b => decide (b ∉ (accepted calls rs).flatten)).length ↔
      MeasurableSet.set g.measurable = []) := by
  have ht := generator_reached hP hT hb h0 h
  have h1 := (ht.remaining hP).length_eq
  rw [List.length_map] at h1
  have h2 : (MeasurableSet.set g.measurable).length =
      (P.bits.filter fun b => decide (b ∈ MeasurableSet.set g.measurable)).length := by
    refine List.Perm.length_eq ?_
    refine (List.perm_ext_iff_of_nodup ht.set_nodup (hP.bits_nodup.filter _)).2 fun b => ?_
    rw [List.mem_filter, decide_eq_true_eq]
    exact ⟨fun hb => ⟨((ht.set_mem b).1 hb).bit, hb⟩, fun hb => hb.2⟩
  have h3 : ∀ l : List Nat,
      (l.filter fun b => decide (b ∉ (accepted calls rs).flatten ∧
        b ∉ MeasurableSet.set g.measurable)).length +
      (l.filter fun b => decide (b ∈ MeasurableSet.set g.measurable)).length =
      (l.filter fun b => decide (b ∉ (accepted calls rs).flatten)).length := by
    intro l
    induction l with
    | nil => rfl
    | cons b l ih =>
      have hfr : b ∈ MeasurableSet.set g.measurable → b ∉ (accepted calls rs).flatten :=
        fun hb => ((ht.set_mem b).1 hb).fresh
      by_cases hb : b ∈ MeasurableSet.set g.measurable
      · have := hfr hb
        simp only [List.filter_cons, hb, this, not_true_eq_false, and_false, decide_false,
          Bool.false_eq_true, if_false, not_false_eq_true, decide_true, if_true, List.length_cons]
        omega
      · by_cases hm : b ∈ (accepted calls rs).flatten
        · simp only [List.filter_cons, hb, hm, not_true_eq_false, false_and, decide_false,
            Bool.false_eq_true, if_false]
          exact ih
        · simp only [List.filter_cons, hb, hm, not_false_eq_true, and_self, decide_true, if_true,
            decide_false, Bool.false_eq_true, if_false, List.length_cons]
          omega
  have h4 := h3 P.bits
  unfold PathGenerator.numRemainingNodes
  refine ⟨by omega, ?_⟩
  constructor
  · intro h5
    exact List.eq_nil_of_length_eq_zero (by omega)
  · intro h5
    have h6 : (MeasurableSet.set g.measurable).length = 0 := by rw [h5]; rfl
    omega

/-- **C38** refuted as documented: one qubit has to be measured, `num_remaining_nodes` is 0. -/
theorem C38_refuted : ∃ (P : Problem) (g : PathGenerator (List Nat)), P.WF ∧
    PathGenerator.fromDependencyGraph P.order (dependencyBufferNew P.n) none = .ok g ∧
    P.bits.length = 1 ∧ g.numRemainingNodes = 0 :=
  ⟨⟨[[]], [[(0, [])]]⟩, ⟨[0], [], [[]]⟩, Example.wf_of_check (by decide +kernel), by decide +kernel⟩

example : ∃ g0 : PathGenerator (List Nat),
    PathGenerator.fromDependencyGraph Example.docs.order (dependencyBufferNew 4) none = .ok g0 ∧
    g0.numRemainingNodes = 3 ∧ g0.measurable = [0] :=
  ⟨⟨[0], [(2, 1), (1, 1), (3, 1)], [[3, 1], [], [], [2]]⟩, by decide +kernel⟩

/-- **C48** Manual scheduling keeps time and space in sync. After any sequence of calls: the graph
update never reported `AlreadyMeasured`; exactly the qubits accepted by the time ordering are in
state `Measured`; `max_memory` is the peak memory of the accepted steps; and when nothing is
measurable any more, the accepted steps are a valid schedule. A failing call changes nothing. -/
theorem C48_sync (hP : P.WF) (hT : LawfulSet T) (hb : P.n ≤ buffer.length)
    {s0 s : Scheduler T} {rs : List (Except InstructionError Unit)}
    (h0 : newScheduler P buffer = .ok s0) (h : s0.instruct prof calls = .ok (s, rs)) :
    (∀ r ∈ rs, ∀ e, r ≠ .error (.alreadyMeasured e)) ∧
    (∀ b, (∃ nb, s.space.nodes[b]? = some (.measured, nb)) ↔ b ∈ (accepted calls rs).flatten) ∧
    (∀ b, b ∈ MeasurableSet.set s.time.measurable ↔ b ∈ P.bits ∧ b ∉ (accepted calls rs).flatten ∧
      ∀ d, P.Needs b d → d ∈ (accepted calls rs).flatten) ∧
    s.space.maxMemory = P.peak ((accepted calls rs).filter fun s => !s.isEmpty) ∧
    (MeasurableSet.set s.time.measurable = [] ↔
      P.Valid ((accepted calls rs).filter fun s => !s.isEmpty)) ∧
    (∀ ms s' e, s.focusInplace prof ms = .ok (s', .error e) → s' = s) := by
  obtain ⟨h1, h2⟩ := scheduler_reached hP hT hb h0 h
  have hfl : ∀ b, b ∈ ((accepted calls rs).filter fun s => !s.isEmpty).flatten ↔
      b ∈ (accepted calls rs).flatten := by
    intro b
    simp only [List.mem_flatten, List.mem_filter, Bool.not_eq_true', List.isEmpty_eq_false_iff]
    constructor
    · rintro ⟨l, ⟨hl, _⟩, hbl⟩; exact ⟨l, hl, hbl⟩
    · rintro ⟨l, hl, hbl⟩; exact ⟨l, ⟨hl, List.ne_nil_of_mem hbl⟩, hbl⟩
  refine ⟨h2, ?_, ?_, h1.space.max, leaf_iff hP h1, ?_⟩
  · intro b
    rw [h1.space.nodes, ← hfl]
    constructor
    · rintro ⟨nb, hnb⟩
      rw [getElem?_nodesOf] at hnb
      cases hg : P.graph[b]? with
      | none => rw [hg] at hnb; cases hnb
      | some nb' =>
        rw [hg] at hnb
        simp only [Option.map_some, Option.some.injEq, Prod.mk.injEq] at hnb
        have := hnb.1
        unfold stateOf at this
        split at this
        · assumption
        · split at this <;> cases this
    · intro hb'
      have hlt : b < P.graph.length := hP.bits_lt b (h1.pre.sub b hb')
      refine ⟨P.graph[b], ?_⟩
      rw [getElem?_nodesOf, List.getElem?_eq_getElem hlt]
      simp [stateOf, if_pos hb']
  · intro b
    rw [h1.time.set_mem]
    constructor
    · intro h
      exact ⟨h.bit, fun hb' => h.fresh ((hfl b).2 hb'), fun d hd => (hfl d).1 (h.deps d hd)⟩
    · intro h
      exact ⟨h.1, fun hb' => h.2.1 ((hfl b).1 hb'), fun d hd => (hfl d).2 (h.2.2 d hd)⟩
  · intro ms s' e he
    cases focus_spec hP.lax hT.set_init h1 ms with
    | tooLong _ d r => cases prof <;> simp [d, r] at he
    | reject _ _ bad _ e1 _ =>
      rw [e1] at he
      injection he with he
      injection he with he1 he2
      exact he1.symm
    | accept _ _ s1 e1 _ _ =>
      rw [e1] at he
      injection he with he
      injection he with he1 he2
      cases he2

-- six calls, one rejected and one empty; the accepted steps are a complete schedule
example : ∃ s0 s : Scheduler (List Nat),
    newScheduler Example.docs (dependencyBufferNew 4) = .ok s0 ∧
    s0.instruct .debug [[0], [2], [], [3], [1, 2]] =
      .ok (s, [.ok (), .error (.notMeasurable ⟨[2]⟩), .ok (), .ok (), .ok ()]) ∧
    s.time.measurable = [] ∧ s.space.maxMemory = 3 :=
  ⟨⟨⟨[0], [(2, 1), (1, 1), (3, 1)], [[3, 1], [], [], [2]]⟩, Graph.new Example.docs.graph⟩,
    ⟨⟨[], [], [[3, 1], [], [], [2]]⟩,
      ⟨[(.measured, [1, 2]), (.measured, [0, 3]), (.measured, [0, 3]), (.measured, [1, 2])], 0, 3⟩⟩,
    by decide +kernel⟩

/-- **C48** `focus` and `focus_inplace` of a scheduler do the same for every state, set and build: the same panics, the same
errors, and if they succeed `focus` returns the scheduler that `focus_inplace` would have left behind. -/
theorem C48_focus (s : Scheduler T) (prof : Profile) (ms : List Nat) :
    s.focus prof ms = (s.focusInplace prof ms).map fun r => r.2.map fun _ => r.1 := by
  unfold Scheduler.focus Scheduler.focusInplace PathGenerator.focus PathGenerator.focusInplace
    PathGenerator.focusUnchecked Graph.focus
  cases s.time.partition prof ms with
  | error e => rfl
  | ok r =>
    cases r with
    | error e => rfl
    | ok new =>
      simp only [bind, Except.bind]
      cases PathGenerator.updateUnchecked prof s.time.dependents ms s.time.depsCounter new with
      | error e => rfl
      | ok u =>
        cases prof with
        | debug =>
          simp only [pure, Except.pure]
          cases s.space.focusInplace .debug ms with
          | error e => rfl
          | ok v =>
            obtain ⟨g, r⟩ := v
            cases r <;> rfl
        | release =>
          simp only [pure, Except.pure]
          cases s.space.focusUnchecked .release ms <;> rfl

/-- All outcomes occur: success, an error and a panic. -/
example : ∃ s0 s1 : Scheduler (List Nat), newScheduler Example.docs (dependencyBufferNew 4) = .ok s0 ∧
    s0.focus .debug [0] = .ok (.ok s1) ∧ s0.focusInplace .debug [0] = .ok (s1, .ok ()) ∧
    s0.focus .debug [1] = .ok (.error (.notMeasurable ⟨[1]⟩)) ∧ s0.focus .debug [0, 1] = .error .subOverflow :=
  ⟨⟨⟨[0], [(2, 1), (1, 1), (3, 1)], [[3, 1], [], [], [2]]⟩, Graph.new Example.docs.graph⟩,
    ⟨⟨[3, 1], [(2, 1)], [[3, 1], [], [], [2]]⟩,
      ⟨[(.measured, [1, 2]), (.inMemory, [0, 3]), (.inMemory, [0, 3]), (.sleeping, [1, 2])], 2, 3⟩⟩,
    by decide +kernel⟩

end

end Verif
