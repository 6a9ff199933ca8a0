import Verif.Proofs.Alone
/-!
# One qubit to begin with

If only one qubit waits for nothing, the multi-threaded search has one task that does everything and one that does nothing.
-/

namespace Verif

open Spec Search Search.Threaded

/-- A task that has nothing to do. -/
inductive Void {σ : Type} (prof : Profile) : TaskState σ → Prop
  | ready {rest rest' : Scheduler Partitioner} {rng : σ} (h : rest.nextAndFocus prof = .ok (rest', none)) :
      Void prof (.ready rest none rng)
  | running {rest rest' : Scheduler Partitioner} {best : List Nat} {rng : σ}
      (h : rest.nextAndFocus prof = .ok (rest', none)) : Void prof (.running (startLoc rest none best) rng 0 false)
  | finishing {loc : Loc} (h : loc.results = []) : Void prof (.finishing loc)
  | done : Void prof .done

theorem Void.move {F σ : Type} [FloatOps F] {mode : Mode F σ} {prof : Profile} {g g' : Global σ} {i : Nat} {bit : Bool}
    {t : TaskState σ} (h : Void prof t) (ht : g.tasks[i]? = some t) (hm : move mode prof g i bit = .ok g') :
    g'.best = g.best ∧ g'.results = g.results ∧ ∃ t', Void prof t' ∧ g'.tasks = g.tasks.set i t' := by
  have hi := (List.getElem?_eq_some_iff.1 ht).1
  cases h with
  | ready h =>
    simp only [Threaded.move, ht, pure, Except.pure, Except.ok.injEq] at hm
    subst hm
    exact ⟨rfl, rfl, _, .running h, rfl⟩
  | @running rest rest' best rng h =>
    have hit : modeIter mode prof (startLoc rest none best) rng = .ok (⟨⟨rest', []⟩, [], best, []⟩, rng, true) := by
      cases mode <;>
        simp [modeIter, searchIter, probIter, Sweep.next, startLoc, Sweep.new, Scheduler.focusIter, h, bind, Except.bind, pure,
          Except.pure]
    simp only [Threaded.move, ht, hit, bind, Except.bind, pure, Except.pure, ↓reduceIte, finishLoop, Bool.false_eq_true,
      and_false, Except.ok.injEq] at hm
    subst hm
    exact ⟨rfl, rfl, _, .finishing rfl, rfl⟩
  | finishing h =>
    simp only [Threaded.move, ht, h, List.isEmpty_nil, pure, Except.pure, ↓reduceIte, Except.ok.injEq] at hm
    subst hm
    exact ⟨rfl, rfl, _, .done, rfl⟩
  | done =>
    simp only [Threaded.move, ht, pure, Except.pure, Except.ok.injEq] at hm
    subst hm
    refine ⟨rfl, rfl, _, .done, ?_⟩
    rw [List.getElem?_eq_some_iff] at ht
    obtain ⟨h1, h2⟩ := ht
    rw [← h2, List.set_getElem_self]

/-- `j` iterations of the loop without stopping. -/
inductive Iters (prof : Profile) (l0 : Loc) : Nat → Loc → Prop
  | start : Iters prof l0 0 l0
  | step {j : Nat} {l l' : Loc} (h : Iters prof l0 j l) (e : searchIter prof l = .ok (l', false)) : Iters prof l0 (j + 1) l'

/-- The task has ended with `l`. -/
def Ended (prof : Profile) (l0 l : Loc) : Prop :=
  ∃ j l1 l2, Iters prof l0 j l1 ∧ searchIter prof l1 = .ok (l2, true) ∧ finishLoop l2 j true = .ok l

/-- The task has ended with `l`, or (only if `cut` holds) it has been stopped by the timer. -/
def Stopped (prof : Profile) (cut : Prop) (l0 l : Loc) : Prop := Ended prof l0 l ∨ cut ∧ ∃ j, Iters prof l0 (j + 1) l

theorem Iters.inv {P : Problem} (hP : P.WF) {prof : Profile} {p0 : Schedule} {b0 : List Nat} {l0 l : Loc} {j : Nat}
    (h : Iters prof l0 j l) (h0 : LInv P p0 b0 l0) : LInv P p0 b0 l := by
  induction h with
  | start => exact h0
  | step h e ih =>
    obtain ⟨l1, stop, e1, e2⟩ := searchIter_spec hP.lax ih.ok
    rw [e1 prof] at e
    simp only [Except.ok.injEq, Prod.mk.injEq] at e
    obtain ⟨rfl, rfl⟩ := e
    exact (e2.inv ih).1

/-- What is known while the task that does everything is at work. -/
def Solo (P : Problem) {σ : Type} (prof : Profile) (cut : Prop) (l0 : Loc) (g : Global σ) : TaskState σ → Prop
  | .ready sched init _ => startLoc sched init g.best = l0 ∧ init.isSome = true ∧ g.results = []
  | .running loc _ k w => w = true ∧ g.results = [] ∧ (∃ j, Iters prof l0 j loc ∧ (k = 0 ↔ j = 0)) ∧
      loc.best.length = g.best.length ∧ ∀ t, at0 loc.best t ≤ at0 g.best t
  | .finishing l => g.results = [] ∧ Stopped prof cut l0 l ∧ ResultsOK P l.results ∧
      l.best.length = g.best.length ∧ ∀ t, at0 l.best t ≤ at0 g.best t
  | .done => ∃ l, Stopped prof cut l0 l ∧ ∀ t, g.results.get t = l.results.get t

theorem Solo.congr {P : Problem} {σ : Type} {prof : Profile} {cut : Prop} {l0 : Loc} {g g' : Global σ} {t : TaskState σ}
    (h : Solo P prof cut l0 g t) (h1 : g'.best = g.best) (h2 : g'.results = g.results) : Solo P prof cut l0 g' t := by
  cases t <;> simpa [Solo, h1, h2] using h

theorem finishLoop_zero {l : Loc} {k j : Nat} {w : Bool} (h : k = 0 ↔ j = 0) : finishLoop l k w = finishLoop l j w := by
  unfold finishLoop
  by_cases h0 : k = 0
  · rw [h0, h.1 h0]
  · rw [if_neg (fun x => h0 x.1), if_neg (fun x => h0 (h.2 x.1))]

theorem Solo.move {F σ : Type} [FloatOps F] {P : Problem} (hP : P.WF) {prof : Profile} {cut : Prop} {p0 : Schedule} {b0 : List Nat}
    {l0 : Loc} (hl0 : LInv P p0 b0 l0) (hfresh : Fresh l0.sweep.current) (hst0 : l0.sweep.stack = [])
    (hmax : ∀ S, P.Valid S → P.peak S ≤ at0 l0.best S.length) {g g' : Global σ} {t : TaskState σ}
    {i : Nat} (hg : g.best.length = P.n + 1) (h : Solo P prof cut l0 g t) (ht : g.tasks[i]? = some t)
    {bit : Bool} (hc : bit = true → cut) (hm : move (.det : Mode F σ) prof g i bit = .ok g') :
    g'.best.length = P.n + 1 ∧ ∃ t', Solo P prof cut l0 g' t' ∧ g'.tasks = g.tasks.set i t' := by
  cases t with
  | ready sched init rng =>
    simp only [Threaded.move, ht, pure, Except.pure, Except.ok.injEq] at hm
    subst hm
    refine ⟨hg, _, ?_, rfl⟩
    obtain ⟨h1, h2, h3⟩ := h
    exact ⟨h2, h3, ⟨0, h1 ▸ .start, Iff.rfl⟩, by simp [startLoc], by simp [startLoc]⟩
  | running loc rng k w =>
    obtain ⟨hw, hres, ⟨j, hj, hjk⟩, hlen, hlo⟩ := h
    have hl := hj.inv hP hl0
    obtain ⟨l', stop, e1, e2⟩ := searchIter_spec hP.lax hl.ok
    obtain ⟨hl', hdown⟩ := e2.inv hl
    have hlen' : l'.best.length = g.best.length := by rw [hl'.ok.best, hg]
    have hlo' : ∀ t, at0 l'.best t ≤ at0 g.best t := fun t => Nat.le_trans (hdown t) (hlo t)
    subst hw
    cases stop with
    | true =>
      cases hfin : finishLoop l' k true with
      | error e => simp [Threaded.move, ht, modeIter, e1 prof, bind, Except.bind, pure, Except.pure, hfin] at hm
      | ok l'' =>
        simp only [Threaded.move, ht, modeIter, e1 prof, bind, Except.bind, pure, Except.pure, ↓reduceIte, hfin,
          Except.ok.injEq] at hm
        subst hm
        refine ⟨hg, .finishing l'', ?_, rfl⟩
        obtain ⟨⟨l3, hl3, _, hok⟩, hcase⟩ := finishLoop_spec hP.lax e2 hl.ok hl.sound (counter := k) (wasInit := true) (by
          intro hk _
          have hj0 := hjk.1 hk
          subst hj0
          cases hj
          exact ⟨hfresh, hst0⟩)
        rw [hfin] at hl3
        simp only [Except.ok.injEq] at hl3
        subst hl3
        refine ⟨hres, Or.inl ⟨j, loc, l', hj, e1 prof, (finishLoop_zero hjk) ▸ hfin⟩, hok, ?_⟩
        rcases hcase with ⟨_, he⟩ | ⟨hz, hwi, hv, hpath, hbest, hr, hlt, he⟩
        · rw [hfin] at he
          simp only [Except.ok.injEq] at he
          subst he
          exact ⟨hlen', hlo'⟩
        · rw [hfin] at he
          simp only [Except.ok.injEq] at he
          subst he
          have hj0 := hjk.1 hz
          subst hj0
          cases hj
          refine ⟨by simpa [updateBest] using hlen, fun t => ?_⟩
          change at0 (updateBest l0.best p0.length (P.peak p0)) t ≤ at0 g.best t
          rw [maximal_iff hP] at hv
          have h1 := hmax p0 hv
          have h2 := hlo t
          rw [at0_updateBest hlt]
          split
          · exact h2
          · split
            · rename_i heq
              rw [heq]
              rw [heq] at h2
              omega
            · omega
    | false =>
      by_cases hcu : k = updateInterval
      · have hex := exchange_le (s := g.best) (t := l'.best) hlen'.symm hlo'
        have hnext : Iters prof l0 (j + 1) l' := .step hj (e1 prof)
        cases bit with
        | false =>
          simp only [Threaded.move, ht, modeIter, e1 prof, bind, Except.bind, pure, Except.pure, Bool.false_eq_true,
            ↓reduceIte, hcu, hex, Except.ok.injEq] at hm
          subst hm
          exact ⟨by rw [hlen', hg], .running l' rng 1 true, ⟨rfl, hres, ⟨j + 1, hnext, by simp⟩, rfl, fun t => Nat.le_refl _⟩,
            rfl⟩
        | true =>
          simp only [Threaded.move, ht, modeIter, e1 prof, bind, Except.bind, pure, Except.pure, Bool.false_eq_true,
            ↓reduceIte, hcu, hex, Except.ok.injEq] at hm
          subst hm
          exact ⟨by rw [hlen', hg], .finishing l', ⟨hres, Or.inr ⟨hc rfl, j, hnext⟩, hl'.sound, rfl, fun t => Nat.le_refl _⟩,
            rfl⟩
      · simp only [Threaded.move, ht, modeIter, e1 prof, bind, Except.bind, pure, Except.pure, Bool.false_eq_true,
          ↓reduceIte, hcu, Except.ok.injEq] at hm
        subst hm
        exact ⟨hg, .running l' rng (k + 1) true, ⟨rfl, hres, ⟨j + 1, .step hj (e1 prof), by simp⟩, hlen', hlo'⟩, rfl⟩
  | finishing l =>
    obtain ⟨hres, hend, hok, hlen, hlo⟩ := h
    cases hemp : l.results.isEmpty with
    | true =>
      simp only [Threaded.move, ht, hemp, pure, Except.pure, ↓reduceIte, Except.ok.injEq] at hm
      subst hm
      refine ⟨hg, _, (?_ : Solo P prof cut l0 _ .done), rfl⟩
      refine ⟨l, hend, fun t => ?_⟩
      rw [show l.results = [] by simpa using hemp]
      simp [hres]
    | false =>
      have hsp := mergeLoop_spec g.best l.best 0 l.results g.results hlen.symm
      simp only [Threaded.move, ht, hemp, pure, Except.pure, Bool.false_eq_true, ↓reduceIte, Except.ok.injEq] at hm
      subst hm
      refine ⟨hsp.1.trans hg, _, (?_ : Solo P prof cut l0 _ .done), rfl⟩
      refine ⟨l, hend, fun t => ?_⟩
      refine (hsp.2.2 t).trans ?_
      rw [hres]
      cases hgt : l.results.get t with
      | none => simp [AMap.get]
      | some r =>
        have htn : t < P.n + 1 := by
          obtain ⟨k1, k2, _⟩ := hok t r.1 r.2 hgt
          have := ((maximal_iff hP).1 k1).length_le hP
          omega
        rw [if_pos ⟨Nat.zero_le _, by omega, hlo _, rfl⟩]
  | done =>
    simp only [Threaded.move, ht, pure, Except.pure, Except.ok.injEq] at hm
    subst hm
    refine ⟨hg, _, h, ?_⟩
    rw [List.getElem?_eq_some_iff] at ht
    obtain ⟨h1, h2⟩ := ht
    rw [← h2, List.set_getElem_self]

/-- The two tasks. -/
structure Pair (P : Problem) {σ : Type} (prof : Profile) (cut : Prop) (l0 : Loc) (g : Global σ) : Prop where
  len : g.best.length = P.n + 1
  two : ∃ t t', g.tasks = [t, t'] ∧ Solo P prof cut l0 g t ∧ Void prof t'

theorem Pair.run {F σ : Type} [FloatOps F] {P : Problem} (hP : P.WF) {prof : Profile} {cut : Prop} {p0 : Schedule} {b0 : List Nat}
    {l0 : Loc} (hl0 : LInv P p0 b0 l0) (hfresh : Fresh l0.sweep.current) (hst0 : l0.sweep.stack = [])
    (hmax : ∀ S, P.Valid S → P.peak S ≤ at0 l0.best S.length) : ∀ {ms : List (Nat × Bool)} {g g' : Global σ},
    Pair P prof cut l0 g → (∀ m ∈ ms, m.2 = true → cut) → runMoves (.det : Mode F σ) prof g ms = .ok g' →
    Pair P prof cut l0 g' := by
  intro ms
  induction ms with
  | nil =>
    intro g g' h _ hr
    simp only [runMoves, pure, Except.pure, Except.ok.injEq] at hr
    exact hr ▸ h
  | cons m ms ih =>
    intro g g' h hbit hr
    obtain ⟨g1, k1, k2⟩ := runMoves_cons hr
    refine ih ?_ (fun x hx => hbit x (List.mem_cons_of_mem _ hx)) k2
    obtain ⟨hlen, t, t', htasks, hs, hv⟩ := h
    rcases hm : m.1 with _ | _ | i
    · rw [hm] at k1
      obtain ⟨a, t1, b, c⟩ := hs.move hP hl0 hfresh hst0 hmax hlen (by rw [htasks]; rfl) (hbit m (by simp)) k1
      exact ⟨a, t1, t', by rw [c, htasks]; rfl, b, hv⟩
    · rw [hm] at k1
      obtain ⟨a, b, t1, c, d⟩ := hv.move (by rw [htasks]; rfl) k1
      exact ⟨a ▸ hlen, t, t1, by rw [d, htasks]; rfl, hs.congr a b, c⟩
    · rw [hm] at k1
      have hnone : g.tasks[i + 1 + 1]? = none := by rw [htasks]; rfl
      simp only [Threaded.move, hnone, pure, Except.pure, Except.ok.injEq] at k1
      exact k1 ▸ ⟨hlen, t, t', htasks, hs, hv⟩

/-! ## The same with one thread -/

/-- The same local variables, with one more state at the bottom of the stack. -/
def Search.Loc.under (l : Loc) (r : Scheduler Partitioner) : Loc := { l with sweep := ⟨l.sweep.current, l.sweep.stack ++ [r]⟩ }

theorem forward_under {m : List Nat} {l l' : Loc} {a : Scheduler Partitioner} {st : List (Scheduler Partitioner)}
    (hst : l.sweep.stack = a :: st) (r : Scheduler Partitioner) {stop : Bool} (h : forward m l = .ok (l', stop)) :
    forward m (l.under r) = .ok (l'.under r, stop) := by
  obtain ⟨⟨cur, stack⟩, path, best, results⟩ := l
  simp only at hst
  subst hst
  unfold forward at h ⊢
  simp only [Loc.under, List.cons_append, Sweep.skipCurrent] at h ⊢
  cases hb : idx best (minimumPathLength cur.time path) with
  | error e => rw [hb] at h; cases h
  | ok bound =>
    rw [hb] at h
    simp only [bind, Except.bind, pure, Except.pure] at h ⊢
    split at h <;> rename_i hc
    · simp only [Except.ok.injEq, Prod.mk.injEq] at h
      obtain ⟨rfl, rfl⟩ := h
      exact if_pos hc
    · simp only [Except.ok.injEq, Prod.mk.injEq] at h
      obtain ⟨rfl, rfl⟩ := h
      exact if_neg hc

theorem backward_under {leaf : Option Nat} {l l' : Loc} (r : Scheduler Partitioner) (h : backward leaf l = .ok l') :
    backward leaf (l.under r) = .ok (l'.under r) := by
  cases leaf with
  | none =>
    simp only [backward, pure, Except.pure, Except.ok.injEq] at h ⊢
    subst h
    rfl
  | some mem =>
    unfold backward at h ⊢
    simp only [Loc.under] at h ⊢
    split at h
    · rename_i hc
      simp only [pure, Except.pure, Except.ok.injEq] at h
      subst h
      exact if_pos hc
    · cases h

theorem searchIter_under {prof : Profile} {l l' : Loc} (r : Scheduler Partitioner)
    (h : searchIter prof l = .ok (l', false)) : searchIter prof (l.under r) = .ok (l'.under r, false) := by
  obtain ⟨⟨cur, stack⟩, path, best, results⟩ := l
  simp only [searchIter, Sweep.next, Scheduler.focusIter, Loc.under, bind, Except.bind, pure, Except.pure] at h ⊢
  cases hn : cur.nextAndFocus prof with
  | error e => rw [hn] at h; cases h
  | ok x =>
    obtain ⟨c', o⟩ := x
    rw [hn] at h
    cases o with
    | some v =>
      simp only at h ⊢
      exact forward_under (l := ⟨⟨v.1, c' :: stack⟩, path, best, results⟩) rfl r h
    | none =>
      cases stack with
      | nil => simp at h
      | cons a st =>
        simp only [List.cons_append] at h ⊢
        cases hb : backward c'.atLeaf ⟨⟨a, st⟩, path, best, results⟩ with
        | error e => rw [hb] at h; cases h
        | ok l1 =>
          rw [hb] at h
          simp only [Except.ok.injEq, Prod.mk.injEq, and_true] at h
          subst h
          have := backward_under r hb
          simp only [Loc.under] at this
          rw [this]

/-- `j` iterations and then the rest of the loop. -/
theorem Iters.loop {prof : Profile} {timer : Nat → Bool} {l0 l : Loc} {j : Nat} (h : Iters prof l0 j l)
    (r : Scheduler Partitioner) (k : Nat) (ht : ∀ i, i < k + j → timer i = false) (fuel : Nat) :
    searchLoop prof timer (fuel + j) k (l0.under r) = searchLoop prof timer fuel (k + j) (l.under r) := by
  induction h generalizing fuel with
  | start => rfl
  | @step j l l' h e ih =>
    rw [show fuel + (j + 1) = (fuel + 1) + j by omega, ih (fun i hi => ht i (by omega)), searchLoop, searchIter_under r e]
    simp only [bind, Except.bind, Bool.false_eq_true, ↓reduceIte, ht (k + j) (by omega)]
    rfl

theorem Iters.first {prof : Profile} {l0 l : Loc} {j : Nat} (h : Iters prof l0 j l) (hj : j ≠ 0) :
    ∃ l', searchIter prof l0 = .ok (l', false) := by
  induction h with
  | start => exact (hj rfl).elim
  | @step j l l' h e ih =>
    by_cases h0 : j = 0
    · subst h0
      cases h
      exact ⟨_, e⟩
    · exact ih h0

/-- At the end of the task the loop with one thread returns to the root, and ends there with the same results. -/
theorem Ended.loop {P : Problem} (hP : P.WF) {prof : Profile} {p0 : Schedule} {b0 : List Nat} {l0 l : Loc}
    (h : Ended prof l0 l) (hl0 : LInv P p0 b0 l0) (hfresh : Fresh l0.sweep.current) (hst0 : l0.sweep.stack = [])
    {r r' : Scheduler Partitioner} (hr : r.nextAndFocus prof = .ok (r', none)) (k : Nat) :
    ∃ j l', ∀ fuel, searchLoop prof (fun _ => false) (fuel + j) k (l0.under r) = .ok (some l') ∧ l'.results = l.results := by
  obtain ⟨j, l1, l2, h1, h2, h3⟩ := h
  have hl1 := h1.inv hP hl0
  obtain ⟨l2', stop, e1, e2⟩ := searchIter_spec hP.lax hl1.ok
  rw [e1 prof] at h2
  simp only [Except.ok.injEq, Prod.mk.injEq] at h2
  obtain ⟨rfl, rfl⟩ := h2
  have hk := h1.loop (timer := fun _ => false) r k (fun _ _ => rfl)
  cases e2 with
  | @stop s' hst hn hs hi =>
    obtain ⟨⟨cur, stack⟩, path, best, results⟩ := l1
    simp only at hst hn hs hi
    subst hst
    -- leaving the state
    have hback : ∃ l3, backward s'.atLeaf ⟨⟨r, []⟩, path, best, results⟩ = .ok l3 ∧ l3.sweep = ⟨r, []⟩ ∧
        l3.results = l.results := by
      by_cases hleaf : s'.atLeaf = none
      · rw [hleaf]
        refine ⟨_, rfl, rfl, ?_⟩
        have hj : j ≠ 0 := by
          rintro rfl
          cases h1
          have := hn.fresh_leaf hfresh
          rw [hn.atLeaf, atLeaf_eq, if_pos this] at hleaf
          cases hleaf
        simp only [finishLoop, hj, false_and, ↓reduceIte, pure, Except.pure, Except.ok.injEq] at h3
        subst h3
        rfl
      · have hset : cur.time.measurable.set = [] := by
          rw [hn.atLeaf, atLeaf_eq] at hleaf
          by_contra h
          exact hleaf (if_neg h)
        have hj : j = 0 := by
          by_contra hj
          obtain ⟨l', hf⟩ := h1.first hj
          have hp : path = p0 := (hl1.ok.chain).base_path
          have hc0 := hl0.ok.chain
          rw [hst0] at hc0
          have hp0 : l0.path = p0 := hc0.base_path
          have hset0 : l0.sweep.current.time.measurable.set = [] := by
            apply List.eq_nil_iff_forall_not_mem.2
            intro b hb
            have h6 := (hc0.state.1.time.set_mem b).1 hb
            rw [hp0, ← hp] at h6
            have h7 : b ∈ cur.time.measurable.set := (hl1.ok.chain.state.1.time.set_mem b).2 h6
            rw [hset] at h7
            cases h7
          rcases nextAndFocus_spec hP.lax hc0.state.1 hc0.state.2 with ⟨s1, hn1, _, _⟩ | ⟨s1, c1, l1, m1, hn1⟩
          · simp [searchIter, Sweep.next, Scheduler.focusIter, hst0, hn1.eq prof, bind, Except.bind, pure, Except.pure] at hf
          · have h4 := hn1.rem
            rw [hfresh.rem, hset0] at h4
            have h5 : items ([] : List Nat) = [([], [])] := by decide
            rw [h5] at h4
            simp only [List.cons.injEq, Prod.mk.injEq] at h4
            exact hn1.ne h4.1.2.symm
        subst hj
        have hat : s'.atLeaf = some s'.space.maxMemory := by
          rw [atLeaf_eq, if_pos (hn.set.trans hset)]
        rw [hat]
        simp only [finishLoop, true_and, ↓reduceIte] at h3
        unfold backward at h3 ⊢
        simp only at h3 ⊢
        split at h3
        · rename_i hc
          simp only [pure, Except.pure, Except.ok.injEq] at h3
          subst h3
          exact ⟨_, if_pos hc, rfl, rfl⟩
        · cases h3
    obtain ⟨l3, b1, b2, b3⟩ := hback
    refine ⟨2 + j, { l3 with sweep := ⟨r', []⟩ }, fun fuel => ⟨?_, b3⟩⟩
    rw [← Nat.add_assoc, hk, searchLoop]
    simp only [searchIter, Sweep.next, Scheduler.focusIter, Search.Loc.under, bind, Except.bind, pure, Except.pure,
      hn.eq prof, List.nil_append, b1]
    rw [if_neg (by simp), if_neg (by simp), searchLoop]
    simp only [searchIter, Sweep.next, Scheduler.focusIter, bind, Except.bind, pure, Except.pure, b2, hr, ↓reduceIte]

/-- If the timer has stopped the task, the same timer stops the loop with one thread. -/
theorem Iters.cut {prof : Profile} {l0 l : Loc} {j : Nat} (h : Iters prof l0 (j + 1) l) (r : Scheduler Partitioner) (k : Nat)
    (fuel : Nat) :
    searchLoop prof (fun i => some (k + j) == some i) (fuel + (j + 1)) k (l0.under r) = .ok (some (l.under r)) := by
  cases h with
  | @step _ l1 _ h e =>
    rw [show fuel + (j + 1) = (fuel + 1) + j by omega, h.loop r k (fun i hi => by simp; omega), searchLoop,
      searchIter_under r e]
    simp [bind, Except.bind, pure, Except.pure]

/-! ## The start -/

/-- Exactly one qubit waits for nothing. -/
def OneFirst (P : Problem) (b : Nat) : Prop := b ∈ P.bits ∧ ∀ c ∈ P.bits, (∀ d, ¬ P.Needs c d) ↔ c = b

/-- Then the root has one child. -/
theorem one_child {P : Problem} (hP : P.WF) {b : Nat} (h1 : OneFirst P b) {s : Scheduler Partitioner} (hs : StateFor P [] s)
    (hf : Fresh s) : ∃ s' s'' c l, NextSome P [] s s' c l [b] ∧ NextNone s' s'' := by
  have hset : s.time.measurable.set = [b] := by
    have hnd := hs.time.set_nodup
    have hmem : ∀ c, c ∈ s.time.measurable.set ↔ c = b := by
      intro c
      rw [show c ∈ s.time.measurable.set ↔ _ from hs.time.set_mem c]
      constructor
      · rintro ⟨k1, _, k3⟩
        exact (h1.2 c k1).1 fun d hd => by simpa using k3 d hd
      · rintro rfl
        exact ⟨h1.1, by simp, fun d hd => ((h1.2 c h1.1).2 rfl d hd).elim⟩
    have hp : (s.time.measurable.set).Perm [b] :=
      (List.perm_ext_iff_of_nodup hnd (List.nodup_singleton b)).2 fun c => by rw [List.mem_singleton]; exact hmem c
    exact List.perm_singleton.1 hp
  have hrem := hf.rem
  rw [hset, show items [b] = [([], [b]), ([b], [])] from rfl] at hrem
  rcases nextAndFocus_spec hP.lax hs hf.iterOK with ⟨s1, hn1, _, _⟩ | ⟨s1, c1, l1, m1, hn1⟩
  · have := hn1.fresh_leaf hf
    rw [hset] at this
    cases this
  · have h4 := hn1.rem
    rw [hrem] at h4
    simp only [List.cons.injEq, Prod.mk.injEq] at h4
    obtain ⟨⟨rfl, rfl⟩, h5⟩ := h4
    rcases nextAndFocus_spec hP.lax hn1.state' hn1.iter' with ⟨s2, hn2, _, _⟩ | ⟨s2, c2, l2, m2, hn2⟩
    · exact ⟨s1, s2, c1, [], hn1, hn2⟩
    · have h6 := hn2.rem
      rw [← h5] at h6
      simp only [List.cons.injEq, Prod.mk.injEq] at h6
      exact (hn2.ne h6.1.2.symm).elim

theorem filterLoop_congr {r r' : MappedPaths} (h : ∀ t, r.get t = r'.get t) : ∀ (is best : List Nat) (f : MappedPaths),
    filterLoop r is best f = filterLoop r' is best f := by
  intro is
  induction is with
  | nil => intro best f; rfl
  | cons i is ih =>
    intro best f
    simp only [filterLoop, h i, ih]

theorem postprocess_congr {r r' : MappedPaths} (h : ∀ t, r.get t = r'.get t) (hashIter : MappedPaths → MappedPaths) (n : Nat) :
    postprocess hashIter n r = postprocess hashIter n r' := by
  simp only [postprocess, filterLoop_congr h]

/-- An exhaustive search returns the same with threads as without, if the timer stops the one without threads at the right
moment; if it does not stop the one with threads, never. -/
theorem searchThreaded_one {F σ : Type} [FloatOps F] {P : Problem} (hP : P.WF) {b : Nat} (h1 : OneFirst P b) {tb : Int}
    {seeds : Nat → σ} {moves : List (Nat × Bool)} {prof : Profile} {hashIter : MappedPaths → MappedPaths} {out : List Path}
    {cut : Prop} (hbit : ∀ m ∈ moves, m.2 = true → cut)
    (h : searchThreaded (.det : Mode F σ) prof hashIter tb seeds moves P.graph P.order = .ok (some out)) :
    ∃ (K : Option Nat) (N : Nat), (K.isSome → cut) ∧
      ∀ fuel, N ≤ fuel → searchDet prof hashIter (fun k => K == some k) fuel P.graph P.order = .ok (some out) := by
  obtain ⟨s, g, g', a1, a2, a3, a4, a5⟩ := searchThreaded_ok h
  obtain ⟨s0, e1, hs, hf⟩ := mkScheduler_spec hP
  rw [e1] at a1
  simp only [Except.ok.injEq] at a1
  subst a1
  obtain ⟨s', s'', c, l, hn1, hn2⟩ := one_child hP h1 hs hf
  obtain ⟨rest, rest', hg, hrest⟩ : ∃ rest rest', g = ⟨List.replicate (P.graph.length + 1) usizeMax, [],
      [.ready c (some [b]) (seeds 0), .ready rest none (seeds 1)]⟩ ∧ rest.nextAndFocus prof = .ok (rest', none) := by
    have hlen := hn1.len
    have hfused : ∀ (r : Scheduler Partitioner), r.time.measurable.iter = [] → r.nextAndFocus prof = .ok (r, none) := by
      rintro ⟨⟨⟨set, iter⟩, deps, look⟩, space⟩ hr
      simp only at hr
      subst hr
      simp [Scheduler.nextAndFocus, PathGenerator.nextAndFocus, Partition.next, bind, Except.bind, pure, Except.pure]
    simp only [initGlobal, spawn, bind, Except.bind, pure, Except.pure, hlen, spawnLoop, hn1.eq prof] at a2
    by_cases htb : (0 : Int) + 1 = tb
    · rw [if_pos htb] at a2
      simp only [Except.ok.injEq] at a2
      exact ⟨s', s'', a2.symm, hn2.eq prof⟩
    · rw [if_neg htb] at a2
      simp only [hn2.eq prof, Except.ok.injEq] at a2
      exact ⟨s'', s'', a2.symm, hfused _ hn2.done⟩
  subst hg
  set l0 : Loc := startLoc c (some [b]) (List.replicate (P.graph.length + 1) usizeMax) with hl0
  have hinv : LInv P [[b]] (List.replicate (P.graph.length + 1) usizeMax) l0 := by
    have hok : LocOK P [[b]] l0 :=
      start_locOK (init := some [b]) (by simpa [startPath] using hn1.child) hn1.fresh.iterOK (by simp [Problem.n])
    refine ⟨hok, ?_, anti_replicate _ _, fun t => Nat.le_refl _, fun t => Or.inl rfl, ?_, ?_, ?_⟩
    · intro t m S h; simp [hl0, startLoc] at h
    · intro t m S h; simp [hl0, startLoc] at h
    · intro t m S h; simp [hl0, startLoc] at h
    · intro h; simp [hl0, startLoc, Sweep.new] at h
  have hmax : ∀ S, P.Valid S → P.peak S ≤ at0 l0.best S.length := by
    intro S hS
    have h2 := hS.length_le hP
    have h3 := peak_lt_max hP S
    have h4 : at0 l0.best S.length = usizeMax := by
      rw [hl0, startLoc, at0_replicate, if_pos (by unfold Problem.n at h2; omega)]
    omega
  have hpair : Pair P prof cut l0 (⟨List.replicate (P.graph.length + 1) usizeMax, [],
      [.ready c (some [b]) (seeds 0), .ready rest none (seeds 1)]⟩ : Global σ) :=
    ⟨by simp [Problem.n], _, _, rfl, ⟨rfl, rfl, rfl⟩, .ready hrest⟩
  obtain ⟨_, t, t', htasks, hsolo, hvoid⟩ := hpair.run hP hinv hn1.fresh rfl hmax hbit a3
  have hdone : t = .done := by
    have := finished_iff.1 a4 0 t (by rw [htasks]; rfl)
    cases t <;> simp [TaskState.isDone] at this
    rfl
  subst hdone
  obtain ⟨le, hend, hget⟩ := hsolo
  obtain ⟨K, j, l', hK, hloop⟩ : ∃ (K : Option Nat) (j : Nat) (l' : Loc), (K.isSome → cut) ∧
      ∀ fuel, searchLoop prof (fun k => K == some k) (fuel + j) 1 (l0.under s') = .ok (some l') ∧ l'.results = le.results ∧
        (K == some 0) = false := by
    rcases hend with hend | ⟨hcut, j, hj⟩
    · obtain ⟨j, l', hloop⟩ := hend.loop hP hinv hn1.fresh rfl (hn2.eq prof) 1
      exact ⟨none, j, l', by simp, fun fuel => ⟨(hloop fuel).1, (hloop fuel).2, rfl⟩⟩
    · exact ⟨some (1 + j), j + 1, _, fun _ => hcut, fun fuel => ⟨hj.cut s' 1 fuel, rfl, by simp⟩⟩
  refine ⟨K, j + 1, hK, fun fuel hfuel => ?_⟩
  obtain ⟨k, rfl⟩ : ∃ k, fuel = k + j + 1 := ⟨fuel - j - 1, by omega⟩
  have hfirst : searchIter prof (Loc.init s0 P.graph.length) = .ok (l0.under s', false) := by
    have hle := minimumPathLength_le (p := []) hP.lax (by simpa using hn1.child)
    have hidx : idx (List.replicate (P.graph.length + 1) usizeMax) (minimumPathLength c.time []) = .ok usizeMax := by
      rw [idx_ok, List.getElem?_replicate, if_pos (by unfold Problem.n at hle; omega)]
    have hlt : ¬ c.space.maxMemory ≥ usizeMax := by
      have h3 := peak_lt_max hP [[b]]
      have h4 : c.space.maxMemory = P.peak [[b]] := by simpa using hn1.child.space.max
      omega
    simp only [searchIter, Loc.init, Sweep.new, Sweep.next, Scheduler.focusIter, hn1.eq prof, bind, Except.bind, pure, Except.pure,
      forward, hidx]
    rw [if_neg hlt]
    rfl
  have hdo : doSearch prof (fun k => K == some k) (k + j + 1) s0 P.graph.length = .ok (some l') := by
    rw [doSearch, searchLoop, hfirst]
    simp only [bind, Except.bind, Bool.false_eq_true, ↓reduceIte, (hloop k).2.2]
    exact (hloop k).1
  simp only [searchDet, e1, hdo, bind, Except.bind, pure, Except.pure]
  rw [postprocess_congr (r' := g'.results) (fun t => by rw [(hloop k).2.1, hget t]), a5]

end Verif
