import Verif.Proofs.Lonely
import Verif.Proofs.Tried
/-!
# Tasks in the order of the queue do what one thread does
-/

namespace Verif
namespace InOrder

open Spec Search Search.Threaded

/-! ## The same iterations on top of older results -/

/-- `b` has the results `a` and otherwise those of `R`. -/
def Ov (R a b : MappedPaths) : Prop := ∀ t, b.get t = (a.get t).or (R.get t)

theorem Ov.insert {R a b : MappedPaths} (h : Ov R a b) (t : Nat) (v : Nat × Steps) : Ov R (a.insert t v) (b.insert t v) := by
  intro t'
  rw [AMap.get_insert, AMap.get_insert]
  split
  · rfl
  · exact h t'

theorem Ov.nil (R : MappedPaths) : Ov R [] R := fun t => by simp [AMap.get]

/-- The same local variables with other results. -/
def onto (l : Loc) (X : MappedPaths) : Loc := { l with results := X }

theorem forward_onto {m : List Nat} {l l' : Loc} {stop : Bool} (h : forward m l = .ok (l', stop)) (X : MappedPaths) :
    forward m (onto l X) = .ok (onto l' X, stop) ∧ l'.results = l.results := by
  obtain ⟨sw0, path, best, res⟩ := l
  rw [show onto ⟨sw0, path, best, res⟩ X = ⟨sw0, path, best, X⟩ from rfl]
  unfold forward at h ⊢
  simp only at h ⊢
  cases hb : idx best (minimumPathLength sw0.current.time path) with
  | error e => rw [hb] at h; cases h
  | ok bound =>
    rw [hb] at h
    simp only [bind, Except.bind, pure, Except.pure] at h ⊢
    split at h <;> rename_i hc
    · rw [if_pos hc]
      split at h <;>
      · simp only [Except.ok.injEq, Prod.mk.injEq] at h
        obtain ⟨rfl, rfl⟩ := h
        exact ⟨rfl, rfl⟩
    · rw [if_neg hc]
      simp only [Except.ok.injEq, Prod.mk.injEq] at h
      obtain ⟨rfl, rfl⟩ := h
      exact ⟨rfl, rfl⟩

theorem backward_onto {leaf : Option Nat} {l l' : Loc} {R X : MappedPaths} (h : backward leaf l = .ok l')
    (hX : Ov R l.results X) : ∃ X', backward leaf (onto l X) = .ok (onto l' X') ∧ Ov R l'.results X' := by
  cases leaf with
  | none =>
    simp only [backward, pure, Except.pure, Except.ok.injEq] at h ⊢
    subst h
    exact ⟨X, rfl, hX⟩
  | some mem =>
    unfold backward at h ⊢
    simp only [onto] at h ⊢
    split at h
    · rename_i hc
      simp only [pure, Except.pure, Except.ok.injEq] at h
      subst h
      exact ⟨_, if_pos hc, hX.insert _ _⟩
    · cases h

theorem searchIter_onto {prof : Profile} {l l' : Loc} {stop : Bool} {R X : MappedPaths}
    (h : searchIter prof l = .ok (l', stop)) (hX : Ov R l.results X) :
    ∃ X', searchIter prof (onto l X) = .ok (onto l' X', stop) ∧ Ov R l'.results X' := by
  unfold searchIter at h ⊢
  simp only [bind, Except.bind, pure, Except.pure] at h ⊢
  cases hn : l.sweep.next (Scheduler.focusIter prof) with
  | error e => rw [hn] at h; cases h
  | ok x =>
    obtain ⟨sw, o⟩ := x
    rw [show (onto l X).sweep = l.sweep from rfl, hn]
    rw [hn] at h
    cases o with
    | none =>
      simp only [Except.ok.injEq, Prod.mk.injEq] at h
      obtain ⟨rfl, rfl⟩ := h
      exact ⟨X, rfl, hX⟩
    | some st =>
      cases st with
      | forward m =>
        simp only at h ⊢
        obtain ⟨h1, h2⟩ := forward_onto h X
        exact ⟨X, h1, by rw [h2]; exact hX⟩
      | backward leaf =>
        simp only at h ⊢
        cases hb : backward leaf { l with sweep := sw } with
        | error e => rw [hb] at h; cases h
        | ok l1 =>
          rw [hb] at h
          simp only [Except.ok.injEq, Prod.mk.injEq] at h
          obtain ⟨rfl, rfl⟩ := h
          obtain ⟨X', h1, h2⟩ := backward_onto (R := R) (X := X) hb hX
          refine ⟨X', ?_, h2⟩
          rw [show ({ onto l X with sweep := sw } : Loc) = onto { l with sweep := sw } X from rfl, h1]

theorem iters_onto {prof : Profile} {l0 l : Loc} {j : Nat} {R X : MappedPaths} (h : Iters prof l0 j l)
    (hX : Ov R l0.results X) : ∃ X', Iters prof (onto l0 X) j (onto l X') ∧ Ov R l.results X' := by
  induction h with
  | start => exact ⟨X, .start, hX⟩
  | step h e ih =>
    obtain ⟨X1, h1, h2⟩ := ih
    obtain ⟨X2, h3, h4⟩ := searchIter_onto e h2
    exact ⟨X2, .step h1 h3, h4⟩

theorem iters_under {prof : Profile} {l0 l : Loc} {j : Nat} (h : Iters prof l0 j l) (r : Scheduler Partitioner) :
    Iters prof (l0.under r) j (l.under r) := by
  induction h with
  | start => exact .start
  | step h e ih => exact .step ih (searchIter_under r e)

theorem iters_trans {prof : Profile} {l0 l l' : Loc} {j j' : Nat} (h : Iters prof l0 j l) (h' : Iters prof l j' l') :
    Iters prof l0 (j + j') l' := by
  induction h' with
  | start => exact h
  | step _ e ih => exact .step ih e

theorem iters_first {prof : Profile} {l0 l1 l : Loc} {j : Nat} (e : searchIter prof l0 = .ok (l1, false))
    (h : Iters prof l1 j l) : Iters prof l0 (1 + j) l := iters_trans (.step .start e) h

/-! ## One task -/

/-- The task has ended with `l`. -/
def Ended (prof : Profile) (w : Bool) (l0 l : Loc) : Prop :=
  ∃ j l1 l2, Iters prof l0 j l1 ∧ searchIter prof l1 = .ok (l2, true) ∧ finishLoop l2 j w = .ok l

/-- The task has ended with `l`, or the timer has interrupted it there. -/
def Returned (cut : Prop) (prof : Profile) (w : Bool) (l0 l : Loc) : Prop :=
  Ended prof w l0 l ∨ cut ∧ ∃ j, Iters prof l0 j l

/-- What is known while a task works alone; `R` are the shared results before. `cut`: the timer may fire. -/
def Turn (P : Problem) {σ : Type} (cut : Prop) (prof : Profile) (w : Bool) (R : MappedPaths) (l0 : Loc) (g : Global σ) : TaskState σ → Prop
  | .ready sched init _ => startLoc sched init g.best = l0 ∧ init.isSome = w ∧ g.results = R
  | .running loc _ k w' => w' = w ∧ g.results = R ∧ (∃ j, Iters prof l0 j loc ∧ (k = 0 ↔ j = 0)) ∧ Between l0.best g.best loc
  | .finishing l => g.results = R ∧ Returned cut prof w l0 l ∧ ResultsOK P l.results ∧ Between l0.best g.best l
  | .done => ∃ l, Returned cut prof w l0 l ∧ g.best = l.best ∧ Ov R l.results g.results ∧ Between l0.best g.best l

theorem Turn.move {F σ : Type} [FloatOps F] {P : Problem} (hP : P.WF) {cut : Prop} {prof : Profile} {w : Bool} {R : MappedPaths}
    {p0 : Schedule} {b0 : List Nat} {l0 : Loc} (hl0 : LInv P p0 b0 l0) (hfresh : w = true → Fresh l0.sweep.current)
    (hst0 : l0.sweep.stack = []) (hmax : w = true → P.Valid p0 → P.peak p0 ≤ at0 l0.best p0.length) {g g' : Global σ}
    {t : TaskState σ} {i : Nat} (h : Turn P cut prof w R l0 g t) (ht : g.tasks[i]? = some t) {bit : Bool} (hbit : bit = true → cut)
    (hm : move (.det : Mode F σ) prof g i bit = .ok g') :
    ∃ t', Turn P cut prof w R l0 g' t' ∧ g'.tasks = g.tasks.set i t' := by
  have hlen0 : l0.best.length = P.n + 1 := hl0.ok.best
  cases t with
  | ready sched init rng =>
    simp only [Threaded.move, ht, pure, Except.pure, Except.ok.injEq] at hm
    subst hm
    refine ⟨_, ?_, rfl⟩
    obtain ⟨h1, h2, h3⟩ := h
    have hB : l0.best = g.best := by rw [← h1]; rfl
    refine ⟨h2, h3, ⟨0, h1 ▸ .start, Iff.rfl⟩, by rw [hB], by rw [hB]; rfl, fun t => Nat.le_refl _, fun t => by rw [hB],
      fun _ => by rw [hB]; rfl⟩
  | running loc rng k w' =>
    obtain ⟨hw, hres, ⟨j, hj, hjk⟩, hbt⟩ := h
    have hl := hj.inv hP hl0
    obtain ⟨l', stop, e1, e2⟩ := searchIter_spec hP.lax hl.ok
    obtain ⟨hl', hdown⟩ := e2.inv hl
    have hbt' := e2.between hl hbt
    subst hw
    cases stop with
    | true =>
      cases hfin : finishLoop l' k w' with
      | error e => simp [Threaded.move, ht, modeIter, e1 prof, bind, Except.bind, pure, Except.pure, hfin] at hm
      | ok l'' =>
        simp only [Threaded.move, ht, modeIter, e1 prof, bind, Except.bind, pure, Except.pure, ↓reduceIte, hfin,
          Except.ok.injEq] at hm
        subst hm
        refine ⟨.finishing l'', ?_, rfl⟩
        obtain ⟨⟨l3, hl3, _, hok⟩, hcase⟩ := finishLoop_spec hP.lax e2 hl.ok hl.sound (counter := k) (wasInit := w') (by
          intro hk hwt
          have hj0 := hjk.1 hk
          subst hj0
          cases hj
          exact ⟨hfresh hwt, hst0⟩)
        rw [hfin] at hl3
        simp only [Except.ok.injEq] at hl3
        subst hl3
        refine ⟨hres, Or.inl ⟨j, loc, l', hj, e1 prof, (finishLoop_zero hjk) ▸ hfin⟩, hok, ?_⟩
        rcases hcase with ⟨_, he⟩ | ⟨hz, hwi, hv, hpath, hbest, hr, hlt, he⟩
        · rw [hfin] at he
          simp only [Except.ok.injEq] at he
          subst he
          exact hbt'
        · rw [hfin] at he
          simp only [Except.ok.injEq] at he
          subst he
          have hj0 := hjk.1 hz
          subst hj0
          cases hj
          refine ⟨hbt.len, by simp [updateBest], fun t => ?_, hbt.hi, fun h => by simp [AMap.insert] at h⟩
          change at0 (updateBest l0.best p0.length (P.peak p0)) t ≤ at0 g.best t
          rw [maximal_iff hP] at hv
          have h1 := hmax hwi hv
          have h2 := hbt.lo t
          rw [at0_updateBest hlt]
          split
          · exact h2
          · split
            · rename_i heq
              rw [heq]
              rw [heq] at h2
              omega
            · omega
    | false =>
      have hnext : Iters prof l0 (j + 1) l' := .step hj (e1 prof)
      by_cases hcu : k = updateInterval
      · have hex := exchange_le (s := g.best) (t := l'.best) (by rw [hbt'.len', hbt'.len]) hbt'.lo
        cases bit with
        | true =>
          simp only [Threaded.move, ht, modeIter, e1 prof, bind, Except.bind, pure, Except.pure, Bool.false_eq_true,
            ↓reduceIte, hcu, hex, Except.ok.injEq] at hm
          subst hm
          exact ⟨.finishing l', ⟨hres, Or.inr ⟨hbit rfl, j + 1, hnext⟩, hl'.sound, hbt'.len', hbt'.len', fun t => Nat.le_refl _,
            fun t => Nat.le_trans (hbt'.lo t) (hbt'.hi t), hbt'.none⟩, rfl⟩
        | false =>
        simp only [Threaded.move, ht, modeIter, e1 prof, bind, Except.bind, pure, Except.pure, Bool.false_eq_true,
          ↓reduceIte, hcu, hex, Except.ok.injEq] at hm
        subst hm
        exact ⟨.running l' rng 1 w', ⟨rfl, hres, ⟨j + 1, hnext, by simp⟩, hbt'.len', hbt'.len', fun t => Nat.le_refl _,
          fun t => Nat.le_trans (hbt'.lo t) (hbt'.hi t), hbt'.none⟩, rfl⟩
      · simp only [Threaded.move, ht, modeIter, e1 prof, bind, Except.bind, pure, Except.pure, Bool.false_eq_true,
          ↓reduceIte, hcu, Except.ok.injEq] at hm
        subst hm
        exact ⟨.running l' rng (k + 1) w', ⟨rfl, hres, ⟨j + 1, hnext, by simp⟩, hbt'⟩, rfl⟩
  | finishing l =>
    obtain ⟨hres, hend, hok, hbt⟩ := h
    cases hemp : l.results.isEmpty with
    | true =>
      simp only [Threaded.move, ht, hemp, pure, Except.pure, ↓reduceIte, Except.ok.injEq] at hm
      subst hm
      have hnil : l.results = [] := by simpa using hemp
      refine ⟨_, (?_ : Turn P cut prof w R l0 _ .done), rfl⟩
      refine ⟨l, hend, ?_, ?_, hbt⟩
      · refine eq_of_at0 (by rw [hbt.len, hbt.len']) fun t => Nat.le_antisymm ?_ (hbt.lo t)
        rw [hbt.none hnil]
        exact hbt.hi t
      · rw [hnil, hres]
        exact Ov.nil R
    | false =>
      have hsp := mergeLoop_spec g.best l.best 0 l.results g.results (by rw [hbt.len, hbt.len'])
      simp only [Threaded.move, ht, hemp, pure, Except.pure, Bool.false_eq_true, ↓reduceIte, Except.ok.injEq] at hm
      subst hm
      have hbest : (mergeLoop 0 g.best l.best l.results g.results).1 = l.best := by
        refine eq_of_at0 (by rw [hsp.1, hbt.len, hbt.len']) fun t => ?_
        rw [hsp.2.1 t, Nat.min_eq_right (hbt.lo t)]
      refine ⟨_, (?_ : Turn P cut prof w R l0 _ .done), rfl⟩
      refine ⟨l, hend, hbest, fun t => ?_, ?_⟩
      · refine (hsp.2.2 t).trans ?_
        rw [hres]
        cases hgt : l.results.get t with
        | none => simp
        | some r =>
          have htn : t < P.n + 1 := by
            obtain ⟨k1, k2, _⟩ := hok t r.1 r.2 hgt
            have := ((maximal_iff hP).1 k1).length_le hP
            omega
          rw [if_pos ⟨Nat.zero_le _, by rw [hbt.len, hlen0]; omega, hbt.lo _, rfl⟩]
          rfl
      · refine ⟨by simp only [hbest, hbt.len'], hbt.len', fun t => by simp only [hbest]; exact Nat.le_refl _, fun t => ?_,
          hbt.none⟩
        simp only [hbest]
        exact Nat.le_trans (hbt.lo t) (hbt.hi t)
  | done =>
    simp only [Threaded.move, ht, pure, Except.pure, Except.ok.injEq] at hm
    subst hm
    refine ⟨_, h, ?_⟩
    rw [List.getElem?_eq_some_iff] at ht
    obtain ⟨h1, h2⟩ := ht
    rw [← h2, List.set_getElem_self]

/-- All moves of one task. -/
theorem Turn.run {F σ : Type} [FloatOps F] {P : Problem} (hP : P.WF) {cut : Prop} {prof : Profile} {w : Bool} {R : MappedPaths}
    {p0 : Schedule} {b0 : List Nat} {l0 : Loc} (hl0 : LInv P p0 b0 l0) (hfresh : w = true → Fresh l0.sweep.current)
    (hst0 : l0.sweep.stack = []) (hmax : w = true → P.Valid p0 → P.peak p0 ≤ at0 l0.best p0.length) {i : Nat} :
    ∀ {ms : List (Nat × Bool)} {g g' : Global σ} {t : TaskState σ}, Turn P cut prof w R l0 g t → g.tasks[i]? = some t →
    (∀ m ∈ ms, m.1 = i ∧ (m.2 = true → cut)) → runMoves (.det : Mode F σ) prof g ms = .ok g' →
    ∃ t', Turn P cut prof w R l0 g' t' ∧ g'.tasks = g.tasks.set i t' := by
  intro ms
  induction ms with
  | nil =>
    intro g g' t h ht _ hr
    simp only [runMoves, pure, Except.pure, Except.ok.injEq] at hr
    subst hr
    refine ⟨t, h, ?_⟩
    obtain ⟨h1, h2⟩ := List.getElem?_eq_some_iff.1 ht
    rw [← h2, List.set_getElem_self]
  | cons m ms ih =>
    intro g g' t h ht hms hr
    obtain ⟨g1, k1, k2⟩ := runMoves_cons hr
    obtain ⟨a, b⟩ := hms m (by simp)
    rw [a] at k1
    obtain ⟨t1, h1, h2⟩ := h.move hP hl0 hfresh hst0 hmax ht b k1
    have hi := (List.getElem?_eq_some_iff.1 ht).1
    obtain ⟨t2, h3, h4⟩ := ih h1 (by rw [h2]; simp [hi]) (fun x hx => hms x (List.mem_cons_of_mem _ hx)) k2
    exact ⟨t2, h3, by rw [h4, h2, List.set_set]⟩

/-! ## The same with one thread -/

theorem chain_prefix {P : Problem} {p0 p : Schedule} {s : Scheduler Partitioner} {st : List (Scheduler Partitioner)}
    (h : Chain P p0 p s st) : p0 <+: p := by
  induction h with
  | base => exact List.prefix_refl _
  | push _ _ _ ih => exact ih.trans (List.prefix_append _ _)

theorem iters_strict {P : Problem} (hP : P.WF) {prof : Profile} {p0 : Schedule} {B : List Nat} {l0 l : Loc} {j : Nat}
    (h : Iters prof l0 j l) (hl0 : LInv P p0 B l0) (h0 : l0.results = []) (hb0 : l0.best = B) :
    (∀ t u S, l.results.get t = some (u, S) → u < at0 B t ∧ p0 <+: S) ∧ (l.results = [] → l.best = B) := by
  induction h with
  | start => exact ⟨fun t u S h => by rw [h0] at h; simp [AMap.get] at h, fun _ => hb0⟩
  | @step j l l' h e ih =>
    have hl := h.inv hP hl0
    obtain ⟨l1, stop, e1, e2⟩ := searchIter_spec hP.lax hl.ok
    rw [e1 prof] at e
    simp only [Except.ok.injEq, Prod.mk.injEq] at e
    obtain ⟨rfl, rfl⟩ := e
    cases e2 with
    | @backLeaf s' top rest hst hn hleaf hlen =>
      refine ⟨fun t u S hg => ?_, fun h => by simp [AMap.insert] at h⟩
      simp only [AMap.get_insert] at hg
      split at hg
      · rename_i heq
        simp only [Option.some.injEq, Prod.mk.injEq] at hg
        obtain ⟨rfl, rfl⟩ := hg
        refine ⟨?_, chain_prefix hl.ok.chain⟩
        have h1 := hl.leaf (by rw [hst]; simp) hleaf
        have h2 := hl.le0 l.path.length
        rw [heq]
        omega
      · exact ih.1 t u S hg
    | backInner => exact ih
    | skip => exact ih
    | push => exact ih

/-- A task whose first step would be skipped by one thread finds nothing. -/
theorem pruned {P : Problem} (hP : P.WF) {prof : Profile} {B : List Nat} {c : Scheduler Partitioner} {m : List Nat} {le : Loc}
    (hc : StateFor P [m] c) (hf : Fresh c) (hl0 : LInv P [m] B (startLoc c (some m) B))
    (hskip : at0 B (minimumPathLength c.time []) ≤ P.peak [m]) (hfull : ¬ P.Valid [m])
    (h : Ended prof true (startLoc c (some m) B) le) : le.results = [] ∧ le.best = B := by
  obtain ⟨j, l1, l2, h1, h2, h3⟩ := h
  have hl1 := h1.inv hP hl0
  obtain ⟨k1, k2⟩ := iters_strict hP h1 hl0 rfl rfl
  obtain ⟨l2', stop, e1, e2⟩ := searchIter_spec hP.lax hl1.ok
  rw [e1 prof] at h2
  simp only [Except.ok.injEq, Prod.mk.injEq] at h2
  obtain ⟨rfl, rfl⟩ := h2
  obtain ⟨_, hcase⟩ := finishLoop_spec hP.lax e2 hl1.ok hl1.sound (counter := j) (wasInit := true) (by
    intro hk _
    subst hk
    cases h1
    exact ⟨hf, rfl⟩)
  have hnone : ∀ t, l1.results.get t = none := by
    intro t
    cases hg : l1.results.get t with
    | none => rfl
    | some r =>
      exfalso
      obtain ⟨a1, a2⟩ := k1 t r.1 r.2 hg
      obtain ⟨b1, b2, b3⟩ := hl1.sound t r.1 r.2 hg
      rw [maximal_iff hP] at b1
      have hext : Extends ([] ++ [m]) r.2 := by
        obtain ⟨q, hq⟩ := a2
        rw [← hq]
        simp [Extends]
      have c1 := minimumPathLength_le_of_extends hP.bits_nodup (p := []) hc b1 hext
      have c2 := hl0.anti _ _ c1
      have c3 := hext.peak_le (P := P)
      simp only [startLoc, List.nil_append] at c2 c3
      rw [b2] at c2
      omega
  have hnil : l1.results = [] := by
    cases hr : l1.results with
    | nil => rfl
    | cons x xs =>
      have := hnone x.1
      rw [hr] at this
      simp [AMap.get] at this
  rcases hcase with ⟨_, he⟩ | ⟨_, _, hv, _⟩
  · rw [h3] at he
    simp only [Except.ok.injEq] at he
    subst he
    cases e2 with
    | stop => exact ⟨hnil, k2 hnil⟩
  · exact (hfull ((maximal_iff hP).1 hv)).elim

/-- At the end of the task the loop with one thread returns to the root with the same table and results. -/
theorem ended_iters {P : Problem} (hP : P.WF) {prof : Profile} {p0 : Schedule} {b0 : List Nat} {l0 l : Loc}
    (h : Ended prof true l0 l) (hl0 : LInv P p0 b0 l0) (hfresh : Fresh l0.sweep.current) (hst0 : l0.sweep.stack = [])
    (r : Scheduler Partitioner) : ∃ j, Iters prof (l0.under r) j ⟨⟨r, []⟩, p0.dropLast, l.best, l.results⟩ := by
  obtain ⟨j, l1, l2, h1, h2, h3⟩ := h
  have hl1 := h1.inv hP hl0
  obtain ⟨l2', stop, e1, e2⟩ := searchIter_spec hP.lax hl1.ok
  rw [e1 prof] at h2
  simp only [Except.ok.injEq, Prod.mk.injEq] at h2
  obtain ⟨rfl, rfl⟩ := h2
  have hk := iters_under h1 r
  cases e2 with
  | @stop s' hst hn hs hi =>
    obtain ⟨⟨cur, stack⟩, path, best, results⟩ := l1
    simp only at hst hn hs hi
    subst hst
    have hp : path = p0 := (hl1.ok.chain).base_path
    have hback : backward s'.atLeaf ⟨⟨r, []⟩, path, best, results⟩ = .ok ⟨⟨r, []⟩, p0.dropLast, l.best, l.results⟩ := by
      by_cases hleaf : s'.atLeaf = none
      · rw [hleaf]
        have hj : j ≠ 0 := by
          rintro rfl
          cases h1
          have := hn.fresh_leaf hfresh
          rw [hn.atLeaf, atLeaf_eq, if_pos this] at hleaf
          cases hleaf
        simp only [finishLoop, hj, false_and, ↓reduceIte, pure, Except.pure, Except.ok.injEq] at h3
        subst h3
        rw [hp]
        rfl
      · have hset : cur.time.measurable.set = [] := by
          rw [hn.atLeaf, atLeaf_eq] at hleaf
          by_contra h
          exact hleaf (if_neg h)
        have hj : j = 0 := by
          by_contra hj
          obtain ⟨l', hf⟩ := h1.first hj
          have hc0 := hl0.ok.chain
          rw [hst0] at hc0
          have hp0 : l0.path = p0 := hc0.base_path
          have hset0 : l0.sweep.current.time.measurable.set = [] := by
            apply List.eq_nil_iff_forall_not_mem.2
            intro b hb
            have h6 := (hc0.state.1.time.set_mem b).1 hb
            rw [hp0, ← hp] at h6
            have h7 : b ∈ cur.time.measurable.set := (hl1.ok.chain.state.1.time.set_mem b).2 h6
            rw [hset] at h7
            cases h7
          rcases nextAndFocus_spec hP.lax hc0.state.1 hc0.state.2 with ⟨s1, hn1, _, _⟩ | ⟨s1, c1, l1, m1, hn1⟩
          · simp [searchIter, Sweep.next, Scheduler.focusIter, hst0, hn1.eq prof, bind, Except.bind, pure, Except.pure] at hf
          · have h4 := hn1.rem
            rw [hfresh.rem, hset0] at h4
            have h5 : items ([] : List Nat) = [([], [])] := by decide
            rw [h5] at h4
            simp only [List.cons.injEq, Prod.mk.injEq] at h4
            exact hn1.ne h4.1.2.symm
        subst hj
        have hat : s'.atLeaf = some s'.space.maxMemory := by
          rw [atLeaf_eq, if_pos (hn.set.trans hset)]
        rw [hat]
        simp only [finishLoop, true_and, ↓reduceIte] at h3
        unfold backward at h3 ⊢
        simp only at h3 ⊢
        split at h3
        · rename_i hc
          simp only [pure, Except.pure, Except.ok.injEq] at h3
          subst h3
          rw [if_pos hc, hp]
          rfl
        · cases h3
    refine ⟨j + 1, .step hk ?_⟩
    simp only [searchIter, Sweep.next, Scheduler.focusIter, Search.Loc.under, bind, Except.bind, pure, Except.pure,
      hn.eq prof, List.nil_append, hback]

/-- Only the first of all first steps can be everything. -/
theorem later_not_full {P : Problem} {r r' c : Scheduler Partitioner} {l m : List Nat}
    (hs : StateFor P [] r) (hi : IterOK r) (hn : NextSome P [] r r' c l m) : ∀ x ∈ rem r', ¬ P.Valid [x.2] := by
  intro x hx hv
  obtain ⟨gone, hgone⟩ := hi.rem
  rw [hn.rem] at hgone
  have hnd : r.time.measurable.set.Nodup := hs.time.set_nodup
  have hpw := items_pairwise hnd
  rw [← hgone, List.pairwise_append, List.pairwise_cons] at hpw
  have hso := hpw.2.1.1 x hx
  have hsub := (mem_items (l := l) (r := m) (by rw [← hgone]; simp)).2.2
  have hsubset : r.time.measurable.set ⊆ x.2 := by
    intro b hb
    have h1 := (hs.time.set_mem b).1 hb
    have := hv.perm.mem_iff.2 h1.1
    simpa using this
  have hle := (List.subperm_of_subset hnd hsubset).length_le
  have hle' := hsub.length_le
  simp only at hso
  rcases hso with h1 | ⟨h1, pre, y, post, h2, _, h4, _⟩
  · omega
  · have heq := hsub.eq_of_length_le (by omega)
    apply h4
    rw [heq, h2]
    simp

theorem start_inv {P : Problem} {sched : Scheduler Partitioner} {init : Option (List Nat)} {B : List Nat}
    (hs : StateFor P (startPath init) sched) (hi : IterOK sched) (hB : B.length = P.n + 1) (ha : Anti B) :
    LInv P (startPath init) B (startLoc sched init B) := by
  refine ⟨start_locOK hs hi hB, ?_, ha, fun t => Nat.le_refl _, fun t => Or.inl rfl, ?_, ?_, ?_⟩
  · intro t m S h; simp [startLoc] at h
  · intro t m S h; simp [startLoc] at h
  · intro t m S h; simp [startLoc] at h
  · intro h; simp [startLoc, Sweep.new] at h

/-- What one thread does while a task with a first step is at work. -/
theorem one_task {P : Problem} (hP : P.WF) {prof : Profile} {r r' c : Scheduler Partitioner} {k m : List Nat}
    (hn : NextSome P [] r r' c k m) {B : List Nat} {X : MappedPaths} {le : Loc} (hB : B.length = P.n + 1) (ha : Anti B)
    (hfull : P.Valid [m] → B = List.replicate (P.n + 1) usizeMax)
    (h : Ended prof true (startLoc c (some m) B) le) :
    ∃ j X', Iters prof ⟨⟨r, []⟩, [], B, X⟩ j ⟨⟨r', []⟩, [], le.best, X'⟩ ∧ Ov X le.results X' := by
  have hc : StateFor P [m] c := by simpa using hn.child
  have hl0 : LInv P [m] B (startLoc c (some m) B) := start_inv (init := some m) hc hn.fresh.iterOK hB ha
  have hle := minimumPathLength_le (p := []) hP.lax (by simpa using hn.child)
  have hidx : idx B (minimumPathLength c.time []) = .ok (at0 B (minimumPathLength c.time [])) := by
    rw [idx_ok, at0, List.getElem?_eq_getElem (by omega)]
    simp [List.getElem?_eq_getElem (show minimumPathLength c.time [] < B.length by omega)]
  have hpk : c.space.maxMemory = P.peak [m] := hc.space.max
  by_cases hsk : c.space.maxMemory ≥ at0 B (minimumPathLength c.time [])
  · have hnf : ¬ P.Valid [m] := by
      intro hv
      rw [hfull hv, at0_replicate, if_pos (by omega), hpk] at hsk
      have := peak_lt_max hP [m]
      omega
    obtain ⟨h1, h2⟩ := pruned hP hc hn.fresh hl0 (by rw [← hpk]; exact hsk) hnf h
    refine ⟨1, X, .step .start ?_, by rw [h1]; exact Ov.nil X⟩
    simp only [searchIter, Sweep.next, Scheduler.focusIter, hn.eq prof, bind, Except.bind, pure, Except.pure, forward, hidx,
      Sweep.skipCurrent, h2]
    rw [if_pos hsk]
  · obtain ⟨j, hj⟩ := ended_iters hP h hl0 hn.fresh rfl r'
    obtain ⟨X', h1, h2⟩ := iters_onto (R := X) (X := X) hj (Ov.nil X)
    refine ⟨1 + j, X', iters_first ?_ h1, h2⟩
    simp only [searchIter, Sweep.next, Scheduler.focusIter, hn.eq prof, bind, Except.bind, pure, Except.pure, forward, hidx]
    rw [if_neg hsk]
    rfl

/-! ## All tasks -/

theorem runMoves_beyond {F σ : Type} [FloatOps F] {mode : Mode F σ} {prof : Profile} {g g' : Global σ} :
    ∀ {ms : List (Nat × Bool)}, (∀ m ∈ ms, g.tasks.length ≤ m.1) → runMoves mode prof g ms = .ok g' → g' = g := by
  intro ms
  induction ms with
  | nil =>
    intro _ h
    simp only [runMoves, pure, Except.pure, Except.ok.injEq] at h
    exact h.symm
  | cons m ms ih =>
    intro hms h
    obtain ⟨g1, h1, h2⟩ := runMoves_cons h
    have hnone : g.tasks[m.1]? = none := List.getElem?_eq_none (hms m (by simp))
    simp only [Threaded.move, hnone, pure, Except.pure, Except.ok.injEq] at h1
    subst h1
    exact ih (fun x hx => hms x (List.mem_cons_of_mem _ hx)) h2

/-- The moves of the first task, and those of the others. -/
theorem split_moves {i : Nat} : ∀ {ms : List (Nat × Bool)}, (ms.map (·.1)).Pairwise (· ≤ ·) → (∀ m ∈ ms, i ≤ m.1) →
    ∃ a b, ms = a ++ b ∧ (∀ m ∈ a, m.1 = i) ∧ (∀ m ∈ b, i + 1 ≤ m.1) ∧ (b.map (·.1)).Pairwise (· ≤ ·) := by
  intro ms
  induction ms with
  | nil => exact fun _ _ => ⟨[], [], rfl, by simp, by simp, by simp⟩
  | cons m ms ih =>
    intro h hi
    by_cases hm : m.1 = i
    · obtain ⟨a, b, h1, h2, h3, h4⟩ := ih (List.pairwise_cons.1 h).2 fun x hx => hi x (List.mem_cons_of_mem _ hx)
      refine ⟨m :: a, b, by rw [h1]; rfl, ?_, h3, h4⟩
      intro x hx
      rcases List.mem_cons.1 hx with rfl | hx
      · exact hm
      · exact h2 x hx
    · refine ⟨[], m :: ms, rfl, by simp, ?_, h⟩
      have h0 := hi m (by simp)
      intro x hx
      rcases List.mem_cons.1 hx with rfl | hx
      · omega
      · have : m.1 ≤ x.1 := (List.pairwise_cons.1 h).1 x.1 (List.mem_map_of_mem hx)
        omega

theorem runMoves_split {F σ : Type} [FloatOps F] {mode : Mode F σ} {prof : Profile} {g' : Global σ} {b : List (Nat × Bool)} :
    ∀ {a : List (Nat × Bool)} {g : Global σ}, runMoves mode prof g (a ++ b) = .ok g' →
    ∃ g1, runMoves mode prof g a = .ok g1 ∧ runMoves mode prof g1 b = .ok g' := by
  intro a
  induction a with
  | nil => exact fun h => ⟨_, rfl, h⟩
  | cons m a ih =>
    intro g h
    obtain ⟨g1, h1, h2⟩ := runMoves_cons (ms := a ++ b) h
    obtain ⟨g2, h3, h4⟩ := ih h2
    refine ⟨g2, ?_, h4⟩
    simp only [runMoves, h1, bind, Except.bind]
    exact h3

/-- One task from its start to its end. -/
theorem whole_task {F σ : Type} [FloatOps F] {P : Problem} (hP : P.WF) {cut : Prop} {prof : Profile} {g g' : Global σ}
    {a b : List (Nat × Bool)} {i : Nat} {sched : Scheduler Partitioner} {init : Option (List Nat)} {rng : σ}
    (ht : g.tasks[i]? = some (.ready sched init rng)) (hs : StateFor P (startPath init) sched) (hi : IterOK sched)
    (hf : init.isSome = true → Fresh sched) (hB : g.best.length = P.n + 1) (ha : Anti g.best)
    (hfull : P.Valid (startPath init) → init.isSome = true → P.peak (startPath init) ≤ at0 g.best (startPath init).length)
    (h2 : ∀ m ∈ a, m.1 = i) (h3 : ∀ m ∈ b, m.1 ≠ i) (hbit : ∀ m ∈ a, m.2 = true → cut)
    (hr : runMoves (.det : Mode F σ) prof g (a ++ b) = .ok g') (hfin : g'.finished = true) :
    ∃ (g1 : Global σ) (le : Loc), runMoves (.det : Mode F σ) prof g1 b = .ok g' ∧
      g1.tasks = g.tasks.set i .done ∧ Returned cut prof init.isSome (startLoc sched init g.best) le ∧ g1.best = le.best ∧
      Ov g.results le.results g1.results := by
  obtain ⟨g1, k1, k2⟩ := runMoves_split hr
  have hl0 := start_inv hs hi hB ha
  obtain ⟨t', q1, q2⟩ := Turn.run (w := init.isSome) (R := g.results) hP hl0 (fun h => hf h) rfl
    (fun hw hv => hfull hv hw) (t := .ready sched init rng) ⟨rfl, rfl, rfl⟩ ht (fun m hm => ⟨h2 m hm, hbit m hm⟩) k1
  have hilt := (List.getElem?_eq_some_iff.1 ht).1
  have hdone : t' = .done := by
    have := done_of_other k2 hfin (j := i) (by
      intro hmem
      obtain ⟨x, hx, hxi⟩ := List.mem_map.1 hmem
      exact h3 x hx hxi) (t := t') (by rw [q2]; simp [hilt])
    cases t' <;> simp [TaskState.isDone] at this
    rfl
  subst hdone
  obtain ⟨le, r1, r2, r3, _⟩ := q1
  exact ⟨g1, le, k2, q2, r1, r2, r3⟩

/-- The loop with one thread while the tasks work one after another. -/
theorem all_tasks {F σ : Type} [FloatOps F] {P : Problem} (hP : P.WF) {prof : Profile} {tb : Int} {g' : Global σ}
    (hfin : g'.finished = true) {b0 : List Nat} : ∀ (fuel : Nat) (r : Scheduler Partitioner) (k : Int), StateFor P [] r →
    IterOK r → r.time.measurable.iter.length < fuel → ∀ ts rest, spawnLoop prof tb fuel r k = .ok (ts, rest) →
    ∀ (i : Nat) (g : Global σ) (ms : List (Nat × Bool)) (X : MappedPaths),
    g.tasks.length = i + ts.length + 1 →
    (∀ a t, ts[a]? = some t → ∃ rng, g.tasks[i + a]? = some (.ready t.1 (some t.2) rng)) →
    (∃ rng, g.tasks[i + ts.length]? = some (.ready rest none rng)) →
    (ms.map (·.1)).Pairwise (· ≤ ·) → (∀ m ∈ ms, i ≤ m.1) → (∀ m ∈ ms, m.2 = false) →
    runMoves (.det : Mode F σ) prof g ms = .ok g' →
    LInv P [] b0 ⟨⟨r, []⟩, [], g.best, X⟩ → (∀ t, X.get t = g.results.get t) →
    (∀ x ∈ rem r, P.Valid [x.2] → g.best = List.replicate (P.n + 1) usizeMax) →
    ∃ j L1 L2, Iters prof ⟨⟨r, []⟩, [], g.best, X⟩ j L1 ∧ searchIter prof L1 = .ok (L2, true) ∧
      ∀ t, L2.results.get t = g'.results.get t := by
  intro fuel
  -- the last task
  have last : ∀ (rest : Scheduler Partitioner), StateFor P [] rest → IterOK rest → ∀ (i : Nat) (g : Global σ)
      (ms : List (Nat × Bool)) (X : MappedPaths), g.tasks.length = i + 1 →
      (∃ rng, g.tasks[i]? = some (.ready rest none rng)) → (ms.map (·.1)).Pairwise (· ≤ ·) → (∀ m ∈ ms, i ≤ m.1) →
      (∀ m ∈ ms, m.2 = false) → runMoves (.det : Mode F σ) prof g ms = .ok g' → g.best.length = P.n + 1 → Anti g.best →
      (∀ t, X.get t = g.results.get t) → ∃ j L1 L2, Iters prof ⟨⟨rest, []⟩, [], g.best, X⟩ j L1 ∧
        searchIter prof L1 = .ok (L2, true) ∧ ∀ t, L2.results.get t = g'.results.get t := by
    intro rest hrs hri i g ms X hlen ⟨rng, hlast⟩ hsort hge hbit hr hB ha hX
    obtain ⟨a, b, rfl, h2, q2, _⟩ := split_moves hsort hge
    obtain ⟨g1, le, q1, q5, q6, _, q8⟩ := whole_task hP hlast (by simpa [startPath] using hrs) hri
      (by simp) hB ha (by simp) h2 (fun m hm h => by have := q2 m hm; omega) (fun m hm h => by simp [hbit m (by simp [hm])] at h)
      hr hfin
    replace q6 := q6.resolve_right fun h : False ∧ _ => h.1
    have := runMoves_beyond (fun m hm => by rw [q5, List.length_set, hlen]; exact q2 m hm) q1
    subst this
    obtain ⟨j, l1, l2, e1, e2, e3⟩ := q6
    simp only [finishLoop, Option.isSome_none, Bool.false_eq_true, and_false, ↓reduceIte, pure, Except.pure,
      Except.ok.injEq] at e3
    subst e3
    obtain ⟨X1, f1, f2⟩ := iters_onto (R := X) (X := X) e1 (Ov.nil X)
    obtain ⟨X2, f3, f4⟩ := searchIter_onto e2 f2
    refine ⟨j, _, _, f1, f3, fun t => ?_⟩
    rw [q8 t, ← hX t]
    exact f4 t
  induction fuel with
  | zero => intro r k _ _ h; omega
  | succ fuel ih =>
    intro r k hs hi hf ts rest h i g ms X hlen hts hlast hsort hge hbit hr hL hX hfull
    rcases nextAndFocus_spec hP.lax hs hi with ⟨r', hn, hs', hi'⟩ | ⟨r', c, l, m, hn⟩
    · -- no first step is left
      simp only [spawnLoop, hn.eq prof, bind, Except.bind, pure, Except.pure, Except.ok.injEq, Prod.mk.injEq] at h
      obtain ⟨rfl, rfl⟩ := h
      obtain ⟨j, L1, L2, e1, e2, e3⟩ := last r' hs' hi' i g ms X (by simpa using hlen) (by simpa using hlast) hsort hge hbit hr
        hL.ok.best hL.anti hX
      have hfused : searchIter prof ⟨⟨r', []⟩, [], g.best, X⟩ = .ok (⟨⟨r', []⟩, [], g.best, X⟩, true) := by
        have hr0 : r'.nextAndFocus prof = .ok (r', none) := by
          have hd := hn.done
          obtain ⟨⟨⟨set, iter⟩, deps, look⟩, space⟩ := r'
          simp only at hd
          subst hd
          simp [Scheduler.nextAndFocus, PathGenerator.nextAndFocus, Partition.next, bind, Except.bind, pure, Except.pure]
        simp [searchIter, Sweep.next, Scheduler.focusIter, hr0, bind, Except.bind, pure, Except.pure]
      have hj : j = 0 := by
        by_contra hj
        obtain ⟨l', hl'⟩ := e1.first hj
        rw [hfused] at hl'
        simp at hl'
      subst hj
      cases e1
      rw [hfused] at e2
      simp only [Except.ok.injEq, Prod.mk.injEq, and_true] at e2
      subst e2
      refine ⟨0, _, ⟨⟨r', []⟩, [], g.best, X⟩, .start, ?_, e3⟩
      simp [searchIter, Sweep.next, Scheduler.focusIter, hn.eq prof, bind, Except.bind, pure, Except.pure]
    · -- a task with a first step
      simp only [spawnLoop, hn.eq prof, bind, Except.bind, pure, Except.pure] at h
      obtain ⟨ts', hcons, hrest⟩ : ∃ ts', ts = (c, m) :: ts' ∧
          ((ts' = [] ∧ rest = r') ∨ spawnLoop prof tb fuel r' (k + 1) = .ok (ts', rest)) := by
        split at h
        · simp only [Except.ok.injEq, Prod.mk.injEq] at h
          exact ⟨[], h.1.symm, Or.inl ⟨rfl, h.2.symm⟩⟩
        · cases hsp : spawnLoop prof tb fuel r' (k + 1) with
          | error e => rw [hsp] at h; cases h
          | ok x =>
            rw [hsp] at h
            simp only [Except.ok.injEq, Prod.mk.injEq] at h
            exact ⟨x.1, h.1.symm, Or.inr (by rw [← h.2])⟩
      subst hcons
      have hmem : (l, m) ∈ rem r := by rw [hn.rem]; simp
      obtain ⟨rng, ht0⟩ := hts 0 (c, m) rfl
      have hc : StateFor P [m] c := by simpa using hn.child
      obtain ⟨a, b, rfl, h2, q2, q4⟩ := split_moves hsort hge
      have q3 : ∀ m ∈ b, m.2 = false := fun m hm => hbit m (by simp [hm])
      obtain ⟨g1, le, q1, q5, q6, q7, q8⟩ := whole_task hP ht0 (by simpa [startPath] using hc)
        hn.fresh.iterOK (fun _ => hn.fresh) hL.ok.best hL.anti (by
          intro hv _
          have hv1 := hv.length_le hP
          have : P.peak (startPath (some (c, m).2)) < usizeMax := peak_lt_max hP _
          rw [hfull _ hmem (by simpa [startPath] using hv), at0_replicate, if_pos (by omega)]
          omega) h2 (fun x hx h => by have := q2 x hx; omega) (fun x hx h => by simp [hbit x (by simp [hx])] at h)
        hr hfin
      replace q6 := q6.resolve_right fun h : False ∧ _ => h.1
      obtain ⟨j, X', e1, e2⟩ := one_task (X := X) hP hn hL.ok.best hL.anti (hfull _ hmem) q6
      have hL' := e1.inv hP hL
      rw [← q7] at e1 hL'
      have hX' : ∀ t, X'.get t = g1.results.get t := fun t => by rw [e2 t, q8 t, hX t]
      have hother : ∀ n, g1.tasks[i + (n + 1)]? = g.tasks[i + (n + 1)]? := fun n => by
        rw [q5, List.getElem?_set_ne (by omega)]
      have hlen1 : g1.tasks.length = i + 1 + ts'.length + 1 := by
        rw [q5, List.length_set, hlen, List.length_cons]; omega
      have hlast1 : ∃ rng, g1.tasks[i + 1 + ts'.length]? = some (.ready rest none rng) := by
        obtain ⟨rng', hl'⟩ := hlast
        refine ⟨rng', ?_⟩
        rw [show i + 1 + ts'.length = i + (ts'.length + 1) by omega, hother]
        exact hl'
      rcases hrest with ⟨rfl, rfl⟩ | hsp
      · obtain ⟨j', L1, L2, d1, d2, d3⟩ := last rest hn.state' hn.iter' (i + 1) g1 b X' (by simpa using hlen1)
          (by simpa using hlast1) q4 q2 q3 q1 hL'.ok.best hL'.anti hX'
        exact ⟨_, L1, L2, iters_trans e1 d1, d2, d3⟩
      · have hlen' := hn.len
        obtain ⟨j', L1, L2, d1, d2, d3⟩ := ih r' (k + 1) hn.state' hn.iter' (by omega) ts' rest hsp (i + 1) g1 b X' hlen1
          (fun a t hat => by
            obtain ⟨rng', h'⟩ := hts (a + 1) t (by simpa using hat)
            refine ⟨rng', ?_⟩
            rw [show i + 1 + a = i + (a + 1) by omega, hother]
            exact h') hlast1 q4 q2 q3 q1 hL' hX'
          (fun x hx hv => (later_not_full hs hi hn x hx hv).elim)
        exact ⟨_, L1, L2, iters_trans e1 d1, d2, d3⟩

theorem iters_loop {prof : Profile} {l0 l : Loc} {j : Nat} (h : Iters prof l0 j l) (k fuel : Nat) :
    searchLoop prof (fun _ => false) (fuel + j) k l0 = searchLoop prof (fun _ => false) fuel (k + j) l := by
  induction h generalizing fuel with
  | start => rfl
  | @step j l l' h e ih =>
    rw [show fuel + (j + 1) = (fuel + 1) + j by omega, ih, searchLoop, e]
    simp only [bind, Except.bind, Bool.false_eq_true, ↓reduceIte]
    rfl

/-- An exhaustive search whose tasks work in the order of the queue returns the same as the search without threads. -/
theorem searchThreaded_in_order {F σ : Type} [FloatOps F] {P : Problem} (hP : P.WF) {tb : Int}
    {seeds : Nat → σ} {moves : List (Nat × Bool)} {prof : Profile} {hashIter : MappedPaths → MappedPaths} {out : List Path}
    (hbit : ∀ m ∈ moves, m.2 = false) (hsort : (moves.map (·.1)).Pairwise (· ≤ ·))
    (h : searchThreaded (.det : Mode F σ) prof hashIter tb seeds moves P.graph P.order = .ok (some out)) :
    ∃ N, ∀ fuel, N ≤ fuel → searchDet prof hashIter (fun _ => false) fuel P.graph P.order = .ok (some out) := by
  obtain ⟨s, g, g', a1, a2, a3, a4, a5⟩ := searchThreaded_ok h
  obtain ⟨s0, e1, hs, hf⟩ := mkScheduler_spec hP
  rw [e1] at a1
  simp only [Except.ok.injEq] at a1
  subst a1
  obtain ⟨ts, rest, f1, _⟩ := spawnLoop_spec hP.lax tb (s0.time.measurable.iter.length + 1) s0 0 hs hf.iterOK (by omega)
  simp only [initGlobal, spawn, f1 prof, bind, Except.bind, pure, Except.pure, Except.ok.injEq] at a2
  subst a2
  have hinv : LInv P [] (List.replicate (P.n + 1) usizeMax) (startLoc s0 none (List.replicate (P.n + 1) usizeMax)) :=
    start_inv (init := none) (by simpa [startPath] using hs) hf.iterOK (by simp) (anti_replicate _ _)
  obtain ⟨j, L1, L2, d1, d2, d3⟩ := all_tasks hP a4 (b0 := List.replicate (P.n + 1) usizeMax) _ s0 0 hs hf.iterOK (by omega)
    ts rest (f1 prof) 0 _ moves [] (by simp) (fun a t hat => by
      obtain ⟨ha, hat⟩ := List.getElem?_eq_some_iff.1 hat
      refine ⟨seeds a, ?_⟩
      simp only [Nat.zero_add]
      rw [List.getElem?_append_left (by simpa using ha)]
      simp [ha, hat]) ⟨seeds ts.length, by simp⟩ hsort (fun _ _ => Nat.zero_le _) hbit a3 hinv (fun t => rfl)
    (fun _ _ _ => rfl)
  refine ⟨j + 1, fun fuel hfuel => ?_⟩
  obtain ⟨k, rfl⟩ : ∃ k, fuel = (k + 1) + j := ⟨fuel - j - 1, by omega⟩
  have hdo : doSearch prof (fun _ => false) (k + 1 + j) s0 P.graph.length = .ok (some L2) := by
    have : doSearch prof (fun _ => false) (k + 1 + j) s0 P.graph.length = searchLoop prof (fun _ => false) (k + 1) (0 + j) L1 :=
      iters_loop d1 0 (k + 1)
    rw [this, searchLoop, d2]
    simp [bind, Except.bind, pure, Except.pure]
  simp only [searchDet, e1, hdo, bind, Except.bind, pure, Except.pure]
  rw [postprocess_congr (r' := g'.results) d3, a5]

end InOrder
end Verif
