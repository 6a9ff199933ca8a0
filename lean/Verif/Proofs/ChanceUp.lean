import Verif.Proofs.Chance
import Verif.Proofs.Stuck
import Verif.Proofs.Sweep
/-!
# How few sequences of random numbers lead the approximate search to a schedule
-/

namespace Verif

open Spec Search

/-- Some recorded path is `S` (steps compared as sets). -/
def Recd (S : Schedule) (found : MappedPaths) : Prop := ∃ t m S', found.get t = some (m, S') ∧ StepEq S' S

/-- `S` is ahead on at most one level, with at least `r` of its steps still to be taken. -/
structure Ahead (S : Schedule) (r : Nat) (ls : List (Schedule × Scheduler Partitioner)) : Prop where
  len : ∀ lv ∈ ls, PendAt S lv.1 lv.2 → lv.1.length + r ≤ S.length
  once : ls.Pairwise fun a b => ¬ (PendAt S a.1 a.2 ∧ PendAt S b.1 b.2)

section
variable {P : Problem} {S : Schedule}

theorem extends_of_snoc {p : Schedule} {m : List Nat} (h : Extends (p ++ [m]) S) :
    Extends p S ∧ ∃ s', S[p.length]? = some s' ∧ m.Perm s' := by
  have hle := h.le
  simp only [List.length_append, List.length_singleton] at hle
  have hget : S[p.length]? = some S[p.length] := List.getElem?_eq_getElem (by omega)
  unfold Extends at h
  rw [List.length_append, List.length_singleton, take_succ_of_getElem? hget] at h
  have h1 := List.forall₂_take p.length h
  have h2 := List.forall₂_drop p.length h
  have hl : (S.take p.length).length = p.length := by rw [List.length_take]; omega
  rw [List.take_left, List.take_left' hl] at h1
  rw [List.drop_left, List.drop_left' hl] at h2
  refine ⟨h1, _, hget, ?_⟩
  cases h2 with
  | cons h _ => exact h

theorem PendAt.parent {p : Schedule} {s s' c : Scheduler Partitioner} {k m : List Nat} (hn : NextSome P p s s' c k m)
    (h : PendAt S (p ++ [m]) c) : PendAt S p s ∧ Extends (p ++ [m]) S := by
  obtain ⟨h1, s1, h2, h3⟩ := extends_of_snoc h.1
  exact ⟨⟨h1, Or.inl ⟨s1, k, m, h2, by rw [hn.rem]; exact List.mem_cons_self, hn.ne, h3⟩⟩, h.1⟩

theorem PendAt.earlier {p : Schedule} {s s' c : Scheduler Partitioner} {k m : List Nat} (hn : NextSome P p s s' c k m)
    (h : PendAt S p s') : PendAt S p s := by
  refine ⟨h.1, ?_⟩
  rcases h.2 with ⟨s1, k', m', h1, h2, h3, h4⟩ | ⟨h1, h2⟩
  · exact Or.inl ⟨s1, k', m', h1, by rw [hn.rem]; exact List.mem_cons_of_mem _ h2, h3, h4⟩
  · exact Or.inr ⟨by rw [← hn.set]; exact h1, h2⟩

/-- A step of `S` comes once. -/
theorem PendAt.unique {p : Schedule} {s s' c : Scheduler Partitioner} {k m : List Nat} (hs : StateFor P p s)
    (hi : IterOK s) (hn : NextSome P p s s' c k m) (h : PendAt S (p ++ [m]) c) : ¬ PendAt S p s' := by
  intro h'
  obtain ⟨_, s1, h2, h3⟩ := extends_of_snoc h.1
  rcases h'.2 with ⟨s2, k', m', h4, h5, _, h6⟩ | ⟨_, h5⟩
  · rw [h2] at h4
    cases h4
    obtain ⟨q1, q2⟩ := rem_pairwise hs hi
    have hmm := q2 k m k' m' (by rw [hn.rem]; exact List.mem_cons_self) (by rw [hn.rem]; exact List.mem_cons_of_mem _ h5)
      (h3.trans h6.symm)
    subst hmm
    rw [hn.rem, List.map_cons, List.nodup_cons] at q1
    exact q1.1 (List.mem_map.2 ⟨_, h5, rfl⟩)
  · have := (List.getElem?_eq_some_iff.1 h2).1
    omega

theorem Recd.insert {found : MappedPaths} {t m : Nat} {p : Schedule} (h : Recd S (found.insert t (m, p))) :
    Recd S found ∨ StepEq p S := by
  obtain ⟨t', m', S', h1, h2⟩ := h
  rw [AMap.get_insert] at h1
  split at h1
  · cases h1; exact Or.inr h2
  · exact Or.inl ⟨t', m', S', h1, h2⟩

theorem pendAt_leaf {p : Schedule} {c : Scheduler Partitioner} (h : StepEq p S) (h0 : c.time.measurable.set = []) :
    PendAt S p c :=
  ⟨by unfold Extends; rw [h.length_eq, List.take_length]; exact h, Or.inr ⟨h0, h.length_eq⟩⟩

/-- What is behind stays behind. -/
theorem IterStep.gone {Det : Prop} {l l' : Loc} {stop : Bool} (h : IterStep P Det l l' stop)
    (hr : ¬ Recd S l.results) (hg : ∀ lv ∈ levels l.path l.sweep.current l.sweep.stack, ¬ PendAt S lv.1 lv.2) :
    ¬ Recd S l'.results ∧ ∀ lv ∈ levels l'.path l'.sweep.current l'.sweep.stack, ¬ PendAt S lv.1 lv.2 := by
  obtain ⟨tl, htl⟩ := levels_split l.path l.sweep.stack
  have hg0 := hg
  rw [htl, List.forall_mem_cons] at hg
  cases h with
  | @stop s' hst hn hs hi =>
    refine ⟨hr, ?_⟩
    have : tl = [] := by
      have := htl l.sweep.current
      rw [hst] at this
      simpa [levels] using this.symm
    have h' := htl s'
    rw [hst] at h'
    simp only
    rw [h', this]
    intro lv hlv
    rw [List.mem_singleton] at hlv
    subst hlv
    rintro ⟨h1, h2⟩
    refine hg.1 ⟨h1, ?_⟩
    rcases h2 with ⟨_, _, _, _, h2, _⟩ | h2
    · have : rem s' = [] := by unfold Verif.rem; rw [hn.done]; rfl
      rw [this] at h2
      simp at h2
    · exact Or.inr ⟨by rw [← hn.set]; exact h2.1, h2.2⟩
  | @backLeaf s' top rest hst hn hleaf hlen =>
    rw [hst, levels, List.forall_mem_cons] at hg0
    refine ⟨fun h => ?_, hg0.2⟩
    rcases h.insert with h | h
    · exact hr h
    · exact hg0.1 (pendAt_leaf h hleaf)
  | backInner hst hn hleaf =>
    rw [hst, levels, List.forall_mem_cons] at hg0
    exact ⟨hr, hg0.2⟩
  | skip hn hb hd =>
    refine ⟨hr, ?_⟩
    simp only
    rw [htl, List.forall_mem_cons]
    exact ⟨fun h => hg.1 (h.earlier hn), hg.2⟩
  | push hn hb hlt =>
    refine ⟨hr, ?_⟩
    simp only [levels, List.dropLast_concat]
    rw [htl, List.forall_mem_cons, List.forall_mem_cons]
    exact ⟨fun h => hg.1 (h.parent hn).1, fun h => hg.1 (h.earlier hn), hg.2⟩

theorem probLoop_gone {F σ : Type} [FloatOps F] {accept : Accept F} {gen : Rng F σ} (hP : Lax P) {prof : Profile}
    {timer : Nat → Bool} {p0 : Schedule} : ∀ (fuel k : Nat) (l : Loc) (rng : σ) (l' : Loc) (rng' : σ), LocOK P p0 l →
      ¬ Recd S l.results → (∀ lv ∈ levels l.path l.sweep.current l.sweep.stack, ¬ PendAt S lv.1 lv.2) →
      probLoop prof accept gen timer fuel k l rng = .ok (some (l', rng')) → ¬ Recd S l'.results := by
  intro fuel
  induction fuel with
  | zero => intro k l rng l' rng' _ _ _ h; simp [probLoop, pure, Except.pure] at h
  | succ fuel ih =>
    intro k l rng l' rng' hl hr hg h
    obtain ⟨l1, rng1, stop, e1, e2⟩ := probIter_spec accept gen rng hP hl
    obtain ⟨i1, i2⟩ := e2.gone hr hg
    simp only [probLoop, e1 prof, bind, Except.bind, pure, Except.pure] at h
    split at h
    · cases h; exact i1
    · split at h
      · cases h; exact i1
      · exact ih _ _ _ _ _ (e2.locOK hl) i1 i2 h

/-- An iteration that takes no step keeps `S` ahead or leaves it behind. -/
theorem IterStep.ahead {Det : Prop} {l l' : Loc} {stop : Bool} (h : IterStep P Det l l' stop)
    (hlen : l'.path.length ≤ l.path.length) {r : Nat} (hr : ¬ Recd S l.results)
    (hg : Ahead S (r + 1) (levels l.path l.sweep.current l.sweep.stack)) :
    ¬ Recd S l'.results ∧ (stop = false → Ahead S (r + 1) (levels l'.path l'.sweep.current l'.sweep.stack)) := by
  cases h with
  | stop hst hn hs hi => exact ⟨hr, by simp⟩
  | @backLeaf s' top rest hst hn hleaf hlen =>
    rw [hst, levels] at hg
    refine ⟨fun h => ?_, fun _ => ⟨fun lv h => hg.len lv (List.mem_cons_of_mem _ h), (List.pairwise_cons.1 hg.once).2⟩⟩
    rcases h.insert with h | h
    · exact hr h
    · have := hg.len _ List.mem_cons_self (pendAt_leaf h hleaf)
      have := h.length_eq
      simp only at *
      omega
  | backInner hst hn hleaf =>
    rw [hst, levels] at hg
    exact ⟨hr, fun _ => ⟨fun lv h => hg.len lv (List.mem_cons_of_mem _ h), (List.pairwise_cons.1 hg.once).2⟩⟩
  | @skip s' c k m bound hn hb hd =>
    refine ⟨hr, fun _ => ?_⟩
    obtain ⟨tl, htl⟩ := levels_split l.path l.sweep.stack
    rw [htl] at hg
    simp only
    rw [htl]
    obtain ⟨o1, o2⟩ := List.pairwise_cons.1 hg.once
    refine ⟨?_, List.pairwise_cons.2 ⟨fun b hb h => o1 b hb ⟨h.1.earlier hn, h.2⟩, o2⟩⟩
    rw [List.forall_mem_cons]
    exact ⟨fun h => hg.len (l.path, l.sweep.current) List.mem_cons_self (PendAt.earlier hn h), fun lv h => hg.len lv (List.mem_cons_of_mem _ h)⟩
  | push => simp at hlen

/-- A question: either it is about a step of `S`, or both answers keep it ahead. -/
theorem ahead_child {l : Loc} (hs : StateFor P l.path l.sweep.current) (hi : IterOK l.sweep.current)
    {s' c : Scheduler Partitioner} {k m : List Nat} (hn : NextSome P l.path l.sweep.current s' c k m) {r : Nat}
    (hg : Ahead S (r + 1) (levels l.path l.sweep.current l.sweep.stack)) :
    (Extends (l.path ++ [m]) S ∧ Ahead S r (levels (l.path ++ [m]) c (s' :: l.sweep.stack)) ∧
      ∀ lv ∈ levels l.path s' l.sweep.stack, ¬ PendAt S lv.1 lv.2) ∨
    (Ahead S (r + 1) (levels (l.path ++ [m]) c (s' :: l.sweep.stack)) ∧
      Ahead S (r + 1) (levels l.path s' l.sweep.stack)) := by
  obtain ⟨tl, htl⟩ := levels_split l.path l.sweep.stack
  rw [htl] at hg
  obtain ⟨o1, o2⟩ := List.pairwise_cons.1 hg.once
  simp only [levels, List.dropLast_concat]
  rw [htl]
  have l1 := hg.len _ List.mem_cons_self
  have l2 : ∀ lv ∈ tl, PendAt S lv.1 lv.2 → lv.1.length + (r + 1) ≤ S.length :=
    fun lv h => hg.len lv (List.mem_cons_of_mem _ h)
  simp only at l1
  by_cases hp : PendAt S (l.path ++ [m]) c
  · left
    obtain ⟨h1, h2⟩ := hp.parent hn
    have h3 := hp.unique hs hi hn
    have h4 : ∀ lv ∈ tl, ¬ PendAt S lv.1 lv.2 := fun lv h h' => o1 lv h ⟨h1, h'⟩
    refine ⟨h2, ⟨?_, ?_⟩, ?_⟩
    · rw [List.forall_mem_cons, List.forall_mem_cons]
      refine ⟨fun _ => ?_, fun h => (h3 h).elim, fun lv h h' => (h4 lv h h').elim⟩
      have := l1 h1
      simp only [List.length_append, List.length_singleton]
      omega
    · rw [List.pairwise_cons, List.pairwise_cons]
      refine ⟨?_, fun b _ h => h3 h.1, o2⟩
      intro b hb h
      rcases List.mem_cons.1 hb with rfl | hb
      · exact h3 h.2
      · exact h4 b hb h.2
    · rw [List.forall_mem_cons]
      exact ⟨h3, h4⟩
  · right
    have h5 : Ahead S (r + 1) ((l.path, s') :: tl) := by
      refine ⟨?_, List.pairwise_cons.2 ⟨fun b hb h => o1 b hb ⟨h.1.earlier hn, h.2⟩, o2⟩⟩
      rw [List.forall_mem_cons]
      exact ⟨fun h => l1 (h.earlier hn), l2⟩
    refine ⟨⟨?_, List.pairwise_cons.2 ⟨fun b _ h => hp h.1, h5.once⟩⟩, h5⟩
    rw [List.forall_mem_cons]
    exact ⟨fun h => (hp h).elim, h5.len⟩

end

/-- Every question about a step of `S` is answered with at most `w` of the random numbers so that the step is
taken. -/
def Seldom {Ω F : Type} [Fintype Ω] [FloatOps F] (P : Problem) (accept : Accept F) (f : Ω → F) (w : Nat)
    (S : Schedule) : Prop :=
  ∀ found p m q, Asked P found p m q → Extends (p ++ [m]) S →
    FloatOps.geOne (q.ask accept) = false ∧
      (Finset.univ.filter fun x : Ω => FloatOps.lt (f x) (q.ask accept) = true).card ≤ w

/-- The loop ends with `S` recorded. -/
def HitS {Ω F : Type} [FloatOps F] (S : Schedule) (prof : Profile) (accept : Accept F)
    (f : Ω → F) (d : F) (timer : Nat → Bool) (fuel k : Nat) (l : Loc) (xs : List Ω) : Prop :=
  ∃ l' xs', probLoop prof accept (listRng f d) timer fuel k l xs = .ok (some (l', xs')) ∧ Recd S l'.results

section Loop
variable {Ω F : Type} [FloatOps F] {P : Problem} {S : Schedule} {prof : Profile} {accept : Accept F}
  {f : Ω → F} {d : F} {timer : Nat → Bool}

theorem hitS_step {fuel k : Nat} {l l1 : Loc} {xs xs1 : List Ω} {stop : Bool}
    (h : probIter prof accept (listRng f d) l xs = .ok (l1, xs1, stop)) (hr : ¬ Recd S l1.results)
    (hh : HitS S prof accept f d timer (fuel + 1) k l xs) :
    stop = false ∧ HitS S prof accept f d timer fuel (k + 1) l1 xs1 := by
  obtain ⟨l', xs', h1, h2⟩ := hh
  rw [probLoop, h] at h1
  simp only [bind, Except.bind, pure, Except.pure] at h1
  split at h1
  · cases h1; exact (hr h2).elim
  · rename_i hst
    split at h1
    · cases h1; exact (hr h2).elim
    · exact ⟨by simpa using hst, l', xs', h1, h2⟩

theorem countSeq_le [Fintype Ω] {N : Nat} {A : List Ω → Prop} : countSeq Ω N A ≤ Fintype.card Ω ^ N := by
  rw [← countSeq_all (A := fun _ => True) fun _ => trivial]
  exact countSeq_mono fun _ _ => trivial

variable [Fintype Ω]

theorem seldom_loop (hP : P.WF) {w : Nat} (hA : Seldom P accept f w S) :
    ∀ (fuel k : Nat) (l : Loc) (n N r : Nat), LInv P [] (best0 P) l →
      Todos P (levels l.path l.sweep.current l.sweep.stack) n → n ≤ N → ¬ Recd S l.results →
      Ahead S r (levels l.path l.sweep.current l.sweep.stack) →
      countSeq Ω N (HitS S prof accept f d timer fuel k l) * Fintype.card Ω ^ r ≤ w ^ r * Fintype.card Ω ^ N := by
  intro fuel
  induction fuel with
  | zero =>
    intro k l n N r _ _ _ _ _
    rw [countSeq_none (A := HitS S prof accept f d timer 0 k l), Nat.zero_mul]
    · exact Nat.zero_le _
    · rintro xs ⟨l', xs', h, _⟩
      simp [probLoop, pure, Except.pure] at h
  | succ fuel ih =>
    intro k l n N r hl hn hN hr hg
    cases r with
    | zero =>
      rw [pow_zero, pow_zero, Nat.mul_one, Nat.one_mul]
      exact countSeq_le
    | succ r =>
    obtain ⟨l2, stop2, e1, e2⟩ := searchIter_spec hP.lax hl.ok
    rcases probIter_asked hP hl with ⟨l1, stop1, g1, g2⟩ | ⟨s', c, m, q, hq, g1, g2⟩
    · have heq := (e1 .debug).symm.trans (g1 .debug)
      simp only [Except.ok.injEq, Prod.mk.injEq] at heq
      obtain ⟨rfl, rfl⟩ := heq
      have hlen : l2.path.length ≤ l.path.length := by
        let _ := noFloat
        exact probIter_never (prof := .debug)
          (g2 (fun _ _ _ _ _ _ _ => () : Accept Unit) (⟨fun _ => ((), ())⟩ : Rng Unit Unit) () .debug)
      obtain ⟨a1, a2⟩ := e2.ahead hlen hr hg
      cases hst : stop2 with
      | true =>
        rw [countSeq_none (A := HitS S prof accept f d timer (fuel + 1) k l), Nat.zero_mul]
        · exact Nat.zero_le _
        · intro xs hh
          have := (hitS_step (g2 accept _ xs _) a1 hh).1
          rw [hst] at this
          simp at this
      | false =>
        obtain ⟨n', h1, h2⟩ := e2.todos hst hn
        refine Nat.le_trans (Nat.mul_le_mul_right _ (countSeq_mono fun xs hh => ?_))
          (ih (k + 1) l2 n' N (r + 1) (e2.inv hl).1 h2 (by omega) a1 (a2 hst))
        exact (hitS_step (g2 accept _ xs _) a1 hh).2
    · have heq := (e1 .debug).symm.trans (g1 .debug)
      simp only [Except.ok.injEq, Prod.mk.injEq] at heq
      obtain ⟨heq, rfl⟩ := heq
      obtain ⟨k', bound, hns, hbd⟩ : ∃ k' bound, NextSome P l.path l.sweep.current s' c k' m ∧
          l.best[minimumPathLength c.time l.path]? = some bound := by
        cases e2 with
        | backLeaf => have := congrArg (fun l => l.path.length) heq; simp at this
        | backInner => have := congrArg (fun l => l.path.length) heq; simp at this
        | skip => have := congrArg (fun l => l.path.length) heq; simp at this
        | push hn hb =>
          simp only [Loc.mk.injEq, Sweep.mk.injEq, List.append_cancel_left_eq, List.cons.injEq, and_true] at heq
          obtain ⟨⟨rfl, rfl⟩, rfl⟩ := heq
          exact ⟨_, _, hn, hb⟩
      subst heq
      have i1 := (e2.inv hl).1
      obtain ⟨n1, n1lt, todo1⟩ := e2.todos rfl hn
      have e3 : IterStep P False l { l with sweep := ⟨s', l.sweep.stack⟩ } false := .skip hns hbd False.elim
      have i2 := (e3.inv hl).1
      obtain ⟨n2, n2lt, todo2⟩ := e3.todos rfl hn
      obtain ⟨hs, hi⟩ := hl.ok.chain.state
      obtain ⟨N, rfl⟩ : ∃ M, N = M + 1 := ⟨N - 1, by omega⟩
      have take : ∀ x, ¬ FloatOps.geOne (q.ask accept) = true → FloatOps.lt (f x) (q.ask accept) = true →
          (countSeq Ω N fun xs => HitS S prof accept f d timer (fuel + 1) k l (x :: xs)) ≤
          countSeq Ω N (HitS S prof accept f d timer fuel (k + 1)
            { l with sweep := ⟨c, s' :: l.sweep.stack⟩, path := l.path ++ [m] }) := by
        intro x hge hx
        refine countSeq_mono fun xs hh => (hitS_step (xs1 := xs) (stop := false)
          (l1 := { l with sweep := ⟨c, s' :: l.sweep.stack⟩, path := l.path ++ [m] }) ?_ hr hh).2
        rw [g2, if_neg hge]
        exact congrArg Except.ok (if_pos hx)
      have leave : ∀ x, ¬ FloatOps.geOne (q.ask accept) = true → ¬ FloatOps.lt (f x) (q.ask accept) = true →
          (countSeq Ω N fun xs => HitS S prof accept f d timer (fuel + 1) k l (x :: xs)) ≤
          countSeq Ω N (HitS S prof accept f d timer fuel (k + 1) { l with sweep := ⟨s', l.sweep.stack⟩ }) := by
        intro x hge hx
        refine countSeq_mono fun xs hh => (hitS_step (xs1 := xs) (stop := false)
          (l1 := { l with sweep := ⟨s', l.sweep.stack⟩ }) ?_ hr hh).2
        rw [g2, if_neg hge]
        exact congrArg Except.ok (if_neg hx)
      rcases ahead_child hs hi hns hg with ⟨hE, h1, h2⟩ | ⟨h1, h2⟩
      · obtain ⟨a1, a2⟩ := hA _ _ _ _ hq hE
        have hge : ¬ FloatOps.geOne (q.ask accept) = true := by rw [a1]; simp
        have hih := ih (k + 1) { l with sweep := ⟨c, s' :: l.sweep.stack⟩, path := l.path ++ [m] } n1 N r i1 todo1
          (by omega) hr h1
        rw [countSeq_succ]
        set a := countSeq Ω N (HitS S prof accept f d timer fuel (k + 1)
            { l with sweep := ⟨c, s' :: l.sweep.stack⟩, path := l.path ++ [m] }) with ha
        have hz : ∀ x, ¬ FloatOps.lt (f x) (q.ask accept) = true →
            (countSeq Ω N fun xs => HitS S prof accept f d timer (fuel + 1) k l (x :: xs)) = 0 := by
          intro x hx
          refine Nat.le_zero.1 (Nat.le_trans (leave x hge hx) (Nat.le_of_eq (countSeq_none ?_)))
          rintro xs ⟨l', xs', h3, h4⟩
          exact probLoop_gone hP.lax _ _ _ _ _ _ i2.ok hr h2 h3 h4
        have hsum : (∑ x : Ω, countSeq Ω N fun xs => HitS S prof accept f d timer (fuel + 1) k l (x :: xs)) ≤ w * a := by
          refine Nat.le_trans ?_ (Nat.mul_le_mul_right _ a2)
          rw [← Nat.nsmul_eq_mul, ← Finset.sum_const]
          rw [← Finset.sum_filter_add_sum_filter_not Finset.univ fun x => FloatOps.lt (f x) (q.ask accept) = true]
          rw [Finset.sum_eq_zero (s := Finset.filter (fun x => ¬ FloatOps.lt (f x) (q.ask accept) = true) _)
            fun x hx => hz x (Finset.mem_filter.1 hx).2, Nat.add_zero]
          exact Finset.sum_le_sum fun x hx => take x hge (Finset.mem_filter.1 hx).2
        calc _ ≤ w * a * Fintype.card Ω ^ (r + 1) := Nat.mul_le_mul_right _ hsum
          _ = w * Fintype.card Ω * (a * Fintype.card Ω ^ r) := by ring
          _ ≤ w * Fintype.card Ω * (w ^ r * Fintype.card Ω ^ N) := Nat.mul_le_mul_left _ hih
          _ = w ^ (r + 1) * Fintype.card Ω ^ (N + 1) := by ring
      · have hih1 := fun M hM => ih (k + 1) { l with sweep := ⟨c, s' :: l.sweep.stack⟩, path := l.path ++ [m] } n1 M (r + 1)
          i1 todo1 hM hr h1
        have hih2 := ih (k + 1) { l with sweep := ⟨s', l.sweep.stack⟩ } n2 N (r + 1) i2 todo2 (by omega) hr h2
        by_cases hge : FloatOps.geOne (q.ask accept) = true
        · refine Nat.le_trans (Nat.mul_le_mul_right _ (countSeq_mono fun xs hh => ?_)) (hih1 (N + 1) (by omega))
          refine (hitS_step (xs1 := xs) (stop := false)
            (l1 := { l with sweep := ⟨c, s' :: l.sweep.stack⟩, path := l.path ++ [m] }) ?_ hr hh).2
          rw [g2, if_pos hge]
        · rw [countSeq_succ, Finset.sum_mul]
          calc _ ≤ ∑ _x : Ω, w ^ (r + 1) * Fintype.card Ω ^ N := Finset.sum_le_sum fun x _ => by
                by_cases hx : FloatOps.lt (f x) (q.ask accept) = true
                · exact Nat.le_trans (Nat.mul_le_mul_right _ (take x hge hx)) (hih1 N (by omega))
                · exact Nat.le_trans (Nat.mul_le_mul_right _ (leave x hge hx)) hih2
            _ = w ^ (r + 1) * Fintype.card Ω ^ (N + 1) := by
                rw [Finset.sum_const, Finset.card_univ, Nat.nsmul_eq_mul]; ring

end Loop

end Verif
