import Verif.Proofs.Lucky
import Verif.Proofs.Size
import Mathlib.Data.Fintype.BigOperators
import Mathlib.Data.Fintype.Pi
import Mathlib.Data.Fin.Tuple.Basic
import Mathlib.Tactic.Ring
import Mathlib.Tactic.Set
/-!
# How many sequences of random numbers lead the approximate search to a schedule
-/

namespace Verif

open Spec Search

/-- A random number generator that reads its numbers from a list. -/
def listRng {Ω F : Type} (f : Ω → F) (d : F) : Rng F (List Ω) where
  sample
    | [] => (d, [])
    | x :: xs => (f x, xs)

open Classical in
/-- How many sequences of length `N` have the property. -/
noncomputable def countSeq (Ω : Type) [Fintype Ω] (N : Nat) (A : List Ω → Prop) : Nat :=
  (Finset.univ.filter fun ω : Fin N → Ω => A (List.ofFn ω)).card

section Count
variable {Ω : Type} [Fintype Ω]

theorem countSeq_mono {N : Nat} {A B : List Ω → Prop} (h : ∀ xs, A xs → B xs) : countSeq Ω N A ≤ countSeq Ω N B := by
  classical
  unfold countSeq
  refine Finset.card_le_card fun ω => ?_
  simp only [Finset.mem_filter, Finset.mem_univ, true_and]
  exact h _

theorem countSeq_all {N : Nat} {A : List Ω → Prop} (h : ∀ xs, A xs) : countSeq Ω N A = Fintype.card Ω ^ N := by
  classical
  unfold countSeq
  rw [Finset.filter_true_of_mem fun ω _ => h _, Finset.card_univ, Fintype.card_fun, Fintype.card_fin]

theorem countSeq_none {N : Nat} {A : List Ω → Prop} (h : ∀ xs, ¬ A xs) : countSeq Ω N A = 0 := by
  classical
  unfold countSeq
  rw [Finset.filter_false_of_mem fun ω _ => h _, Finset.card_empty]

theorem countSeq_succ (N : Nat) (A : List Ω → Prop) :
    countSeq Ω (N + 1) A = ∑ x : Ω, countSeq Ω N fun xs => A (x :: xs) := by
  classical
  unfold countSeq
  rw [← Finset.card_sigma]
  refine Finset.card_bij' (fun ω _ => ⟨ω 0, fun i => ω i.succ⟩) (fun y _ => Fin.cons y.1 y.2) ?_ ?_ ?_ ?_
  · intro ω h
    simp only [Finset.mem_filter, Finset.mem_univ, true_and, Finset.mem_sigma] at h ⊢
    rwa [List.ofFn_succ] at h
  · intro y h
    simp only [Finset.mem_filter, Finset.mem_univ, true_and, Finset.mem_sigma] at h ⊢
    rw [List.ofFn_succ]
    simpa using h
  · intro ω _
    exact Fin.cons_self_tail ω
  · rintro ⟨x, y⟩ _
    simp

end Count

/-- `S` will still be met, and at most `r` of its steps are still to be taken then. -/
def PendR (S : Schedule) (r : Nat) (p : Schedule) (c : Scheduler Partitioner)
    (st : List (Scheduler Partitioner)) : Prop :=
  ∃ lv ∈ levels p c st, PendAt S lv.1 lv.2 ∧ S.length ≤ lv.1.length + r

section Pend
variable {S p : Schedule} {r : Nat} {c c' t : Scheduler Partitioner} {st : List (Scheduler Partitioner)}

theorem pendR_cons : PendR S r p c (t :: st) ↔ (PendAt S p c ∧ S.length ≤ p.length + r) ∨ PendR S r p.dropLast t st := by
  simp [PendR, levels]

theorem pendR_nil : PendR S r p c [] ↔ PendAt S p c ∧ S.length ≤ p.length + r := by
  simp [PendR, levels]

theorem PendR.replace (h : PendR S r p c st) : (PendAt S p c ∧ S.length ≤ p.length + r) ∨ PendR S r p c' st := by
  cases st with
  | nil => exact Or.inl (pendR_nil.1 h)
  | cons t st =>
    rcases pendR_cons.1 h with h | h
    · exact Or.inl h
    · exact Or.inr (pendR_cons.2 (Or.inr h))

theorem PendR.head (h : PendAt S p c) (hr : S.length ≤ p.length + r) : PendR S r p c st := by
  cases st with
  | nil => exact pendR_nil.2 ⟨h, hr⟩
  | cons t st => exact pendR_cons.2 (Or.inl ⟨h, hr⟩)

theorem PendR.mono {r' : Nat} (h : PendR S r p c st) (hr : r ≤ r') : PendR S r' p c st := by
  obtain ⟨lv, h1, h2, h3⟩ := h
  exact ⟨lv, h1, h2, by omega⟩

theorem PendR.pending (h : PendR S r p c st) : Pending S p c st := by
  obtain ⟨lv, h1, h2, _⟩ := h
  exact ⟨lv, h1, h2⟩

end Pend

/-- What happens to the schedule when the next child is taken or left out. -/
theorem pendR_child {P : Problem} {S : Schedule} (hS : Maximal P S) {r : Nat} {p : Schedule}
    {c s s' : Scheduler Partitioner} {st : List (Scheduler Partitioner)} {m : List Nat} {k : List Nat}
    (hn : NextSome P p s s' c k m) (hp : PendR S r p s st) :
    (∃ r', r = r' + 1 ∧ Extends (p ++ [m]) S ∧ PendR S r' (p ++ [m]) c (s' :: st)) ∨
    (PendR S r (p ++ [m]) c (s' :: st) ∧ PendR S r p s' st) := by
  rcases hp.replace (c' := s') with ⟨⟨hE', hp⟩, hr⟩ | hp
  · rcases hp with ⟨s1, k', m', hs1, hm, hne, hpm⟩ | ⟨h0, hlenS⟩
    · rw [hn.rem, List.mem_cons] at hm
      rcases hm with hm | hm
      · left
        simp only [Prod.mk.injEq] at hm
        obtain ⟨rfl, rfl⟩ := hm
        have hE2 := extends_snoc hE' hs1 hpm
        have hlt := (List.getElem?_eq_some_iff.1 hs1).1
        refine ⟨r - 1, by omega, hE2, PendR.head (fresh_pendAt_max hn.child hn.fresh hS hE2) ?_⟩
        simp only [List.length_append, List.length_singleton]
        omega
      · right
        have : PendAt S p s' := ⟨hE', Or.inl ⟨s1, k', m', hs1, hm, hne, hpm⟩⟩
        refine ⟨pendR_cons.2 (Or.inr ?_), PendR.head this hr⟩
        rw [List.dropLast_concat]
        exact PendR.head this hr
    · right
      have : PendAt S p s' := ⟨hE', Or.inr ⟨by rw [hn.set]; exact h0, hlenS⟩⟩
      refine ⟨pendR_cons.2 (Or.inr ?_), PendR.head this hr⟩
      rw [List.dropLast_concat]
      exact PendR.head this hr
  · right
    refine ⟨pendR_cons.2 (Or.inr ?_), hp⟩
    rwa [List.dropLast_concat]

/-- The coverage of one schedule with the number of its steps that are still to be taken. -/
theorem IterStep.covR {P : Problem} (hP : Lax P) {p0 : Schedule} {b0 : List Nat}
    {l l' : Loc} {stop : Bool} (h : IterStep P True l l' stop) (hl : LInv P p0 b0 l)
    {S : Schedule} (hS : Maximal P S) {δ r : Nat} (hδ : MinLen P δ S)
    (hc : DomS P δ l.best S ∨ PendR S r l.path l.sweep.current l.sweep.stack) :
    (stop = false → DomS P δ l'.best S ∨ PendR S r l'.path l'.sweep.current l'.sweep.stack) ∧
    (stop = true → DomS P δ l'.best S ∨ (Maximal P p0 ∧ Extends p0 S ∧ p0.length = S.length)) := by
  refine ⟨fun hsf => ?_, (h.cov1_slack hP hl hS hδ (hc.imp id PendR.pending)).2⟩
  have hmono := (h.inv hl).2
  rcases hc with hd | hp
  · exact Or.inl (Nat.le_trans (hmono _) hd)
  have hstate := hl.ok.chain.state.1
  cases h with
  | stop => simp at hsf
  | backLeaf hst hn hleaf hlen =>
    rw [hst, pendR_cons] at hp
    rcases hp with ⟨hp, _⟩ | hp
    · left
      obtain ⟨hE', hp⟩ := hp
      rcases hp with ⟨s1, k, m, _, hm, hne, _⟩ | ⟨_, hlenS⟩
      · exact (hne (hn.no_item hm)).elim
      · have hpk : P.peak S = l.sweep.current.space.maxMemory := by
          rw [leaf_max hstate]
          have := hE'.peak P
          rw [hlenS, List.take_length] at this
          exact this.symm
        unfold DomS
        rw [at0_updateBest hlen, ← hlenS, hpk]
        have hSn : S.length ≤ P.n := by
          have := hS.pre.length_le
          have := nodup_length_le_n hP hS.pre.nodup hS.pre.sub
          omega
        rw [if_neg (by omega)]
        split
        · exact Nat.le_refl _
        · exact Nat.min_le_right _ _
    · exact Or.inr hp
  | backInner hst hn hleaf =>
    rw [hst, pendR_cons] at hp
    rcases hp with ⟨⟨hE', hp⟩, _⟩ | hp
    · rcases hp with ⟨s1, k, m, _, hm, hne, _⟩ | ⟨h0, _⟩
      · exact (hne (hn.no_item hm)).elim
      · exact (hleaf h0).elim
    · exact Or.inr hp
  | @skip s' c k m bound hn hb hd =>
    rcases pendR_child hS hn hp with ⟨r', rfl, hE2, _⟩ | ⟨_, hp⟩
    · left
      have h1 : minimumPathLength c.time l.path ≤ min (S.length + δ) P.n :=
        Nat.le_min.2 ⟨hδ _ _ _ hn.child hE2, minimumPathLength_le hP hn.child⟩
      have h2 := hE2.peak_le (P := P)
      rw [← leaf_max hn.child] at h2
      have h3 := hl.anti _ _ h1
      rw [at0_of_getElem? hb] at h3
      have h4 := hd trivial
      unfold DomS
      simp only
      omega
    · exact Or.inr hp
  | @push s' c k m bound hn hb hlt =>
    right
    rcases pendR_child hS hn hp with ⟨r', rfl, _, hp⟩ | ⟨hp, _⟩
    · exact hp.mono (Nat.le_succ _)
    · exact hp

/-- Every question about a step of `S` is answered with at least `z` of the random numbers so that the step is
taken, as long as no path was found that needs no more memory than `S` and at most `T` steps. -/
def Often {Ω F : Type} [Fintype Ω] [FloatOps F] (P : Problem) (accept : Accept F) (f : Ω → F) (z T : Nat)
    (S : Schedule) : Prop :=
  ∀ found p m q, Asked P found p m q → Extends (p ++ [m]) S →
    (∀ t' m' S', found.get t' = some (m', S') → t' ≤ T → P.peak S < m') →
    FloatOps.geOne (q.ask accept) = true ∨
      z ≤ (Finset.univ.filter fun x : Ω => FloatOps.lt (f x) (q.ask accept) = true).card

/-- The loop ends with something recorded that is as good as `S`. -/
def Hit {Ω F : Type} [FloatOps F] (P : Problem) (S : Schedule) (δ : Nat) (prof : Profile) (accept : Accept F)
    (f : Ω → F) (d : F) (timer : Nat → Bool) (fuel k : Nat) (l : Loc) (xs : List Ω) : Prop :=
  ∃ l' xs', probLoop prof accept (listRng f d) timer fuel k l xs = .ok (some (l', xs')) ∧
    LInv P [] (best0 P) l' ∧ DomS P δ l'.best S

section Loop
variable {Ω F : Type} [FloatOps F] {P : Problem} {S : Schedule} {δ : Nat} {prof : Profile} {accept : Accept F}
  {f : Ω → F} {d : F} {timer : Nat → Bool}

theorem hit_of_dom (hP : P.WF) : ∀ (fuel k : Nat) (l : Loc) (xs : List Ω) (n : Nat), LInv P [] (best0 P) l →
    Todos P (levels l.path l.sweep.current l.sweep.stack) n → n ≤ fuel → DomS P δ l.best S →
    Hit P S δ prof accept f d timer fuel k l xs := by
  intro fuel
  induction fuel with
  | zero => intro k l xs n _ h hle; have := h.pos; omega
  | succ fuel ih =>
    intro k l xs n hl hn hle hd
    obtain ⟨l1, xs1, stop, e1, e2⟩ := probIter_spec accept (listRng f d) xs hP.lax hl.ok
    obtain ⟨i1, i2⟩ := e2.inv hl
    have hd1 : DomS P δ l1.best S := Nat.le_trans (i2 _) hd
    unfold Hit
    rw [probLoop, e1 prof]
    simp only [bind, Except.bind]
    cases stop with
    | true => exact ⟨l1, xs1, rfl, i1, hd1⟩
    | false =>
      rw [if_neg (by simp)]
      split
      · exact ⟨l1, xs1, rfl, i1, hd1⟩
      · obtain ⟨n', h1, h2⟩ := e2.todos rfl hn
        exact ih _ _ _ n' i1 h2 (by omega) hd1

theorem hit_step (ht : ∀ j, timer j = false) {fuel k : Nat} {l l1 : Loc} {xs xs1 : List Ω}
    (h : probIter prof accept (listRng f d) l xs = .ok (l1, xs1, false))
    (hh : Hit P S δ prof accept f d timer fuel (k + 1) l1 xs1) : Hit P S δ prof accept f d timer (fuel + 1) k l xs := by
  unfold Hit at hh ⊢
  rw [probLoop, h]
  simpa [bind, Except.bind, ht] using hh

variable [Fintype Ω]

theorem chance_loop (hP : P.WF) (hb : P.bits ≠ []) (hS : P.Valid S) {T z : Nat} (hT : S.length + δ = T)
    (hA : Often P accept f z T S) (hz : z ≤ Fintype.card Ω) (ht : ∀ j, timer j = false) :
    ∀ (fuel k : Nat) (l : Loc) (n N r : Nat), LInv P [] (best0 P) l →
      Todos P (levels l.path l.sweep.current l.sweep.stack) n → n ≤ fuel → n ≤ N →
      (DomS P δ l.best S ∨ PendR S r l.path l.sweep.current l.sweep.stack) →
      z ^ r * Fintype.card Ω ^ N ≤
        countSeq Ω N (Hit P S δ prof accept f d timer fuel k l) * Fintype.card Ω ^ r := by
  intro fuel
  induction fuel with
  | zero => intro k l n N r _ h hle; have := h.pos; omega
  | succ fuel ih =>
    intro k l n N r hl hn hle hN hc
    have hmax := (maximal_iff hP).2 hS
    have hδ : MinLen P δ S := fun p m c hc he =>
      Nat.le_trans (minimumPathLength_le_of_extends hP.bits_nodup hc hS he) (Nat.le_add_right _ _)
    have done : ∀ {A : List Ω → Prop}, (∀ xs, A xs) →
        z ^ r * Fintype.card Ω ^ N ≤ countSeq Ω N A * Fintype.card Ω ^ r := by
      intro A hA
      rw [countSeq_all hA, Nat.mul_comm]
      exact Nat.mul_le_mul_left _ (Nat.pow_le_pow_left hz r)
    by_cases hd : DomS P δ l.best S
    · exact done fun xs => hit_of_dom hP _ _ _ _ n hl hn hle hd
    have hp := hc.resolve_left hd
    obtain ⟨l2, stop2, e1, e2⟩ := searchIter_spec hP.lax hl.ok
    rcases probIter_asked hP hl with ⟨l1, stop1, g1, g2⟩ | ⟨s', c, m, q, hq, g1, g2⟩
    · have heq := (e1 .debug).symm.trans (g1 .debug)
      simp only [Except.ok.injEq, Prod.mk.injEq] at heq
      obtain ⟨rfl, rfl⟩ := heq
      obtain ⟨c1, c2⟩ := e2.covR hP.lax hl hmax hδ hc
      have hinv := (e2.inv hl).1
      cases hst : stop2 with
      | true =>
        have hd2 : DomS P δ l2.best S := by
          rcases c2 hst with h | ⟨h, _⟩
          · exact h
          · exact (not_valid_nil hb ((maximal_iff hP).1 h)).elim
        refine done fun xs => ⟨l2, xs, ?_, hinv, hd2⟩
        rw [probLoop, g2, hst]
        rfl
      | false =>
        subst hst
        obtain ⟨n', h1, h2⟩ := e2.todos rfl hn
        refine Nat.le_trans (ih (k + 1) l2 n' N r hinv h2 (by omega) (by omega) (c1 rfl))
          (Nat.mul_le_mul_right _ (countSeq_mono fun xs hh => ?_))
        exact hit_step ht (g2 _ _ _ _) hh
    · have heq := (e1 .debug).symm.trans (g1 .debug)
      simp only [Except.ok.injEq, Prod.mk.injEq] at heq
      obtain ⟨heq, rfl⟩ := heq
      obtain ⟨k', bound, hns, hbd⟩ : ∃ k' bound, NextSome P l.path l.sweep.current s' c k' m ∧
          l.best[minimumPathLength c.time l.path]? = some bound := by
        cases e2 with
        | backLeaf => have := congrArg (fun l => l.path.length) heq; simp at this
        | backInner => have := congrArg (fun l => l.path.length) heq; simp at this
        | skip => have := congrArg (fun l => l.path.length) heq; simp at this
        | push hn hb =>
          simp only [Loc.mk.injEq, Sweep.mk.injEq, List.append_cancel_left_eq, List.cons.injEq, and_true] at heq
          obtain ⟨⟨rfl, rfl⟩, rfl⟩ := heq
          exact ⟨_, _, hn, hb⟩
      subst heq
      have i1 := (e2.inv hl).1
      obtain ⟨n1, n1lt, todo1⟩ := e2.todos rfl hn
      have e3 : IterStep P False l { l with sweep := ⟨s', l.sweep.stack⟩ } false := .skip hns hbd False.elim
      have i2 := (e3.inv hl).1
      obtain ⟨n2, n2lt, todo2⟩ := e3.todos rfl hn
      by_cases hg : FloatOps.geOne (q.ask accept) = true
      · have hp1 : PendR S r (l.path ++ [m]) c (s' :: l.sweep.stack) := by
          rcases pendR_child hmax hns hp with ⟨r', rfl, _, h⟩ | ⟨h, _⟩
          · exact h.mono (Nat.le_succ _)
          · exact h
        refine Nat.le_trans (ih (k + 1) _ n1 N r i1 todo1 (by omega) (by omega) (Or.inr hp1))
          (Nat.mul_le_mul_right _ (countSeq_mono fun xs hh => ?_))
        refine hit_step ht (l1 := { l with sweep := ⟨c, s' :: l.sweep.stack⟩, path := l.path ++ [m] }) (xs1 := xs) ?_ hh
        rw [g2, if_pos hg]
      · obtain ⟨N, rfl⟩ : ∃ M, N = M + 1 := ⟨N - 1, by omega⟩
        have take : ∀ x, FloatOps.lt (f x) (q.ask accept) = true →
            countSeq Ω N (Hit P S δ prof accept f d timer fuel (k + 1)
              { l with sweep := ⟨c, s' :: l.sweep.stack⟩, path := l.path ++ [m] }) ≤
            countSeq Ω N fun xs => Hit P S δ prof accept f d timer (fuel + 1) k l (x :: xs) := by
          intro x hx
          refine countSeq_mono fun xs hh => hit_step ht (xs1 := xs)
            (l1 := { l with sweep := ⟨c, s' :: l.sweep.stack⟩, path := l.path ++ [m] }) ?_ hh
          rw [g2, if_neg hg]
          exact congrArg Except.ok (if_pos hx)
        have leave : ∀ x, ¬ FloatOps.lt (f x) (q.ask accept) = true →
            countSeq Ω N (Hit P S δ prof accept f d timer fuel (k + 1) { l with sweep := ⟨s', l.sweep.stack⟩ }) ≤
            countSeq Ω N fun xs => Hit P S δ prof accept f d timer (fuel + 1) k l (x :: xs) := by
          intro x hx
          refine countSeq_mono fun xs hh => hit_step ht (xs1 := xs)
            (l1 := { l with sweep := ⟨s', l.sweep.stack⟩ }) ?_ hh
          rw [g2, if_neg hg]
          exact congrArg Except.ok (if_neg hx)
        rw [countSeq_succ]
        rcases pendR_child hmax hns hp with ⟨r, rfl, hE, hp1⟩ | ⟨hp1, hp2⟩
        · have hcnt := (hA _ _ _ _ hq hE (by
            intro t' m' S' hf hle
            have hT' : t' ≤ P.n := by
              obtain ⟨v, hlen, _⟩ := hq.found _ _ _ hf
              rw [← hlen]
              exact v.length_le hP
            have h1 := hl.anti t' (min (S.length + δ) P.n) (by omega)
            have h2 := hl.b3 _ _ _ hf
            unfold DomS at hd
            omega)).resolve_left hg
          have hih := ih (k + 1) { l with sweep := ⟨c, s' :: l.sweep.stack⟩, path := l.path ++ [m] } n1 N r i1 todo1
            (by omega) (by omega) (Or.inr hp1)
          set a := countSeq Ω N (Hit P S δ prof accept f d timer fuel (k + 1)
              { l with sweep := ⟨c, s' :: l.sweep.stack⟩, path := l.path ++ [m] }) with ha
          have hsum : z * a ≤ ∑ x : Ω, countSeq Ω N fun xs => Hit P S δ prof accept f d timer (fuel + 1) k l (x :: xs) := by
            refine Nat.le_trans (Nat.mul_le_mul_right _ hcnt) ?_
            rw [← Nat.nsmul_eq_mul, ← Finset.sum_const]
            refine Nat.le_trans (Finset.sum_le_sum fun x hx => take x (Finset.mem_filter.1 hx).2) ?_
            exact Finset.sum_le_sum_of_subset (Finset.filter_subset _ _)
          calc z ^ (r + 1) * Fintype.card Ω ^ (N + 1) = z * Fintype.card Ω * (z ^ r * Fintype.card Ω ^ N) := by ring
            _ ≤ z * Fintype.card Ω * (a * Fintype.card Ω ^ r) := Nat.mul_le_mul_left _ hih
            _ = z * a * Fintype.card Ω ^ (r + 1) := by ring
            _ ≤ _ := Nat.mul_le_mul_right _ hsum
        · have h1 := ih (k + 1) { l with sweep := ⟨c, s' :: l.sweep.stack⟩, path := l.path ++ [m] } n1 N r i1 todo1
            (by omega) (by omega) (Or.inr hp1)
          have h2 := ih (k + 1) { l with sweep := ⟨s', l.sweep.stack⟩ } n2 N r i2 todo2
            (by omega) (by omega) (Or.inr hp2)
          rw [Finset.sum_mul]
          calc z ^ r * Fintype.card Ω ^ (N + 1) = ∑ _x : Ω, z ^ r * Fintype.card Ω ^ N := by
                rw [Finset.sum_const, Finset.card_univ, Nat.nsmul_eq_mul]; ring
            _ ≤ _ := Finset.sum_le_sum fun x _ => by
                by_cases hx : FloatOps.lt (f x) (q.ask accept) = true
                · exact Nat.le_trans h1 (Nat.mul_le_mul_right _ (take x hx))
                · exact Nat.le_trans h2 (Nat.mul_le_mul_right _ (leave x hx))

end Loop

end Verif
