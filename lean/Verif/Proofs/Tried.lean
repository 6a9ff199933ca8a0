import Verif.SpecOrder
import Verif.Proofs.Sweep
import Verif.Proofs.Layers
import Verif.Proofs.AcceptCall
/-!
# The order in which a sweep goes through the schedules
-/

namespace Verif

open Spec

theorem splits_pairwise {α : Type} : ∀ (s : List α), s.Nodup → ∀ k, (splits k s).Pairwise fun a b =>
    ∃ pre x post, s = pre ++ x :: post ∧ (∀ y ∈ pre, y ∈ a.1 ↔ y ∈ b.1) ∧ x ∈ a.1 ∧ x ∉ b.1 := by
  intro s
  induction s with
  | nil => intro _ k; cases k <;> simp [splits]
  | cons z xs ih =>
    intro hnd k
    rw [List.nodup_cons] at hnd
    cases k with
    | zero => simp [splits]
    | succ k =>
      simp only [splits]
      rw [List.pairwise_append]
      refine ⟨?_, ?_, ?_⟩
      · rw [List.pairwise_map]
        refine (ih hnd.2 k).imp ?_
        rintro a b ⟨pre, x, post, rfl, h1, h2, h3⟩
        refine ⟨z :: pre, x, post, rfl, ?_, by simp [h2], ?_⟩
        · intro y hy
          rcases List.mem_cons.1 hy with rfl | hy
          · simp
          · simp [h1 y hy]
        · simp only [List.mem_cons, not_or]
          refine ⟨?_, h3⟩
          rintro rfl
          exact hnd.1 (by simp)
      · rw [List.pairwise_map]
        refine (List.Pairwise.and_mem.1 (ih hnd.2 (k + 1))).imp ?_
        rintro a b ⟨ha, hb, pre, x, post, rfl, h1, h2, h3⟩
        refine ⟨z :: pre, x, post, rfl, ?_, h2, h3⟩
        intro y hy
        rcases List.mem_cons.1 hy with rfl | hy
        · have h4 : y ∉ a.1 := fun h => hnd.1 ((mem_splits ha).2.2.1.subset h)
          have h5 : y ∉ b.1 := fun h => hnd.1 ((mem_splits hb).2.2.1.subset h)
          simp [h4, h5]
        · exact h1 y hy
      · intro a ha b hb
        obtain ⟨a', _, rfl⟩ := List.mem_map.1 ha
        obtain ⟨b', hb', rfl⟩ := List.mem_map.1 hb
        refine ⟨[], z, xs, rfl, by simp, by simp, fun h => hnd.1 ((mem_splits hb').2.2.1.subset h)⟩

/-- The items of a partition, by the size of the part that is measured. -/
theorem items_pairwise {s : List Nat} (hs : s.Nodup) : (items s).Pairwise fun a b => Sooner s a.2 b.2 := by
  have hmem : ∀ a ∈ items s, ∀ y ∈ s, y ∈ a.2 ↔ y ∉ a.1 := by
    intro a ha y hy
    have hp := (mem_items (l := a.1) (r := a.2) ha).1
    have hnd := List.nodup_append'.1 (hp.nodup_iff.2 hs)
    constructor
    · intro h h'; exact hnd.2.2 h' h
    · intro h
      rcases List.mem_append.1 (hp.mem_iff.2 hy) with h' | h'
      · exact absurd h' h
      · exact h'
  have hlen : ∀ a ∈ items s, a.1.length + a.2.length = s.length := by
    intro a ha
    have := (mem_items (l := a.1) (r := a.2) ha).1.length_eq
    rwa [List.length_append] at this
  have h : (items s).Pairwise fun a b => a.1.length < b.1.length ∨ a.1.length = b.1.length ∧
      ∃ pre x post, s = pre ++ x :: post ∧ (∀ y ∈ pre, y ∈ a.1 ↔ y ∈ b.1) ∧ x ∈ a.1 ∧ x ∉ b.1 := by
    unfold items
    rw [List.pairwise_flatMap]
    refine ⟨fun k _ => ?_, ?_⟩
    · refine (List.Pairwise.and_mem.1 (splits_pairwise s hs k)).imp ?_
      rintro a b ⟨ha, hb, h⟩
      exact Or.inr ⟨by rw [(mem_splits (l := a.1) (r := a.2) ha).1, (mem_splits (l := b.1) (r := b.2) hb).1], h⟩
    · refine List.pairwise_lt_range.imp ?_
      intro k k' hk a ha b hb
      left
      rw [(mem_splits (l := a.1) (r := a.2) ha).1, (mem_splits (l := b.1) (r := b.2) hb).1]
      exact hk
  refine (List.Pairwise.and_mem.1 h).imp ?_
  rintro a b ⟨ha, hb, h⟩
  have la := hlen a ha
  have lb := hlen b hb
  rcases h with h | ⟨h, pre, x, post, hs', h1, h2, h3⟩
  · left; omega
  · right
    have hx : x ∈ s := by rw [hs']; simp
    refine ⟨by omega, pre, x, post, hs', ?_, ?_, ?_⟩
    · intro y hy
      have hys : y ∈ s := by rw [hs']; simp [hy]
      rw [hmem a ha y hys, hmem b hb y hys, h1 y hy]
    · rw [hmem a ha x hx]; simpa using h2
    · rw [hmem b hb x hx]; exact h3

theorem items_fst {s : List Nat} (hs : s.Nodup) {a : List Nat × List Nat} (ha : a ∈ items s) :
    a.1 = s.filter fun b => !a.2.contains b := by
  obtain ⟨hp, hl, hr⟩ := mem_items (l := a.1) (r := a.2) ha
  have hnd := List.nodup_append'.1 (hp.nodup_iff.2 hs)
  refine sublist_eq_of_perm s _ _ hs hl List.filter_sublist ?_
  refine (List.perm_ext_iff_of_nodup hnd.1 (hs.filter _)).2 fun y => ?_
  simp only [List.mem_filter, Bool.not_eq_true', List.contains_eq_mem, decide_eq_false_iff_not]
  constructor
  · intro h; exact ⟨hl.subset h, fun h' => hnd.2.2 h h'⟩
  · rintro ⟨h, h'⟩
    rcases List.mem_append.1 (hp.mem_iff.2 h) with h'' | h''
    · exact h''
    · exact absurd h'' h'

namespace Spec.Problem

theorem freed_congr {P : Problem} {M M' : List Nat} (h : ∀ v, v ∈ M ↔ v ∈ M') (b : Nat) :
    P.freed M b = P.freed M' b := by
  have : M.contains = M'.contains := by
    funext v
    simp only [List.contains_eq_mem, h v]
  simp only [freed, this]

theorem freedBy_congr {P : Problem} (m : List Nat) : ∀ {M M' : List Nat}, (∀ v, v ∈ M ↔ v ∈ M') →
    P.freedBy M m = P.freedBy M' m := by
  induction m with
  | nil => intro M M' _; rfl
  | cons b m ih =>
    intro M M' h
    have h' : ∀ v, v ∈ b :: M ↔ v ∈ b :: M' := by intro v; simp [h v]
    rw [freedBy, freedBy, freed_congr h', ih h']

theorem readyFrom_snoc (P : Problem) (m : List Nat) : ∀ (S : Schedule) (M ready : List Nat),
    P.readyFrom M ready (S ++ [m]) =
      ((P.readyFrom M ready S).filter fun b => !m.contains b) ++ P.freedBy (M ++ S.flatten) m := by
  intro S
  induction S with
  | nil => intro M ready; simp [readyFrom]
  | cons s S ih =>
    intro M ready
    rw [List.cons_append, readyFrom, ih, readyFrom, List.flatten_cons, List.append_assoc]

theorem readyList_snoc (P : Problem) (S : Schedule) (m : List Nat) :
    P.readyList (S ++ [m]) = ((P.readyList S).filter fun b => !m.contains b) ++ P.freedBy S.flatten m := by
  rw [readyList, readyFrom_snoc, List.nil_append]; rfl

end Spec.Problem

/-- The order of the measurable set and of the table of dependents. -/
structure Listed (P : Problem) (p : Schedule) (s : Scheduler Partitioner) : Prop where
  set : s.time.measurable.set = P.readyList p
  look : ∀ b ∈ P.bits, s.time.dependents[b]? = some (Layers.users P.entries b)

theorem users_filter {P : Problem} (hP : P.bits.Nodup) (M : List Nat) (b : Nat) :
    ((Layers.users P.entries b).filter fun x => decide (unmet P M x = 0)) = P.freed M b := by
  have key : ∀ es : List (Nat × List Nat), (∀ e ∈ es, e ∈ P.entries) →
      ((Layers.users es b).filter fun x => decide (unmet P M x = 0)) =
        (es.filter fun e => e.2.contains b && e.2.all M.contains).map (·.1) := by
    intro es
    induction es with
    | nil => intro _; rfl
    | cons e es ih =>
      intro h
      have ih := ih fun x hx => h x (List.mem_cons_of_mem _ hx)
      have he := h e List.mem_cons_self
      have hz : decide (unmet P M e.1 = 0) = e.2.all M.contains := by
        rw [Bool.eq_iff_iff, decide_eq_true_eq, unmet_zero_iff hP, List.all_eq_true]
        constructor
        · intro hd d hde
          simpa using hd d ⟨e.2, he, hde⟩
        · rintro hd d ⟨ds, h1, h2⟩
          have : ds = e.2 := by
            have h3 := List.inj_on_of_nodup_map (f := fun e : Nat × List Nat => e.1) hP h1 he rfl
            rw [← h3]
          subst this
          simpa using hd d h2
      unfold Layers.users at ih ⊢
      rw [List.filterMap_cons]
      by_cases hb : b ∈ e.2
      · simp only [List.contains_eq_mem, hb, decide_true, ↓reduceIte, List.filter_cons, Bool.true_and, hz] at ih ⊢
        cases hall : e.2.all M.contains <;> simp_all
      · simp only [List.contains_eq_mem, hb, decide_false, Bool.false_eq_true, ↓reduceIte, List.filter_cons,
          Bool.false_and] at ih ⊢
        exact ih
  exact key P.entries fun _ h => h

theorem news_eq {P : Problem} (hP : P.bits.Nodup) {look : Dependents}
    (hl : ∀ b ∈ P.bits, look[b]? = some (Layers.users P.entries b)) (m : List Nat) :
    ∀ M, (∀ b ∈ m, b ∈ P.bits) → news P look M m = P.freedBy M m := by
  induction m with
  | nil => intro M _; rfl
  | cons b m ih =>
    intro M h
    rw [news, Problem.freedBy, List.getD_eq_getElem?_getD, hl b (h b (by simp)), Option.getD_some, users_filter hP,
      ih _ fun x hx => h x (by simp [hx])]

theorem NextSome.listed {P : Problem} (hP : P.WF) {p : Schedule} {s s' c : Scheduler Partitioner} {l m : List Nat}
    (h : NextSome P p s s' c l m) (hst : StateFor P p s) (hit : IterOK s) (hL : Listed P p s) :
    Listed P p s' ∧ Listed P (p ++ [m]) c := by
  have hnd : (s.time.measurable.set).Nodup := hst.time.set_nodup
  have hmem : (l, m) ∈ items s.time.measurable.set := by
    obtain ⟨gone, hg⟩ := hit.rem
    rw [← hg, h.rem]; simp
  have hperm := (mem_items hmem).1
  have hl := items_fst hnd hmem
  have hn2 := List.nodup_append'.1 (hperm.nodup_iff.2 hnd)
  have hready : ∀ b ∈ m, Ready P p.flatten b := fun b hb =>
    (hst.time.set_mem b).1 (hperm.mem_iff.1 (List.mem_append_right _ hb))
  obtain ⟨deps, new, e1, _, e3⟩ := updateUnchecked_full hP.lax .debug hst.time.look_ok m p.flatten
    s.time.depsCounter l hn2.2.1 hready hn2.1
    (by
      intro b
      rw [← hst.time.set_mem b]
      show b ∈ l ↔ b ∈ s.time.measurable.set ∧ b ∉ m
      rw [← hperm.mem_iff, List.mem_append]
      constructor
      · intro hb; exact ⟨Or.inl hb, fun hb' => hn2.2.2 hb hb'⟩
      · rintro ⟨hb | hb, hn⟩
        · exact hb
        · exact (hn hb).elim)
    hst.time.deps_get hst.time.deps_nodup hst.time.closed
  have heq := h.eq .debug
  have hrem := h.rem
  obtain ⟨⟨⟨set, iter⟩, dc, look⟩, space⟩ := s
  cases iter with
  | nil => simp [Verif.rem] at hrem
  | cons sub rest =>
    simp only [Verif.rem, List.map_cons, List.cons.injEq] at hrem
    have hm' : m.isEmpty = false := by
      have := h.ne
      cases m with
      | nil => exact absurd rfl this
      | cons _ _ => rfl
    simp only at e1 e3
    simp only [Scheduler.nextAndFocus, PathGenerator.nextAndFocus, Partition.next, hrem.1, hm', bind, Except.bind, pure,
      Except.pure, PathGenerator.focusUnchecked, e1, Bool.false_eq_true, ↓reduceIte] at heq
    split at heq
    · simp at heq
    · simp only [Except.ok.injEq, Prod.mk.injEq, Option.some.injEq, and_true] at heq
      obtain ⟨h1, h2⟩ := heq
      subst h1 h2
      refine ⟨⟨hL.set, hL.look⟩, ?_, hL.look⟩
      show new = _
      have hset : set = P.readyList p := hL.set
      rw [e3, Problem.readyList_snoc, ← hset, news_eq hP.bits_nodup hL.look m _ fun b hb => (hready b hb).bit]
      simp only at hl
      rw [← hl]

/-- A sweep goes through the schedules in the order of the specification. -/
theorem Below.tried {P : Problem} (hP : P.WF) {p : Schedule} {s : Scheduler Partitioner} {r : List (Schedule × Nat)}
    (h : Below P (fun _ => false) p s r) : StateFor P p s → IterOK s → Listed P p s →
    (r.Pairwise fun a b => TriedBefore P a.1 b.1) ∧
    ∀ e ∈ r, ∀ k m, p.length ≤ k → e.1[k]? = some m → m.Sublist (P.readyList (e.1.take k)) ∧
      (P.readyList (e.1.take k)).Nodup ∧ ∀ b, b ∈ P.readyList (e.1.take k) ↔ Ready P (e.1.take k).flatten b := by
  induction h with
  | done h => intro _ _ _; exact ⟨List.Pairwise.nil, by intro e he; cases he⟩
  | skip h hs => simp at hs
  | @child p s s' c l m rc r h hs hc hr ihc ihr =>
    intro hst hit hL
    obtain ⟨hL', hLc⟩ := h.listed hP hst hit hL
    obtain ⟨i1, j1⟩ := ihc h.child h.fresh.iterOK hLc
    obtain ⟨i2, j2⟩ := ihr h.state' h.iter' hL'
    have s1 := hc.sound hP
    have s2 := hr.sound hP
    have hnd : (s.time.measurable.set).Nodup := hst.time.set_nodup
    obtain ⟨gone, hg⟩ := hit.rem
    have hleaf : c.time.measurable.set = [] → rc = [] := by
      intro hl
      cases rc with
      | nil => rfl
      | cons e rc =>
        obtain ⟨_, _, _, l', m', _, hm, hne⟩ := s1 e List.mem_cons_self
        rw [h.fresh.rem, hl] at hm
        have := (mem_items hm).1
        exact (hne (List.append_eq_nil_iff.1 this.eq_nil).2).elim
    have hmsub : m.Sublist (P.readyList p) := by
      rw [← hL.set]
      exact (mem_items (l := l) (s := s.time.measurable.set) (by rw [← hg, h.rem]; simp)).2.2
    have step : ∀ e ∈ rc ++ leafOf (p ++ [m]) c, e.1.take p.length = p ∧ e.1[p.length]? = some m := by
      intro e he
      rw [List.mem_append] at he
      rcases he with he | he
      · have := (s1 e he).2.2.1
        constructor
        · have h3 : (e.1.take (p ++ [m]).length).take p.length = p := by rw [this]; simp
          rw [List.take_take] at h3
          simpa using h3
        · have h3 : (e.1.take (p ++ [m]).length)[p.length]? = some m := by rw [this]; simp
          rw [List.getElem?_take] at h3
          simpa using h3
      · unfold leafOf at he
        split at he
        · rw [List.mem_singleton] at he; subst he; simp
        · cases he
    have sound1 : ∀ e ∈ rc ++ leafOf (p ++ [m]) c, ∀ k m', p.length ≤ k → e.1[k]? = some m' →
        m'.Sublist (P.readyList (e.1.take k)) ∧ (P.readyList (e.1.take k)).Nodup ∧
        ∀ b, b ∈ P.readyList (e.1.take k) ↔ Ready P (e.1.take k).flatten b := by
      intro e he k m' hk hm'
      obtain ⟨t1, t2⟩ := step e he
      rcases Nat.eq_or_lt_of_le hk with hk | hk
      · subst hk
        rw [t2] at hm'
        simp only [Option.some.injEq] at hm'
        subst hm'
        rw [t1]
        refine ⟨hmsub, by rw [← hL.set]; exact hnd, fun b => ?_⟩
        rw [← hL.set]
        exact hst.time.set_mem b
      · rw [List.mem_append] at he
        rcases he with he | he
        · exact j1 e he k m' (by simpa using hk) hm'
        · unfold leafOf at he
          split at he
          · rw [List.mem_singleton] at he
            subst he
            rw [List.getElem?_eq_none (by simp; omega)] at hm'
            simp at hm'
          · cases he
    refine ⟨?_, ?_⟩
    · rw [List.pairwise_append]
      refine ⟨?_, i2, ?_⟩
      · by_cases hl : c.time.measurable.set = []
        · rw [hleaf hl, List.nil_append, leafOf, if_pos hl]
          exact List.pairwise_singleton _ _
        · rw [leafOf, if_neg hl, List.append_nil]
          exact i1
      · intro a ha b hb
        obtain ⟨t1, t2⟩ := step a ha
        obtain ⟨_, _, u1, l', m', u2, u3, _⟩ := s2 b hb
        refine ⟨p.length, m, m', by rw [t1, u1], t2, u2, ?_⟩
        rw [t1, ← hL.set]
        have hp := items_pairwise hnd
        rw [← hg, List.pairwise_append] at hp
        have := hp.2.1
        rw [h.rem, List.pairwise_cons] at this
        exact this.1 _ u3
    · intro e he k m' hk hm'
      rw [List.mem_append] at he
      rcases he with he | he
      · exact sound1 e he k m' hk hm'
      · exact j2 e he k m' hk hm'

theorem resolveAll_look (all : List (Nat × List Nat)) : ∀ (es : List (Nat × List Nat)) (look : Dependents)
    (deps : AMap Nat) (r : Dependents × AMap Nat), Layers.resolveAll all es look deps = .ok r →
    ∀ b, r.1[b]? = if b ∈ es.map (·.1) then some (Layers.users all b) else look[b]? := by
  intro es
  induction es with
  | nil =>
    intro look deps r h b
    simp only [Layers.resolveAll, pure, Except.pure, Except.ok.injEq] at h
    subst h
    simp
  | cons e es ih =>
    intro look deps r h b
    rw [Layers.resolveAll.eq_2] at h
    split at h
    · rename_i hlt
      rw [ih _ _ _ h b, List.map_cons]
      by_cases hb : b ∈ es.map (·.1)
      · rw [if_pos hb, if_pos (List.mem_cons_of_mem _ hb)]
      · rw [if_neg hb]
        by_cases hbe : b = e.1
        · subst hbe
          rw [if_pos List.mem_cons_self, List.getElem?_set_self hlt]
        · rw [if_neg (by rw [List.mem_cons]; rintro (h | h); exacts [hbe h, hb h]), List.getElem?_set_ne (Ne.symm hbe)]
    · cases h

theorem listed_start {P : Problem} (hP : P.WF) {s : Scheduler Partitioner} {buf : Dependents}
    (h : PathGenerator.fromDependencyGraph (T := Partitioner) P.order buf none = .ok s.time) : Listed P [] s := by
  rw [Layers.fromDependencyGraph_eq rfl hP] at h
  cases hr : Layers.resolveAll P.entries P.entries buf [] with
  | error e => rw [hr] at h; cases h
  | ok r =>
    rw [hr] at h
    simp only [bind, Except.bind, pure, Except.pure, Except.ok.injEq] at h
    refine ⟨?_, ?_⟩
    · rw [← h]
      show (P.entries.filter fun e => decide (e.2 = [])).map (·.1) = P.start
      unfold Problem.start
      congr 2
      funext e
      cases e.2 <;> simp
    · intro b hb
      rw [← h]
      show r.1[b]? = _
      rw [resolveAll_look _ _ _ _ _ hr b]
      exact if_pos hb

/-- Two schedules with the same sets of bits that follow the order of the ready lists are the same. -/
theorem canonical_eq {P : Problem} {a b : Schedule} (hab : StepEq a b)
    (ha : ∀ k m, a[k]? = some m → m.Sublist (P.readyList (a.take k)) ∧ (P.readyList (a.take k)).Nodup)
    (hb : Canonical P b) : a = b := by
  have hl := hab.length_eq
  have key : ∀ k, a.take k = b.take k := by
    intro k
    induction k with
    | zero => simp
    | succ k ih =>
      rw [List.take_add_one, List.take_add_one, ih]
      congr 1
      by_cases hk : k < a.length
      · have hk' : k < b.length := by omega
        have hp := (List.forall₂_iff_get.1 hab).2 k hk hk'
        simp only [List.get_eq_getElem] at hp
        obtain ⟨h1, h2⟩ := ha k a[k] (List.getElem?_eq_getElem hk)
        have h3 := hb k b[k] (List.getElem?_eq_getElem hk')
        rw [← ih] at h3
        rw [List.getElem?_eq_getElem hk, List.getElem?_eq_getElem hk', sublist_eq_of_perm _ _ _ h2 h1 h3 hp]
      · rw [List.getElem?_eq_none (by omega), List.getElem?_eq_none (by omega)]
  have := key a.length
  rwa [List.take_length, hl, List.take_length] at this

/-- The same for the beginning of a schedule. -/
theorem canonical_take {P : Problem} {a b : Schedule} {j : Nat} (hab : StepEq (a.take j) (b.take j))
    (ha : ∀ k m, a[k]? = some m → m.Sublist (P.readyList (a.take k)) ∧ (P.readyList (a.take k)).Nodup)
    (hb : Canonical P b) : a.take j = b.take j := by
  have get : ∀ {l : Schedule} {k m}, (l.take j)[k]? = some m → l[k]? = some m ∧ (l.take j).take k = l.take k := by
    intro l k m h
    rw [List.getElem?_take] at h
    split at h
    · rename_i hk
      exact ⟨h, by rw [List.take_take, Nat.min_eq_left (by omega)]⟩
    · cases h
  refine canonical_eq (P := P) hab ?_ ?_
  · intro k m h
    obtain ⟨h1, h2⟩ := get h
    rw [h2]
    exact ha k m h1
  · intro k m h
    obtain ⟨h1, h2⟩ := get h
    rw [h2]
    exact hb k m h1

theorem Spec.Sooner.irrefl {ready m : List Nat} : ¬ Sooner ready m m := by
  rintro (h | ⟨_, pre, x, post, _, _, h1, h2⟩)
  · omega
  · exact h1 h2

/-- The position where two schedules differ. -/
theorem Spec.TriedBefore.at {P : Problem} {a b : Schedule} (h : TriedBefore P a b) {k : Nat} {m m' : List Nat}
    (hk : a.take k = b.take k) (ha : a[k]? = some m) (hb : b[k]? = some m') (hne : m ≠ m') :
    Sooner (P.readyList (a.take k)) m m' := by
  obtain ⟨j, n, n', h1, h2, h3, h4⟩ := h
  have get : ∀ {i l : Nat}, i < l → a.take l = b.take l → a[i]? = b[i]? := by
    intro i l hi hl
    have : (a.take l)[i]? = (b.take l)[i]? := by rw [hl]
    rwa [List.getElem?_take, List.getElem?_take, if_pos hi, if_pos hi] at this
  rcases Nat.lt_trichotomy j k with hj | hj | hj
  · have := get hj hk
    rw [h2, h3, Option.some.injEq] at this
    subst this
    exact (Sooner.irrefl h4).elim
  · subst hj
    rw [ha, Option.some.injEq] at h2
    rw [hb, Option.some.injEq] at h3
    subst h2 h3
    exact h4
  · have := get hj h1
    rw [ha, hb, Option.some.injEq] at this
    exact (hne this).elim

/-- A schedule in which, from some moment on, everything that is ready is measured at once is the shortest with
its beginning. -/
theorem length_le_of_all_ready {P : Problem} (hP : P.WF) {a S : Schedule} (ha : P.Valid a) (hS : P.Valid S) {k : Nat}
    (hk : a.take k = S.take k)
    (hall : ∀ j m, k ≤ j → a[j]? = some m → ∀ b, Ready P (a.take j).flatten b → b ∈ m) : a.length ≤ S.length := by
  have key : ∀ j, k ≤ j → ∀ b, b ∈ (S.take j).flatten → b ∈ (a.take j).flatten := by
    intro j hj
    induction j, hj using Nat.le_induction with
    | base => intro b hb; rwa [hk]
    | succ j hj ih =>
      intro b hb
      rw [List.take_add_one, List.flatten_append, List.mem_append] at hb
      rw [List.take_add_one, List.flatten_append, List.mem_append]
      rcases hb with hb | hb
      · exact Or.inl (ih b hb)
      · by_cases hba : b ∈ (a.take j).flatten
        · exact Or.inl hba
        right
        cases hs : S[j]? with
        | none => rw [hs] at hb; simp at hb
        | some s =>
          rw [hs] at hb
          simp only [Option.toList_some, List.flatten_cons, List.flatten_nil, List.append_nil] at hb
          have hbit : b ∈ P.bits := hS.perm.mem_iff.1 (mem_flatten_iff.2 ⟨j, s, hs, hb⟩)
          have hr : Ready P (a.take j).flatten b := by
            refine ⟨hbit, hba, fun d hd => ih d ?_⟩
            obtain ⟨i, s', hi, hs', hd'⟩ := hS.deps j s hs b hb d hd
            refine mem_flatten_iff.2 ⟨i, s', ?_, hd'⟩
            rw [List.getElem?_take, if_pos hi]; exact hs'
          cases hm : a[j]? with
          | none =>
            exfalso
            apply hba
            rw [List.take_of_length_le (List.getElem?_eq_none_iff.1 hm)]
            exact ha.perm.mem_iff.2 hbit
          | some m =>
            simpa using hall j m hj hm b hr
  by_contra hlt
  have hkl : k ≤ S.length := by
    by_contra h
    have h1 : S.take k = S := List.take_of_length_le (by omega)
    rw [h1] at hk
    have h2 : (a.take k).length = S.length := by rw [hk]
    rw [List.length_take] at h2
    have h3 : a.take k = a := List.take_of_length_le (by omega)
    rw [h3] at hk
    rw [hk] at hlt
    omega
  have h1 := key S.length hkl
  rw [List.take_length] at h1
  have hlt' : S.length < a.length := by omega
  have hne := ha.nonempty _ (List.getElem_mem hlt')
  obtain ⟨b, hb⟩ := List.exists_mem_of_ne_nil _ hne
  have h2 : b ∈ (a.take S.length).flatten :=
    h1 b (hS.perm.mem_iff.2 (ha.perm.mem_iff.1 (List.mem_flatten.2 ⟨_, List.getElem_mem hlt', hb⟩)))
  have h3 := (ha.perm.nodup_iff.2 hP.bits_nodup)
  rw [← List.take_append_drop S.length a, List.flatten_append, List.nodup_append'] at h3
  refine h3.2.2 h2 ?_
  rw [List.drop_eq_getElem_cons hlt', List.flatten_cons]
  exact List.mem_append_left _ hb

end Verif
