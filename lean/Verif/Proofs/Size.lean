import Verif.Proofs.Count
import Verif.Proofs.AcceptCall
import Verif.Proofs.Threaded
import Mathlib.Algebra.BigOperators.Intervals
/-!
# The number of iterations of a sweep
-/

namespace Verif

open Spec Search

/-- `Tree P p s r`: the paths that a sweep still enters strictly below the state `s` at path `p`, in this order. -/
inductive Tree (P : Problem) : Schedule → Scheduler Partitioner → List Schedule → Prop
  | done {p : Schedule} {s s' : Scheduler Partitioner} (h : NextNone s s') : Tree P p s []
  | child {p : Schedule} {s s' c : Scheduler Partitioner} {l m : List Nat} {rc r : List Schedule}
      (h : NextSome P p s s' c l m) (hc : Tree P (p ++ [m]) c rc) (hr : Tree P p s' r) :
      Tree P p s ((p ++ [m]) :: (rc ++ r))

theorem exists_tree {P : Problem} (hP : Lax P) :
    ∀ (u i : Nat) (p : Schedule) (s : Scheduler Partitioner), StateFor P p s → IterOK s →
    unmeasured P p ≤ u → s.time.measurable.iter.length ≤ i → ∃ r, Tree P p s r := by
  intro u
  induction u with
  | zero =>
    intro i p s hs hi hu _
    rcases nextAndFocus_spec hP hs hi with ⟨s', h, _, _⟩ | ⟨s', c, l, m, h⟩
    · exact ⟨[], .done h⟩
    · have := h.unmeasured_lt
      omega
  | succ u ihu =>
    intro i
    induction i with
    | zero =>
      intro p s hs hi hu hl
      rcases nextAndFocus_spec hP hs hi with ⟨s', h, _, _⟩ | ⟨s', c, l, m, h⟩
      · exact ⟨[], .done h⟩
      · have := h.len
        omega
    | succ i ihi =>
      intro p s hs hi hu hl
      rcases nextAndFocus_spec hP hs hi with ⟨s', h, _, _⟩ | ⟨s', c, l, m, h⟩
      · exact ⟨[], .done h⟩
      · have hlen := h.len
        obtain ⟨r, hr⟩ := ihi p s' h.state' h.iter' hu (by omega)
        have hu' := h.unmeasured_lt
        obtain ⟨rc, hrc⟩ := ihu _ (p ++ [m]) c h.child h.fresh.iterOK (by omega) (Nat.le_refl _)
        exact ⟨_, .child h hrc hr⟩

theorem Tree.of_none {P : Problem} {p : Schedule} {s s' : Scheduler Partitioner} {r : List Schedule} (h : Tree P p s r)
    (hn : NextNone s s') : r = [] := by
  cases h with
  | done h => rfl
  | child h _ _ =>
    have := (hn.eq .debug).symm.trans (h.eq .debug)
    simp at this

theorem Tree.of_some {P : Problem} {p : Schedule} {s s' c : Scheduler Partitioner} {l m : List Nat} {r : List Schedule}
    (h : Tree P p s r) (hn : NextSome P p s s' c l m) :
    ∃ rc r', r = (p ++ [m]) :: (rc ++ r') ∧ Tree P (p ++ [m]) c rc ∧ Tree P p s' r' := by
  cases h with
  | done h =>
    have := (h.eq .debug).symm.trans (hn.eq .debug)
    simp at this
  | child h hc hr =>
    have := (hn.eq .debug).symm.trans (h.eq .debug)
    simp only [Except.ok.injEq, Prod.mk.injEq, Option.some.injEq] at this
    obtain ⟨rfl, rfl, rfl⟩ := this
    exact ⟨_, _, rfl, hc, hr⟩

theorem Tree.sound {P : Problem} {p : Schedule} {s : Scheduler Partitioner} {r : List Schedule} (h : Tree P p s r) :
    ∀ S ∈ r, Prefix P S ∧ S.take p.length = p ∧ ∃ l m, S[p.length]? = some m ∧ (l, m) ∈ rem s ∧ m ≠ [] := by
  induction h with
  | done h => intro e he; cases he
  | @child p s s' c l m rc r h hc hr ihc ihr =>
    intro S hS
    rw [List.mem_cons, List.mem_append] at hS
    rcases hS with rfl | hS | hS
    · exact ⟨h.child.pre, by simp, l, m, by simp, by rw [h.rem]; exact List.mem_cons_self, h.ne⟩
    · obtain ⟨h1, h2, _⟩ := ihc S hS
      refine ⟨h1, ?_, l, m, ?_, by rw [h.rem]; exact List.mem_cons_self, h.ne⟩
      · have : (S.take (p ++ [m]).length).take p.length = p := by rw [h2]; simp
        rw [List.take_take] at this
        simpa using this
      · have : (S.take (p ++ [m]).length)[p.length]? = some m := by rw [h2]; simp
        rw [List.getElem?_take] at this
        simpa using this
    · obtain ⟨h1, h2, l', m', h3, h4, h5⟩ := ihr S hS
      exact ⟨h1, h2, l', m', h3, by rw [h.rem]; exact List.mem_cons_of_mem _ h4, h5⟩

/-- No path is entered twice (steps compared as sets). -/
theorem Tree.nodup {P : Problem} {p : Schedule} {s : Scheduler Partitioner} {r : List Schedule} (h : Tree P p s r) :
    StateFor P p s → IterOK s → r.Pairwise fun a b => ¬ StepEq a b := by
  induction h with
  | done h => intro _ _; exact List.Pairwise.nil
  | @child p s s' c l m rc r h hc hr ihc ihr =>
    intro hst hit
    have i1 := ihc h.child h.fresh.iterOK
    have i2 := ihr h.state' h.iter'
    have s1 := hc.sound
    have s2 := hr.sound
    have step : ∀ S ∈ (p ++ [m]) :: rc, S[p.length]? = some m := by
      intro S hS
      rw [List.mem_cons] at hS
      rcases hS with rfl | hS
      · simp
      · have := (s1 S hS).2.1
        have h3 : (S.take (p ++ [m]).length)[p.length]? = some m := by rw [this]; simp
        rw [List.getElem?_take] at h3
        simpa using h3
    rw [← List.cons_append, List.pairwise_append]
    refine ⟨?_, i2, ?_⟩
    · rw [List.pairwise_cons]
      refine ⟨fun S hS hE => ?_, i1⟩
      obtain ⟨_, _, l', m', h3, _⟩ := s1 S hS
      have := (List.getElem?_eq_some_iff.1 h3).1
      have := hE.length_eq
      omega
    · intro a ha b hb hab
      have h1 := step a ha
      obtain ⟨_, _, l', m', h2, h3, _⟩ := s2 b hb
      obtain ⟨q1, q2⟩ := rem_pairwise hst hit
      have hperm : m.Perm m' := by
        have hl := hab.length_eq
        have hlt := (List.getElem?_eq_some_iff.1 h1).1
        have := (List.forall₂_iff_get.1 hab).2 p.length hlt (by omega)
        simp only [List.get_eq_getElem] at this
        rw [List.getElem?_eq_some_iff] at h1 h2
        obtain ⟨_, h1⟩ := h1
        obtain ⟨_, h2⟩ := h2
        rw [h1, h2] at this
        exact this
      have hmm : m = m' := q2 l m l' m' (by rw [h.rem]; exact List.mem_cons_self)
        (by rw [h.rem]; exact List.mem_cons_of_mem _ h3) hperm
      subst hmm
      rw [h.rem, List.map_cons, List.nodup_cons] at q1
      exact q1.1 (List.mem_map.2 ⟨_, h3, rfl⟩)

theorem Extends.append {p S : Schedule} (h : Extends p S) (rest : Schedule) : Extends p (S ++ rest) := by
  have hle := h.le
  unfold Extends at *
  rwa [List.take_append_of_le_length hle]

/-- Every partial schedule that goes on with an item on offer is entered. -/
theorem Tree.complete {P : Problem} (hP : P.WF) {p : Schedule} {s : Scheduler Partitioner} {r : List Schedule}
    (h : Tree P p s r) : StateFor P p s → IterOK s → ∀ S, Prefix P S → Extends p S →
    (∃ s' l m, S[p.length]? = some s' ∧ (l, m) ∈ rem s ∧ m ≠ [] ∧ m.Perm s') → ∃ T ∈ r, StepEq T S := by
  induction h with
  | done h =>
    rintro _ _ S _ _ ⟨s', l, m, _, h2, h3, _⟩
    exact (h3 (h.no_item h2)).elim
  | @child p s s' c l m rc r h hc hr ihc ihr =>
    rintro _ _ S hS he ⟨t, l', m', h1, h2, h3, h4⟩
    rw [h.rem] at h2
    rcases List.mem_cons.1 h2 with h2 | h2
    · injection h2 with h2a h2b
      subst h2a h2b
      have he' : Extends (p ++ [m']) S := extends_snoc he h1 h4
      by_cases hlen : (p ++ [m']).length = S.length
      · refine ⟨p ++ [m'], List.mem_cons_self, ?_⟩
        have := he'
        unfold Extends at this
        rwa [hlen, List.take_length] at this
      · obtain ⟨rest, hrest⟩ := hS.extend hP
        have hlt : (p ++ [m']).length < S.length := by have := he'.le; omega
        rcases (fresh_pendAt hP h.child h.fresh hrest (he'.append rest)).2 with hp | ⟨_, hp⟩
        · rw [List.getElem?_append_left hlt] at hp
          obtain ⟨T, h5, h6⟩ := ihc h.child h.fresh.iterOK S hS he' hp
          exact ⟨T, List.mem_cons_of_mem _ (List.mem_append_left _ h5), h6⟩
        · rw [hp, List.length_append] at hlt
          omega
    · obtain ⟨T, h5, h6⟩ := ihr h.state' h.iter' S hS he ⟨t, l', m', h1, h2, h3, h4⟩
      exact ⟨T, List.mem_cons_of_mem _ (List.mem_append_right _ h5), h6⟩

/-! ## Iterations -/

/-- The iterations still to come of a sweep without skipping, level by level. -/
inductive Todos (P : Problem) : List (Schedule × Scheduler Partitioner) → Nat → Prop
  | nil : Todos P [] 0
  | cons {lv : Schedule × Scheduler Partitioner} {ls : List (Schedule × Scheduler Partitioner)} {r : List Schedule} {n : Nat}
      (h : Tree P lv.1 lv.2 r) (hn : Todos P ls n) : Todos P (lv :: ls) (1 + 2 * r.length + n)

theorem Todos.pos {P : Problem} {p : Schedule} {c : Scheduler Partitioner} {st : List (Scheduler Partitioner)} {n : Nat}
    (h : Todos P (levels p c st) n) : 0 < n := by
  obtain ⟨tl, htl⟩ := levels_split p st
  rw [htl] at h
  cases h
  omega

theorem IterStep.todos {P : Problem} {Det : Prop} {l l' : Loc} {stop : Bool} (h : IterStep P Det l l' stop)
    (hs : stop = false) {n : Nat} (hn : Todos P (levels l.path l.sweep.current l.sweep.stack) n) :
    ∃ n', n' < n ∧ Todos P (levels l'.path l'.sweep.current l'.sweep.stack) n' := by
  cases h with
  | stop => simp at hs
  | backLeaf hst hx hleaf hlen =>
    rw [hst, levels] at hn
    cases hn with
    | cons h hn => exact ⟨_, by omega, hn⟩
  | backInner hst hx hleaf =>
    rw [hst, levels] at hn
    cases hn with
    | cons h hn => exact ⟨_, by omega, hn⟩
  | @skip s' c k m bound hx hb hd =>
    obtain ⟨tl, htl⟩ := levels_split l.path l.sweep.stack
    rw [htl] at hn
    simp only [htl]
    cases hn with
    | cons h hn =>
      obtain ⟨rc, r', rfl, h1, h2⟩ := h.of_some hx
      refine ⟨_, ?_, .cons h2 hn⟩
      simp only [List.length_cons, List.length_append]
      omega
  | @push s' c k m bound hx hb hlt =>
    obtain ⟨tl, htl⟩ := levels_split l.path l.sweep.stack
    rw [htl] at hn
    simp only [levels, List.dropLast_concat, htl]
    cases hn with
    | cons h hn =>
      obtain ⟨rc, r', rfl, h1, h2⟩ := h.of_some hx
      refine ⟨_, ?_, .cons h1 (.cons h2 hn)⟩
      simp only [List.length_cons, List.length_append]
      omega

theorem searchLoop_todos {P : Problem} (hP : Lax P) {p0 : Schedule} (prof : Profile) (timer : Nat → Bool) :
    ∀ (fuel k : Nat) (l : Loc) (n : Nat), LocOK P p0 l → Todos P (levels l.path l.sweep.current l.sweep.stack) n →
      n ≤ fuel → ∃ l', searchLoop prof timer fuel k l = .ok (some l') := by
  intro fuel
  induction fuel with
  | zero => intro k l n _ h hle; have := h.pos; omega
  | succ fuel ih =>
    intro k l n hl hn hle
    obtain ⟨l1, stop, e1, e2⟩ := searchIter_spec hP hl
    rw [searchLoop, e1 prof]
    simp only [bind, Except.bind]
    cases stop with
    | true => exact ⟨l1, rfl⟩
    | false =>
      rw [if_neg (by simp)]
      split
      · exact ⟨l1, rfl⟩
      · obtain ⟨n', h1, h2⟩ := e2.todos rfl hn
        exact ih _ _ n' (e2.locOK hl) h2 (by omega)

theorem probLoop_todos {F σ : Type} [FloatOps F] (accept : Accept F) (gen : Rng F σ) {P : Problem} (hP : Lax P)
    {p0 : Schedule} (prof : Profile) (timer : Nat → Bool) :
    ∀ (fuel k : Nat) (l : Loc) (rng : σ) (n : Nat), LocOK P p0 l →
      Todos P (levels l.path l.sweep.current l.sweep.stack) n → n ≤ fuel →
      ∃ r, probLoop prof accept gen timer fuel k l rng = .ok (some r) := by
  intro fuel
  induction fuel with
  | zero => intro k l rng n _ h hle; have := h.pos; omega
  | succ fuel ih =>
    intro k l rng n hl hn hle
    obtain ⟨l1, rng1, stop, e1, e2⟩ := probIter_spec accept gen rng hP hl
    rw [probLoop, e1 prof]
    simp only [bind, Except.bind]
    cases stop with
    | true => exact ⟨_, rfl⟩
    | false =>
      rw [if_neg (by simp)]
      split
      · exact ⟨_, rfl⟩
      · obtain ⟨n', h1, h2⟩ := e2.todos rfl hn
        exact ih _ _ rng1 n' (e2.locOK hl) h2 (by omega)

/-- A sweep without skipping needs exactly this many calls of `next`. -/
theorem enumerate_todos {P : Problem} (hP : Lax P) {p0 : Schedule} (prof : Profile) :
    ∀ (fuel : Nat) (p : Schedule) (c : Scheduler Partitioner) (st : List (Scheduler Partitioner)) (n : Nat),
      Chain P p0 p c st → Todos P (levels p c st) n →
      ((∃ out, Sweep.enumerate (Scheduler.focusIter prof) (fun _ => false) fuel ⟨c, st⟩ p = .ok (some out)) ↔ n ≤ fuel) ∧
      (fuel < n → Sweep.enumerate (Scheduler.focusIter prof) (fun _ => false) fuel ⟨c, st⟩ p = .ok none) := by
  intro fuel
  induction fuel with
  | zero =>
    intro p c st n _ hn
    have := hn.pos
    refine ⟨⟨?_, fun h => by omega⟩, fun _ => rfl⟩
    rintro ⟨out, h⟩
    simp [Sweep.enumerate, pure, Except.pure] at h
  | succ fuel ih =>
    intro p c st n hc hn
    obtain ⟨hs, hi⟩ := hc.state
    rw [Sweep.enumerate]
    rcases nextAndFocus_spec hP hs hi with ⟨s', hx, hs', hi'⟩ | ⟨s', c', k, m, hx⟩
    · rw [next_none hx prof]
      cases st with
      | nil =>
        simp only [levels] at hn
        cases hn with
        | cons h hn =>
          cases hn
          have := h.of_none hx
          subst this
          refine ⟨⟨fun _ => ?_, fun _ => ⟨[], rfl⟩⟩, fun h => ?_⟩
          · simp
          · simp only [List.length_nil] at h
            omega
      | cons t rest =>
        simp only [levels] at hn
        cases hn with
        | @cons _ _ r n h hn =>
          have := h.of_none hx
          subst this
          obtain ⟨h1, h2⟩ := ih p.dropLast t rest n hc.pop hn
          simp only [bind, Except.bind, List.length_nil]
          constructor
          · rw [show 1 + 2 * 0 + n ≤ fuel + 1 ↔ n ≤ fuel by omega, ← h1]
            constructor
            · rintro ⟨out, ho⟩
              cases he : Sweep.enumerate (Scheduler.focusIter prof) (fun _ => false) fuel ⟨t, rest⟩ p.dropLast with
              | error e => rw [he] at ho; cases ho
              | ok o =>
                cases o with
                | none => rw [he] at ho; simp [pure, Except.pure] at ho
                | some x => exact ⟨x, rfl⟩
            · rintro ⟨out, ho⟩
              rw [ho]
              exact ⟨_, rfl⟩
          · intro hlt
            rw [h2 (by omega)]
            rfl
    · rw [next_some hx prof]
      obtain ⟨tl, htl⟩ := levels_split p st
      rw [htl] at hn
      simp only [bind, Except.bind, Bool.false_eq_true, if_false]
      cases hn with
      | @cons _ _ r n h hn =>
        obtain ⟨rc, r', rfl, t1, t2⟩ := h.of_some hx
        have hn' : Todos P (levels (p ++ [m]) c' (s' :: st)) (1 + 2 * rc.length + (1 + 2 * r'.length + n)) := by
          simp only [levels, List.dropLast_concat, htl]
          exact .cons t1 (.cons t2 hn)
        obtain ⟨h1, h2⟩ := ih (p ++ [m]) c' (s' :: st) _ (.push (hc.replace hx.state' hx.iter') hx.child hx.fresh.iterOK) hn'
        simp only [List.length_cons, List.length_append]
        constructor
        · rw [h1]
          omega
        · intro hlt
          exact h2 (by omega)

/-! ## Counting -/

/-- What an item contributes to the number of partial schedules with `u` unmeasured bits. -/
def itemSize (t : Nat → Nat) (u : Nat) (x : List Nat × List Nat) : Nat :=
  if x.2 = [] then 0 else t (u - x.2.length)

theorem sum_itemSize (t : Nat → Nat) (u : Nat) (s : List Nat) :
    ((items s).map (itemSize t u)).sum = ∑ j ∈ Finset.range s.length, s.length.choose (j + 1) * t (u - (j + 1)) := by
  rw [items_eq, List.map_append, List.sum_append, List.map_flatMap]
  have h1 : ([(s, ([] : List Nat))].map (itemSize t u)).sum = 0 := by simp [itemSize]
  rw [h1, Nat.add_zero]
  have key : ∀ ks : List Nat, (∀ k ∈ ks, k < s.length) →
      (ks.flatMap fun k => (splits k s).map (itemSize t u)).sum =
        (ks.map fun k => s.length.choose k * t (u - (s.length - k))).sum := by
    intro ks
    induction ks with
    | nil => intro _; rfl
    | cons k ks ih =>
      intro hk
      rw [List.flatMap_cons, List.sum_append, ih fun j hj => hk j (List.mem_cons_of_mem _ hj),
        List.map_cons, List.sum_cons]
      congr 1
      have hklt := hk k List.mem_cons_self
      have h2 : (splits k s).map (itemSize t u) = List.replicate (splits k s).length (t (u - (s.length - k))) := by
        rw [List.eq_replicate_iff]
        refine ⟨by simp, ?_⟩
        intro x hx
        obtain ⟨⟨l, m⟩, hlm, rfl⟩ := List.mem_map.1 hx
        obtain ⟨h3, h4, _⟩ := mem_splits hlm
        have h5 := h4.length_eq
        rw [List.length_append] at h5
        have hm : m ≠ [] := by
          rintro rfl
          simp only [List.length_nil] at h5
          omega
        have : m.length = s.length - k := by omega
        simp [itemSize, hm, this]
      rw [h2, List.sum_replicate_nat, length_splits]
  rw [key _ (fun k hk => List.mem_range.1 hk), sum_map_range, ← Finset.sum_range_reflect]
  refine Finset.sum_congr rfl fun j hj => ?_
  have hj := Finset.mem_range.1 hj
  have e1 : s.length - 1 - j = s.length - (j + 1) := by omega
  rw [e1, Nat.choose_symm (by omega), show s.length - (s.length - (j + 1)) = j + 1 by omega]

section
variable {t : Nat → Nat}

/-- `t n` is the number of partial schedules of `n` independent bits, including the empty one. -/
def Partials (t : Nat → Nat) : Prop := ∀ n, t n = 1 + ∑ j ∈ Finset.range n, n.choose (j + 1) * t (n - (j + 1))

theorem Partials.le (ht : Partials t) {u : Nat} {s : List Nat} (h : s.length ≤ u) :
    ((items s).map (itemSize t u)).sum + 1 ≤ t u := by
  rw [sum_itemSize, ht u, Nat.add_comm]
  refine Nat.add_le_add_left ?_ 1
  refine Nat.le_trans ?_ (Finset.sum_le_sum_of_subset (Finset.range_mono h))
  exact Finset.sum_le_sum fun j _ => Nat.mul_le_mul_right _ (Nat.choose_le_choose _ h)

theorem Partials.eq (ht : Partials t) (s : List Nat) :
    ((items s).map (itemSize t s.length)).sum + 1 = t s.length := by
  rw [sum_itemSize, ht s.length, Nat.add_comm]

theorem unmeasured_snoc {P : Problem} {p : Schedule} {m : List Nat} :
    unmeasured P (p ++ [m]) = unmeasured P p - m.length := by
  unfold unmeasured
  simp only [List.flatten_append, List.flatten_cons, List.flatten_nil, List.append_nil, List.length_append]
  omega

theorem Tree.length_le {P : Problem} (ht : Partials t) {p : Schedule} {s : Scheduler Partitioner} {r : List Schedule}
    (h : Tree P p s r) : r.length ≤ ((Verif.rem s).map (itemSize t (unmeasured P p))).sum := by
  induction h with
  | done h => simp
  | @child p s s' c l m rc r h hc hr ihc ihr =>
    rw [h.rem, List.map_cons, List.sum_cons, List.length_cons, List.length_append, itemSize, if_neg h.ne]
    rw [h.fresh.rem] at ihc
    have h1 := ht.le (u := unmeasured P (p ++ [m])) (s := c.time.measurable.set) (set_length_le h.child)
    rw [unmeasured_snoc] at h1 ihc
    simp only at *
    omega

theorem set_length_free {P : Problem} (hP : P.bits.Nodup) (hfree : ∀ b d, ¬ P.Needs b d) {p : Schedule}
    {c : Scheduler Partitioner} (hc : StateFor P p c) : c.time.measurable.set.length = unmeasured P p := by
  have h1 : (c.time.measurable.set ++ p.flatten).Nodup := by
    rw [List.nodup_append']
    exact ⟨hc.time.set_nodup, hc.pre.nodup, fun b hb hb' => ((hc.time.set_mem b).1 hb).fresh hb'⟩
  have h2 : (c.time.measurable.set ++ p.flatten).Perm P.bits := by
    refine (List.perm_ext_iff_of_nodup h1 hP).2 fun b => ?_
    rw [List.mem_append]
    have hset : b ∈ c.time.measurable.set ↔ Ready P p.flatten b := hc.time.set_mem b
    constructor
    · rintro (hb | hb)
      · exact (hset.1 hb).bit
      · exact hc.pre.sub b hb
    · intro hb
      by_cases hf : b ∈ p.flatten
      · exact Or.inr hf
      · exact Or.inl (hset.2 ⟨hb, hf, fun d hd => (hfree b d hd).elim⟩)
  have h3 := h2.length_eq
  rw [List.length_append] at h3
  unfold unmeasured
  omega

theorem Tree.length_free {P : Problem} (hP : P.bits.Nodup) (hfree : ∀ b d, ¬ P.Needs b d) (ht : Partials t)
    {p : Schedule} {s : Scheduler Partitioner} {r : List Schedule} (h : Tree P p s r) :
    r.length = ((Verif.rem s).map (itemSize t (unmeasured P p))).sum := by
  induction h with
  | done h => rcases h.rem with h | h <;> simp [h, itemSize]
  | @child p s s' c l m rc r h hc hr ihc ihr =>
    rw [h.rem, List.map_cons, List.sum_cons, List.length_cons, List.length_append, itemSize, if_neg h.ne]
    rw [h.fresh.rem, ← set_length_free hP hfree h.child] at ihc
    have h1 := ht.eq c.time.measurable.set
    rw [set_length_free hP hfree h.child, unmeasured_snoc] at h1 ihc
    simp only at *
    omega

/-- All partial schedules, including the empty one: twice the ordered Bell number. -/
theorem partials_bell {a : Nat → Nat} (h0 : a 0 = 1)
    (ha : ∀ n, a (n + 1) = ((List.range (n + 1)).map fun k => (n + 1).choose k * a k).sum) :
    Partials fun n => if n = 0 then 1 else 2 * a n := by
  intro n
  cases n with
  | zero => rfl
  | succ n =>
    have e1 : a (n + 1) = ∑ j ∈ Finset.range (n + 1), (n + 1).choose (j + 1) * a (n + 1 - (j + 1)) := by
      rw [ha n, sum_map_range, ← Finset.sum_range_reflect]
      refine Finset.sum_congr rfl fun j hj => ?_
      have hj := Finset.mem_range.1 hj
      rw [show n + 1 - 1 - j = n + 1 - (j + 1) by omega, Nat.choose_symm (by omega)]
    simp only
    rw [if_neg (Nat.succ_ne_zero n), e1, Finset.sum_range_succ, Finset.sum_range_succ, Nat.sub_self, h0,
      Nat.choose_self, if_pos rfl, Nat.mul_add, Finset.mul_sum]
    have e2 : ∀ j ∈ Finset.range n, (n + 1).choose (j + 1) *
        (if n + 1 - (j + 1) = 0 then 1 else 2 * a (n + 1 - (j + 1))) =
        2 * ((n + 1).choose (j + 1) * a (n + 1 - (j + 1))) := by
      intro j hj
      have hj := Finset.mem_range.1 hj
      rw [if_neg (by omega)]
      ring
    rw [Finset.sum_congr rfl e2]
    ring

/-- The ordered Bell numbers are at least the factorials and at most `n ^ n`. -/
theorem bell_bounds {a : Nat → Nat} (h0 : a 0 = 1)
    (ha : ∀ n, a (n + 1) = ((List.range (n + 1)).map fun k => (n + 1).choose k * a k).sum) :
    ∀ n, n.factorial ≤ a n ∧ a n ≤ n ^ n := by
  intro n
  induction n using Nat.strongRecOn with
  | ind n ih =>
    cases n with
    | zero => simp [h0]
    | succ n =>
      rw [ha n, sum_map_range]
      constructor
      · refine Nat.le_trans ?_ (Finset.single_le_sum (f := fun k => (n + 1).choose k * a k) (fun _ _ => Nat.zero_le _)
          (Finset.mem_range.2 (Nat.lt_succ_self n)))
        rw [Nat.factorial_succ, Nat.choose_succ_self_right]
        exact Nat.mul_le_mul_left _ (ih n (Nat.lt_succ_self n)).1
      · have h1 : ∑ k ∈ Finset.range (n + 1), (n + 1).choose k * a k ≤
            ∑ k ∈ Finset.range (n + 1), (n + 1).choose k * n ^ k := by
          refine Finset.sum_le_sum fun k hk => Nat.mul_le_mul_left _ ?_
          have hk := Finset.mem_range.1 hk
          exact Nat.le_trans (ih k hk).2 (Nat.pow_le_pow_left (by omega) k)
        refine Nat.le_trans h1 ?_
        have h2 := add_pow n 1 (n + 1)
        rw [Finset.sum_range_succ] at h2
        simp only [one_pow, mul_one, Nat.choose_self] at h2
        rw [h2]
        refine Nat.le_trans (Nat.le_of_eq ?_) (Nat.le_add_right _ _)
        exact Finset.sum_congr rfl fun k _ => Nat.mul_comm _ _

end

/-! ## The thread pool -/

section
open Threaded

/-- The moves still to come of a task. -/
inductive TaskTodos (P : Problem) {σ : Type} : TaskState σ → Nat → Prop
  | ready {sched : Scheduler Partitioner} {init : Option (List Nat)} {rng : σ} {n : Nat}
      (h : Todos P [(startPath init, sched)] n) : TaskTodos P (.ready sched init rng) (n + 2)
  | running {loc : Loc} {rng : σ} {counter : Nat} {wasInit : Bool} {n : Nat}
      (h : Todos P (levels loc.path loc.sweep.current loc.sweep.stack) n) :
      TaskTodos P (.running loc rng counter wasInit) (n + 1)
  | finishing {loc : Loc} : TaskTodos P (.finishing loc) 1
  | done : TaskTodos P .done 0

theorem TaskTodos.zero {P : Problem} {σ : Type} {t : TaskState σ} (h : TaskTodos P t 0) : t = .done := by
  cases h; rfl

theorem move_todos {F σ : Type} [FloatOps F] (mode : Mode F σ) {P : Problem} (hP : Lax P) {g g' : Global σ}
    (hg : GlobalOK P g) {i : Nat} {tb : Bool} {prof : Profile} (hm : move mode prof g i tb = .ok g') :
    (∀ j, j ≠ i → g'.tasks[j]? = g.tasks[j]?) ∧ g'.tasks.length = g.tasks.length ∧
    ∀ t n, g.tasks[i]? = some t → TaskTodos P t n →
      ∃ t' n', g'.tasks[i]? = some t' ∧ TaskTodos P t' n' ∧ n' ≤ n - 1 := by
  rw [move.eq_def] at hm
  cases ht : g.tasks[i]? with
  | none =>
    rw [ht] at hm
    cases hm
    exact ⟨fun _ _ => rfl, rfl, fun t n h => by simp at h⟩
  | some t =>
    have hlt := (List.getElem?_eq_some_iff.1 ht).1
    have hset : ∀ t' : TaskState σ, (g.tasks.set i t')[i]? = some t' := by intro t'; simp [hlt]
    have hother : ∀ t' : TaskState σ, ∀ j, j ≠ i → (g.tasks.set i t')[j]? = g.tasks[j]? := by
      intro t' j hj
      rw [List.getElem?_set_ne (Ne.symm hj)]
    have hok := hg.tasks t (List.mem_of_getElem? ht)
    rw [ht] at hm
    cases t with
    | ready sched init rng =>
      cases hm
      refine ⟨hother _, by simp, ?_⟩
      rintro t n h ht
      injection h with h
      subst h
      cases ht with
      | @ready _ _ _ n h =>
        refine ⟨_, _, hset _, .running (n := n) ?_, by omega⟩
        cases init <;> exact h
    | running loc rng counter wasInit =>
      cases hok with
      | running p0 hl hr hc =>
      obtain ⟨l', rng', stop, e1, e2⟩ := modeIter_spec mode rng hP hl
      simp only [e1 prof, bind, Except.bind] at hm
      cases stop with
      | true =>
        obtain ⟨⟨l'', f1, f2, f3⟩, _⟩ := finishLoop_spec hP e2 hl hr hc
        simp only [if_true, f1] at hm
        cases hm
        refine ⟨hother _, by simp, ?_⟩
        rintro t n h ht
        injection h with h
        subst h
        cases ht with
        | running h => have := h.pos; exact ⟨_, _, hset _, .finishing, by omega⟩
      | false =>
        rw [if_neg (by simp)] at hm
        by_cases hcu : counter = updateInterval
        · rw [if_pos hcu] at hm
          cases tb with
          | true =>
            rw [if_pos rfl] at hm
            cases hm
            refine ⟨hother _, by simp, ?_⟩
            rintro t n h ht
            injection h with h
            subst h
            cases ht with
            | running h => have := h.pos; exact ⟨_, _, hset _, .finishing, by omega⟩
          | false =>
            rw [if_neg (by simp)] at hm
            cases hm
            refine ⟨hother _, by simp, ?_⟩
            rintro t n h ht
            injection h with h
            subst h
            cases ht with
            | running h =>
              obtain ⟨n', h1, h2⟩ := e2.todos rfl h
              exact ⟨_, _, hset _, .running (n := n') h2, by omega⟩
        · rw [if_neg hcu] at hm
          cases hm
          refine ⟨hother _, by simp, ?_⟩
          rintro t n h ht
          injection h with h
          subst h
          cases ht with
          | running h =>
            obtain ⟨n', h1, h2⟩ := e2.todos rfl h
            exact ⟨_, _, hset _, .running (n := n') h2, by omega⟩
    | finishing loc =>
      simp only at hm
      split at hm <;> cases hm <;> refine ⟨hother _, by simp, ?_⟩ <;> rintro t n h ht <;> injection h with h <;>
        subst h <;> cases ht <;> exact ⟨_, _, hset _, .done, by omega⟩
    | done =>
      cases hm
      refine ⟨fun _ _ => rfl, rfl, ?_⟩
      rintro t n h ht'
      injection h with h
      subst h
      cases ht'
      exact ⟨_, _, ht, .done, by omega⟩

theorem runMoves_todos {F σ : Type} [FloatOps F] (mode : Mode F σ) {P : Problem} (hP : Lax P) {prof : Profile} :
    ∀ (moves : List (Nat × Bool)) (g g' : Global σ), GlobalOK P g → runMoves mode prof g moves = .ok g' →
    g'.tasks.length = g.tasks.length ∧ ∀ i t n, g.tasks[i]? = some t → TaskTodos P t n →
      ∃ t' n', g'.tasks[i]? = some t' ∧ TaskTodos P t' n' ∧ n' ≤ n - (moves.map (·.1)).count i := by
  intro moves
  induction moves with
  | nil =>
    intro g g' _ h
    cases h
    exact ⟨rfl, fun i t n ht h => ⟨t, n, ht, h, by simp⟩⟩
  | cons m moves ih =>
    intro g g' hg h
    obtain ⟨g1, e1, e2, _⟩ := move_spec mode hP hg m.1 m.2
    simp only [runMoves, e1 prof, bind, Except.bind] at h
    obtain ⟨k1, k2⟩ := ih g1 g' e2 h
    obtain ⟨m1, m2, m3⟩ := move_todos mode hP hg (e1 prof)
    refine ⟨k1.trans m2, fun i t n ht hn => ?_⟩
    simp only [List.map_cons, List.count_cons]
    by_cases hi : m.1 = i
    · subst hi
      obtain ⟨t1, n1, h1, h2, h3⟩ := m3 t n ht hn
      obtain ⟨t2, n2, h4, h5, h6⟩ := k2 m.1 t1 n1 h1 h2
      exact ⟨t2, n2, h4, h5, by simp only [beq_self_eq_true, if_true]; omega⟩
    · obtain ⟨t2, n2, h4, h5, h6⟩ := k2 i t n ((m1 i (Ne.symm hi)).trans ht) hn
      exact ⟨t2, n2, h4, h5, by simpa [hi] using h6⟩

theorem spawnLoop_todos {P : Problem} (tb : Int) {prof : Profile} :
    ∀ (fuel : Nat) (s : Scheduler Partitioner) (k : Int) (r : List Schedule), Lax P → StateFor P [] s → IterOK s →
    s.time.measurable.iter.length < fuel → Tree P [] s r → ∀ ts rest, spawnLoop prof tb fuel s k = .ok (ts, rest) →
    ∃ (ns : List Nat) (rr : List Schedule),
      List.Forall₂ (fun (t : Scheduler Partitioner × List Nat) n => ∃ r, Tree P [t.2] t.1 r ∧ r.length = n) ts ns ∧
      Tree P [] rest rr ∧ r.length = ts.length + ns.sum + rr.length := by
  intro fuel
  induction fuel with
  | zero => intro s k r _ _ _ h; omega
  | succ fuel ih =>
    intro s k r hP hs hi hf hr ts rest h
    rcases nextAndFocus_spec hP hs hi with ⟨s', hn, hs', hi'⟩ | ⟨s', c, l, m, hn⟩
    · simp only [spawnLoop, hn.eq prof, bind, Except.bind, pure, Except.pure, Except.ok.injEq, Prod.mk.injEq] at h
      obtain ⟨rfl, rfl⟩ := h
      refine ⟨[], [], .nil, ?_, by simp [hr.of_none hn]⟩
      rcases nextAndFocus_spec hP hs' hi' with ⟨s2, hn2, _, _⟩ | ⟨s2, c2, l2, m2, hn2⟩
      · exact .done hn2
      · have := hn2.len
        rw [hn.done] at this
        simp at this
    · obtain ⟨rc, r', rfl, t1, t2⟩ := hr.of_some hn
      simp only [spawnLoop, hn.eq prof, bind, Except.bind, pure, Except.pure] at h
      have hlen := hn.len
      by_cases hb : k + 1 = tb
      · rw [if_pos hb] at h
        simp only [Except.ok.injEq, Prod.mk.injEq] at h
        obtain ⟨rfl, rfl⟩ := h
        refine ⟨[rc.length], r', .cons ⟨rc, t1, rfl⟩ .nil, t2, ?_⟩
        simp only [List.length_cons, List.length_append, List.sum_cons, List.sum_nil, List.length_nil]
        omega
      · rw [if_neg hb] at h
        cases he : spawnLoop prof tb fuel s' (k + 1) with
        | error e => rw [he] at h; cases h
        | ok x =>
          obtain ⟨ts', rest'⟩ := x
          rw [he] at h
          simp only [Except.ok.injEq, Prod.mk.injEq] at h
          obtain ⟨rfl, rfl⟩ := h
          obtain ⟨ns, rr, h1, h2, h3⟩ := ih s' (k + 1) r' hP hn.state' hn.iter' (by omega) t2 ts' rest' he
          refine ⟨rc.length :: ns, rr, .cons ⟨rc, t1, rfl⟩ h1, h2, ?_⟩
          simp only [List.length_cons, List.length_append, List.sum_cons]
          omega

/-- The tasks at the beginning: what each of them may still do, and how much that is together. -/
theorem initGlobal_todos {P : Problem} (hP : Lax P) (tb : Int) {s : Scheduler Partitioner}
    (hs : StateFor P [] s) (hf : Fresh s) {r : List Schedule} (hr : Tree P [] s r) :
    ∃ W : List Nat, W.sum + W.length = 2 * r.length + 2 ∧ ∀ {σ : Type} (seeds : Nat → σ) {prof : Profile} {g : Global σ},
      initGlobal prof tb seeds s P.n = .ok g → g.tasks.length = W.length ∧
      ∀ (i : Nat) (hi : i < W.length), ∃ t, g.tasks[i]? = some t ∧ TaskTodos P t (W[i] + 2) := by
  obtain ⟨ts, rest, f1, _⟩ := spawnLoop_spec hP tb (s.time.measurable.iter.length + 1) s 0 hs hf.iterOK (by omega)
  obtain ⟨ns, rr, g1, g2, g3⟩ := spawnLoop_todos (prof := .debug) tb _ s 0 r hP hs hf.iterOK (by omega) hr ts rest
    (f1 .debug)
  have hl := g1.length_eq
  refine ⟨ns.map (fun n => 1 + 2 * n) ++ [1 + 2 * rr.length], ?_, ?_⟩
  · have : ∀ l : List Nat, (l.map fun n => 1 + 2 * n).sum = l.length + 2 * l.sum := by
      intro l
      induction l with
      | nil => rfl
      | cons a l ih => simp only [List.map_cons, List.sum_cons, List.length_cons, ih]; omega
    simp only [List.sum_append, this, List.sum_cons, List.sum_nil, List.length_append, List.length_map,
      List.length_cons, List.length_nil]
    omega
  · intro σ seeds prof g h
    simp only [initGlobal, spawn, f1 prof, bind, Except.bind, pure, Except.pure, Except.ok.injEq] at h
    subst h
    refine ⟨by simp [hl], ?_⟩
    intro i hi
    simp only [List.length_append, List.length_map, List.length_cons, List.length_nil] at hi
    by_cases hin : i < ns.length
    · have hit : i < ts.length := by omega
      obtain ⟨r1, h1, h2⟩ := (List.forall₂_iff_get.1 g1).2 i hit hin
      simp only [List.get_eq_getElem] at h1 h2
      refine ⟨.ready ts[i].1 (some ts[i].2) (seeds i), ?_, ?_⟩
      · rw [List.getElem?_append_left (by simpa using hit)]
        simp [hit]
      · have : (ns.map (fun n => 1 + 2 * n) ++ [1 + 2 * rr.length])[i]'(by simp; omega) = 1 + 2 * r1.length + 0 := by
          rw [List.getElem_append_left (by simpa using hin)]
          simp [h2]
        rw [this]
        exact .ready (.cons h1 .nil)
    · have hie : i = ts.length := by omega
      subst hie
      refine ⟨.ready rest none (seeds ts.length), ?_, ?_⟩
      · rw [List.getElem?_append_right (by simp)]
        simp
      · have : (ns.map (fun n => 1 + 2 * n) ++ [1 + 2 * rr.length])[ts.length]'(by simp; omega) =
            1 + 2 * rr.length + 0 := by
          rw [List.getElem_append_right (by simp; omega)]
          simp
        rw [this]
        exact .ready (.cons g2 .nil)

end

end Verif
