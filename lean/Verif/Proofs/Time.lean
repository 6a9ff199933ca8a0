import Verif.Model.Time
import Verif.Spec
import Verif.Proofs.AMap
import Verif.Proofs.Combinatoric
import Verif.Proofs.Space
/-!
# The path generator tracks exactly the ready bits
-/

namespace Verif

open Spec

/-- The dependencies of a bit. -/
def depsOf (P : Problem) (b : Nat) : List Nat := (AMap.get P.entries b).getD []

/-- The number of dependencies of `b` outside `M`. -/
def unmet (P : Problem) (M : List Nat) (b : Nat) : Nat := (depsOf P b).countP fun d => decide (d ∉ M)

/-- `b` can be measured once exactly the bits in `M` have been measured. -/
structure Ready (P : Problem) (M : List Nat) (b : Nat) : Prop where
  bit : b ∈ P.bits
  fresh : b ∉ M
  deps : ∀ d, P.Needs b d → d ∈ M

/-- The value the dependency counter of `b` should have. -/
def curCount (P : Problem) (M : List Nat) (b : Nat) : Option Nat :=
  if b ∈ P.bits ∧ 0 < unmet P M b then some (unmet P M b) else none

theorem get_entries {P : Problem} (hP : P.bits.Nodup) {b : Nat} {ds : List Nat} :
    AMap.get P.entries b = some ds ↔ (b, ds) ∈ P.entries :=
  ⟨AMap.mem_of_get, AMap.get_of_mem hP⟩

theorem needs_iff {P : Problem} (hP : P.bits.Nodup) {b d : Nat} : P.Needs b d ↔ d ∈ depsOf P b := by
  constructor
  · rintro ⟨ds, h, hd⟩
    rw [← get_entries hP] at h
    simpa [depsOf, h] using hd
  · intro h
    unfold depsOf at h
    cases hg : AMap.get P.entries b with
    | none => simp [hg] at h
    | some ds =>
      simp only [hg, Option.getD_some] at h
      exact ⟨ds, (get_entries hP).1 hg, h⟩

theorem needs_bit {P : Problem} {b d : Nat} (h : P.Needs b d) : b ∈ P.bits := by
  obtain ⟨ds, h, _⟩ := h
  exact List.mem_map.2 ⟨_, h, rfl⟩

theorem mem_entries_iff {P : Problem} {e : Nat × List Nat} :
    e ∈ P.entries ↔ ∃ (i : Nat) (layer : List (Nat × List Nat)), P.order[i]? = some layer ∧ e ∈ layer := by
  simp only [Problem.entries, List.mem_flatten]
  constructor
  · rintro ⟨l, hl, he⟩
    obtain ⟨i, hi⟩ := List.getElem?_of_mem hl
    exact ⟨i, l, hi, he⟩
  · rintro ⟨i, l, hl, he⟩
    exact ⟨l, List.mem_of_getElem? hl, he⟩

/-- What the scheduler needs to know about the ordering. Less than `WF`: a dependency may be a number that is
not a node, which is never measured. -/
structure Lax (P : Problem) : Prop where
  bits_nodup : P.bits.Nodup
  bits_lt : ∀ b ∈ P.bits, b < P.n
  nbrs_lt : ∀ l ∈ P.graph, ∀ v ∈ l, v < P.n
  deps_nodup : ∀ e ∈ P.entries, e.2.Nodup
  size : P.n < 2 ^ 64 - 1

theorem Spec.Problem.WF.lax {P : Problem} (hP : P.WF) : Lax P :=
  ⟨hP.bits_nodup, hP.bits_lt, hP.nbrs_lt, fun e he => by
    obtain ⟨i, l, hl, hel⟩ := mem_entries_iff.1 he
    exact (hP.layers i l hl _ hel).2.1, hP.size⟩

theorem depsOf_nodup {P : Problem} (hP : Lax P) (b : Nat) : (depsOf P b).Nodup := by
  unfold depsOf
  cases hg : AMap.get P.entries b with
  | none => simp
  | some ds =>
    rw [get_entries hP.bits_nodup] at hg
    exact hP.deps_nodup _ hg

theorem unmet_zero_iff {P : Problem} (hP : P.bits.Nodup) {M : List Nat} {b : Nat} :
    unmet P M b = 0 ↔ ∀ d, P.Needs b d → d ∈ M := by
  simp only [unmet, List.countP_eq_zero, decide_eq_true_eq, Decidable.not_not, needs_iff hP]

theorem ready_iff {P : Problem} (hP : P.bits.Nodup) {M : List Nat} {b : Nat} :
    Ready P M b ↔ b ∈ P.bits ∧ b ∉ M ∧ unmet P M b = 0 := by
  rw [unmet_zero_iff hP]
  exact ⟨fun h => ⟨h.1, h.2, h.3⟩, fun h => ⟨h.1, h.2.1, h.2.2⟩⟩

theorem unmet_congr {P : Problem} {M M' : List Nat} (h : ∀ v, v ∈ M ↔ v ∈ M') (b : Nat) :
    unmet P M b = unmet P M' b := by
  simp only [unmet, h]

theorem curCount_congr {P : Problem} {M M' : List Nat} (h : ∀ v, v ∈ M ↔ v ∈ M') (b : Nat) :
    curCount P M b = curCount P M' b := by
  simp only [curCount, unmet_congr h]

theorem ready_congr {P : Problem} {M M' : List Nat} (h : ∀ v, v ∈ M ↔ v ∈ M') {b : Nat} :
    Ready P M b ↔ Ready P M' b := by
  constructor
  · rintro ⟨a, b, c⟩; exact ⟨a, fun x => b ((h _).2 x), fun d hd => (h _).1 (c d hd)⟩
  · rintro ⟨a, b, c⟩; exact ⟨a, fun x => b ((h _).1 x), fun d hd => (h _).2 (c d hd)⟩

theorem countP_remove {l : List Nat} (hl : l.Nodup) {M : List Nat} {m : Nat} (hm : m ∉ M) :
    l.countP (fun d => decide (d ∉ M)) =
      l.countP (fun d => decide (d ∉ m :: M)) + if m ∈ l then 1 else 0 := by
  induction l with
  | nil => simp
  | cons a l ih =>
    rw [List.nodup_cons] at hl
    have := ih hl.2
    simp only [List.countP_cons]
    by_cases ha : a = m
    · subst ha
      simp only [hl.1, ↓reduceIte] at this
      simp [hm]
      simpa using this
    · have e : (a ∉ m :: M) ↔ a ∉ M := by simp [ha]
      have e2 : (m ∈ a :: l) ↔ m ∈ l := by simp [show ¬ m = a from fun h => ha h.symm]
      simp only [e, e2]
      omega

theorem unmet_cons {P : Problem} (hP : Lax P) {M : List Nat} {m : Nat} (hm : m ∉ M) (b : Nat) :
    unmet P M b = unmet P (m :: M) b + if m ∈ depsOf P b then 1 else 0 :=
  countP_remove (depsOf_nodup hP b) hm

/-- The look-up table of dependents is right for every bit. -/
def LookFor (P : Problem) (look : Dependents) : Prop :=
  ∀ b ∈ P.bits, ∃ l, look[b]? = some l ∧ l.Nodup ∧ ∀ x, x ∈ l ↔ P.Needs x b

/-- The counter `a` of the bit `b` is `c`, as far as it can be seen: the value matters only if a bit that can
be measured changes it. -/
def CountIs (P : Problem) (b : Nat) (a c : Option Nat) : Prop :=
  a.isSome = c.isSome ∧ ∀ d, P.Needs b d → d ∈ P.bits → a = c

theorem CountIs.refl (P : Problem) (b : Nat) (a : Option Nat) : CountIs P b a a := ⟨rfl, fun _ _ _ => rfl⟩

/-- The path generator data is the one reached after measuring exactly `M`. -/
structure TimeFor (P : Problem) (M : List Nat) (set : List Nat) (deps : AMap Nat)
    (look : Dependents) : Prop where
  set_nodup : set.Nodup
  set_mem : ∀ b, b ∈ set ↔ Ready P M b
  deps_get : ∀ b, CountIs P b (deps.get b) (curCount P M b)
  deps_nodup : (AMap.keys deps).Nodup
  closed : ∀ b ∈ M, ∀ d, P.Needs b d → d ∈ M
  look_ok : LookFor P look

theorem usizeSub_one (prof : Profile) {c : Nat} (h : 0 < c) : usizeSub prof c 1 = .ok (c - 1) := by
  simp [usizeSub, Nat.succ_le_of_lt h]

theorem updateDependents_spec {P : Problem} (hP : Lax P) (prof : Profile) {M : List Nat} {m : Nat}
    (hm : m ∉ M) (hmb : m ∈ P.bits) (D : List Nat) :
    ∀ (deps : AMap Nat) (new : List Nat), D.Nodup → (∀ x ∈ D, P.Needs x m) →
    (∀ x, CountIs P x (deps.get x) (if x ∈ D then curCount P M x else curCount P (m :: M) x)) →
    (AMap.keys deps).Nodup →
    ∃ deps', PathGenerator.updateDependents prof D deps new =
        .ok (deps', new ++ D.filter fun x => decide (unmet P (m :: M) x = 0)) ∧
      (∀ x, CountIs P x (deps'.get x) (curCount P (m :: M) x)) ∧ (AMap.keys deps').Nodup := by
  induction D with
  | nil =>
    intro deps new _ _ hget hk
    exact ⟨deps, by simp [PathGenerator.updateDependents, pure, Except.pure], by simpa using hget, hk⟩
  | cons x D ih =>
    intro deps new hnd hD hget hk
    rw [List.nodup_cons] at hnd
    have hneed := hD x (by simp)
    have hbit := needs_bit hneed
    have hun := unmet_cons hP hm x
    rw [if_pos ((needs_iff hP.bits_nodup).1 hneed)] at hun
    have hx : deps.get x = some (unmet P M x) := by
      rw [(hget x).2 m hneed hmb]; simp [curCount, hbit, hun]
    simp only [PathGenerator.updateDependents, hx]
    rw [usizeSub_one prof (by omega)]
    simp only [bind, Except.bind]
    have hc : unmet P M x - 1 = unmet P (m :: M) x := by omega
    rw [hc]
    by_cases h0 : unmet P (m :: M) x = 0
    · simp only [h0, ↓reduceIte]
      obtain ⟨d', e1, e2, e3⟩ := ih (deps.erase x) (new ++ [x]) hnd.2
        (fun y hy => hD y (by simp [hy]))
        (by
          intro y
          rw [AMap.get_erase]
          by_cases hyx : y = x
          · subst hyx
            simp only [↓reduceIte, hnd.1, curCount, h0, Nat.lt_irrefl, and_false]
            exact .refl P _ _
          · simpa [hyx] using hget y)
        (AMap.nodup_erase hk x)
      refine ⟨d', ?_, e2, e3⟩
      rw [e1]
      simp [h0]
    · simp only [h0, ↓reduceIte]
      obtain ⟨d', e1, e2, e3⟩ := ih (deps.insert x (unmet P (m :: M) x)) new hnd.2
        (fun y hy => hD y (by simp [hy]))
        (by
          intro y
          rw [AMap.get_insert]
          by_cases hyx : y = x
          · subst hyx
            simp only [↓reduceIte, hnd.1, curCount, hbit, Nat.pos_of_ne_zero h0, and_self]
            exact .refl P _ _
          · simpa [hyx] using hget y)
        (AMap.nodup_insert hk x _)
      refine ⟨d', ?_, e2, e3⟩
      rw [e1]
      simp [h0]

/-- The bits that become measurable, in the order in which they are appended, when `ms` are measured after `M`. -/
def news (P : Problem) (look : Dependents) : List Nat → List Nat → List Nat
  | _, [] => []
  | M, m :: ms => ((look.getD m []).filter fun x => decide (unmet P (m :: M) x = 0)) ++ news P look (m :: M) ms

theorem updateUnchecked_full {P : Problem} (hP : Lax P) (prof : Profile) {look : Dependents}
    (hlook : LookFor P look) (ms : List Nat) :
    ∀ (M : List Nat) (deps : AMap Nat) (new : List Nat), ms.Nodup → (∀ b ∈ ms, Ready P M b) →
    new.Nodup → (∀ b, b ∈ new ↔ Ready P M b ∧ b ∉ ms) →
    (∀ x, CountIs P x (deps.get x) (curCount P M x)) → (AMap.keys deps).Nodup →
    (∀ b ∈ M, ∀ d, P.Needs b d → d ∈ M) →
    ∃ deps' new', PathGenerator.updateUnchecked prof look ms deps new = .ok (deps', new') ∧
      TimeFor P (ms ++ M) new' deps' look ∧ new' = new ++ news P look M ms := by
  induction ms with
  | nil =>
    intro M deps new _ _ hnew hmem hget hk hcl
    exact ⟨deps, new, rfl, ⟨hnew, by simpa using hmem, hget, hk, hcl, hlook⟩, by simp [news]⟩
  | cons m ms ih =>
    intro M deps new hnd hready hnew hmem hget hk hcl
    rw [List.nodup_cons] at hnd
    have hr := hready m (by simp)
    obtain ⟨D, hD, hDn, hDm⟩ := hlook m hr.bit
    obtain ⟨d1, e1, e2, e3⟩ := updateDependents_spec hP prof hr.fresh hr.bit D deps new hDn
      (fun x hx => (hDm x).1 hx)
      (by
        intro x
        have hg := hget x
        by_cases hx : x ∈ D
        · simpa only [hx, ↓reduceIte] using hg
        · simp only [hx, ↓reduceIte]
          have := unmet_cons hP hr.fresh x
          rw [if_neg (fun h => hx ((hDm x).2 ((needs_iff hP.bits_nodup).2 h)))] at this
          simpa [curCount, this] using hg)
      hk
    have hready' : ∀ b ∈ ms, Ready P (m :: M) b := by
      intro b hb
      obtain ⟨r1, r2, r3⟩ := hready b (by simp [hb])
      refine ⟨r1, ?_, fun d hd => List.mem_cons_of_mem _ (r3 d hd)⟩
      simp only [List.mem_cons, not_or]
      exact ⟨fun h => hnd.1 (h ▸ hb), r2⟩
    -- facts about the newly ready bits
    have hD_notready : ∀ x ∈ D, ¬ Ready P M x := fun x hx hrx => hr.fresh (hrx.deps m ((hDm x).1 hx))
    have hD_fresh : ∀ x ∈ D, x ∉ m :: M := by
      intro x hx hxM
      rw [List.mem_cons] at hxM
      rcases hxM with h | h
      · exact hD_notready x hx (h ▸ hr)
      · exact hr.fresh (hcl x h m ((hDm x).1 hx))
    have hnew1 : (new ++ D.filter fun x => decide (unmet P (m :: M) x = 0)).Nodup := by
      rw [List.nodup_append']
      refine ⟨hnew, hDn.filter _, ?_⟩
      rw [List.disjoint_left]
      intro x hx hx'
      exact hD_notready x (List.mem_of_mem_filter hx') ((hmem x).1 hx).1
    have hmem1 : ∀ b, b ∈ (new ++ D.filter fun x => decide (unmet P (m :: M) x = 0)) ↔
        Ready P (m :: M) b ∧ b ∉ ms := by
      intro b
      simp only [List.mem_append, List.mem_filter, decide_eq_true_eq]
      constructor
      · rintro (h | ⟨h, h0⟩)
        · obtain ⟨⟨r1, r2, r3⟩, hn⟩ := (hmem b).1 h
          simp only [List.mem_cons, not_or] at hn
          refine ⟨⟨r1, ?_, fun d hd => List.mem_cons_of_mem _ (r3 d hd)⟩, hn.2⟩
          simp only [List.mem_cons, not_or]; exact ⟨hn.1, r2⟩
        · refine ⟨(ready_iff hP.bits_nodup).2 ⟨needs_bit ((hDm b).1 h), hD_fresh b h, h0⟩, ?_⟩
          intro hb
          exact hD_notready b h (hready b (by simp [hb]))
      · rintro ⟨⟨r1, r2, r3⟩, hn⟩
        simp only [List.mem_cons, not_or] at r2
        by_cases hbD : b ∈ D
        · exact Or.inr ⟨hbD, (unmet_zero_iff hP.bits_nodup).2 r3⟩
        · left
          rw [hmem b]
          refine ⟨⟨r1, r2.2, ?_⟩, ?_⟩
          · intro d hd
            have := r3 d hd
            rw [List.mem_cons] at this
            rcases this with rfl | h
            · exact (hbD ((hDm b).2 hd)).elim
            · exact h
          · simp only [List.mem_cons, not_or]; exact ⟨r2.1, hn⟩
    have hcl1 : ∀ b ∈ m :: M, ∀ d, P.Needs b d → d ∈ m :: M := by
      intro b hb d hd
      rw [List.mem_cons] at hb
      rcases hb with rfl | hb
      · exact List.mem_cons_of_mem _ (hr.deps d hd)
      · exact List.mem_cons_of_mem _ (hcl b hb d hd)
    obtain ⟨d2, n2, f1, f2, f3⟩ := ih (m :: M) d1 _ hnd.2 hready' hnew1 hmem1 e2 e3 hcl1
    refine ⟨d2, n2, ?_, ?_, ?_⟩
    · simp only [PathGenerator.updateUnchecked, idx_of_getElem? hD, bind, Except.bind, e1]
      exact f1
    · have hc : ∀ v, v ∈ ms ++ m :: M ↔ v ∈ (m :: ms) ++ M := by intro v; simp [or_left_comm]
      exact ⟨f2.set_nodup, fun b => (f2.set_mem b).trans (ready_congr hc),
        fun b => curCount_congr hc b ▸ f2.deps_get b, f2.deps_nodup,
        fun b hb d hd => (hc d).1 (f2.closed b ((hc b).2 hb) d hd), f2.look_ok⟩
    · rw [f3, news, List.getD_eq_getElem?_getD, hD, Option.getD_some, List.append_assoc]

theorem updateUnchecked_spec {P : Problem} (hP : Lax P) (prof : Profile) {look : Dependents}
    (hlook : LookFor P look) (ms : List Nat) :
    ∀ (M : List Nat) (deps : AMap Nat) (new : List Nat), ms.Nodup → (∀ b ∈ ms, Ready P M b) →
    new.Nodup → (∀ b, b ∈ new ↔ Ready P M b ∧ b ∉ ms) →
    (∀ x, CountIs P x (deps.get x) (curCount P M x)) → (AMap.keys deps).Nodup →
    (∀ b ∈ M, ∀ d, P.Needs b d → d ∈ M) →
    ∃ deps' new', PathGenerator.updateUnchecked prof look ms deps new = .ok (deps', new') ∧
      TimeFor P (ms ++ M) new' deps' look := by
  intro M deps new h1 h2 h3 h4 h5 h6 h7
  obtain ⟨d, n, e1, e2, _⟩ := updateUnchecked_full hP prof hlook ms M deps new h1 h2 h3 h4 h5 h6 h7
  exact ⟨d, n, e1, e2⟩

theorem TimeFor.congr {P : Problem} {M M' : List Nat} (h : ∀ v, v ∈ M ↔ v ∈ M') {set : List Nat}
    {deps : AMap Nat} {look : Dependents} (f : TimeFor P M set deps look) :
    TimeFor P M' set deps look :=
  ⟨f.set_nodup, fun b => (f.set_mem b).trans (ready_congr h),
    fun b => curCount_congr h b ▸ f.deps_get b, f.deps_nodup,
    fun b hb d hd => (h d).1 (f.closed b ((h b).2 hb) d hd), f.look_ok⟩

/-! ### Building the generator -/

theorem resolveFirst_spec (rest : OrderGraph) (es : List (Nat × List Nat)) :
    ∀ look : Dependents, (∀ e ∈ es, e.1 < look.length) →
    ∃ look', PathGenerator.resolveFirst rest es look = .ok look' ∧ look'.length = look.length ∧
      ∀ b, look'[b]? = if b ∈ es.map (·.1) then some (PathGenerator.collectDependents b rest)
        else look[b]? := by
  induction es with
  | nil => intro look _; exact ⟨look, rfl, rfl, by simp⟩
  | cons e es ih =>
    intro look hlt
    have h := hlt e (by simp)
    obtain ⟨l', e1, e2, e3⟩ := ih (look.set e.1 (PathGenerator.collectDependents e.1 rest))
      (by intro x hx; simpa using hlt x (by simp [hx]))
    refine ⟨l', ?_, by simpa using e2, ?_⟩
    · simp only [PathGenerator.resolveFirst, PathGenerator.resolve, h, ↓reduceIte, bind, Except.bind]
      exact e1
    · intro b
      rw [e3 b]
      by_cases hb : b ∈ es.map (·.1)
      · simp only [hb, ↓reduceIte, List.map_cons, List.mem_cons, or_true]
      · simp only [hb, ↓reduceIte, List.map_cons, List.mem_cons, or_false, List.getElem?_set]
        by_cases hbe : b = e.1
        · subst hbe; simp [h]
        · simp [hbe, show ¬ e.1 = b from fun h => hbe h.symm]

theorem resolveLayer_spec (rest : OrderGraph) (es : List (Nat × List Nat)) :
    ∀ (look : Dependents) (deps : AMap Nat), (∀ e ∈ es, e.1 < look.length) →
    (es.map (·.1)).Nodup → (AMap.keys deps).Nodup →
    ∃ look' deps', PathGenerator.resolveLayer rest es look deps = .ok (look', deps') ∧
      look'.length = look.length ∧
      (∀ b, look'[b]? = if b ∈ es.map (·.1) then some (PathGenerator.collectDependents b rest)
        else look[b]?) ∧
      (∀ b, deps'.get b = if b ∈ es.map (·.1) then (AMap.get es b).map List.length
        else deps.get b) ∧
      (AMap.keys deps').Nodup := by
  induction es with
  | nil => intro look deps _ _ hk; exact ⟨look, deps, rfl, rfl, by simp, by simp, hk⟩
  | cons e es ih =>
    intro look deps hlt hnd hk
    rw [List.map_cons, List.nodup_cons] at hnd
    have h := hlt e (by simp)
    obtain ⟨l', d', e1, e2, e3, e4, e5⟩ := ih (look.set e.1 (PathGenerator.collectDependents e.1 rest))
      (deps.insert e.1 e.2.length)
      (by intro x hx; simpa using hlt x (by simp [hx])) hnd.2 (AMap.nodup_insert hk _ _)
    refine ⟨l', d', ?_, by simpa using e2, ?_, ?_, e5⟩
    · simp only [PathGenerator.resolveLayer, PathGenerator.resolve, h, ↓reduceIte, bind, Except.bind]
      exact e1
    · intro b
      rw [e3 b]
      by_cases hb : b ∈ es.map (·.1)
      · simp only [hb, ↓reduceIte, List.map_cons, List.mem_cons, or_true]
      · simp only [hb, ↓reduceIte, List.map_cons, List.mem_cons, or_false, List.getElem?_set]
        by_cases hbe : b = e.1
        · subst hbe; simp [h]
        · simp [hbe, show ¬ e.1 = b from fun h => hbe h.symm]
    · intro b
      rw [e4 b, AMap.get_insert]
      obtain ⟨k, ds⟩ := e
      simp only [List.map_cons, List.mem_cons, AMap.get]
      by_cases hb : b ∈ es.map (·.1)
      · have : ¬ k = b := by rintro rfl; exact hnd.1 hb
        rw [if_pos hb, if_pos (Or.inr hb), if_neg this]
      · by_cases hbe : b = k
        · subst hbe; rw [if_neg hb, if_pos rfl, if_pos (Or.inl rfl), if_pos rfl]; rfl
        · rw [if_neg hb, if_neg hbe, if_neg (by simp only [hbe, hb, or_self, not_false_eq_true])]

theorem AMap.get_append {β : Type} (a b : AMap β) (k : Nat) :
    AMap.get (a ++ b) k = (AMap.get a k).or (AMap.get b k) := by
  induction a with
  | nil => simp
  | cons e a ih =>
    obtain ⟨x, v⟩ := e
    simp only [List.cons_append, AMap.get]
    split <;> simp [ih]

theorem resolveRest_spec (layers : OrderGraph) :
    ∀ (look : Dependents) (deps : AMap Nat), (∀ e ∈ layers.flatten, e.1 < look.length) →
    (layers.flatten.map (·.1)).Nodup → (AMap.keys deps).Nodup →
    ∃ look' deps', PathGenerator.resolveRest layers look deps = .ok (look', deps') ∧
      look'.length = look.length ∧
      (∀ b, b ∉ layers.flatten.map (·.1) → look'[b]? = look[b]?) ∧
      (∀ pre layer post, layers = pre ++ layer :: post → ∀ e ∈ layer,
        look'[e.1]? = some (PathGenerator.collectDependents e.1 post)) ∧
      (∀ b, deps'.get b = if b ∈ layers.flatten.map (·.1)
        then (AMap.get layers.flatten b).map List.length else deps.get b) ∧
      (AMap.keys deps').Nodup := by
  induction layers with
  | nil => intro look deps _ _ hk; exact ⟨look, deps, rfl, rfl, by simp, by simp, by simp, hk⟩
  | cons layer rest ih =>
    intro look deps hlt hnd hk
    simp only [List.flatten_cons, List.map_append, List.nodup_append'] at hnd
    obtain ⟨hn1, hn2, hdis⟩ := hnd
    obtain ⟨l1, d1, a1, a2, a3, a4, a5⟩ := resolveLayer_spec rest layer look deps
      (fun e he => hlt e (by simp [he])) hn1 hk
    obtain ⟨l2, d2, b1, b2, b3, b4, b5, b6⟩ := ih l1 d1
      (fun e he => by rw [a2]; exact hlt e (by rw [List.flatten_cons]; exact List.mem_append_right _ he))
      hn2 a5
    refine ⟨l2, d2, ?_, b2.trans a2, ?_, ?_, ?_, b6⟩
    · simp only [PathGenerator.resolveRest, a1, bind, Except.bind]; exact b1
    · intro b hb
      simp only [List.flatten_cons, List.map_append, List.mem_append, not_or] at hb
      rw [b3 b hb.2, a3 b, if_neg hb.1]
    · intro pre layer' post heq e he
      cases pre with
      | nil =>
        simp only [List.nil_append, List.cons.injEq] at heq
        obtain ⟨rfl, rfl⟩ := heq
        have hmem : e.1 ∈ layer.map (·.1) := List.mem_map.2 ⟨e, he, rfl⟩
        rw [b3 e.1 (fun h => hdis hmem h), a3, if_pos hmem]
      | cons x pre =>
        simp only [List.cons_append, List.cons.injEq] at heq
        exact b4 pre layer' post heq.2 e he
    · intro b
      rw [b5 b, a4 b]
      simp only [List.flatten_cons, List.map_append, List.mem_append, AMap.get_append]
      by_cases h1 : b ∈ layer.map (·.1)
      · have h2 : b ∉ rest.flatten.map (·.1) := fun h => hdis h1 h
        obtain ⟨e, he, rfl⟩ := List.mem_map.1 h1
        have : AMap.get layer e.1 = some e.2 := AMap.get_of_mem hn1 he
        rw [if_neg h2, if_pos h1, if_pos (Or.inl h1), this]; rfl
      · have : AMap.get layer b = none := by
          have := (AMap.mem_keys_iff (m := layer) (k := b)).not.1 h1
          simpa using this
        rw [this, if_neg h1]
        simp only [h1, false_or, Option.none_or]

theorem mem_collectDependents {x b : Nat} {rest : OrderGraph} :
    x ∈ PathGenerator.collectDependents b rest ↔ ∃ ds, (x, ds) ∈ rest.flatten ∧ b ∈ ds := by
  simp only [PathGenerator.collectDependents, List.mem_flatMap, List.mem_filterMap, List.mem_flatten,
    Prod.exists]
  constructor
  · rintro ⟨l, hl, y, ds, hy, h⟩
    split at h
    · rename_i hc
      simp only [Option.some.injEq] at h
      subst h
      exact ⟨ds, ⟨l, hl, hy⟩, by simpa using hc⟩
    · simp at h
  · rintro ⟨ds, ⟨l, hl, hx⟩, hb⟩
    exact ⟨l, hl, x, ds, hx, by simp [hb]⟩

theorem collectDependents_sublist (b : Nat) (rest : OrderGraph) :
    (PathGenerator.collectDependents b rest).Sublist (rest.flatten.map (·.1)) := by
  induction rest with
  | nil => simp [PathGenerator.collectDependents]
  | cons l rest ih =>
    simp only [PathGenerator.collectDependents, List.flatMap_cons, List.flatten_cons,
      List.map_append] at ih ⊢
    refine List.Sublist.append ?_ ih
    clear ih
    induction l with
    | nil => simp
    | cons e l ih =>
      simp only [List.filterMap_cons, List.map_cons]
      split
      · exact ih.cons _
      · rename_i h
        split at h
        · simp only [Option.some.injEq] at h; subst h; exact ih.cons_cons _
        · simp at h

/-- A bit occurs in one layer only. -/
theorem layer_unique {P : Problem} (hP : P.bits.Nodup) {i j : Nat} {l l' : List (Nat × List Nat)}
    (hi : P.order[i]? = some l) (hj : P.order[j]? = some l') {e e' : Nat × List Nat}
    (he : e ∈ l) (he' : e' ∈ l') (h : e.1 = e'.1) : i = j := by
  have key : ∀ (o : OrderGraph) (i j : Nat), (o.flatten.map (·.1)).Nodup → i < j →
      o[i]? = some l → o[j]? = some l' → False := by
    intro o
    induction o with
    | nil => intro i j _ _ h1; simp at h1
    | cons x o ih =>
      intro i j hnd hij h1 h2
      simp only [List.flatten_cons, List.map_append, List.nodup_append'] at hnd
      cases j with
      | zero => omega
      | succ j =>
        simp only [List.getElem?_cons_succ] at h2
        cases i with
        | zero =>
          simp only [List.getElem?_cons_zero, Option.some.injEq] at h1
          subst h1
          refine hnd.2.2 (List.mem_map.2 ⟨e, he, rfl⟩) (List.mem_map.2 ⟨e', ?_, h.symm⟩)
          exact List.mem_flatten.2 ⟨l', List.mem_of_getElem? h2, he'⟩
        | succ i =>
          simp only [List.getElem?_cons_succ] at h1
          exact ih i j hnd.2.1 (by omega) h1 h2
  have key' : ∀ (o : OrderGraph) (i j : Nat), (o.flatten.map (·.1)).Nodup → i < j →
      o[i]? = some l' → o[j]? = some l → False := by
    intro o
    induction o with
    | nil => intro i j _ _ h1; simp at h1
    | cons x o ih =>
      intro i j hnd hij h1 h2
      simp only [List.flatten_cons, List.map_append, List.nodup_append'] at hnd
      cases j with
      | zero => omega
      | succ j =>
        simp only [List.getElem?_cons_succ] at h2
        cases i with
        | zero =>
          simp only [List.getElem?_cons_zero, Option.some.injEq] at h1
          subst h1
          refine hnd.2.2 (List.mem_map.2 ⟨e', he', rfl⟩) (List.mem_map.2 ⟨e, ?_, h⟩)
          exact List.mem_flatten.2 ⟨l, List.mem_of_getElem? h2, he⟩
        | succ i =>
          simp only [List.getElem?_cons_succ] at h1
          exact ih i j hnd.2.1 (by omega) h1 h2
  rcases Nat.lt_trichotomy i j with hlt | heq | hgt
  · exact (key _ i j hP hlt hi hj).elim
  · exact heq
  · exact (key' _ j i hP hgt hj hi).elim

end Verif
