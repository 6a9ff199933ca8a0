import Verif.Proofs.InOrder
import Verif.Proofs.First
/-!
# Tasks one after another, in any order

The leaves of the tree come in blocks, one for each task. The shared results after some of the tasks are the curve of their
blocks, one after the other.
-/

namespace Verif
namespace AnyOrder

open Spec Search Search.Threaded InOrder

/-! ## The blocks -/

theorem below_done {P : Problem} (hP : Lax P) {p : Schedule} {s s' : Scheduler Partitioner} (hn : NextNone s s')
    (hs : StateFor P p s') (hi : IterOK s') : Below P (fun _ => false) p s' [] := by
  rcases nextAndFocus_spec hP hs hi with ⟨s2, h2, _, _⟩ | ⟨s2, c2, l2, m2, h2⟩
  · exact .done h2
  · have := h2.len
    rw [hn.done] at this
    simp at this

/-- The leaves of the tasks with a first step, and those of the rest. -/
theorem spawn_blocks {P : Problem} (hP : P.WF) {prof : Profile} {tb : Int} : ∀ (fuel : Nat) (r : Scheduler Partitioner) (k : Int),
    StateFor P [] r → IterOK r → r.time.measurable.iter.length < fuel → ∀ ts rest,
    spawnLoop prof tb fuel r k = .ok (ts, rest) → ∀ E, Below P (fun _ => false) [] r E →
    ∃ (Es : List (List (Schedule × Nat))) (Er : List (Schedule × Nat)), Es.length = ts.length ∧ E = (Es ++ [Er]).flatten ∧
      StateFor P [] rest ∧ IterOK rest ∧ Below P (fun _ => false) [] rest Er ∧
      ∀ (a : Nat) t, ts[a]? = some t → StateFor P [t.2] t.1 ∧ Fresh t.1 ∧ t.2 ≠ [] ∧
        ∃ rc, Below P (fun _ => false) [t.2] t.1 rc ∧ Es[a]? = some (rc ++ leafOf [t.2] t.1) := by
  intro fuel
  induction fuel with
  | zero => intro r k _ _ h; omega
  | succ fuel ih =>
    intro r k hs hi hf ts rest h E hE
    rcases nextAndFocus_spec hP.lax hs hi with ⟨r', hn, hs', hi'⟩ | ⟨r', c, l, m, hn⟩
    · simp only [spawnLoop, hn.eq prof, bind, Except.bind, pure, Except.pure, Except.ok.injEq, Prod.mk.injEq] at h
      obtain ⟨rfl, rfl⟩ := h
      have := hE.none hn
      subst this
      exact ⟨[], [], rfl, rfl, hs', hi', below_done hP.lax hn hs' hi', by simp⟩
    · obtain ⟨rc, r1, b1, b2, rfl⟩ := hE.next hn
      have hc : StateFor P [m] c := by simpa using hn.child
      have hown : StateFor P [m] c ∧ Fresh c ∧ m ≠ [] ∧ ∃ rc', Below P (fun _ => false) [m] c rc' ∧
          some (rc ++ leafOf [m] c) = some (rc' ++ leafOf [m] c) := ⟨hc, hn.fresh, hn.ne, rc, by simpa using b1, rfl⟩
      simp only [spawnLoop, hn.eq prof, bind, Except.bind, pure, Except.pure] at h
      split at h
      · simp only [Except.ok.injEq, Prod.mk.injEq] at h
        obtain ⟨rfl, rfl⟩ := h
        refine ⟨[rc ++ leafOf [m] c], r1, rfl, by simp, hn.state', hn.iter', b2, ?_⟩
        intro a t ha
        cases a with
        | zero =>
          simp only [List.getElem?_cons_zero, Option.some.injEq] at ha
          subst ha
          exact hown
        | succ a => simp at ha
      · cases hsp : spawnLoop prof tb fuel r' (k + 1) with
        | error e => rw [hsp] at h; cases h
        | ok x =>
          rw [hsp] at h
          simp only [Except.ok.injEq, Prod.mk.injEq] at h
          obtain ⟨rfl, rfl⟩ := h
          have hlen := hn.len
          obtain ⟨Es, Er, q1, q2, q3, q4, q5, q6⟩ := ih r' (k + 1) hn.state' hn.iter' (by omega) x.1 x.2 hsp r1 b2
          refine ⟨(rc ++ leafOf [m] c) :: Es, Er, by simp [q1], by rw [q2]; simp, q3, q4, q5, ?_⟩
          intro a t ha
          cases a with
          | zero =>
            simp only [List.getElem?_cons_zero, Option.some.injEq] at ha
            subst ha
            exact hown
          | succ a => exact q6 a t (by simpa using ha)

/-! ## One task -/

theorem iters_pinv {P : Problem} (hP : P.WF) {prof : Profile} {E : List (Schedule × Nat)} {l0 l : Loc} {j : Nat}
    (h : Iters prof l0 j l) (hl : LInv P [] (best0 P) l0) : ∀ {passed}, PInv P E passed l0 →
    ∃ passed', passed <+: passed' ∧ PInv P E passed' l := by
  induction h with
  | start => exact fun hp => ⟨_, List.prefix_refl _, hp⟩
  | @step j l l' h e ih =>
    intro passed hp
    obtain ⟨q, hpre, hq⟩ := ih hp
    have hl1 := h.inv hP hl
    obtain ⟨l1, stop, e1, e2⟩ := searchIter_spec hP.lax hl1.ok
    rw [e1 prof] at e
    simp only [Except.ok.injEq, Prod.mk.injEq] at e
    obtain ⟨rfl, rfl⟩ := e
    obtain ⟨q', hq', _, hpre'⟩ := e2.pinv hP hl1 hq
    exact ⟨q', hpre.trans hpre', hq'⟩

/-- The shared table and the shared results after the leaves `passed`; `o` is a root with nothing left. -/
structure After (P : Problem) (o : Scheduler Partitioner) (B : List Nat) (X : MappedPaths) (passed : List (Schedule × Nat)) :
    Prop where
  linv : LInv P [] (best0 P) ⟨⟨o, []⟩, [], B, X⟩
  pinv : PInv P passed passed ⟨⟨o, []⟩, [], B, X⟩

/-- `q` is the part of the block `b` that a task has passed. -/
def Part (cut : Prop) (b q : List (Schedule × Nat)) : Prop := q <+: b ∧ (¬ cut → q = b)

theorem Part.whole {cut : Prop} {b : List (Schedule × Nat)} : Part cut b b := ⟨List.prefix_refl _, fun _ => rfl⟩

/-- An interrupted walk. -/
theorem After.interrupted {P : Problem} (hP : P.WF) {prof : Profile} {o : Scheduler Partitioner} {l0 l : Loc} {j : Nat}
    {passed b : List (Schedule × Nat)} (ho : ∃ o', NextNone o o') (hos : StateFor P [] o) (hoi : IterOK o)
    (h : Iters prof l0 j l) (hl0 : LInv P [] (best0 P) l0) (hp0 : PInv P (passed ++ b) passed l0) :
    ∃ q, q <+: b ∧ After P o l.best l.results (passed ++ q) := by
  have hl := h.inv hP hl0
  obtain ⟨q, hge, hq⟩ := iters_pinv hP h hl0 hp0
  obtain ⟨todo, _, d2⟩ := hq.split
  obtain ⟨q', rfl⟩ := hge
  rw [List.append_assoc] at d2
  have d3 := List.append_cancel_left d2
  exact ⟨q', ⟨todo, d3.symm⟩, ⟨⟨.base hos hoi, hl.ok.best⟩, hl.sound, hl.anti, hl.le0, hl.b2, hl.b3, hl.b4, fun h => by simp at h⟩,
    ⟨[], .base (.done ho.choose_spec), by simp⟩, hq.found, hq.cov⟩

theorem After.own {P : Problem} (hP : P.WF) {cut : Prop} {prof : Profile} {o c : Scheduler Partitioner} {B : List Nat}
    {X X' : MappedPaths} {passed rc : List (Schedule × Nat)} {m : List Nat} {le : Loc} (ho : ∃ o', NextNone o o')
    (h : After P o B X passed) (hc : StateFor P [m] c) (hf : Fresh c) (hrc : Below P (fun _ => false) [m] c rc)
    (hmax : c.time.measurable.set = [] → c.space.maxMemory < at0 B 1)
    (he : Returned cut prof true (startLoc c (some m) B) le) (hX : Ov X le.results X') :
    ∃ X1 q, (∀ t, X1.get t = X'.get t) ∧ Part cut (rc ++ leafOf [m] c) q ∧ After P o le.best X1 (passed ++ q) := by
  have hl := h.linv
  have hl0 : LInv P [] (best0 P) ⟨⟨c, [o]⟩, [m], B, X⟩ :=
    ⟨⟨.push (p := []) hl.ok.chain (by simpa using hc) hf.iterOK, hl.ok.best⟩, hl.sound, hl.anti, hl.le0, hl.b2, hl.b3, hl.b4,
      fun _ hleaf => hmax hleaf⟩
  have hp0 : PInv P (passed ++ (rc ++ leafOf [m] c)) passed ⟨⟨c, [o]⟩, [m], B, X⟩ :=
    ⟨⟨_, .push hrc (.base (.done ho.choose_spec)), by simp⟩, h.pinv.found, h.pinv.cov⟩
  have hstart : onto ((startLoc c (some m) B).under o) X = ⟨⟨c, [o]⟩, [m], B, X⟩ := rfl
  obtain ⟨os, oi⟩ := hl.ok.chain.state
  rcases he with he | ⟨hcut, j, he⟩
  · obtain ⟨j, k1⟩ := ended_iters hP he
      (start_inv (init := some m) (by simpa [startPath] using hc) hf.iterOK hl.ok.best hl.anti) hf rfl o
    obtain ⟨X1, k2, k3⟩ := iters_onto (R := X) (X := X) k1 (Ov.nil X)
    have hend : onto (⟨⟨o, []⟩, (startPath (some m)).dropLast, le.best, le.results⟩ : Loc) X1 = ⟨⟨o, []⟩, [], le.best, X1⟩ := rfl
    rw [hstart, hend] at k2
    obtain ⟨q, _, hq⟩ := iters_pinv hP k2 hl0 hp0
    refine ⟨X1, _, fun t => by rw [k3 t, hX t], .whole, k2.inv hP hl0, ?_⟩
    obtain ⟨todo, d1, d2⟩ := hq.split
    have : todo = [] := by
      cases d1 with
      | base hb => exact hb.none ho.choose_spec
    subst this
    rw [List.append_nil] at d2
    rw [d2]
    exact ⟨⟨[], .base (.done ho.choose_spec), by simp⟩, hq.found, hq.cov⟩
  · obtain ⟨X1, k2, k3⟩ := iters_onto (R := X) (X := X) (iters_under he o) (Ov.nil X)
    rw [hstart] at k2
    obtain ⟨q, q1, q2⟩ := After.interrupted hP ho os oi k2 hl0 hp0
    exact ⟨X1, q, fun t => by rw [k3 t, hX t]; rfl, ⟨q1, fun h => (h hcut).elim⟩, q2⟩

theorem After.last {P : Problem} (hP : P.WF) {cut : Prop} {prof : Profile} {o r : Scheduler Partitioner} {B : List Nat}
    {X X' : MappedPaths} {passed Er : List (Schedule × Nat)} {le : Loc} (ho : ∃ o', NextNone o o')
    (h : After P o B X passed) (hr : StateFor P [] r) (hi : IterOK r) (hEr : Below P (fun _ => false) [] r Er)
    (he : Returned cut prof false (startLoc r none B) le) (hX : Ov X le.results X') :
    ∃ X1 q, (∀ t, X1.get t = X'.get t) ∧ Part cut Er q ∧ After P o le.best X1 (passed ++ q) := by
  have hl := h.linv
  have hl0 : LInv P [] (best0 P) ⟨⟨r, []⟩, [], B, X⟩ :=
    ⟨⟨.base hr hi, hl.ok.best⟩, hl.sound, hl.anti, hl.le0, hl.b2, hl.b3, hl.b4, fun h => by simp at h⟩
  have hp0 : PInv P (passed ++ Er) passed ⟨⟨r, []⟩, [], B, X⟩ := ⟨⟨_, .base hEr, rfl⟩, h.pinv.found, h.pinv.cov⟩
  have hstart : onto (startLoc r none B) X = ⟨⟨r, []⟩, [], B, X⟩ := rfl
  obtain ⟨os, oi⟩ := hl.ok.chain.state
  rcases he with ⟨j, l1, l2, e1, e2, e3⟩ | ⟨hcut, j, he⟩
  · simp only [finishLoop, Bool.false_eq_true, and_false, ↓reduceIte, pure, Except.pure, Except.ok.injEq] at e3
    subst e3
    obtain ⟨X1, f1, f2⟩ := iters_onto (R := X) (X := X) e1 (Ov.nil X)
    obtain ⟨X2, f3, f4⟩ := searchIter_onto e2 f2
    rw [hstart] at f1
    obtain ⟨q, _, hq⟩ := iters_pinv hP f1 hl0 hp0
    have hl1 := f1.inv hP hl0
    obtain ⟨l3, stop, g1, g2⟩ := searchIter_spec hP.lax hl1.ok
    rw [g1 prof] at f3
    simp only [Except.ok.injEq, Prod.mk.injEq] at f3
    obtain ⟨rfl, rfl⟩ := f3
    have hl2 := (g2.inv hl1).1
    obtain ⟨q', hq', hall, _⟩ := g2.pinv hP hl1 hq
    have := hall rfl
    subst this
    exact ⟨X2, _, fun t => by rw [f4 t, hX t], .whole, ⟨⟨hl.ok.chain, hl2.ok.best⟩, hl2.sound, hl2.anti, hl2.le0, hl2.b2, hl2.b3,
      hl2.b4, fun h => by simp at h⟩, ⟨[], .base (.done ho.choose_spec), by simp⟩, hq'.found, hq'.cov⟩
  · obtain ⟨X1, k2, k3⟩ := iters_onto (R := X) (X := X) he (Ov.nil X)
    rw [hstart] at k2
    obtain ⟨q, q1, q2⟩ := After.interrupted hP ho os oi k2 hl0 hp0
    exact ⟨X1, q, fun t => by rw [k3 t, hX t], ⟨q1, fun h => (h hcut).elim⟩, q2⟩

/-- As long as the task with everything in its first step has not run nothing takes one step only. -/
theorem After.one {P : Problem} (hP : P.WF) {o : Scheduler Partitioner} {B : List Nat} {X : MappedPaths}
    {passed : List (Schedule × Nat)} (h : After P o B X passed) {m : List Nat} (hv : P.Valid [m]) (hm : m ≠ [])
    (hno : ∀ e ∈ passed, ¬ StepEq e.1 [m]) : P.peak [m] < at0 B 1 := by
  have hn1 := hv.length_le hP
  have hpk := peak_lt_max hP [m]
  rcases h.linv.b2 1 with hz | ⟨t, u, S, g1, g2, _⟩
  · rw [at0_replicate, if_pos (by simpa using Nat.lt_succ_of_le hn1)] at hz
    change at0 B 1 = usizeMax at hz
    omega
  · exfalso
    have hmem := h.pinv.found t u S g2
    obtain ⟨k1, k2, _⟩ := h.linv.sound t u S g2
    rw [maximal_iff hP] at k1
    refine hno _ hmem ?_
    simp only
    match S, k1, k2 with
    | [], k1, _ =>
      exfalso
      have h1 := k1.perm
      have h2 := hv.perm
      simp only [List.flatten_nil, List.flatten_cons, List.append_nil] at h1 h2
      exact hm (List.perm_nil.1 (h2.trans h1.symm))
    | [x], k1, _ =>
      have h1 := k1.perm
      have h2 := hv.perm
      simp only [List.flatten_nil, List.flatten_cons, List.append_nil] at h1 h2
      simpa [StepEq] using h1.trans h2.symm
    | _ :: _ :: _, _, k2 =>
      simp only [List.length_cons] at k2
      omega

/-! ## All tasks -/

/-- The moves of the first task in the list, and those of the others. -/
theorem first_moves {i : Nat} : ∀ {ms : List (Nat × Bool)}, (∀ a b, a ≠ b → ¬ [a, b, a].Sublist (i :: ms.map (·.1))) →
    ∃ a b, ms = a ++ b ∧ (∀ m ∈ a, m.1 = i) ∧ (∀ m ∈ b, m.1 ≠ i) ∧
      (∀ c d, c ≠ d → ¬ [c, d, c].Sublist (b.map (·.1))) ∧ (i :: ms.map (·.1)).dedup = i :: (b.map (·.1)).dedup := by
  intro ms
  induction ms with
  | nil => exact fun _ => ⟨[], [], rfl, by simp, by simp, by simp, by simp⟩
  | cons m ms ih =>
    intro h
    by_cases hm : m.1 = i
    · obtain ⟨a, b, h1, h2, h3, h4, h5⟩ := ih (fun c d hcd hsub => h c d hcd (by
        rw [List.map_cons, hm]
        exact hsub.trans (List.sublist_cons_self _ _)))
      refine ⟨m :: a, b, by rw [h1]; rfl, ?_, h3, h4, ?_⟩
      · intro x hx
        rcases List.mem_cons.1 hx with rfl | hx
        · exact hm
        · exact h2 x hx
      · rw [List.map_cons, hm, List.dedup_cons_of_mem (by simp), h5]
    · have hni : ∀ x ∈ m :: ms, x.1 ≠ i := by
        intro x hx hxi
        rcases List.mem_cons.1 hx with rfl | hx
        · exact hm hxi
        · refine h i m.1 (fun h => hm h.symm) ?_
          refine .cons_cons _ (.cons_cons _ ?_)
          rw [List.singleton_sublist, ← hxi]
          exact List.mem_map_of_mem hx
      refine ⟨[], m :: ms, rfl, by simp, hni, fun c d hcd hsub => h c d hcd (hsub.trans (List.sublist_cons_self _ _)), ?_⟩
      rw [List.dedup_cons_of_notMem]
      intro hmem
      obtain ⟨x, hx, hxi⟩ := List.mem_map.1 hmem
      exact hni x hx hxi

/-- The block of a task. -/
abbrev blk (Es : List (List (Schedule × Nat))) (a : Nat) : List (Schedule × Nat) := Es[a]?.getD []

theorem blk_apart {Es : List (List (Schedule × Nat))} (h : Es.flatten.Pairwise fun a b => ¬ StepEq a.1 b.1) {a b : Nat}
    (hab : a ≠ b) {x y : Schedule × Nat} (hx : x ∈ blk Es a) (hy : y ∈ blk Es b) : ¬ StepEq x.1 y.1 := by
  have hpw := (List.pairwise_flatten.1 h).2
  rw [List.pairwise_iff_getElem] at hpw
  have look : ∀ {k : Nat} {z : Schedule × Nat}, z ∈ blk Es k → ∃ hk : k < Es.length, z ∈ Es[k] := by
    intro k z hz
    by_cases hk : k < Es.length
    · exact ⟨hk, by simpa [blk, List.getElem?_eq_getElem hk] using hz⟩
    · simp [blk, List.getElem?_eq_none (Nat.le_of_not_lt hk)] at hz
  obtain ⟨ha, hx⟩ := look hx
  obtain ⟨hb, hy⟩ := look hy
  rcases Nat.lt_or_gt_of_ne hab with h1 | h1
  · exact hpw a b ha hb h1 x hx y hy
  · exact fun hs => hpw b a hb ha h1 y hy x hx hs.symm

theorem mem_parts {cut : Nat → Prop} {Es Q : List (List (Schedule × Nat))} {D : List Nat}
    (h : List.Forall₂ (fun a q => Part (cut a) (blk Es a) q) D Q) {e : Schedule × Nat} (he : e ∈ Q.flatten) :
    ∃ a ∈ D, e ∈ blk Es a := by
  induction h with
  | nil => simp at he
  | @cons a q D Q h _ ih =>
    rw [List.flatten_cons, List.mem_append] at he
    rcases he with he | he
    · exact ⟨a, by simp, h.1.subset he⟩
    · obtain ⟨b, h1, h2⟩ := ih he
      exact ⟨b, by simp [h1], h2⟩

theorem all_tasks {F σ : Type} [FloatOps F] {P : Problem} (hP : P.WF) {cut : Nat → Prop} {prof : Profile} {g' : Global σ}
    (hfin : g'.finished = true) {o rest : Scheduler Partitioner} {ts : List (Scheduler Partitioner × List Nat)}
    {Es : List (List (Schedule × Nat))} {Er : List (Schedule × Nat)} (ho : ∃ o', NextNone o o')
    (hlen : Es.length = ts.length) (hpw : (Es ++ [Er]).flatten.Pairwise fun a b => ¬ StepEq a.1 b.1)
    (hrs : StateFor P [] rest) (hri : IterOK rest) (hEr : Below P (fun _ => false) [] rest Er)
    (hts : ∀ (a : Nat) t, ts[a]? = some t → StateFor P [t.2] t.1 ∧ Fresh t.1 ∧ t.2 ≠ [] ∧
        ∃ rc, Below P (fun _ => false) [t.2] t.1 rc ∧ Es[a]? = some (rc ++ leafOf [t.2] t.1)) :
    ∀ (n : Nat) (ms : List (Nat × Bool)) (g : Global σ) (X : MappedPaths) (D : List Nat) (Q : List (List (Schedule × Nat))),
    ms.length ≤ n →
    g.tasks.length = ts.length + 1 → (∀ m ∈ ms, m.1 ∉ D) →
    (∀ a t, a ∉ D → ts[a]? = some t → ∃ rng, g.tasks[a]? = some (.ready t.1 (some t.2) rng)) →
    (ts.length ∉ D → ∃ rng, g.tasks[ts.length]? = some (.ready rest none rng)) →
    (∀ a b, a ≠ b → ¬ [a, b, a].Sublist (ms.map (·.1))) → (∀ m ∈ ms, m.2 = true → cut m.1) →
    runMoves (.det : Mode F σ) prof g ms = .ok g' → (∀ t, X.get t = g.results.get t) →
    List.Forall₂ (fun a q => Part (cut a) (blk (Es ++ [Er]) a) q) D Q → After P o g.best X Q.flatten →
    ∃ X' Q', (∀ t, X'.get t = g'.results.get t) ∧
      List.Forall₂ (fun a q => Part (cut a) (blk (Es ++ [Er]) a) q) (D ++ (ms.map (·.1)).dedup) Q' ∧
      After P o g'.best X' Q'.flatten := by
  intro n
  induction n with
  | zero =>
    intro ms g X D Q hn _ _ _ _ _ _ hr hX hQ hA
    have : ms = [] := List.length_eq_zero_iff.1 (Nat.le_zero.1 hn)
    subst this
    simp only [runMoves, pure, Except.pure, Except.ok.injEq] at hr
    subst hr
    exact ⟨X, Q, hX, by simpa using hQ, hA⟩
  | succ n ih =>
    intro ms g X D Q hn hgl hD hown hlast hone hbit hr hX hQ hA
    cases ms with
    | nil =>
      simp only [runMoves, pure, Except.pure, Except.ok.injEq] at hr
      subst hr
      exact ⟨X, Q, hX, by simpa using hQ, hA⟩
    | cons m ms =>
      obtain ⟨a, b, rfl, h2, h3, h4, h5⟩ := first_moves (i := m.1) (ms := ms) (by simpa using hone)
      rw [List.map_cons, h5]
      have hmD : m.1 ∉ D := hD m (by simp)
      have h2' : ∀ x ∈ m :: a, x.1 = m.1 := by
        intro x hx
        rcases List.mem_cons.1 hx with rfl | hx
        · rfl
        · exact h2 x hx
      have hbit' : ∀ x ∈ m :: a, x.2 = true → cut m.1 := fun x hx hxt => h2' x hx ▸ hbit x (by
        rcases List.mem_cons.1 hx with rfl | hx
        · simp
        · simp [hx]) hxt
      have hr' : runMoves (.det : Mode F σ) prof g ((m :: a) ++ b) = .ok g' := hr
      have hbl : b.length ≤ n := by simp at hn; omega
      -- what the induction hypothesis needs
      have next : ∀ (g1 : Global σ) (X1 : MappedPaths) (q : List (Schedule × Nat)), g1.tasks.length = g.tasks.length →
          (∀ c, c ≠ m.1 → g1.tasks[c]? = g.tasks[c]?) → runMoves (.det : Mode F σ) prof g1 b = .ok g' →
          (∀ t, X1.get t = g1.results.get t) → Part (cut m.1) (blk (Es ++ [Er]) m.1) q → After P o g1.best X1 (Q.flatten ++ q) →
          ∃ X' Q', (∀ t, X'.get t = g'.results.get t) ∧
            List.Forall₂ (fun a q => Part (cut a) (blk (Es ++ [Er]) a) q) (D ++ m.1 :: (b.map (·.1)).dedup) Q' ∧
            After P o g'.best X' Q'.flatten := by
        intro g1 X1 q q1 q2 q3 q4 q5 q6
        obtain ⟨X', Q', r1, r2, r3⟩ := ih b g1 X1 (D ++ [m.1]) (Q ++ [q]) hbl (by rw [q1, hgl]) (fun x hx => by
            simp only [List.mem_append, List.mem_singleton, not_or]
            exact ⟨hD x (by simp [hx]), h3 x hx⟩)
          (fun c t hc ht => by
            simp only [List.mem_append, List.mem_singleton, not_or] at hc
            rw [q2 c hc.2]
            exact hown c t hc.1 ht)
          (fun hc => by
            simp only [List.mem_append, List.mem_singleton, not_or] at hc
            rw [q2 _ hc.2]
            exact hlast hc.1) h4 (fun x hx => hbit x (by simp [hx])) q3 q4
          (List.rel_append hQ (.cons q5 .nil)) (by simpa using q6)
        exact ⟨X', Q', r1, by simpa using r2, r3⟩
      have hl := hA.linv
      rcases Nat.lt_trichotomy m.1 ts.length with hlt | heq | hgt
      · -- a task with a first step
        have ht : ts[m.1]? = some ts[m.1] := List.getElem?_eq_getElem hlt
        obtain ⟨rng, hg⟩ := hown m.1 _ hmD ht
        obtain ⟨s1, s2, s3, rc, s4, s5⟩ := hts m.1 _ ht
        generalize ts[m.1] = t at hg s1 s2 s3 s4 s5
        obtain ⟨c, st⟩ := t
        simp only at hg s1 s2 s3 s4 s5
        have hblk : blk (Es ++ [Er]) m.1 = rc ++ leafOf [st] c := by
          rw [blk, List.getElem?_append_left (by omega), s5]; rfl
        have hbig : c.time.measurable.set = [] → c.space.maxMemory < at0 g.best 1 := by
          intro hset
          have hv : P.Valid [st] := (maximal_iff hP).1 ((leaf_maximal s1).1 hset)
          rw [leaf_max s1]
          refine hA.one hP hv s3 fun e he => ?_
          obtain ⟨k, hk, he⟩ := mem_parts hQ he
          refine blk_apart hpw (b := m.1) (fun h => hmD (h ▸ hk)) he (y := ([st], c.space.maxMemory)) ?_
          rw [hblk, leafOf, if_pos hset]
          simp
        obtain ⟨g1, le, k1, k2, k3, k4, k5⟩ := whole_task hP hg (by simpa [startPath] using s1) s2.iterOK (fun _ => s2)
          hl.ok.best hl.anti (by
            intro hv _
            have hv' : P.Valid [st] := by simpa [startPath] using hv
            have := hbig ((leaf_maximal s1).2 ((maximal_iff hP).2 hv'))
            rw [leaf_max s1] at this
            exact Nat.le_of_lt this) h2' h3 hbit' hr' hfin
        have k5' : Ov X le.results g1.results := fun t => by rw [k5 t, hX t]
        obtain ⟨X1, q, r1, r2, r3⟩ := hA.own hP ho s1 s2 s4 hbig k3 k5'
        exact next g1 X1 q (by rw [k2, List.length_set]) (fun k hk => by rw [k2, List.getElem?_set_ne (fun h => hk h.symm)]) k1 r1
          (by rw [hblk]; exact r2) (by rw [k4]; exact r3)
      · -- the rest
        obtain ⟨rng, hg⟩ := hlast (heq ▸ hmD)
        rw [← heq] at hg
        have hblk : blk (Es ++ [Er]) m.1 = Er := by
          rw [blk, List.getElem?_append_right (by omega), heq, hlen]
          simp
        obtain ⟨g1, le, k1, k2, k3, k4, k5⟩ := whole_task hP hg (by simpa [startPath] using hrs) hri (by simp)
          hl.ok.best hl.anti (by simp) h2' h3 hbit' hr' hfin
        have k5' : Ov X le.results g1.results := fun t => by rw [k5 t, hX t]
        obtain ⟨X1, q, r1, r2, r3⟩ := hA.last hP ho hrs hri hEr k3 k5'
        exact next g1 X1 q (by rw [k2, List.length_set]) (fun k hk => by rw [k2, List.getElem?_set_ne (fun h => hk h.symm)]) k1 r1
          (by rw [hblk]; exact r2) (by rw [k4]; exact r3)
      · -- no task has this number
        obtain ⟨g1, k1, k2⟩ := runMoves_split hr'
        have := runMoves_beyond (fun x hx => by rw [h2' x hx, hgl]; omega) k1
        subst this
        have hblk : blk (Es ++ [Er]) m.1 = [] := by
          rw [blk, List.getElem?_eq_none (by simp; omega)]; rfl
        exact next g1 X [] rfl (fun _ _ => rfl) k2 hX (by rw [hblk]; exact .whole) (by rw [List.append_nil]; exact hA)

/-! ## The blocks once more -/

/-- The leaves `E` task by task, where the tasks begin with the steps `M`; the last task has the leaves that begin otherwise. -/
def blocks (M : List (List Nat)) (E : List (Schedule × Nat)) : List (List (Schedule × Nat)) :=
  M.map (fun m => E.filter fun e => e.1.head? = some m) ++ [E.filter fun e => ∀ m ∈ M, e.1.head? ≠ some m]

theorem blocks_eq {M : List (List Nat)} {Es : List (List (Schedule × Nat))} {Er : List (Schedule × Nat)}
    (h : List.Forall₂ (fun m es => ∀ e ∈ es, e.1.head? = some m) M Es) (hM : M.Nodup)
    (hr : ∀ e ∈ Er, ∀ m ∈ M, e.1.head? ≠ some m) : blocks M (Es.flatten ++ Er) = Es ++ [Er] := by
  unfold blocks
  have hin : ∀ {M : List (List Nat)} {Es : List (List (Schedule × Nat))},
      List.Forall₂ (fun m es => ∀ e ∈ es, e.1.head? = some m) M Es → ∀ e ∈ Es.flatten, ∃ m ∈ M, e.1.head? = some m := by
    intro M Es h
    induction h with
    | nil => simp
    | @cons m es M Es h1 _ ih =>
      intro e he
      rw [List.flatten_cons, List.mem_append] at he
      rcases he with he | he
      · exact ⟨m, by simp, h1 e he⟩
      · obtain ⟨m', h2, h3⟩ := ih e he
        exact ⟨m', by simp [h2], h3⟩
  congr 1
  · induction h with
    | nil => rfl
    | @cons m es M Es h1 h2 ih =>
      obtain ⟨hm, hM⟩ := List.nodup_cons.1 hM
      rw [List.map_cons]
      congr 1
      · rw [List.flatten_cons, List.append_assoc, List.filter_append, List.filter_eq_self.2 (by simpa using h1)]
        have : ((Es.flatten ++ Er).filter fun e => e.1.head? = some m) = [] := by
          rw [List.filter_eq_nil_iff]
          intro e he
          rw [decide_eq_true_eq]
          intro hh
          rcases List.mem_append.1 he with he | he
          · obtain ⟨m', k1, k2⟩ := hin h2 e he
            rw [hh] at k2
            simp only [Option.some.injEq] at k2
            exact hm (k2 ▸ k1)
          · exact hr e he m (by simp) hh
        rw [this, List.append_nil]
      · rw [← ih hM fun e he m' hm' => hr e he m' (by simp [hm'])]
        refine List.map_congr_left fun m' hm' => ?_
        rw [List.flatten_cons, List.append_assoc, List.filter_append]
        have : (es.filter fun e => e.1.head? = some m') = [] := by
          rw [List.filter_eq_nil_iff]
          intro e he
          rw [decide_eq_true_eq, h1 e he]
          intro hh
          simp only [Option.some.injEq] at hh
          exact hm (hh ▸ hm')
        rw [this, List.nil_append]
        rw [ih hM fun e he m' hm' => hr e he m' (by simp [hm'])] at *
  · rw [List.filter_append, List.filter_eq_nil_iff.2, List.nil_append, List.filter_eq_self.2]
    · intro e he
      rw [decide_eq_true_eq]
      exact hr e he
    · intro e he hh
      rw [decide_eq_true_eq] at hh
      obtain ⟨m, k1, k2⟩ := hin h e he
      exact hh m k1 k2

theorem exhaust {P : Problem} {skip : Schedule → Bool} {p : Schedule} {s : Scheduler Partitioner} {r : List (Schedule × Nat)}
    (h : Below P skip p s r) : StateFor P p s → IterOK s → ∃ o, StateFor P p o ∧ IterOK o ∧ ∃ o', NextNone o o' := by
  induction h with
  | done h => exact fun h1 h2 => ⟨_, h1, h2, _, h⟩
  | skip h _ _ ih => exact fun _ _ => ih h.state' h.iter'
  | child h _ _ _ _ ih => exact fun _ _ => ih h.state' h.iter'

/-- The results of a search whose tasks work one after another. -/
theorem searchThreaded_any_order {F σ : Type} [FloatOps F] {P : Problem} (hP : P.WF) {cut : Nat → Prop} {tb : Int} {seeds : Nat → σ}
    {moves : List (Nat × Bool)} {prof : Profile} {hashIter : MappedPaths → MappedPaths} (hh : ∀ m, (hashIter m).Perm m)
    {out : List Path} (hbit : ∀ m ∈ moves, m.2 = true → cut m.1) (hone : ∀ a b, a ≠ b → ¬ [a, b, a].Sublist (moves.map (·.1)))
    (h : searchThreaded (.det : Mode F σ) prof hashIter tb seeds moves P.graph P.order = .ok (some out))
    {s : Scheduler Partitioner} (e1 : mkScheduler P.graph P.order = .ok s) (hs : StateFor P [] s) (hf : Fresh s)
    {E : List (Schedule × Nat)} (hE : Below P (fun _ => false) [] s E) :
    ∃ (ts : List (Scheduler Partitioner × List Nat)) (rest : Scheduler Partitioner) (Q : List (List (Schedule × Nat))),
      (∀ prof, spawnLoop prof tb (s.time.measurable.iter.length + 1) s 0 = .ok (ts, rest)) ∧
      List.Forall₂ (fun a q => Part (cut a) (blk (blocks (ts.map (·.2)) E) a) q) (moves.map (·.1)).dedup Q ∧
      (out.Pairwise fun a b => a.time < b.time) ∧ ∀ p : Path, p ∈ out ↔ OnCurve Q.flatten p.time p.space p.steps := by
  obtain ⟨s0, g, g', a1, a2, a3, a4, a5⟩ := searchThreaded_ok h
  rw [e1] at a1
  simp only [Except.ok.injEq] at a1
  subst a1
  obtain ⟨ts, rest, f1, _, _, _, _, ⟨tail, f6, f7⟩, _⟩ :=
    spawnLoop_spec hP.lax tb (s.time.measurable.iter.length + 1) s 0 hs hf.iterOK (by omega)
  obtain ⟨Es, Er, b1, b2, b3, b4, b5, b6⟩ := spawn_blocks hP _ s 0 hs hf.iterOK (by omega) ts rest (f1 prof) E hE
  obtain ⟨o, o1, o2, o3⟩ := exhaust hE hs hf.iterOK
  have hpw := hE.nodup hP hs hf.iterOK
  rw [b2] at hpw
  -- the steps are different
  have hset : s.time.measurable.set.Nodup := hs.time.set_nodup
  have hsoon := items_pairwise hset
  rw [← hf.rem, ← List.pairwise_map (f := Prod.snd) (R := Sooner s.time.measurable.set), f6, List.pairwise_append] at hsoon
  have hnd : (ts.map (·.2)).Nodup := hsoon.1.imp fun h heq => by
    subst heq
    exact Spec.Sooner.irrefl h
  have hrest : ∀ e ∈ Er, ∀ m ∈ ts.map (·.2), e.1.head? ≠ some m := by
    intro e he m hm hh
    obtain ⟨_, _, _, l, m', c1, c2, c3⟩ := b5.sound hP e he
    rw [List.length_nil, ← List.head?_eq_getElem?, hh] at c1
    simp only [Option.some.injEq] at c1
    subst c1
    have hmem : m ∈ (rem rest).map (·.2) := List.mem_map_of_mem c2
    rcases f7 with f7 | ⟨f7, _⟩
    · rw [f7] at hmem
      exact Spec.Sooner.irrefl (hsoon.2.2 m hm m hmem)
    · rw [f7] at hmem
      simp at hmem
  have hblocks : blocks (ts.map (·.2)) E = Es ++ [Er] := by
    rw [b2, List.flatten_append, List.flatten_singleton]
    refine blocks_eq (List.forall₂_iff_get.2 ⟨by simp [b1], fun i h1 h2 => ?_⟩) hnd hrest
    simp only [List.length_map] at h1
    obtain ⟨k1, k2, k3, rc, k4, k5⟩ := b6 i _ (List.getElem?_eq_getElem h1)
    rw [List.getElem?_eq_getElem h2, Option.some.injEq] at k5
    intro e he
    rw [List.get_eq_getElem, k5, List.mem_append] at he
    simp only [List.get_eq_getElem, List.getElem_map]
    rcases he with he | he
    · have := (k4.sound hP e he).2.2.1
      cases h : e.1 with
      | nil => rw [h] at this; simp at this
      | cons x xs =>
        rw [h] at this
        simpa using this
    · unfold leafOf at he
      split at he
      · rw [List.mem_singleton.1 he]
        rfl
      · simp at he
  simp only [initGlobal, spawn, f1 prof, bind, Except.bind, pure, Except.pure, Except.ok.injEq] at a2
  subst a2
  have hA : After P o (best0 P) [] [] := by
    refine ⟨start_inv (init := none) (by simpa [startPath] using o1) o2 (by simp) (anti_replicate _ _), ?_, ?_, ?_⟩
    · exact ⟨[], .base (.done o3.choose_spec), rfl⟩
    · intro t m S hg; simp at hg
    · intro i e hi; simp at hi
  obtain ⟨X', Q, d1, d3, d2⟩ := all_tasks hP a4 o3 b1 hpw b3 b4 b5 b6 moves.length moves _ [] [] [] (Nat.le_refl _) (by simp) (by simp)
    (fun a t _ hat => by
      obtain ⟨ha, hat⟩ := List.getElem?_eq_some_iff.1 hat
      refine ⟨seeds a, ?_⟩
      rw [List.getElem?_append_left (by simpa using ha)]
      simp [ha, hat]) (fun _ => ⟨seeds ts.length, by simp⟩) hone hbit a3 (fun _ => rfl) .nil hA
  obtain ⟨out', p1, p2⟩ := postprocess_spec hashIter hh P.n X'
  have p1' : postprocess hashIter P.graph.length X' = .ok out' := p1
  rw [postprocess_congr (r' := g'.results) d1, a5] at p1'
  simp only [Except.ok.injEq] at p1'
  subst p1'
  rw [← hblocks, List.nil_append] at d3
  refine ⟨ts, rest, Q, f1, d3, p2.sorted, ?_⟩
  apply p2.onCurve hP d2.linv d2.pinv
  intro e he
  obtain ⟨k, _, hk⟩ := mem_parts d3 he
  rw [hblocks] at hk
  have : e ∈ E := by
    rw [b2, List.mem_flatten]
    by_cases hkl : k < (Es ++ [Er]).length
    · exact ⟨_, List.getElem_mem hkl, by simpa [blk, List.getElem?_eq_getElem hkl] using hk⟩
    · simp [blk, List.getElem?_eq_none (Nat.le_of_not_lt hkl)] at hk
  have := hE.sound hP e this
  exact ⟨this.1, this.2.1⟩

end AnyOrder
end Verif
