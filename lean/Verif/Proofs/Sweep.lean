import Verif.Proofs.Terminate
/-!
# Iterating a sweep to its end
-/

namespace Verif

open Spec Search

/-- The client loop of the documentation (xdocs/scheduler.md): iterate over the sweep, maintain the
current path and collect the path at every `Backward(Some(_))`. After a `Forward` step the client
calls `skip_current` if `skip` says so of the path. `fuel` bounds the number of iterations (`none`:
fuel exhausted). -/
def Sweep.enumerate {T Leaf : Type} (fi : FocusIter T (List Nat) Leaf) (skip : Schedule → Bool) :
    Nat → Sweep T → Schedule → R (Option (List (Schedule × Leaf)))
  | 0, _, _ => pure none
  | fuel + 1, sw, p => do
    let (sw', step) ← sw.next fi
    match step with
    | none => pure (some [])
    | some (.forward m) =>
      if skip (p ++ [m]) then
        match sw'.skipCurrent with
        | (sw'', .ok ()) => Sweep.enumerate fi skip fuel sw'' p
        | (_, .error _) => .error .unwrapFailed
      else Sweep.enumerate fi skip fuel sw' (p ++ [m])
    | some (.backward leaf) => do
      let rest ← Sweep.enumerate fi skip fuel sw' p.dropLast
      pure (rest.map fun r => match leaf with
        | some mem => (p, mem) :: r
        | none => r)

theorem next_some {P : Problem} {p : Schedule} {s s' c : Scheduler Partitioner} {l m : List Nat}
    (h : NextSome P p s s' c l m) (prof : Profile) (st : List (Scheduler Partitioner)) :
    Sweep.next (Scheduler.focusIter prof) ⟨s, st⟩ = .ok (⟨c, s' :: st⟩, some (.forward m)) := by
  simp [Sweep.next, Scheduler.focusIter, h.eq prof, bind, Except.bind, pure, Except.pure]

theorem next_none {s s' : Scheduler Partitioner} (h : NextNone s s') (prof : Profile)
    (st : List (Scheduler Partitioner)) :
    Sweep.next (Scheduler.focusIter prof) ⟨s, st⟩ =
      match st with
      | [] => .ok (⟨s', []⟩, none)
      | t :: r => .ok (⟨t, r⟩, some (.backward s.atLeaf)) := by
  simp only [Sweep.next, Scheduler.focusIter, h.eq prof, bind, Except.bind, pure, Except.pure,
    h.atLeaf]
  cases st <;> rfl

/-- The leaf that is reported when the sweep leaves the state `c` at path `p`. -/
def leafOf (p : Schedule) (c : Scheduler Partitioner) : List (Schedule × Nat) :=
  if c.time.measurable.set = [] then [(p, c.space.maxMemory)] else []

/-- `Below P skip p s r`: what a sweep still collects strictly below the state `s` at path `p`. -/
inductive Below (P : Problem) (skip : Schedule → Bool) :
    Schedule → Scheduler Partitioner → List (Schedule × Nat) → Prop
  | done {p : Schedule} {s s' : Scheduler Partitioner} (h : NextNone s s') : Below P skip p s []
  | skip {p : Schedule} {s s' c : Scheduler Partitioner} {l m : List Nat}
      {r : List (Schedule × Nat)} (h : NextSome P p s s' c l m) (hs : skip (p ++ [m]) = true)
      (hr : Below P skip p s' r) : Below P skip p s r
  | child {p : Schedule} {s s' c : Scheduler Partitioner} {l m : List Nat}
      {rc r : List (Schedule × Nat)} (h : NextSome P p s s' c l m) (hs : skip (p ++ [m]) = false)
      (hc : Below P skip (p ++ [m]) c rc) (hr : Below P skip p s' r) :
      Below P skip p s (rc ++ leafOf (p ++ [m]) c ++ r)

theorem NextSome.unmeasured_lt {P : Problem} {p : Schedule} {s s' c : Scheduler Partitioner}
    {l m : List Nat} (hn : NextSome P p s s' c l m) :
    unmeasured P (p ++ [m]) + 1 ≤ unmeasured P p := by
  have hm := List.length_pos_iff.2 hn.ne
  have hle := nodup_length_le_bits hn.child.pre.nodup hn.child.pre.sub
  unfold unmeasured
  simp only [List.flatten_append, List.flatten_cons, List.flatten_nil, List.append_nil,
    List.length_append] at hle ⊢
  omega

/-- Every reachable state has a finite enumeration below it. -/
theorem exists_below {P : Problem} (hP : P.WF) (skip : Schedule → Bool) :
    ∀ (u i : Nat) (p : Schedule) (s : Scheduler Partitioner), StateFor P p s → IterOK s →
    unmeasured P p ≤ u → s.time.measurable.iter.length ≤ i → ∃ r, Below P skip p s r := by
  intro u
  induction u with
  | zero =>
    intro i p s hs hi hu _
    rcases nextAndFocus_spec hP.lax hs hi with ⟨s', h, _, _⟩ | ⟨s', c, l, m, h⟩
    · exact ⟨[], .done h⟩
    · have := h.unmeasured_lt
      omega
  | succ u ihu =>
    intro i
    induction i with
    | zero =>
      intro p s hs hi hu hl
      rcases nextAndFocus_spec hP.lax hs hi with ⟨s', h, _, _⟩ | ⟨s', c, l, m, h⟩
      · exact ⟨[], .done h⟩
      · have := h.len
        omega
    | succ i ihi =>
      intro p s hs hi hu hl
      rcases nextAndFocus_spec hP.lax hs hi with ⟨s', h, _, _⟩ | ⟨s', c, l, m, h⟩
      · exact ⟨[], .done h⟩
      · have hlen := h.len
        obtain ⟨r, hr⟩ := ihi p s' h.state' h.iter' hu (by omega)
        have hu' := h.unmeasured_lt
        obtain ⟨rc, hrc⟩ := ihu _ (p ++ [m]) c h.child h.fresh.iterOK (by omega) (Nat.le_refl _)
        cases hsk : skip (p ++ [m]) with
        | true => exact ⟨r, .skip h hsk hr⟩
        | false => exact ⟨_, .child h hsk hrc hr⟩

theorem enumerate_mono {T Leaf : Type} (fi : FocusIter T (List Nat) Leaf) (skip : Schedule → Bool)
    (fuel : Nat) : ∀ (sw : Sweep T) (p : Schedule) (r : List (Schedule × Leaf)),
    Sweep.enumerate fi skip fuel sw p = .ok (some r) →
    ∀ fuel', fuel ≤ fuel' → Sweep.enumerate fi skip fuel' sw p = .ok (some r) := by
  induction fuel with
  | zero => intro sw p r h; cases h
  | succ fuel ih =>
    intro sw p r h fuel' hf
    obtain ⟨k, rfl⟩ : ∃ k, fuel' = k + 1 := ⟨fuel' - 1, by omega⟩
    rw [Sweep.enumerate] at h ⊢
    cases hn : sw.next fi with
    | error e => rw [hn] at h; cases h
    | ok x =>
      obtain ⟨sw', step⟩ := x
      simp only [hn, bind, Except.bind] at h ⊢
      cases step with
      | none => exact h
      | some st =>
        cases st with
        | forward m =>
          simp only at h ⊢
          split
          · rename_i hs
            rw [if_pos hs] at h
            cases hsk : sw'.skipCurrent with
            | mk sw'' e =>
              rw [hsk] at h
              cases e with
              | error x => cases h
              | ok u => exact ih _ _ _ h k (by omega)
          · rename_i hs
            rw [if_neg hs] at h
            exact ih _ _ _ h k (by omega)
        | backward leaf =>
          simp only at h ⊢
          cases he : Sweep.enumerate fi skip fuel sw' p.dropLast with
          | error e => rw [he] at h; cases h
          | ok o =>
            cases o with
            | none =>
              rw [he] at h
              simp [pure, Except.pure] at h
            | some rest =>
              rw [he] at h
              rw [ih _ _ _ he k (by omega)]
              exact h

/-- Below the state on top, then its leaf (if it is not the root), then the rest. -/
theorem enumerate_below {P : Problem} {skip : Schedule → Bool} {p : Schedule}
    {s : Scheduler Partitioner} {r : List (Schedule × Nat)} (h : Below P skip p s r) :
    ∀ (prof : Profile) (st : List (Scheduler Partitioner)) (out : List (Schedule × Nat)) (f : Nat),
    (∀ t rest, st = t :: rest →
      Sweep.enumerate (Scheduler.focusIter prof) skip f ⟨t, rest⟩ p.dropLast = .ok (some out)) →
    (st = [] → out = []) →
    ∃ fuel, Sweep.enumerate (Scheduler.focusIter prof) skip fuel ⟨s, st⟩ p =
      .ok (some (r ++ (match st with | [] => [] | _ :: _ => leafOf p s) ++ out)) := by
  induction h with
  | @done p s s' h =>
    intro prof st out f hk h0
    refine ⟨f + 1, ?_⟩
    rw [Sweep.enumerate, next_none h prof]
    cases st with
    | nil => simp [h0 rfl, bind, Except.bind, pure, Except.pure]
    | cons t rest =>
      simp only [bind, Except.bind]
      rw [hk t rest rfl]
      simp only [atLeaf_eq, leafOf]
      split <;> simp [pure, Except.pure]
  | @skip p s s' c l m r h hs hr ih =>
    intro prof st out f hk h0
    obtain ⟨fuel, e⟩ := ih prof st out f hk h0
    refine ⟨fuel + 1, ?_⟩
    rw [Sweep.enumerate, next_some h prof]
    simp only [bind, Except.bind, hs, if_true, Sweep.skipCurrent]
    rw [e]
    cases st with
    | nil => rfl
    | cons t rest => simp [leafOf, h.set, h.space]
  | @child p s s' c l m rc r h hs hc hr ihc ihr =>
    intro prof st out f hk h0
    obtain ⟨fuel1, e1⟩ := ihr prof st out f hk h0
    obtain ⟨fuel2, e2⟩ := ihc prof (s' :: st) _ fuel1 (by
      intro t rest he
      injection he with he1 he2
      subst he1 he2
      rw [List.dropLast_concat]
      exact e1) (by simp)
    refine ⟨fuel2 + 1, ?_⟩
    rw [Sweep.enumerate, next_some h prof]
    simp only [bind, Except.bind, hs, Bool.false_eq_true, if_false]
    rw [e2]
    cases st with
    | nil => simp
    | cons t rest => simp [leafOf, h.set, h.space]

/-- Iterating a fresh sweep to its end. -/
theorem enumerate_spec {P : Problem} {skip : Schedule → Bool} {p : Schedule}
    {s : Scheduler Partitioner} {r : List (Schedule × Nat)} (h : Below P skip p s r) :
    ∃ N, ∀ fuel, N ≤ fuel → ∀ prof,
      Sweep.enumerate (Scheduler.focusIter prof) skip fuel (Sweep.new s) p = .ok (some r) := by
  obtain ⟨f1, e1⟩ := enumerate_below h .debug [] [] 0 (by simp) (by simp)
  obtain ⟨f2, e2⟩ := enumerate_below h .release [] [] 0 (by simp) (by simp)
  simp only [List.append_nil] at e1 e2
  refine ⟨max f1 f2, fun fuel hf prof => ?_⟩
  cases prof
  · exact enumerate_mono _ _ _ _ _ _ e1 fuel (by omega)
  · exact enumerate_mono _ _ _ _ _ _ e2 fuel (by omega)

/-- `S` passes no path that is skipped, beyond the path of length `k`. -/
def unskipped (skip : Schedule → Bool) (k : Nat) (S : Schedule) : Bool :=
  (List.range' (k + 1) (S.length - k)).all fun j => !skip (S.take j)

/-- What is collected below a state starts with its path and goes on with an item still on offer. -/
theorem Below.sound {P : Problem} (hP : P.WF) {skip : Schedule → Bool} {p : Schedule}
    {s : Scheduler Partitioner} {r : List (Schedule × Nat)} (h : Below P skip p s r) :
    ∀ e ∈ r, P.Valid e.1 ∧ e.2 = P.peak e.1 ∧ e.1.take p.length = p ∧
      ∃ l m, e.1[p.length]? = some m ∧ (l, m) ∈ rem s ∧ m ≠ [] := by
  induction h with
  | done h => intro e he; cases he
  | skip h hs hr ih =>
    intro e he
    obtain ⟨h1, h2, h3, l, m, h4, h5, h6⟩ := ih e he
    exact ⟨h1, h2, h3, l, m, h4, by rw [h.rem]; exact List.mem_cons_of_mem _ h5, h6⟩
  | @child p s s' c l m rc r h hs hc hr ihc ihr =>
    have take_succ : ∀ S : Schedule, S.take (p ++ [m]).length = p ++ [m] →
        S.take p.length = p ∧ S[p.length]? = some m := by
      intro S hS
      constructor
      · have : (S.take (p ++ [m]).length).take p.length = p := by rw [hS]; simp
        rw [List.take_take] at this
        simpa using this
      · have : (S.take (p ++ [m]).length)[p.length]? = some m := by rw [hS]; simp
        rw [List.getElem?_take] at this
        simpa using this
    intro e he
    rw [List.mem_append, List.mem_append] at he
    rcases he with (he | he) | he
    · obtain ⟨h1, h2, h3, _⟩ := ihc e he
      obtain ⟨h4, h5⟩ := take_succ e.1 h3
      exact ⟨h1, h2, h4, l, m, h5, by rw [h.rem]; exact List.mem_cons_self, h.ne⟩
    · unfold leafOf at he
      split at he
      · rename_i hleaf
        rw [List.mem_singleton] at he
        subst he
        refine ⟨leaf_valid hP h.child hleaf, h.child.space.max, by simp, l, m, by simp, ?_, h.ne⟩
        rw [h.rem]; exact List.mem_cons_self
      · cases he
    · obtain ⟨h1, h2, h3, l', m', h4, h5, h6⟩ := ihr e he
      exact ⟨h1, h2, h3, l', m', h4, by rw [h.rem]; exact List.mem_cons_of_mem _ h5, h6⟩

/-- A sublist of a duplicate-free list is determined by its members. -/
theorem sublist_eq_of_perm {α : Type} : ∀ (t a b : List α), t.Nodup → a.Sublist t → b.Sublist t → a.Perm b → a = b := by
  intro t
  induction t with
  | nil =>
    intro a b _ ha hb _
    rw [List.sublist_nil] at ha hb
    rw [ha, hb]
  | cons x t ih =>
    intro a b hn ha hb hab
    rw [List.nodup_cons] at hn
    rcases List.sublist_cons_iff.1 ha with ha1 | ⟨a', rfl, ha1⟩
    · rcases List.sublist_cons_iff.1 hb with hb1 | ⟨b', rfl, hb1⟩
      · exact ih a b hn.2 ha1 hb1 hab
      · exact (hn.1 (ha1.subset (hab.mem_iff.2 List.mem_cons_self))).elim
    · rcases List.sublist_cons_iff.1 hb with hb1 | ⟨b', rfl, hb1⟩
      · exact (hn.1 (hb1.subset (hab.mem_iff.1 List.mem_cons_self))).elim
      · rw [ih a' b' hn.2 ha1 hb1 ((List.perm_cons x).1 hab)]

/-- Items on offer are pairwise different as sets. -/
theorem rem_pairwise {P : Problem} {p : Schedule} {s : Scheduler Partitioner}
    (h : StateFor P p s) (hi : IterOK s) :
    ((rem s).map (·.2)).Nodup ∧ ∀ l m l' m', (l, m) ∈ rem s → (l', m') ∈ rem s → m.Perm m' → m = m' := by
  obtain ⟨gone, hg⟩ := hi.rem
  have hnd := items_snd_nodup h.time.set_nodup
  change ((items s.time.measurable.set).map (·.2)).Nodup at hnd
  rw [← hg, List.map_append, List.nodup_append] at hnd
  refine ⟨hnd.2.1, ?_⟩
  intro l m l' m' h1 h2 hp
  have hs : ∀ l m, (l, m) ∈ rem s → m.Sublist s.time.measurable.set := by
    intro l m hm
    have : (l, m) ∈ items s.time.measurable.set := by
      rw [← hg]; exact List.mem_append_right _ hm
    exact (mem_items this).2.2
  have e1 := hs l m h1
  have e2 := hs l' m' h2
  have hsn : (s.time.measurable.set).Nodup := h.time.set_nodup
  exact sublist_eq_of_perm _ m m' hsn e1 e2 hp

/-- Nothing is collected twice (steps compared as sets). -/
theorem Below.nodup {P : Problem} (hP : P.WF) {skip : Schedule → Bool} {p : Schedule}
    {s : Scheduler Partitioner} {r : List (Schedule × Nat)} (h : Below P skip p s r) :
    StateFor P p s → IterOK s → r.Pairwise fun a b => ¬ StepEq a.1 b.1 := by
  induction h with
  | done h => intro _ _; exact List.Pairwise.nil
  | skip h hs hr ih => intro _ _; exact ih h.state' h.iter'
  | @child p s s' c l m rc r h hs hc hr ihc ihr =>
    intro hst hit
    have i1 := ihc h.child h.fresh.iterOK
    have i2 := ihr h.state' h.iter'
    have s1 := hc.sound hP
    have s2 := hr.sound hP
    -- a complete path has no children
    have hleaf : c.time.measurable.set = [] → rc = [] := by
      intro hl
      cases rc with
      | nil => rfl
      | cons e rc =>
        obtain ⟨_, _, _, l', m', _, hm, hne⟩ := s1 e List.mem_cons_self
        rw [h.fresh.rem, hl] at hm
        have := (mem_items hm).1
        exact (hne (List.append_eq_nil_iff.1 this.eq_nil).2).elim
    have step : ∀ e ∈ rc ++ leafOf (p ++ [m]) c, e.1[p.length]? = some m := by
      intro e he
      rw [List.mem_append] at he
      rcases he with he | he
      · have := (s1 e he).2.2.1
        have h3 : (e.1.take (p ++ [m]).length)[p.length]? = some m := by rw [this]; simp
        rw [List.getElem?_take] at h3
        simpa using h3
      · unfold leafOf at he
        split at he
        · rw [List.mem_singleton] at he; subst he; simp
        · cases he
    rw [List.pairwise_append]
    refine ⟨?_, i2, ?_⟩
    · by_cases hl : c.time.measurable.set = []
      · rw [hleaf hl, List.nil_append, leafOf, if_pos hl]
        exact List.pairwise_singleton _ _
      · rw [leafOf, if_neg hl, List.append_nil]
        exact i1
    · intro a ha b hb hab
      have h1 := step a ha
      obtain ⟨_, _, _, l', m', h2, h3, _⟩ := s2 b hb
      obtain ⟨q1, q2⟩ := rem_pairwise hst hit
      have hperm : m.Perm m' := by
        have hl := hab.length_eq
        have hlt := (List.getElem?_eq_some_iff.1 h1).1
        have := (List.forall₂_iff_get.1 hab).2 p.length hlt (by omega)
        simp only [List.get_eq_getElem] at this
        rw [List.getElem?_eq_some_iff] at h1 h2
        obtain ⟨_, h1⟩ := h1
        obtain ⟨_, h2⟩ := h2
        rw [h1, h2] at this
        exact this
      have hmm : m = m' := q2 l m l' m' (by rw [h.rem]; exact List.mem_cons_self)
        (by rw [h.rem]; exact List.mem_cons_of_mem _ h3) hperm
      subst hmm
      rw [h.rem, List.map_cons, List.nodup_cons] at q1
      exact q1.1 (List.mem_map.2 ⟨_, h3, rfl⟩)

/-- Every valid schedule that goes on with an item on offer is collected. -/
theorem Below.complete {P : Problem} (hP : P.WF) {p : Schedule}
    {s : Scheduler Partitioner} {r : List (Schedule × Nat)} (h : Below P (fun _ => false) p s r) :
    StateFor P p s → IterOK s → ∀ S, P.Valid S → Extends p S →
    (∃ s' l m, S[p.length]? = some s' ∧ (l, m) ∈ rem s ∧ m ≠ [] ∧ m.Perm s') →
    ∃ e ∈ r, StepEq e.1 S := by
  induction h with
  | done h =>
    rintro _ _ S _ _ ⟨s', l, m, _, h2, h3, _⟩
    exact (h3 (h.no_item h2)).elim
  | skip h hs => simp at hs
  | @child p s s' c l m rc r h hs hc hr ihc ihr =>
    rintro _ _ S hS he ⟨t, l', m', h1, h2, h3, h4⟩
    rw [h.rem] at h2
    rcases List.mem_cons.1 h2 with h2 | h2
    · injection h2 with h2a h2b
      subst h2a h2b
      have he' : Extends (p ++ [m']) S := extends_snoc he h1 h4
      rcases (fresh_pendAt hP h.child h.fresh hS he').2 with hp | ⟨hp1, hp2⟩
      · obtain ⟨e, h5, h6⟩ := ihc h.child h.fresh.iterOK S hS he' hp
        exact ⟨e, List.mem_append_left _ (List.mem_append_left _ h5), h6⟩
      · refine ⟨(p ++ [m'], c.space.maxMemory), ?_, ?_⟩
        · refine List.mem_append_left _ (List.mem_append_right _ ?_)
          simp [leafOf, hp1]
        · have := he'
          unfold Extends at this
          rw [hp2, List.take_length] at this
          exact this
    · obtain ⟨e, h5, h6⟩ := ihr h.state' h.iter' S hS he ⟨t, l', m', h1, h2, h3, h4⟩
      exact ⟨e, List.mem_append_right _ h5, h6⟩

theorem unskipped_succ {skip : Schedule → Bool} {k : Nat} {S : Schedule} (h : k < S.length) :
    unskipped skip k S = (!skip (S.take (k + 1)) && unskipped skip (k + 1) S) := by
  unfold unskipped
  obtain ⟨j, hj⟩ : ∃ j, S.length - k = j + 1 := ⟨S.length - k - 1, by omega⟩
  rw [hj, show S.length - (k + 1) = j by omega, List.range'_succ, List.all_cons]

/-- Skipping removes exactly what lies below the skipped paths. -/
theorem Below.filter {P : Problem} (hP : P.WF) (skip : Schedule → Bool) {p : Schedule}
    {s : Scheduler Partitioner} {r : List (Schedule × Nat)} (h : Below P (fun _ => false) p s r) :
    Below P skip p s (r.filter fun e => unskipped skip p.length e.1) := by
  induction h with
  | done h => exact .done h
  | skip h hs => simp at hs
  | @child p s s' c l m rc r h hs hc hr ihc ihr =>
    have s1 := hc.sound hP
    have hlen : (p ++ [m]).length = p.length + 1 := by simp
    -- everything collected below the child starts with `p ++ [m]`
    have step : ∀ e ∈ rc ++ leafOf (p ++ [m]) c, e.1.take (p.length + 1) = p ++ [m] ∧
        p.length < e.1.length := by
      intro e he
      rw [List.mem_append] at he
      rcases he with he | he
      · obtain ⟨_, _, h3, l', m', h4, _⟩ := s1 e he
        rw [hlen] at h3 h4
        have := (List.getElem?_eq_some_iff.1 h4).1
        exact ⟨h3, by omega⟩
      · unfold leafOf at he
        split at he
        · rw [List.mem_singleton] at he; subst he; simp [List.take_of_length_le]
        · cases he
    rw [List.filter_append]
    cases hsk : skip (p ++ [m]) with
    | true =>
      have : (rc ++ leafOf (p ++ [m]) c).filter (fun e => unskipped skip p.length e.1) = [] := by
        rw [List.filter_eq_nil_iff]
        intro e he
        obtain ⟨h1, h2⟩ := step e he
        rw [unskipped_succ h2, h1, hsk]
        simp
      rw [this, List.nil_append]
      exact .skip h hsk ihr
    | false =>
      have hrc : rc.filter (fun e => unskipped skip p.length e.1) =
          rc.filter (fun e => unskipped skip (p ++ [m]).length e.1) := by
        refine List.filter_congr fun e he => ?_
        obtain ⟨h1, h2⟩ := step e (List.mem_append_left _ he)
        rw [unskipped_succ h2, h1, hsk, hlen]
        simp
      have hlf : (leafOf (p ++ [m]) c).filter (fun e => unskipped skip p.length e.1) =
          leafOf (p ++ [m]) c := by
        rw [List.filter_eq_self]
        intro e he
        obtain ⟨h1, h2⟩ := step e (List.mem_append_right _ he)
        rw [unskipped_succ h2, h1, hsk]
        unfold leafOf at he
        split at he
        · rw [List.mem_singleton] at he; subst he; simp [unskipped]
        · cases he
      rw [List.filter_append, hrc, hlf]
      exact .child h hsk ihc ihr

/-! ## Sweeping over a `PathGenerator` alone -/

theorem nextAndFocus_time {prof : Profile} {s s' : Scheduler Partitioner}
    {r : Option (Scheduler Partitioner × List Nat)} (h : s.nextAndFocus prof = .ok (s', r)) :
    s.time.nextAndFocus prof = .ok (s'.time, r.map fun x => (x.1.time, x.2)) := by
  simp only [Scheduler.nextAndFocus, bind, Except.bind] at h
  cases ht : s.time.nextAndFocus prof with
  | error e => rw [ht] at h; cases h
  | ok x =>
    obtain ⟨t', o⟩ := x
    rw [ht] at h
    cases o with
    | none =>
      simp only [pure, Except.pure, Except.ok.injEq, Prod.mk.injEq] at h
      obtain ⟨rfl, rfl⟩ := h
      rfl
    | some y =>
      obtain ⟨nt, m⟩ := y
      simp only at h
      cases hf : Scheduler.focusSpace prof s.space m with
      | error e => rw [hf] at h; cases h
      | ok g =>
        rw [hf] at h
        simp only [pure, Except.pure, Except.ok.injEq, Prod.mk.injEq] at h
        obtain ⟨rfl, rfl⟩ := h
        rfl

/-- The sweep over the path generators inside a sweep over schedulers. -/
def Sweep.times (sw : Sweep (Scheduler Partitioner)) : Sweep (PathGenerator Partitioner) :=
  ⟨sw.current.time, sw.stack.map Scheduler.time⟩

theorem next_times {prof : Profile} {sw sw' : Sweep (Scheduler Partitioner)}
    {step : Option (Step (List Nat) (Option Nat))}
    (h : sw.next (Scheduler.focusIter prof) = .ok (sw', step)) :
    sw.times.next (PathGenerator.focusIter prof) = .ok (sw'.times, step.map fun s =>
      match s with
      | .forward m => .forward m
      | .backward l => .backward (l.map fun _ => ())) := by
  obtain ⟨cur, st⟩ := sw
  simp only [Sweep.next, Scheduler.focusIter, bind, Except.bind] at h
  cases hn : cur.nextAndFocus prof with
  | error e => rw [hn] at h; cases h
  | ok x =>
    obtain ⟨s', r⟩ := x
    rw [hn] at h
    have ht := nextAndFocus_time hn
    simp only [Sweep.next, PathGenerator.focusIter, Sweep.times, ht, bind, Except.bind]
    cases r with
    | some y =>
      simp only [pure, Except.pure, Except.ok.injEq, Prod.mk.injEq] at h
      obtain ⟨rfl, rfl⟩ := h
      rfl
    | none =>
      cases st with
      | nil =>
        simp only [pure, Except.pure, Except.ok.injEq, Prod.mk.injEq] at h
        obtain ⟨rfl, rfl⟩ := h
        rfl
      | cons t st =>
        simp only [pure, Except.pure, Except.ok.injEq, Prod.mk.injEq] at h
        obtain ⟨rfl, rfl⟩ := h
        simp only [Option.map_none, List.map_cons, pure, Except.pure, Option.map_some,
          PathGenerator.atLeaf, Scheduler.atLeaf]
        split <;> rfl

theorem enumerate_times {prof : Profile} {skip : Schedule → Bool} (fuel : Nat) :
    ∀ (sw : Sweep (Scheduler Partitioner)) (p : Schedule) (r : List (Schedule × Nat)),
    Sweep.enumerate (Scheduler.focusIter prof) skip fuel sw p = .ok (some r) →
    Sweep.enumerate (PathGenerator.focusIter prof) skip fuel sw.times p =
      .ok (some (r.map fun e => (e.1, ()))) := by
  induction fuel with
  | zero => intro sw p r h; cases h
  | succ fuel ih =>
    intro sw p r h
    rw [Sweep.enumerate] at h ⊢
    cases hn : sw.next (Scheduler.focusIter prof) with
    | error e => rw [hn] at h; cases h
    | ok x =>
      obtain ⟨sw', step⟩ := x
      rw [next_times hn]
      simp only [hn, bind, Except.bind] at h ⊢
      cases step with
      | none =>
        simp only [pure, Except.pure, Except.ok.injEq, Option.some.injEq] at h
        subst h
        rfl
      | some st =>
        cases st with
        | forward m =>
          simp only [Option.map_some] at h ⊢
          split
          · rename_i hs
            rw [if_pos hs] at h
            obtain ⟨cur, stk⟩ := sw'
            cases stk with
            | nil => cases h
            | cons t stk =>
              exact ih _ _ _ h
          · rename_i hs
            rw [if_neg hs] at h
            exact ih _ _ _ h
        | backward leaf =>
          simp only [Option.map_some] at h ⊢
          cases he : Sweep.enumerate (Scheduler.focusIter prof) skip fuel sw' p.dropLast with
          | error e => rw [he] at h; cases h
          | ok o =>
            cases o with
            | none =>
              rw [he] at h
              simp [pure, Except.pure] at h
            | some rest =>
              rw [he] at h
              rw [ih _ _ _ he]
              simp only [pure, Except.pure, Except.ok.injEq, Option.map_some,
                Option.some.injEq] at h ⊢
              cases leaf <;> simp [← h]

end Verif
