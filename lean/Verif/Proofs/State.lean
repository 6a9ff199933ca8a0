import Verif.Model.Scheduler
import Verif.Proofs.Effective
/-!
# Scheduler states and the schedule prefixes they stand for
-/

namespace Verif

open Spec

/-- A valid initial segment of a schedule. -/
structure Prefix (P : Problem) (p : Schedule) : Prop where
  nonempty : ∀ s ∈ p, s ≠ []
  nodup : p.flatten.Nodup
  sub : ∀ b ∈ p.flatten, b ∈ P.bits
  deps : ∀ (i : Nat) (s : List Nat), p[i]? = some s → ∀ b ∈ s, ∀ d, P.Needs b d →
    ∃ (j : Nat) (s' : List Nat), j < i ∧ p[j]? = some s' ∧ d ∈ s'

theorem prefix_nil (P : Problem) : Prefix P [] :=
  ⟨by simp, by simp, by simp, by simp⟩

theorem mem_flatten_iff {p : Schedule} {d : Nat} :
    d ∈ p.flatten ↔ ∃ (j : Nat) (s : List Nat), p[j]? = some s ∧ d ∈ s := by
  rw [List.mem_flatten]
  constructor
  · rintro ⟨s, hs, hd⟩
    obtain ⟨j, hj⟩ := List.getElem?_of_mem hs
    exact ⟨j, s, hj, hd⟩
  · rintro ⟨j, s, hj, hd⟩
    exact ⟨s, List.mem_of_getElem? hj, hd⟩

theorem prefix_snoc {P : Problem} {p : Schedule} (hp : Prefix P p) {ms : List Nat} (hne : ms ≠ [])
    (hnd : ms.Nodup) (hr : ∀ b ∈ ms, Ready P p.flatten b) : Prefix P (p ++ [ms]) := by
  refine ⟨?_, ?_, ?_, ?_⟩
  · intro s hs
    simp only [List.mem_append, List.mem_singleton] at hs
    rcases hs with hs | rfl
    · exact hp.nonempty s hs
    · exact hne
  · simp only [List.flatten_append, List.flatten_cons, List.flatten_nil, List.append_nil]
    rw [List.nodup_append']
    exact ⟨hp.nodup, hnd, fun b hb hb' => (hr b hb').fresh hb⟩
  · intro b hb
    simp only [List.flatten_append, List.flatten_cons, List.flatten_nil, List.append_nil,
      List.mem_append] at hb
    rcases hb with hb | hb
    · exact hp.sub b hb
    · exact (hr b hb).bit
  · intro i s hs b hb d hd
    rcases Nat.lt_trichotomy i p.length with h | h | h
    · rw [List.getElem?_append_left h] at hs
      obtain ⟨j, s', hj, hs', hd'⟩ := hp.deps i s hs b hb d hd
      exact ⟨j, s', hj, by rw [List.getElem?_append_left (by omega)]; exact hs', hd'⟩
    · subst h
      simp only [List.getElem?_concat_length, Option.some.injEq] at hs
      subst hs
      have := (hr b hb).deps d hd
      rw [mem_flatten_iff] at this
      obtain ⟨j, s', hs', hd'⟩ := this
      have hj : j < p.length := by
        rw [List.getElem?_eq_some_iff] at hs'; exact hs'.1
      exact ⟨j, s', hj, by rw [List.getElem?_append_left hj]; exact hs', hd'⟩
    · rw [List.getElem?_eq_none (by simp; omega)] at hs
      simp at hs

theorem prefix_of_snoc {P : Problem} {p : Schedule} {ms : List Nat} (h : Prefix P (p ++ [ms])) :
    Prefix P p ∧ ms ≠ [] ∧ ms.Nodup ∧ ∀ b ∈ ms, Ready P p.flatten b := by
  have hnd := h.nodup
  simp only [List.flatten_append, List.flatten_cons, List.flatten_nil, List.append_nil] at hnd
  rw [List.nodup_append'] at hnd
  refine ⟨⟨?_, hnd.1, ?_, ?_⟩, ?_, hnd.2.1, ?_⟩
  · intro s hs; exact h.nonempty s (by simp [hs])
  · intro b hb; exact h.sub b (by rw [List.flatten_append]; exact List.mem_append_left _ hb)
  · intro i s hs b hb d hd
    have hi : i < p.length := by rw [List.getElem?_eq_some_iff] at hs; exact hs.1
    obtain ⟨j, s', hj, hs', hd'⟩ := h.deps i s (by rw [List.getElem?_append_left hi]; exact hs) b hb d hd
    exact ⟨j, s', hj, by rw [List.getElem?_append_left (by omega)] at hs'; exact hs', hd'⟩
  · exact h.nonempty ms (by simp)
  · intro b hb
    refine ⟨h.sub b (by simp only [List.flatten_append, List.mem_append]; right; simpa using hb),
      fun hb' => hnd.2.2 hb' hb, ?_⟩
    intro d hd
    obtain ⟨j, s', hj, hs', hd'⟩ := h.deps p.length ms (by simp) b hb d hd
    rw [List.getElem?_append_left hj] at hs'
    exact mem_flatten_iff.2 ⟨j, s', hs', hd'⟩

theorem prefix_take {P : Problem} {S : Schedule} (h : Prefix P S) (k : Nat) : Prefix P (S.take k) := by
  by_cases hk : S.length ≤ k
  · rwa [List.take_of_length_le hk]
  · obtain ⟨n, hn⟩ : ∃ n, S.length = k + n := ⟨S.length - k, by omega⟩
    induction n generalizing S with
    | zero => omega
    | succ n ih =>
      have hne : S ≠ [] := by rintro rfl; simp at hn
      have hs : S = S.dropLast ++ [S.getLast hne] := (List.dropLast_append_getLast hne).symm
      have hp : Prefix P S.dropLast := (prefix_of_snoc (hs ▸ h)).1
      have ht : S.take k = S.dropLast.take k := by
        conv_lhs => rw [hs]
        rw [List.take_append_of_le_length (by simp; omega)]
      rw [ht]
      by_cases hk' : S.dropLast.length ≤ k
      · rwa [List.take_of_length_le hk']
      · exact ih hp hk' (by simp; omega)

theorem Spec.Problem.Valid.prefix {P : Problem} (hP : P.bits.Nodup) {S : Schedule} (h : P.Valid S) :
    Prefix P S :=
  ⟨h.nonempty, h.perm.nodup_iff.2 hP, fun _ hb => h.perm.mem_iff.1 hb, h.deps⟩

/-- A prefix that contains every bit is a valid schedule. -/
theorem Prefix.valid {P : Problem} (hP : P.bits.Nodup) {p : Schedule} (h : Prefix P p)
    (hall : ∀ b ∈ P.bits, b ∈ p.flatten) : P.Valid p :=
  ⟨h.nonempty, (List.perm_ext_iff_of_nodup h.nodup hP).2 fun b => ⟨h.sub b, hall b⟩, h.deps⟩

/-- If some bit is unmeasured then some bit is ready. -/
theorem exists_ready {P : Problem} (hP : P.WF) (M : List Nat) {b : Nat} (hb : b ∈ P.bits)
    (hM : b ∉ M) : ∃ r, Ready P M r := by
  obtain ⟨e, he, rfl⟩ := List.mem_map.1 hb
  rw [mem_entries_iff] at he
  obtain ⟨i, l, hl, hel⟩ := he
  induction i using Nat.strongRecOn generalizing e l with
  | ind i ih =>
    by_cases hr : ∀ d ∈ e.2, d ∈ M
    · refine ⟨e.1, hb, hM, ?_⟩
      intro d hd
      rw [needs_iff hP.bits_nodup] at hd
      have : AMap.get P.entries e.1 = some e.2 :=
        (get_entries hP.bits_nodup).2 (mem_entries_iff.2 ⟨i, l, hl, hel⟩)
      simp only [depsOf, this, Option.getD_some] at hd
      exact hr d hd
    · have : ∃ d, d ∈ e.2 ∧ d ∉ M := by
        apply Classical.byContradiction
        intro hn
        exact hr fun d hd => Classical.byContradiction fun hd' => hn ⟨d, hd, hd'⟩
      obtain ⟨d, hd, hdM⟩ := this
      obtain ⟨j, hji, l', hl', e', he', rfl⟩ := (hP.layers i l hl e hel).2.2 d hd
      exact ih j hji e' (List.mem_map.2 ⟨e', mem_entries_iff.2 ⟨j, l', hl', he'⟩, rfl⟩) hdM l' hl' he'

/-- The scheduler `s` (with any kind of measurable set) is in the state after the steps `p`. -/
structure StateFor (P : Problem) {T : Type} [MeasurableSet T] (p : Schedule) (s : Scheduler T) :
    Prop where
  pre : Prefix P p
  time : TimeFor P p.flatten (MeasurableSet.set s.time.measurable) s.time.depsCounter
    s.time.dependents
  space : GraphFor P p s.space

/-- The partition of a scheduler state is a (possibly advanced) partition of the measurable set. -/
def IterOK (s : Scheduler Partitioner) : Prop :=
  ∃ gone, gone ++ s.time.measurable.iter = powerset s.time.measurable.set.length

/-- The partition has not been advanced. -/
def Fresh (s : Scheduler Partitioner) : Prop :=
  s.time.measurable.iter = powerset s.time.measurable.set.length

/-- The (kept, measured) pairs that a scheduler state has not offered yet. -/
def rem (s : Scheduler Partitioner) : List (List Nat × List Nat) :=
  s.time.measurable.iter.map (Partition.split s.time.measurable.set 0)

theorem Fresh.iterOK {s : Scheduler Partitioner} (h : Fresh s) : IterOK s := ⟨[], by rw [h]; rfl⟩

theorem Fresh.rem {s : Scheduler Partitioner} (h : Fresh s) : rem s = items s.time.measurable.set := by
  rw [Verif.rem, h, map_split_powerset]

theorem IterOK.rem {s : Scheduler Partitioner} (h : IterOK s) :
    ∃ gone, gone ++ rem s = items s.time.measurable.set := by
  obtain ⟨gone, h⟩ := h
  refine ⟨gone.map (Partition.split s.time.measurable.set 0), ?_⟩
  rw [Verif.rem, ← List.map_append, h, map_split_powerset]

theorem usizeSub_prof {prof : Profile} {a b c : Nat} (h : usizeSub .debug a b = .ok c) :
    usizeSub prof a b = .ok c := by
  unfold usizeSub at h ⊢
  split at h
  · rename_i hle; simp_all
  · simp at h

theorem updateDependents_prof {prof : Profile} (D : List Nat) :
    ∀ {deps : AMap Nat} {new : List Nat} {r : AMap Nat × List Nat},
    PathGenerator.updateDependents .debug D deps new = .ok r →
    PathGenerator.updateDependents prof D deps new = .ok r := by
  induction D with
  | nil => intro deps new r h; exact h
  | cons x D ih =>
    intro deps new r h
    simp only [PathGenerator.updateDependents] at h ⊢
    cases hg : deps.get x with
    | none => simp [hg] at h
    | some c =>
      simp only [hg, bind, Except.bind] at h ⊢
      cases hu : usizeSub .debug c 1 with
      | error e => simp [hu] at h
      | ok c' =>
        rw [usizeSub_prof hu]
        simp only [hu] at h ⊢
        split at h
        · rename_i h0; simp only [h0, ↓reduceIte]; exact ih h
        · rename_i h0; simp only [h0, ↓reduceIte]; exact ih h

theorem updateUnchecked_prof {prof : Profile} {look : Dependents} (ms : List Nat) :
    ∀ {deps : AMap Nat} {new : List Nat} {r : AMap Nat × List Nat},
    PathGenerator.updateUnchecked .debug look ms deps new = .ok r →
    PathGenerator.updateUnchecked prof look ms deps new = .ok r := by
  induction ms with
  | nil => intro deps new r h; exact h
  | cons m ms ih =>
    intro deps new r h
    simp only [PathGenerator.updateUnchecked, bind, Except.bind] at h ⊢
    cases hi : idx look m with
    | error e => simp [hi] at h
    | ok D =>
      simp only [hi] at h ⊢
      cases hu : PathGenerator.updateDependents .debug D deps new with
      | error e => simp [hu] at h
      | ok r' =>
        rw [updateDependents_prof D hu]
        simp only [hu] at h ⊢
        exact ih h

/-- One more step of ready bits: both halves of the scheduler, in every build profile. -/
theorem stateFor_step {P : Problem} (hP : Lax P) {T : Type} [MeasurableSet T]
    (hset : ∀ l, MeasurableSet.set (MeasurableSet.init (T := T) l) = l)
    {p : Schedule} {s : Scheduler T} (h : StateFor P p s) {ms keep : List Nat} (hne : ms ≠ [])
    (hperm : (keep ++ ms).Perm (MeasurableSet.set s.time.measurable)) :
    ∃ deps new space,
      (∀ prof, PathGenerator.updateUnchecked prof s.time.dependents ms s.time.depsCounter keep =
        .ok (deps, new)) ∧
      (∀ prof, s.space.focusInplace prof ms = .ok (space, .ok ()) ∧
        s.space.focus prof ms = .ok (.ok space) ∧ s.space.focusUnchecked prof ms = .ok space) ∧
      StateFor P (p ++ [ms])
        (⟨⟨MeasurableSet.init new, deps, s.time.dependents⟩, space⟩ : Scheduler T) := by
  have hnd := hperm.nodup_iff.2 h.time.set_nodup
  rw [List.nodup_append'] at hnd
  have hready : ∀ b ∈ ms, Ready P p.flatten b := fun b hb =>
    (h.time.set_mem b).1 (hperm.mem_iff.1 (List.mem_append_right _ hb))
  obtain ⟨deps, new, e1, e2⟩ := updateUnchecked_spec hP .debug h.time.look_ok ms p.flatten
    s.time.depsCounter keep hnd.2.1 hready hnd.1
    (by
      intro b
      rw [← h.time.set_mem b, ← hperm.mem_iff, List.mem_append]
      constructor
      · intro hb; exact ⟨Or.inl hb, fun hb' => hnd.2.2 hb hb'⟩
      · rintro ⟨hb | hb, hn⟩
        · exact hb
        · exact (hn hb).elim)
    h.time.deps_get h.time.deps_nodup h.time.closed
  have hpre := prefix_snoc h.pre hne hnd.2.1 hready
  have hflat : (p ++ [ms]).flatten = p.flatten ++ ms := by simp
  obtain ⟨g, g1, g2⟩ := graphFor_focus hP.nbrs_lt h.space (ms := ms)
    (by rw [← hflat]; exact hpre.nodup)
    (fun b hb => hP.bits_lt b (hpre.sub b (by rw [hflat]; exact hb)))
  refine ⟨deps, new, g, fun prof => updateUnchecked_prof ms e1, g2, hpre, ?_, g1⟩
  simp only [hset]
  apply e2.congr
  intro v
  rw [hflat]; simp [or_comm]

theorem set_init_list (l : List Nat) : MeasurableSet.set (MeasurableSet.init (T := List Nat) l) = l := rfl

theorem set_init_partition (l : List Nat) :
    MeasurableSet.set (MeasurableSet.init (T := Partitioner) l) = l := rfl

/-- `next_and_focus` finds nothing more. -/
structure NextNone (s s' : Scheduler Partitioner) : Prop where
  eq : ∀ prof, s.nextAndFocus prof = .ok (s', none)
  rem : rem s = [] ∨ rem s = [(s.time.measurable.set, [])]
  set : s'.time.measurable.set = s.time.measurable.set
  space : s'.space = s.space
  done : s'.time.measurable.iter = []

/-- `next_and_focus` moves on to the child `c` by measuring `m`. -/
structure NextSome (P : Problem) (p : Schedule) (s s' c : Scheduler Partitioner) (l m : List Nat) :
    Prop where
  eq : ∀ prof, s.nextAndFocus prof = .ok (s', some (c, m))
  rem : rem s = (l, m) :: rem s'
  ne : m ≠ []
  state' : StateFor P p s'
  iter' : IterOK s'
  set : s'.time.measurable.set = s.time.measurable.set
  space : s'.space = s.space
  len : s.time.measurable.iter.length = s'.time.measurable.iter.length + 1
  child : StateFor P (p ++ [m]) c
  fresh : Fresh c

theorem nextAndFocus_spec {P : Problem} (hP : Lax P) {p : Schedule} {s : Scheduler Partitioner}
    (h : StateFor P p s) (hi : IterOK s) :
    (∃ s', NextNone s s' ∧ StateFor P p s' ∧ IterOK s') ∨
    (∃ s' c l m, NextSome P p s s' c l m) := by
  obtain ⟨⟨⟨set, iter⟩, deps, look⟩, space⟩ := s
  obtain ⟨gone, hgone⟩ := hi
  simp only at hgone
  cases iter with
  | nil =>
    left
    refine ⟨⟨⟨⟨set, []⟩, deps, look⟩, space⟩, ⟨?_, Or.inl rfl, rfl, rfl, rfl⟩, h, ⟨gone, hgone⟩⟩
    intro prof
    simp [Scheduler.nextAndFocus, PathGenerator.nextAndFocus, Partition.next, bind, Except.bind,
      pure, Except.pure]
  | cons sub rest =>
    cases hsplit : Partition.split set 0 sub with
    | mk l m =>
    have hrem : rem ⟨⟨⟨set, sub :: rest⟩, deps, look⟩, space⟩ = (l, m) :: rem ⟨⟨⟨set, rest⟩, deps, look⟩, space⟩ := by
      simp [rem, hsplit]
    have hitems : gone.map (Partition.split set 0) ++ ((l, m) :: rest.map (Partition.split set 0)) =
        items set := by
      rw [← map_split_powerset, ← hgone]; simp [hsplit]
    have hiter' : IterOK ⟨⟨⟨set, rest⟩, deps, look⟩, space⟩ := ⟨gone ++ [sub], by simpa using hgone⟩
    have hmem : (l, m) ∈ items set := by rw [← hitems]; simp
    have hperm := (mem_items hmem).1
    by_cases hm : m = []
    · left
      subst hm
      refine ⟨⟨⟨⟨set, rest⟩, deps, look⟩, space⟩, ⟨?_, ?_, rfl, rfl, ?_⟩, ?_, hiter'⟩
      · intro prof
        simp [Scheduler.nextAndFocus, PathGenerator.nextAndFocus, Partition.next, hsplit, bind,
          Except.bind, pure, Except.pure]
      all_goals
        rw [items_eq] at hitems
        have hlast : rest = [] ∧ l = set := by
          have hr : rest.map (Partition.split set 0) = [] := by
            apply Classical.byContradiction
            intro hr
            obtain ⟨r, x, hrx⟩ : ∃ r x, rest.map (Partition.split set 0) = r ++ [x] :=
              ⟨_, _, (List.dropLast_append_getLast hr).symm⟩
            rw [hrx, ← List.cons_append, ← List.append_assoc] at hitems
            have := (List.append_inj' hitems rfl).1
            exact items_init_ne_nil (s := set) (l := l) (r := []) (by rw [← this]; simp) rfl
          rw [hr] at hitems
          have h2 := (List.append_inj' hitems rfl).2
          exact ⟨by simpa using hr, by simpa using h2⟩
      · right
        rw [hrem, hlast.1, hlast.2]; rfl
      · exact hlast.1
      · exact ⟨h.pre, h.time, h.space⟩
    · right
      obtain ⟨deps', new, g, e1, e2, e3⟩ := stateFor_step hP set_init_partition h hm hperm
      refine ⟨⟨⟨⟨set, rest⟩, deps, look⟩, space⟩, ⟨⟨MeasurableSet.init new, deps', look⟩, g⟩, l, m,
        ?_, hrem, hm, ⟨h.pre, h.time, h.space⟩, hiter', rfl, rfl, rfl, e3, rfl⟩
      intro prof
      have hm' : m.isEmpty = false := by simpa using hm
      have hf : Scheduler.focusSpace prof space m = .ok g := by
        cases prof with
        | debug => simp [Scheduler.focusSpace, (e2 .debug).2.1, bind, Except.bind, pure, Except.pure]
        | release => simp [Scheduler.focusSpace, (e2 .release).2.2]
      have he := e1 prof
      simp only at he
      simp [Scheduler.nextAndFocus, PathGenerator.nextAndFocus, Partition.next, hsplit, hm', bind,
        Except.bind, pure, Except.pure, PathGenerator.focusUnchecked, he, hf]

/-- The initial scheduler of a search. -/
theorem mkState_loose {P : Problem} (hP : P.Loose) {T : Type} [MeasurableSet T]
    (hset : ∀ l, MeasurableSet.set (MeasurableSet.init (T := T) l) = l)
    (hT : MeasurableSet.init (T := T) [] = MeasurableSet.dflt)
    (buffer : Dependents) (hb : P.n ≤ buffer.length) :
    ∃ (set : List Nat) (deps : AMap Nat) (look : Dependents),
      PathGenerator.fromDependencyGraph (T := T) P.order buffer none =
        .ok ⟨MeasurableSet.init set, deps, look⟩ ∧
      StateFor (eff P) [] (⟨⟨MeasurableSet.init set, deps, look⟩, Graph.new P.graph⟩ : Scheduler T) := by
  obtain ⟨set, deps, look, e1, e2⟩ := fromDependencyGraph_loose hP hT buffer hb
  exact ⟨set, deps, look, e1, prefix_nil _, by simpa only [hset, List.flatten_nil] using e2,
    graphFor_new (eff P)⟩

theorem mkState_spec {P : Problem} (hP : P.WF) {T : Type} [MeasurableSet T]
    (hset : ∀ l, MeasurableSet.set (MeasurableSet.init (T := T) l) = l)
    (hT : MeasurableSet.init (T := T) [] = MeasurableSet.dflt)
    (buffer : Dependents) (hb : P.n ≤ buffer.length) :
    ∃ (set : List Nat) (deps : AMap Nat) (look : Dependents),
      PathGenerator.fromDependencyGraph (T := T) P.order buffer none =
        .ok ⟨MeasurableSet.init set, deps, look⟩ ∧
      StateFor P [] (⟨⟨MeasurableSet.init set, deps, look⟩, Graph.new P.graph⟩ : Scheduler T) := by
  have h := mkState_loose hP.loose hset hT buffer hb
  rwa [eff_of_wf hP] at h

/-- A schedule that cannot be continued. -/
structure Maximal (P : Problem) (S : Schedule) : Prop where
  pre : Prefix P S
  none : ∀ b, ¬ Ready P S.flatten b

theorem leaf_maximal {P : Problem} {T : Type} [MeasurableSet T] {p : Schedule}
    {s : Scheduler T} (h : StateFor P p s) :
    MeasurableSet.set s.time.measurable = [] ↔ Maximal P p := by
  constructor
  · intro hs
    refine ⟨h.pre, fun b hb => ?_⟩
    have := (h.time.set_mem b).2 hb
    rw [hs] at this
    simp at this
  · intro hm
    rw [List.eq_nil_iff_forall_not_mem]
    exact fun b hb => hm.none b ((h.time.set_mem b).1 hb)

theorem maximal_iff {P : Problem} (hP : P.WF) {S : Schedule} : Maximal P S ↔ P.Valid S := by
  constructor
  · intro h
    apply h.pre.valid hP.bits_nodup
    intro b hb
    apply Classical.byContradiction
    intro hn
    obtain ⟨r, hr⟩ := exists_ready hP S.flatten hb hn
    exact h.none r hr
  · intro h
    exact ⟨h.prefix hP.bits_nodup, fun b hb => hb.fresh (h.perm.mem_iff.2 hb.bit)⟩

theorem leaf_iff {P : Problem} (hP : P.WF) {T : Type} [MeasurableSet T] {p : Schedule}
    {s : Scheduler T} (h : StateFor P p s) :
    MeasurableSet.set s.time.measurable = [] ↔ P.Valid p :=
  (leaf_maximal h).trans (maximal_iff hP)

theorem leaf_valid {P : Problem} (hP : P.WF) {T : Type} [MeasurableSet T] {p : Schedule}
    {s : Scheduler T} (h : StateFor P p s) (hs : MeasurableSet.set s.time.measurable = []) :
    P.Valid p := (leaf_iff hP h).1 hs

end Verif
