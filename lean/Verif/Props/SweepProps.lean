import Verif.Proofs.Count
import Verif.Props.Example
/-!
# Properties of sweeps: enumeration, skipping, the state of a sweep, partitions
-/

namespace Verif

open Spec Search

/-- The paths collected by iterating over a scheduler (`Sweep.enumerate`, the loop of the
documentation), never skipping. -/
def allPaths (prof : Profile) (fuel : Nat) (P : Problem) (skip : Schedule → Bool := fun _ => false) :
    R (Option (List (Schedule × Nat))) := do
  let s ← mkScheduler P.graph P.order
  Sweep.enumerate (Scheduler.focusIter prof) skip fuel (Sweep.new s) []

/-- The same, iterating over a `PathGenerator` only. -/
def allTimePaths (prof : Profile) (fuel : Nat) (P : Problem)
    (skip : Schedule → Bool := fun _ => false) : R (Option (List (Schedule × Unit))) := do
  let g ← PathGenerator.fromDependencyGraph (T := Partitioner) P.order
    (dependencyBufferNew P.graph.length) none
  Sweep.enumerate (PathGenerator.focusIter prof) skip fuel (Sweep.new g) []

section

variable {P : Problem}

theorem mkScheduler_start (hP : P.WF) : ∃ s, mkScheduler P.graph P.order = .ok s ∧
    StateFor P [] s ∧ Fresh s ∧
    PathGenerator.fromDependencyGraph (T := Partitioner) P.order
      (dependencyBufferNew P.graph.length) none = .ok s.time := by
  obtain ⟨set, deps, look, h1, h2⟩ := mkState_spec (T := Partitioner) hP set_init_partition rfl
    (dependencyBufferNew P.graph.length) (by simp [dependencyBufferNew, Problem.n])
  refine ⟨_, ?_, h2, rfl, h1⟩
  simp [mkScheduler, h1, bind, Except.bind, pure, Except.pure]

theorem allPaths_below (hP : P.WF) (skip : Schedule → Bool) :
    ∃ s r N, mkScheduler P.graph P.order = .ok s ∧ StateFor P [] s ∧ Fresh s ∧ Below P skip [] s r ∧
      ∀ fuel, N ≤ fuel → ∀ prof, allPaths prof fuel P skip = .ok (some r) ∧
        allTimePaths prof fuel P skip = .ok (some (r.map fun e => (e.1, ()))) := by
  obtain ⟨s, h1, h2, h3, h4⟩ := mkScheduler_start hP
  obtain ⟨r, hr⟩ := exists_below hP skip _ _ [] s h2 h3.iterOK (Nat.le_refl _) (Nat.le_refl _)
  obtain ⟨N, hN⟩ := enumerate_spec hr
  refine ⟨s, r, N, h1, h2, h3, hr, fun fuel hf prof => ?_⟩
  have := hN fuel hf prof
  refine ⟨by simp [allPaths, h1, this, bind, Except.bind], ?_⟩
  have := enumerate_times _ _ _ _ this
  simp only [allTimePaths, h4, bind, Except.bind]
  exact this

/-- **C19** Iterating a scheduler to the end collects every valid schedule exactly once (steps compared
as sets), nothing else, and each with its exact peak memory; iterating a path generator collects the
same paths in the same order. The iteration ends. -/
theorem C19_enumerates (hP : P.WF) (hb : P.bits ≠ []) : ∃ (out : List (Schedule × Nat)) (N : Nat),
    (∀ fuel, N ≤ fuel → ∀ prof, allPaths prof fuel P = .ok (some out) ∧
      allTimePaths prof fuel P = .ok (some (out.map fun e => (e.1, ())))) ∧
    (∀ e ∈ out, P.Valid e.1 ∧ e.2 = P.peak e.1) ∧
    (out.Pairwise fun a b => ¬ List.Forall₂ List.Perm a.1 b.1) ∧
    (∀ S, P.Valid S → ∃ e ∈ out, List.Forall₂ List.Perm e.1 S) := by
  obtain ⟨s, r, N, _, h2, h3, h4, h5⟩ := allPaths_below hP fun _ => false
  refine ⟨r, N, h5, fun e he => ⟨(h4.sound hP e he).1, (h4.sound hP e he).2.1⟩,
    h4.nodup hP h2 h3.iterOK, fun S hS => ?_⟩
  refine h4.complete hP h2 h3.iterOK S hS (extends_nil S) ?_
  rcases (fresh_pendAt hP h2 h3 hS (extends_nil S)).2 with h | ⟨h, _⟩
  · exact h
  · have := leaf_valid hP h2 h
    have h6 := this.perm.symm.eq_nil
    exact (hb h6).elim

-- the list in the documentation (xdocs/scheduler.md)
example : allPaths .debug 100 Example.docs = .ok (some
    [([[0], [3, 1], [2]], 3), ([[0], [1], [3], [2]], 3), ([[0], [3], [1, 2]], 3),
     ([[0], [3], [2], [1]], 3), ([[0], [3], [1], [2]], 3)]) := by decide +kernel

/-- **C20** For one layer of `n ≥ 1` independent qubits the sweep yields `a n` paths, where `a` are
the ordered Bell numbers: `a 0 = 1`, `a n = ∑ k < n, (n choose k) * a k`. -/
theorem C20_ordered_bell (a : Nat → Nat) (h0 : a 0 = 1)
    (ha : ∀ n, a (n + 1) = ((List.range (n + 1)).map fun k => (n + 1).choose k * a k).sum)
    (hP : P.WF) (hl : P.order.length = 1) (hb : P.bits ≠ []) : ∃ (out : List (Schedule × Nat)) (N : Nat),
    (∀ fuel, N ≤ fuel → ∀ prof, allPaths prof fuel P = .ok (some out)) ∧
    out.length = a P.bits.length := by
  obtain ⟨s, r, N, _, h2, h3, h4, h5⟩ := allPaths_below hP fun _ => false
  refine ⟨r, N, fun fuel hf prof => (h5 fuel hf prof).1, ?_⟩
  have hfree : ∀ b d, ¬ P.Needs b d := by
    rintro b d ⟨ds, hds, hd⟩
    obtain ⟨i, layer, hi, he⟩ := mem_entries_iff.1 hds
    have hlt := (List.getElem?_eq_some_iff.1 hi).1
    have hi0 : i = 0 := by omega
    have := ((hP.layers i layer hi _ he).1).1 hi0
    simp only at this
    rw [this] at hd
    cases hd
  have hcount := h4.count h0 ha hfree h2 h3.iterOK
  have hset : (s.time.measurable.set).Perm P.bits := by
    refine (List.perm_ext_iff_of_nodup h2.time.set_nodup hP.bits_nodup).2 fun b => ?_
    rw [h2.time.set_mem b]
    exact ⟨fun h => h.bit, fun h => ⟨h, by simp, fun d hd => (hfree b d hd).elim⟩⟩
  have hne : s.time.measurable.set ≠ [] := by
    intro h
    rw [h] at hset
    exact hb hset.symm.eq_nil
  rw [hcount, h3.rem, sum_items ha _ hne, hset.length_eq]

/-- The ordered Bell numbers `a 0, …, a n` in a list. -/
def orderedBells : Nat → List Nat
  | 0 => [1]
  | n + 1 =>
    let l := orderedBells n
    l ++ [((List.range (n + 1)).map fun k => (n + 1).choose k * l.getD k 0).sum]

/-- The `n`-th ordered Bell number. -/
def orderedBell (n : Nat) : Nat := (orderedBells n).getD n 0

theorem length_orderedBells (n : Nat) : (orderedBells n).length = n + 1 := by
  induction n with
  | zero => rfl
  | succ n ih => simp [orderedBells, ih]

theorem orderedBells_getD {n k : Nat} (h : k ≤ n) : (orderedBells n).getD k 0 = orderedBell k := by
  induction n with
  | zero =>
    have : k = 0 := by omega
    subst this; rfl
  | succ n ih =>
    by_cases hk : k ≤ n
    · rw [← ih hk]
      have := length_orderedBells n
      simp only [orderedBells, List.getD_eq_getElem?_getD]
      rw [List.getElem?_append_left (by omega)]
    · have : k = n + 1 := by omega
      subst this; rfl

theorem orderedBell_succ (n : Nat) :
    orderedBell (n + 1) = ((List.range (n + 1)).map fun k => (n + 1).choose k * orderedBell k).sum := by
  have h1 := length_orderedBells n
  have h2 : orderedBell (n + 1) =
      ((List.range (n + 1)).map fun k => (n + 1).choose k * (orderedBells n).getD k 0).sum := by
    simp only [orderedBell, orderedBells, List.getD_eq_getElem?_getD]
    rw [List.getElem?_append_right (by omega), h1]
    simp
  rw [h2]
  congr 1
  refine List.map_congr_left fun k hk => ?_
  rw [orderedBells_getD (by have := List.mem_range.1 hk; omega)]

-- 75 paths for the four independent qubits of the star, and the hypotheses are met
example : orderedBell 0 = 1 ∧ (List.range 5).map orderedBell = [1, 1, 3, 13, 75] ∧
    Example.star.WF ∧ Example.star.order.length = 1 ∧
    (allPaths .debug 1000 Example.star).map (Option.map List.length) = .ok (some 75) :=
  ⟨rfl, by decide +kernel, Example.star_wf, rfl, by decide +kernel⟩

/-- **C21** Calling `skip_current` after those `Forward` steps whose path satisfies `skip` removes
exactly the schedules that start with such a path, and changes neither the order nor anything
else of what is collected. -/
theorem C21_skip (hP : P.WF) (skip : Schedule → Bool) : ∃ (out : List (Schedule × Nat)) (N : Nat),
    ∀ fuel, N ≤ fuel → ∀ prof, allPaths prof fuel P = .ok (some out) ∧
      allPaths prof fuel P skip = .ok (some (out.filter fun e =>
        (List.range e.1.length).all fun j => !skip (e.1.take (j + 1)))) := by
  obtain ⟨s, r, N, h1, h2, h3, h4, h5⟩ := allPaths_below hP fun _ => false
  have h6 := h4.filter hP skip
  obtain ⟨N', h7⟩ := enumerate_spec h6
  refine ⟨r, max N N', fun fuel hf prof => ⟨(h5 fuel (by omega) prof).1, ?_⟩⟩
  have := h7 fuel (by omega) prof
  simp only [allPaths, h1, bind, Except.bind, this]
  congr 3
  funext e
  simp only [unskipped, List.length_nil, Nat.zero_add, Nat.sub_zero]
  rw [List.range'_eq_map_range, List.all_map]
  congr 1
  funext j
  simp [Nat.add_comm]

-- skipping `[[0], [3]]` leaves the two other paths of the documentation's example
example : allPaths .debug 100 Example.docs (· == [[0], [3]]) = .ok (some
    [([[0], [3, 1], [2]], 3), ([[0], [1], [3], [2]], 3)]) := by decide +kernel

/-! ## The state of a sweep after any sequence of `next` and `skip_current` -/

/-- A call on a sweep. -/
inductive SweepOp where
  | next
  | skip

/-- Perform calls on a sweep and keep track of the path. -/
def Sweep.walk (prof : Profile) : List SweepOp → Sweep (Scheduler Partitioner) → Schedule →
    R (Sweep (Scheduler Partitioner) × Schedule)
  | [], sw, p => pure (sw, p)
  | .next :: ops, sw, p => do
    let (sw', step) ← sw.next (Scheduler.focusIter prof)
    match step with
    | none => Sweep.walk prof ops sw' p
    | some (.forward m) => Sweep.walk prof ops sw' (p ++ [m])
    | some (.backward _) => Sweep.walk prof ops sw' p.dropLast
  | .skip :: ops, sw, p =>
    match sw.skipCurrent with
    | (sw', .ok ()) => Sweep.walk prof ops sw' p.dropLast
    | (sw', .error _) => Sweep.walk prof ops sw' p

theorem walk_chain (hP : P.WF) (prof : Profile) (ops : List SweepOp) :
    ∀ (sw : Sweep (Scheduler Partitioner)) (p : Schedule), Chain P [] p sw.current sw.stack →
    ∃ sw' p', Sweep.walk prof ops sw p = .ok (sw', p') ∧ Chain P [] p' sw'.current sw'.stack := by
  induction ops with
  | nil => intro sw p h; exact ⟨sw, p, rfl, h⟩
  | cons op ops ih =>
    rintro ⟨cur, st⟩ p h
    simp only at h
    cases op with
    | next =>
      obtain ⟨hs, hi⟩ := h.state
      rcases nextAndFocus_spec hP.lax hs hi with ⟨s', hn, hs', hi'⟩ | ⟨s', c, l, m, hn⟩
      · rw [Sweep.walk, next_none hn prof]
        cases st with
        | nil => exact ih _ _ (h.replace hs' hi')
        | cons t r => exact ih _ _ h.pop
      · rw [Sweep.walk, next_some hn prof]
        exact ih _ _ (.push (h.replace hn.state' hn.iter') hn.child hn.fresh.iterOK)
    | skip =>
      cases st with
      | nil => exact ih _ _ h
      | cons t r => exact ih _ _ h.pop

theorem Chain.stack_length {p0 p : Schedule} {s : Scheduler Partitioner}
    {st : List (Scheduler Partitioner)} (h : Chain P p0 p s st) :
    p.length = p0.length + st.length := by
  induction h with
  | base => simp
  | push h hc hi ih => simp only [List.length_append, List.length_cons, List.length_nil, ih]; omega

/-- **C17** for automatic scheduling: whatever calls of `next` and `skip_current` are made on a sweep,
none panics, and the measurable set of the current state contains, without repetition, exactly
the qubits not measured along the current path all of whose dependencies are; `has_unmeasureable`
tells whether there are other unmeasured qubits, and the memory is the peak along the path. -/
theorem C17_sweep (hP : P.WF) {s : Scheduler Partitioner} (h : mkScheduler P.graph P.order = .ok s)
    (prof : Profile) (ops : List SweepOp) :
    ∃ sw p, Sweep.walk prof ops (Sweep.new s) [] = .ok (sw, p) ∧
      sw.current.time.measurable.set.Nodup ∧
      (∀ b, b ∈ sw.current.time.measurable.set ↔
        b ∈ P.bits ∧ b ∉ p.flatten ∧ ∀ d, P.Needs b d → d ∈ p.flatten) ∧
      (sw.current.time.hasUnmeasureable = true ↔ ∃ b ∈ P.bits, b ∉ p.flatten ∧
        ∃ d, P.Needs b d ∧ d ∉ p.flatten) ∧
      sw.current.space.maxMemory = P.peak p ∧
      (sw.current.time.measurable.set = [] ↔ P.Valid p) := by
  obtain ⟨s', h1, h2, h3, _⟩ := mkScheduler_start hP
  rw [h] at h1
  injection h1 with h1
  subst h1
  obtain ⟨sw, p, e, hc⟩ := walk_chain hP prof ops (Sweep.new s) [] (.base h2 h3.iterOK)
  obtain ⟨hs, hi⟩ := hc.state
  refine ⟨sw, p, e, hs.time.set_nodup, ?_, ?_, hs.space.max, leaf_iff hP hs⟩
  · intro b
    exact (hs.time.set_mem b).trans
      ⟨fun h => ⟨h.bit, h.fresh, h.deps⟩, fun h => ⟨h.1, h.2.1, h.2.2⟩⟩
  · rw [hasUnmeasureable_iff hs]
    constructor
    · rintro ⟨b, hb, hu⟩
      have hex : ∃ d, P.Needs b d ∧ d ∉ p.flatten := by
        by_contra hno
        have : unmet P p.flatten b = 0 := (unmet_zero_iff hP.bits_nodup).2 fun d hd => by
          by_contra hd'
          exact hno ⟨d, hd, hd'⟩
        omega
      refine ⟨b, hb, fun hbp => ?_, hex⟩
      obtain ⟨d, hd, hd'⟩ := hex
      exact hd' (hs.time.closed b hbp d hd)
    · rintro ⟨b, hb, _, d, hd, hd'⟩
      refine ⟨b, hb, ?_⟩
      rcases Nat.eq_zero_or_pos (unmet P p.flatten b) with h0 | h0
      · exact (hd' ((unmet_zero_iff hP.bits_nodup).1 h0 d hd)).elim
      · exact h0

/-- **C21** `skip_current` fails exactly at the root, leaving the sweep unchanged; otherwise it returns
to the state before the last step of the path. -/
theorem C21_skip_fails (hP : P.WF) {s : Scheduler Partitioner}
    (h : mkScheduler P.graph P.order = .ok s) (prof : Profile) (ops : List SweepOp)
    {sw : Sweep (Scheduler Partitioner)} {p : Schedule}
    (e : Sweep.walk prof ops (Sweep.new s) [] = .ok (sw, p)) :
    (p = [] → sw.skipCurrent = (sw, .error .mk)) ∧
    (p ≠ [] → ∃ top rest, sw.stack = top :: rest ∧ sw.skipCurrent = (⟨top, rest⟩, .ok ())) := by
  obtain ⟨s', h1, h2, h3, _⟩ := mkScheduler_start hP
  rw [h] at h1
  injection h1 with h1
  subst h1
  obtain ⟨sw', p', e', hc⟩ := walk_chain hP prof ops (Sweep.new s) [] (.base h2 h3.iterOK)
  rw [e] at e'
  injection e' with e'
  injection e' with e1 e2
  subst e1 e2
  have hl := hc.stack_length
  obtain ⟨cur, st⟩ := sw
  simp only [List.length_nil, Nat.zero_add] at hl
  constructor
  · rintro rfl
    have : st = [] := List.eq_nil_of_length_eq_zero hl.symm
    subst this
    rfl
  · intro hp
    cases st with
    | nil => exact (hp (List.eq_nil_of_length_eq_zero hl)).elim
    | cons t r => exact ⟨t, r, rfl, rfl⟩

-- three calls on the documentation's example lead back to the root, where `skip_current` fails
example : ∃ s sw, mkScheduler Example.docs.graph Example.docs.order = .ok s ∧
    Sweep.walk .debug [.next, .next, .skip, .skip] (Sweep.new s) [] = .ok (sw, []) ∧
    sw.skipCurrent.2 = .error .mk ∧ sw.current.time.measurable.set = [0] := by
  refine ⟨_, _, rfl, rfl, rfl, rfl⟩

/-- **C37** The pruning bound. Whatever happened before, right after a `Forward(m)` step from path `p`
the minimum path length used for pruning is at most the length of every valid schedule that starts
with `p` and `m` (as sets), and it is an index of `best_memory`. -/
theorem C37_lower_bound (hP : P.WF) {s : Scheduler Partitioner}
    (h : mkScheduler P.graph P.order = .ok s) (prof : Profile) (ops : List SweepOp)
    {sw sw' : Sweep (Scheduler Partitioner)} {p : Schedule} {m : List Nat}
    (e : Sweep.walk prof ops (Sweep.new s) [] = .ok (sw, p))
    (e' : sw.next (Scheduler.focusIter prof) = .ok (sw', some (.forward m))) :
    minimumPathLength sw'.current.time p < P.n + 1 ∧
    ∀ S, P.Valid S → List.Forall₂ List.Perm (p ++ [m]) (S.take (p.length + 1)) →
      minimumPathLength sw'.current.time p ≤ S.length := by
  obtain ⟨s', h1, h2, h3, _⟩ := mkScheduler_start hP
  rw [h] at h1
  injection h1 with h1
  subst h1
  obtain ⟨sw1, p1, e1, hc⟩ := walk_chain hP prof ops (Sweep.new s) [] (.base h2 h3.iterOK)
  rw [e] at e1
  injection e1 with e1
  injection e1 with e2 e3
  subst e2 e3
  obtain ⟨cur, st⟩ := sw
  obtain ⟨hs, hi⟩ := hc.state
  rcases nextAndFocus_spec hP.lax hs hi with ⟨s', hn, _, _⟩ | ⟨s', c, l, m', hn⟩
  · rw [next_none hn prof] at e'
    cases st with
    | nil => simp at e'
    | cons t r => simp at e'
  · rw [next_some hn prof] at e'
    injection e' with e'
    injection e' with e4 e5
    injection e5 with e5
    injection e5 with e5
    subst e4 e5
    refine ⟨Nat.lt_succ_of_le (minimumPathLength_le hP.lax hn.child), ?_⟩
    intro S hS hx
    refine minimumPathLength_le_of_extends hP.bits_nodup hn.child hS ?_
    unfold Extends
    simpa using hx

-- the second step of the documentation's example: at least 3 steps
example : ∃ s sw sw', mkScheduler Example.docs.graph Example.docs.order = .ok s ∧
    Sweep.walk .debug [.next] (Sweep.new s) [] = .ok (sw, [[0]]) ∧
    sw.next (Scheduler.focusIter .debug) = .ok (sw', some (.forward [3, 1])) ∧
    minimumPathLength sw'.current.time [[0]] = 3 := by
  refine ⟨_, _, _, rfl, rfl, rfl, ?_⟩
  decide +kernel

end

/-! ## `Partition` -/

/-- All items of a `Partition`, by calling `next` until it returns `None`. -/
def Partition.collect {α : Type} : Nat → Partition α → List (List α × List α)
  | 0, _ => []
  | fuel + 1, p =>
    match p.next with
    | (_, none) => []
    | (p', some x) => x :: Partition.collect fuel p'

theorem collect_eq {α : Type} (fuel : Nat) : ∀ p : Partition α, p.iter.length ≤ fuel →
    p.collect fuel = p.iter.map (Partition.split p.set 0) := by
  induction fuel with
  | zero =>
    intro p h
    have : p.iter = [] := List.eq_nil_of_length_eq_zero (by omega)
    simp [Partition.collect, this]
  | succ fuel ih =>
    rintro ⟨set, iter⟩ h
    cases iter with
    | nil => rfl
    | cons x iter =>
      have := ih ⟨set, iter⟩ (by simp at h; omega)
      simp only [Partition.collect, Partition.next, this, List.map_cons]

theorem exists_splits_fst {α : Type} (set : List α) : ∀ r : List α, r.Sublist set →
    ∃ l, (r, l) ∈ splits r.length set := by
  induction set with
  | nil =>
    intro r h
    rw [List.sublist_nil] at h
    subst h
    exact ⟨[], by simp [splits]⟩
  | cons x xs ih =>
    intro r h
    rcases List.sublist_cons_iff.1 h with h1 | ⟨r', rfl, h1⟩
    · cases r with
      | nil => exact ⟨x :: xs, by simp [splits]⟩
      | cons y r =>
        obtain ⟨l, hl⟩ := ih _ h1
        refine ⟨x :: l, ?_⟩
        rw [List.length_cons] at hl ⊢
        rw [splits, List.mem_append]
        exact Or.inr (List.mem_map.2 ⟨_, hl, rfl⟩)
    · obtain ⟨l, hl⟩ := ih _ h1
      refine ⟨l, ?_⟩
      rw [List.length_cons, splits, List.mem_append]
      exact Or.inl (List.mem_map.2 ⟨_, hl, rfl⟩)

/-- **C22** A fresh partition of a set with `n` elements yields `2 ^ n` pairs and then stops; every
pair is an order-preserving split; every sub-list occurs as first and as second part; without
repeated elements it occurs only once; the first parts grow in size, from nothing to everything. -/
theorem C22_partition {α : Type} (set : List α) :
    ∃ out : List (List α × List α),
      (∀ fuel, 2 ^ set.length ≤ fuel → (Partition.new set set.length).collect fuel = out) ∧
      out.length = 2 ^ set.length ∧
      (∀ x ∈ out, (x.1 ++ x.2).Perm set ∧ x.1.Sublist set ∧ x.2.Sublist set) ∧
      (∀ r, r.Sublist set → (∃ l, (l, r) ∈ out) ∧ (∃ l, (r, l) ∈ out)) ∧
      (set.Nodup → (out.map (·.1)).Nodup ∧ (out.map (·.2)).Nodup) ∧
      (out.Pairwise fun a b => a.1.length ≤ b.1.length) ∧
      out.head? = some ([], set) ∧ out.getLast? = some (set, []) := by
  refine ⟨items set, ?_, ?_, fun x hx => mem_items hx, ?_, ?_, ?_, ?_, ?_⟩
  · intro fuel hf
    rw [collect_eq fuel _ (by simpa [Partition.new, length_powerset] using hf)]
    exact map_split_powerset set
  · rw [← map_split_powerset, List.length_map, length_powerset]
  · intro r hr
    refine ⟨exists_items_of_sublist hr, ?_⟩
    obtain ⟨l, hl⟩ := exists_splits_fst set r hr
    refine ⟨l, List.mem_flatMap.2 ⟨r.length, ?_, hl⟩⟩
    rw [List.mem_range]
    exact Nat.lt_succ_of_le hr.length_le
  · intro hs
    have h2 := items_snd_nodup hs
    refine ⟨?_, h2⟩
    refine List.Nodup.map_on ?_ (List.Nodup.of_map _ h2)
    rintro ⟨l, r⟩ h ⟨l', r'⟩ h' (rfl : l = l')
    obtain ⟨a1, a2, a3⟩ := mem_items h
    obtain ⟨b1, b2, b3⟩ := mem_items h'
    have : r.Perm r' := (List.perm_append_left_iff l).1 (a1.trans b1.symm)
    rw [sublist_eq_of_perm set r r' hs a3 b3 this]
  · have key : ∀ ks : List Nat, ks.Pairwise (· ≤ ·) →
        (ks.flatMap fun k => splits k set).Pairwise fun a b => a.1.length ≤ b.1.length := by
      intro ks
      induction ks with
      | nil => intro _; exact List.Pairwise.nil
      | cons k ks ih =>
        intro h
        rw [List.pairwise_cons] at h
        rw [List.flatMap_cons, List.pairwise_append]
        refine ⟨?_, ih h.2, ?_⟩
        · refine List.pairwise_iff_getElem.2 fun i j hi hj _ => ?_
          have h1 : ((splits k set)[i]).1.length = k := (mem_splits (List.getElem_mem hi)).1
          have h2 : ((splits k set)[j]).1.length = k := (mem_splits (List.getElem_mem hj)).1
          omega
        · intro a ha b hb
          obtain ⟨k', hk', hb⟩ := List.mem_flatMap.1 hb
          rw [(mem_splits ha).1, (mem_splits hb).1]
          exact h.1 k' hk'
    exact key _ (List.pairwise_le_range)
  · simp [items, List.range_succ_eq_map, splits]
  · rw [items_eq]
    simp

example : (Partition.new [5, 7] 2).collect 4 = [([], [5, 7]), ([5], [7]), ([7], [5]), ([5, 7], [])] := by
  decide +kernel

end Verif
