import Verif.Model.Threaded
import Verif.Proofs.State
import Mathlib.Data.List.Perm.Subperm
/-!
# One iteration of the search loops
-/

namespace Verif

open Spec Search

/-- `current` and `stack` are the scheduler states along `path`; the bottom one is at `p0`. -/
inductive Chain (P : Problem) (p0 : Schedule) :
    Schedule → Scheduler Partitioner → List (Scheduler Partitioner) → Prop
  | base {s : Scheduler Partitioner} (h : StateFor P p0 s) (hi : IterOK s) : Chain P p0 p0 s []
  | push {p : Schedule} {m : List Nat} {top c : Scheduler Partitioner}
      {rest : List (Scheduler Partitioner)} (h : Chain P p0 p top rest)
      (hc : StateFor P (p ++ [m]) c) (hi : IterOK c) : Chain P p0 (p ++ [m]) c (top :: rest)

theorem Chain.state {P : Problem} {p0 p : Schedule} {s : Scheduler Partitioner}
    {st : List (Scheduler Partitioner)} (h : Chain P p0 p s st) : StateFor P p s ∧ IterOK s := by
  cases h with
  | base h hi => exact ⟨h, hi⟩
  | push _ h hi => exact ⟨h, hi⟩

theorem Chain.pop {P : Problem} {p0 p : Schedule} {s top : Scheduler Partitioner}
    {rest : List (Scheduler Partitioner)} (h : Chain P p0 p s (top :: rest)) :
    Chain P p0 p.dropLast top rest := by
  cases h with
  | push h _ _ => simpa using h

theorem Chain.base_path {P : Problem} {p0 p : Schedule} {s : Scheduler Partitioner}
    (h : Chain P p0 p s []) : p = p0 := by
  cases h; rfl

/-- Replace the current state by another one for the same path. -/
theorem Chain.replace {P : Problem} {p0 p : Schedule} {s s' : Scheduler Partitioner}
    {st : List (Scheduler Partitioner)} (h : Chain P p0 p s st) (hs : StateFor P p s')
    (hi : IterOK s') : Chain P p0 p s' st := by
  cases h with
  | base _ _ => exact .base hs hi
  | push h _ _ => exact .push h hs hi

/-- Lengths of prefixes are bounded by the number of nodes. -/
theorem Prefix.length_le {P : Problem} {p : Schedule} (h : Prefix P p) :
    p.length ≤ p.flatten.length := by
  have : ∀ q : Schedule, (∀ s ∈ q, s ≠ []) → q.length ≤ q.flatten.length := by
    intro q
    induction q with
    | nil => simp
    | cons a q ih =>
      intro hq
      have h1 := ih fun s hs => hq s (by simp [hs])
      have h2 := List.length_pos_iff.2 (hq a (by simp))
      simp only [List.length_cons, List.flatten_cons, List.length_append]
      omega
  exact this p h.nonempty

theorem nodup_length_le_n {P : Problem} (hP : Lax P) {l : List Nat} (hn : l.Nodup)
    (hl : ∀ b ∈ l, b ∈ P.bits) : l.length ≤ P.n := by
  rw [← countP_mem_range hn fun b hb => hP.bits_lt b (hl b hb)]
  exact Nat.le_trans List.countP_le_length (by simp)

theorem nodup_length_le_bits {P : Problem} {l : List Nat} (hn : l.Nodup)
    (hl : ∀ b ∈ l, b ∈ P.bits) : l.length ≤ P.bits.length :=
  (hn.subperm hl).length_le

/-- `hasUnmeasureable` in terms of the specification. -/
theorem hasUnmeasureable_iff {P : Problem} {T : Type} [MeasurableSet T] {p : Schedule}
    {s : Scheduler T} (h : StateFor P p s) :
    s.time.hasUnmeasureable = true ↔ ∃ b ∈ P.bits, 0 < unmet P p.flatten b := by
  have h1 := AMap.isEmpty_iff (m := s.time.depsCounter)
  unfold PathGenerator.hasUnmeasureable
  rw [Bool.not_eq_true', ← Bool.not_eq_true, h1]
  constructor
  · intro hn
    obtain ⟨b, hb⟩ := Classical.not_forall.1 hn
    have hg := (h.time.deps_get b).1
    unfold curCount at hg
    split at hg
    · rename_i hc; exact ⟨b, hc.1, hc.2⟩
    · exact (hb (by simpa using hg)).elim
  · rintro ⟨b, hb, hu⟩ hall
    have hg := (h.time.deps_get b).1
    rw [hall b] at hg
    simp [curCount, hb, hu] at hg

theorem atLeaf_isSome (t : PathGenerator Partitioner) :
    t.atLeaf.isSome = true ↔ t.measurable.set = [] := by
  unfold PathGenerator.atLeaf
  cases t.measurable.set <;> simp

/-- The minimum path length is within the table `best_memory`. -/
theorem minimumPathLength_le {P : Problem} (hP : Lax P) {p : Schedule} {m : List Nat}
    {c : Scheduler Partitioner} (h : StateFor P (p ++ [m]) c) :
    minimumPathLength c.time p ≤ P.n := by
  have hlen := h.pre.length_le
  simp only [List.length_append, List.length_singleton] at hlen
  unfold minimumPathLength
  split
  · have := nodup_length_le_n hP h.pre.nodup h.pre.sub
    omega
  · rename_i hleaf
    rw [atLeaf_isSome] at hleaf
    obtain ⟨r, hr⟩ : ∃ r, r ∈ c.time.measurable.set := List.exists_mem_of_ne_nil _ hleaf
    have hr' := (h.time.set_mem r).1 hr
    split
    · rename_i hun
      obtain ⟨b, hb, hu⟩ := (hasUnmeasureable_iff h).1 hun
      have hbr : b ≠ r := by
        rintro rfl
        have := ((ready_iff hP.bits_nodup).1 hr').2.2
        omega
      have hbf : b ∉ (p ++ [m]).flatten := by
        intro hbM
        have := (unmet_zero_iff hP.bits_nodup).2 (h.time.closed b hbM)
        omega
      have := nodup_length_le_n hP (l := b :: r :: (p ++ [m]).flatten)
        (by
          simp only [List.nodup_cons, List.mem_cons, not_or]
          exact ⟨⟨hbr, hbf⟩, hr'.fresh, h.pre.nodup⟩)
        (by
          intro x hx
          simp only [List.mem_cons] at hx
          rcases hx with rfl | rfl | hx
          · exact hb
          · exact hr'.bit
          · exact h.pre.sub x hx)
      simp only [List.length_cons] at this
      omega
    · have := nodup_length_le_n hP (l := r :: (p ++ [m]).flatten)
        (by
          simp only [List.nodup_cons]
          exact ⟨hr'.fresh, h.pre.nodup⟩)
        (by
          intro x hx
          simp only [List.mem_cons] at hx
          rcases hx with rfl | hx
          · exact hr'.bit
          · exact h.pre.sub x hx)
      simp only [List.length_cons] at this
      omega

/-- What one iteration of a search loop may do. `Det` is the extra knowledge that nodes are skipped
only because of the bound. The Boolean tells whether the loop ends. -/
inductive IterStep (P : Problem) (Det : Prop) : Loc → Loc → Bool → Prop
  | stop {l : Loc} {s' : Scheduler Partitioner} (hst : l.sweep.stack = [])
      (hn : NextNone l.sweep.current s') (hs : StateFor P l.path s') (hi : IterOK s') :
      IterStep P Det l { l with sweep := ⟨s', []⟩ } true
  | backLeaf {l : Loc} {s' top : Scheduler Partitioner} {rest : List (Scheduler Partitioner)}
      (hst : l.sweep.stack = top :: rest) (hn : NextNone l.sweep.current s')
      (hleaf : l.sweep.current.time.measurable.set = []) (hlen : l.path.length < l.best.length) :
      IterStep P Det l
        ⟨⟨top, rest⟩, l.path.dropLast,
          updateBest l.best l.path.length l.sweep.current.space.maxMemory,
          l.results.insert l.path.length (l.sweep.current.space.maxMemory, l.path)⟩ false
  | backInner {l : Loc} {s' top : Scheduler Partitioner} {rest : List (Scheduler Partitioner)}
      (hst : l.sweep.stack = top :: rest) (hn : NextNone l.sweep.current s')
      (hleaf : l.sweep.current.time.measurable.set ≠ []) :
      IterStep P Det l { l with sweep := ⟨top, rest⟩, path := l.path.dropLast } false
  | skip {l : Loc} {s' c : Scheduler Partitioner} {k m : List Nat} {bound : Nat}
      (hn : NextSome P l.path l.sweep.current s' c k m)
      (hb : l.best[minimumPathLength c.time l.path]? = some bound)
      (hd : Det → bound ≤ c.space.maxMemory) :
      IterStep P Det l { l with sweep := ⟨s', l.sweep.stack⟩ } false
  | push {l : Loc} {s' c : Scheduler Partitioner} {k m : List Nat} {bound : Nat}
      (hn : NextSome P l.path l.sweep.current s' c k m)
      (hb : l.best[minimumPathLength c.time l.path]? = some bound)
      (hlt : c.space.maxMemory < bound) :
      IterStep P Det l
        { l with sweep := ⟨c, s' :: l.sweep.stack⟩, path := l.path ++ [m] } false

/-- The part of the loop invariant that is about shapes. -/
structure LocOK (P : Problem) (p0 : Schedule) (l : Loc) : Prop where
  chain : Chain P p0 l.path l.sweep.current l.sweep.stack
  best : l.best.length = P.n + 1

theorem IterStep.locOK {P : Problem} {Det : Prop} {p0 : Schedule} {l l' : Loc} {stop : Bool}
    (h : IterStep P Det l l' stop) (hl : LocOK P p0 l) : LocOK P p0 l' := by
  cases h with
  | stop hst hn hs hi =>
    refine ⟨?_, hl.best⟩
    have := hl.chain.replace hs hi
    rw [hst] at this; exact this
  | backLeaf hst hn hleaf hlen =>
    have h1 := hl.chain
    rw [hst] at h1
    exact ⟨h1.pop, by simpa [updateBest] using hl.best⟩
  | backInner hst hn hleaf =>
    have h1 := hl.chain
    rw [hst] at h1
    exact ⟨h1.pop, hl.best⟩
  | skip hn hb hd => exact ⟨hl.chain.replace hn.state' hn.iter', hl.best⟩
  | push hn hb hlt =>
    exact ⟨.push (hl.chain.replace hn.state' hn.iter') hn.child hn.fresh.iterOK, hl.best⟩

theorem atLeaf_eq (s : Scheduler Partitioner) :
    s.atLeaf = if s.time.measurable.set = [] then some s.space.maxMemory else none := by
  unfold Scheduler.atLeaf
  cases s.time.measurable.set <;> simp

theorem NextNone.atLeaf {s s' : Scheduler Partitioner} (h : NextNone s s') : s'.atLeaf = s.atLeaf := by
  rw [atLeaf_eq, atLeaf_eq, h.set, h.space]

theorem path_length_lt {P : Problem} (hP : Lax P) {p0 : Schedule} {l : Loc} (hl : LocOK P p0 l) :
    l.path.length < l.best.length := by
  have h := hl.chain.state.1.pre
  have h1 := h.length_le
  have h2 := nodup_length_le_n hP h.nodup h.sub
  have := hl.best
  omega

/-- The deterministic iteration never panics and is an `IterStep`, the same in both profiles. -/
theorem searchIter_spec {P : Problem} (hP : Lax P) {p0 : Schedule} {l : Loc} (hl : LocOK P p0 l) :
    ∃ l' stop, (∀ prof, searchIter prof l = .ok (l', stop)) ∧ IterStep P True l l' stop := by
  obtain ⟨hs, hi⟩ := hl.chain.state
  rcases nextAndFocus_spec hP hs hi with ⟨s', hn, hs', hi'⟩ | ⟨s', c, k, m, hn⟩
  · cases hst : l.sweep.stack with
    | nil =>
      refine ⟨_, _, ?_, .stop hst hn hs' hi'⟩
      intro prof
      simp [searchIter, Sweep.next, Scheduler.focusIter, hn.eq prof, hst, bind, Except.bind, pure,
        Except.pure]
    | cons top rest =>
      by_cases hleaf : l.sweep.current.time.measurable.set = []
      · refine ⟨_, _, ?_, .backLeaf hst hn hleaf (path_length_lt hP hl)⟩
        intro prof
        have ha : s'.atLeaf = some l.sweep.current.space.maxMemory := by
          rw [hn.atLeaf, atLeaf_eq, if_pos hleaf]
        simp [searchIter, Sweep.next, Scheduler.focusIter, hn.eq prof, hst, bind, Except.bind, pure,
          Except.pure, ha, backward, path_length_lt hP hl]
      · refine ⟨_, _, ?_, .backInner hst hn hleaf⟩
        intro prof
        have ha : s'.atLeaf = none := by
          rw [hn.atLeaf, atLeaf_eq, if_neg hleaf]
        simp [searchIter, Sweep.next, Scheduler.focusIter, hn.eq prof, hst, bind, Except.bind, pure,
          Except.pure, ha, backward]
  · have hle := minimumPathLength_le hP hn.child
    have hlt : minimumPathLength c.time l.path < l.best.length := by have := hl.best; omega
    have hb : l.best[minimumPathLength c.time l.path]? = some l.best[minimumPathLength c.time l.path] := by
      simp [hlt]
    by_cases hcut : l.best[minimumPathLength c.time l.path] ≤ c.space.maxMemory
    · refine ⟨_, _, ?_, .skip hn hb fun _ => hcut⟩
      intro prof
      simp [searchIter, Sweep.next, Scheduler.focusIter, hn.eq prof, bind, Except.bind, pure,
        Except.pure, forward, idx_of_getElem? hb, hcut, Sweep.skipCurrent]
    · refine ⟨_, _, ?_, .push hn hb (Nat.lt_of_not_le hcut)⟩
      intro prof
      simp [searchIter, Sweep.next, Scheduler.focusIter, hn.eq prof, bind, Except.bind, pure,
        Except.pure, forward, idx_of_getElem? hb, hcut]

/-- The probabilistic iteration never panics and is an `IterStep`, the same in both profiles. -/
theorem probIter_spec {F σ : Type} [FloatOps F] (accept : Accept F) (gen : Rng F σ) (rng : σ)
    {P : Problem} (hP : Lax P) {p0 : Schedule} {l : Loc} (hl : LocOK P p0 l) :
    ∃ l' rng' stop, (∀ prof, probIter prof accept gen l rng = .ok (l', rng', stop)) ∧
      IterStep P False l l' stop := by
  obtain ⟨hs, hi⟩ := hl.chain.state
  rcases nextAndFocus_spec hP hs hi with ⟨s', hn, hs', hi'⟩ | ⟨s', c, k, m, hn⟩
  · cases hst : l.sweep.stack with
    | nil =>
      refine ⟨_, rng, _, ?_, .stop hst hn hs' hi'⟩
      intro prof
      simp [probIter, Sweep.next, Scheduler.focusIter, hn.eq prof, hst, bind, Except.bind, pure,
        Except.pure]
    | cons top rest =>
      by_cases hleaf : l.sweep.current.time.measurable.set = []
      · refine ⟨_, rng, _, ?_, .backLeaf hst hn hleaf (path_length_lt hP hl)⟩
        intro prof
        have ha : s'.atLeaf = some l.sweep.current.space.maxMemory := by
          rw [hn.atLeaf, atLeaf_eq, if_pos hleaf]
        simp [probIter, Sweep.next, Scheduler.focusIter, hn.eq prof, hst, bind, Except.bind, pure,
          Except.pure, ha, backward, path_length_lt hP hl]
      · refine ⟨_, rng, _, ?_, .backInner hst hn hleaf⟩
        intro prof
        have ha : s'.atLeaf = none := by
          rw [hn.atLeaf, atLeaf_eq, if_neg hleaf]
        simp [probIter, Sweep.next, Scheduler.focusIter, hn.eq prof, hst, bind, Except.bind, pure,
          Except.pure, ha, backward]
  · have hle := minimumPathLength_le hP hn.child
    have hlt : minimumPathLength c.time l.path < l.best.length := by have := hl.best; omega
    have hb : l.best[minimumPathLength c.time l.path]? = some l.best[minimumPathLength c.time l.path] := by
      simp [hlt]
    have hne : l.best ≠ [] := by rintro h; simp [h] at hlt
    obtain ⟨last, hlast⟩ : ∃ x, l.best.getLast? = some x := ⟨_, List.getLast?_eq_some_getLast hne⟩
    by_cases hcut : l.best[minimumPathLength c.time l.path] ≤ c.space.maxMemory
    · refine ⟨_, rng, _, ?_, .skip hn hb fun h => h.elim⟩
      intro prof
      simp [probIter, Sweep.next, Scheduler.focusIter, hn.eq prof, bind, Except.bind, pure,
        Except.pure, probabilisticForward, idx_of_getElem? hb, hcut, Sweep.skipCurrent]
    · generalize ha : accept (FloatOps.ofUsize l.best[minimumPathLength c.time l.path])
        (FloatOps.ofUsize last) (FloatOps.ofUsize l.sweep.current.space.maxMemory)
        (FloatOps.ofUsize l.sweep.current.space.currentMemory)
        (FloatOps.ofUsize c.space.currentMemory) (FloatOps.ofUsize c.time.numRemainingNodes)
        (FloatOps.ofUsize c.space.nodes.length) = a
      by_cases hg : FloatOps.geOne a = true
      · refine ⟨_, rng, _, ?_, .push hn hb (Nat.lt_of_not_le hcut)⟩
        intro prof
        simp [probIter, Sweep.next, Scheduler.focusIter, hn.eq prof, bind, Except.bind, pure,
          Except.pure, probabilisticForward, idx_of_getElem? hb, hcut, hlast, ha, hg]
      · by_cases hr : FloatOps.lt (gen.sample rng).1 a = true
        · refine ⟨_, (gen.sample rng).2, _, ?_, .push hn hb (Nat.lt_of_not_le hcut)⟩
          intro prof
          simp [probIter, Sweep.next, Scheduler.focusIter, hn.eq prof, bind, Except.bind, pure,
            Except.pure, probabilisticForward, idx_of_getElem? hb, hcut, hlast, ha, hg, hr]
        · refine ⟨_, (gen.sample rng).2, _, ?_, .skip hn hb fun h => h.elim⟩
          intro prof
          simp [probIter, Sweep.next, Scheduler.focusIter, hn.eq prof, bind, Except.bind, pure,
            Except.pure, probabilisticForward, idx_of_getElem? hb, hcut, hlast, ha, hg, hr,
            Sweep.skipCurrent]

end Verif
