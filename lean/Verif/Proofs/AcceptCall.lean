import Verif.Proofs.RunAll
import Verif.Proofs.Focus
import Verif.Proofs.TimeApi
/-!
# What the accept function is asked
-/

namespace Verif

open Spec Search

/-- The number of nodes that are in memory after the steps `p`: not measured, and a neighbour of a
measured one. -/
def Spec.Problem.held (P : Problem) (p : Schedule) : Nat :=
  ((List.range P.n).filter fun v =>
    !p.flatten.contains v && p.flatten.any fun u => (P.nbrs u).contains v).length

/-- The number of bits with a dependency that is not measured in the steps `p`. -/
def Spec.Problem.blocked (P : Problem) (p : Schedule) : Nat :=
  (P.entries.filter fun e => e.2.any fun d => !p.flatten.contains d).length

/-- The seven numbers an accept function is called with. -/
structure Query where
  bound : Nat
  minimal : Nat
  lastMax : Nat
  lastCur : Nat
  cur : Nat
  remaining : Nat
  total : Nat
  deriving DecidableEq, Repr

/-- The answer of an accept function. -/
def Query.ask {F : Type} [FloatOps F] (q : Query) (accept : Accept F) : F :=
  accept (FloatOps.ofUsize q.bound) (FloatOps.ofUsize q.minimal) (FloatOps.ofUsize q.lastMax)
    (FloatOps.ofUsize q.lastCur) (FloatOps.ofUsize q.cur) (FloatOps.ofUsize q.remaining)
    (FloatOps.ofUsize q.total)

theorem GraphFor.held {P : Problem} {p : Schedule} {g : Graph} (hg : GraphFor P p g)
    (hn : p.flatten.Nodup) (hlt : ∀ b ∈ p.flatten, b < P.n) : g.currentMemory = P.held p := by
  have hcur := hg.cur
  rw [hg.nodes, awake_nodesOf] at hcur
  have hsplit := countP_split (l := List.range P.n) (fun v => decide (Touched P p.flatten v))
    (fun v => decide (v ∈ p.flatten)) (by
      intro v hv
      rw [decide_eq_true_eq] at hv ⊢
      exact Or.inl hv)
  rw [countP_mem_range hn hlt] at hsplit
  have hcur' : g.currentMemory = (List.range P.n).countP
      (fun v => decide (Touched P p.flatten v) && !decide (v ∈ p.flatten)) := by omega
  rw [hcur', Problem.held, ← List.countP_eq_length_filter]
  apply List.countP_congr
  intro v _
  have e1 : (p.flatten.any fun u => (P.nbrs u).contains v) = true ↔ ∃ u ∈ p.flatten, v ∈ P.nbrs u := by
    rw [List.any_eq_true]
    simp only [List.contains_iff_mem]
  by_cases hv : v ∈ p.flatten
  · simp [hv, -List.mem_flatten]
  · by_cases ht : ∃ u ∈ p.flatten, v ∈ P.nbrs u
    · have ht' : Touched P p.flatten v := Or.inr ht
      rw [e1.2 ht]
      simp [hv, ht', -List.mem_flatten]
    · have ht' : ¬ Touched P p.flatten v := by
        rintro (h | h)
        exacts [hv h, ht h]
      have := mt e1.1 ht
      rw [Bool.not_eq_true] at this
      rw [this]
      simp [hv, ht', -List.mem_flatten]

theorem StateFor.blocked {P : Problem} (hP : P.WF) {p : Schedule} {s : Scheduler Partitioner}
    (h : StateFor P p s) : s.time.numRemainingNodes = P.blocked p := by
  have h1 : (s.time.depsCounter.map (·.1)).Perm
      ((P.entries.filter fun e => e.2.any fun d => !p.flatten.contains d).map (·.1)) := by
    refine (List.perm_ext_iff_of_nodup h.time.deps_nodup
      ((List.filter_sublist.map _).nodup hP.bits_nodup)).2 fun b => ?_
    have hg : AMap.get s.time.depsCounter b ≠ none ↔ curCount P p.flatten b ≠ none := by
      rw [← Option.isSome_iff_ne_none, ← Option.isSome_iff_ne_none, (h.time.deps_get b).1]
    rw [AMap.mem_keys_iff, hg]
    unfold curCount
    rw [List.mem_map]
    constructor
    · intro hc
      split at hc
      · rename_i hc'
        obtain ⟨e, he, rfl⟩ := List.mem_map.1 hc'.1
        refine ⟨e, List.mem_filter.2 ⟨he, ?_⟩, rfl⟩
        have := hc'.2
        rw [unmet, List.countP_pos_iff] at this
        obtain ⟨d, hd, hd'⟩ := this
        rw [depsOf, (get_entries hP.bits_nodup).2 he] at hd
        rw [List.any_eq_true]
        exact ⟨d, hd, by simpa using hd'⟩
      · simp at hc
    · rintro ⟨e, he, rfl⟩
      rw [List.mem_filter] at he
      obtain ⟨he, hu⟩ := he
      rw [List.any_eq_true] at hu
      obtain ⟨d, hd, hd'⟩ := hu
      have hpos : 0 < unmet P p.flatten e.1 := by
        rw [unmet, List.countP_pos_iff]
        exact ⟨d, by rw [depsOf, (get_entries hP.bits_nodup).2 he]; exact hd, by simpa using hd'⟩
      rw [if_pos ⟨List.mem_map.2 ⟨e, he, rfl⟩, hpos⟩]
      exact Option.some_ne_none _
  have := h1.length_eq
  simpa [PathGenerator.numRemainingNodes, Problem.blocked] using this

/-- One iteration of the probabilistic search: either it does what the deterministic iteration does,
without asking, or it asks once. -/
theorem probIter_cases {P : Problem} (hP : P.WF) {p0 : Schedule} {l : Loc} (hl : LocOK P p0 l) :
    (∃ l' stop, (∀ prof, searchIter prof l = .ok (l', stop)) ∧
      ∀ {F σ : Type} [FloatOps F] (accept : Accept F) (gen : Rng F σ) (rng : σ) prof,
        probIter prof accept gen l rng = .ok (l', rng, stop)) ∨
    ∃ s' c k m bound minimal,
      NextSome P l.path l.sweep.current s' c k m ∧
      l.best[minimumPathLength c.time l.path]? = some bound ∧
      c.space.maxMemory < bound ∧ l.best.getLast? = some minimal ∧
      (∀ prof, searchIter prof l = .ok
        ({ l with sweep := ⟨c, s' :: l.sweep.stack⟩, path := l.path ++ [m] }, false)) ∧
      ∀ {F σ : Type} [FloatOps F] (accept : Accept F) (gen : Rng F σ) (rng : σ) prof,
        let a := Query.ask ⟨bound, minimal, P.peak l.path, P.held l.path, P.held (l.path ++ [m]),
          P.blocked (l.path ++ [m]), P.n⟩ accept
        probIter prof accept gen l rng = .ok (
          if FloatOps.geOne a then
            ({ l with sweep := ⟨c, s' :: l.sweep.stack⟩, path := l.path ++ [m] }, rng, false)
          else if FloatOps.lt (gen.sample rng).1 a then
            ({ l with sweep := ⟨c, s' :: l.sweep.stack⟩, path := l.path ++ [m] },
              (gen.sample rng).2, false)
          else ({ l with sweep := ⟨s', l.sweep.stack⟩ }, (gen.sample rng).2, false)) := by
  obtain ⟨hs, hi⟩ := hl.chain.state
  rcases nextAndFocus_spec hP.lax hs hi with ⟨s', hn, hs', hi'⟩ | ⟨s', c, k, m, hn⟩
  · left
    cases hst : l.sweep.stack with
    | nil =>
      refine ⟨{ l with sweep := ⟨s', []⟩ }, true, fun prof => ?_, fun accept gen rng prof => ?_⟩
      · simp [searchIter, Sweep.next, Scheduler.focusIter, hn.eq prof, hst, bind, Except.bind, pure,
          Except.pure]
      · simp [probIter, Sweep.next, Scheduler.focusIter, hn.eq prof, hst, bind, Except.bind, pure,
          Except.pure]
    | cons top rest =>
      by_cases hleaf : l.sweep.current.time.measurable.set = []
      · have ha : s'.atLeaf = some l.sweep.current.space.maxMemory := by
          rw [hn.atLeaf, atLeaf_eq, if_pos hleaf]
        refine ⟨⟨⟨top, rest⟩, l.path.dropLast,
          updateBest l.best l.path.length l.sweep.current.space.maxMemory,
          l.results.insert l.path.length (l.sweep.current.space.maxMemory, l.path)⟩, false,
          fun prof => ?_, fun accept gen rng prof => ?_⟩
        · simp [searchIter, Sweep.next, Scheduler.focusIter, hn.eq prof, hst, bind, Except.bind, pure,
            Except.pure, ha, backward, path_length_lt hP.lax hl]
        · simp [probIter, Sweep.next, Scheduler.focusIter, hn.eq prof, hst, bind, Except.bind, pure,
            Except.pure, ha, backward, path_length_lt hP.lax hl]
      · have ha : s'.atLeaf = none := by
          rw [hn.atLeaf, atLeaf_eq, if_neg hleaf]
        refine ⟨{ l with sweep := ⟨top, rest⟩, path := l.path.dropLast }, false,
          fun prof => ?_, fun accept gen rng prof => ?_⟩
        · simp [searchIter, Sweep.next, Scheduler.focusIter, hn.eq prof, hst, bind, Except.bind, pure,
            Except.pure, ha, backward]
        · simp [probIter, Sweep.next, Scheduler.focusIter, hn.eq prof, hst, bind, Except.bind, pure,
            Except.pure, ha, backward]
  · have hle := minimumPathLength_le hP.lax hn.child
    have hlt : minimumPathLength c.time l.path < l.best.length := by have := hl.best; omega
    have hb : l.best[minimumPathLength c.time l.path]? = some l.best[minimumPathLength c.time l.path] := by
      simp [hlt]
    have hne : l.best ≠ [] := by rintro h; simp [h] at hlt
    obtain ⟨last, hlast⟩ : ∃ x, l.best.getLast? = some x := ⟨_, List.getLast?_eq_some_getLast hne⟩
    by_cases hcut : l.best[minimumPathLength c.time l.path] ≤ c.space.maxMemory
    · left
      refine ⟨{ l with sweep := ⟨s', l.sweep.stack⟩ }, false, fun prof => ?_,
        fun accept gen rng prof => ?_⟩
      · simp [searchIter, Sweep.next, Scheduler.focusIter, hn.eq prof, bind, Except.bind, pure,
          Except.pure, forward, idx_of_getElem? hb, hcut, Sweep.skipCurrent]
      · simp [probIter, Sweep.next, Scheduler.focusIter, hn.eq prof, bind, Except.bind, pure,
          Except.pure, probabilisticForward, idx_of_getElem? hb, hcut, Sweep.skipCurrent]
    · right
      refine ⟨s', c, k, m, _, last, hn, hb, Nat.lt_of_not_le hcut, hlast, fun prof => ?_,
        fun accept gen rng prof => ?_⟩
      · simp [searchIter, Sweep.next, Scheduler.focusIter, hn.eq prof, bind, Except.bind, pure,
          Except.pure, forward, idx_of_getElem? hb, hcut]
      · have q1 := hs.space.max
        have q2 := hs.space.held hs.pre.nodup fun b hb => hP.bits_lt b (hs.pre.sub b hb)
        have q3 := hn.child.space.held hn.child.pre.nodup
          fun b hb => hP.bits_lt b (hn.child.pre.sub b hb)
        have q4 := hn.child.blocked hP
        have q5 : c.space.nodes.length = P.n := by rw [hn.child.space.nodes, length_nodesOf]
        generalize ha : Query.ask ⟨l.best[minimumPathLength c.time l.path], last, P.peak l.path,
          P.held l.path, P.held (l.path ++ [m]), P.blocked (l.path ++ [m]), P.n⟩ accept = a
        simp only [Query.ask, ← q1, ← q2, ← q3, ← q4, ← q5] at ha
        by_cases hg : FloatOps.geOne a = true
        · simp [probIter, Sweep.next, Scheduler.focusIter, hn.eq prof, bind, Except.bind, pure,
            Except.pure, probabilisticForward, idx_of_getElem? hb, hcut, hlast, ha, hg]
        · by_cases hr : FloatOps.lt (gen.sample rng).1 a = true
          · simp [probIter, Sweep.next, Scheduler.focusIter, hn.eq prof, bind, Except.bind, pure,
              Except.pure, probabilisticForward, idx_of_getElem? hb, hcut, hlast, ha, hg, hr]
          · simp [probIter, Sweep.next, Scheduler.focusIter, hn.eq prof, bind, Except.bind, pure,
              Except.pure, probabilisticForward, idx_of_getElem? hb, hcut, hlast, ha, hg, hr,
              Sweep.skipCurrent]

/-- Every prefix can be completed. -/
theorem Prefix.extend {P : Problem} (hP : P.WF) {p : Schedule} (h : Prefix P p) :
    ∃ rest, P.Valid (p ++ rest) := by
  obtain ⟨k, hk⟩ : ∃ k, P.bits.length - p.flatten.length = k := ⟨_, rfl⟩
  induction k using Nat.strongRecOn generalizing p with
  | ind k ih =>
    by_cases hall : ∀ b ∈ P.bits, b ∈ p.flatten
    · exact ⟨[], by simpa using h.valid hP.bits_nodup hall⟩
    · simp only [not_forall] at hall
      obtain ⟨b, hb, hb'⟩ := hall
      obtain ⟨r, hr⟩ := exists_ready hP p.flatten hb hb'
      have h' : Prefix P (p ++ [[r]]) := prefix_snoc h (by simp) (by simp)
        (by intro x hx; simp only [List.mem_singleton] at hx; exact hx ▸ hr)
      have hle := nodup_length_le_bits h'.nodup h'.sub
      have hlen : (p ++ [[r]]).flatten.length = p.flatten.length + 1 := by simp
      rw [hlen] at hle
      obtain ⟨rest, hrest⟩ := ih _ (by omega) h' rfl
      exact ⟨[r] :: rest, by simpa using hrest⟩

/-- The table of a single-threaded search: an entry is the least memory of the recorded paths of at
most that many steps. -/
theorem LInv.entry {P : Problem} {l : Loc} (hl : LInv P [] (best0 P) l) {t : Nat} (ht : t ≤ P.n) :
    (∀ t' m S, t' ≤ t → l.results.get t' = some (m, S) → at0 l.best t ≤ m) ∧
    (at0 l.best t = usizeMax ∨ ∃ t' S, t' ≤ t ∧ l.results.get t' = some (at0 l.best t, S)) := by
  refine ⟨fun t' m S h1 h2 => Nat.le_trans (hl.anti t' t h1) (hl.b3 t' m S h2), ?_⟩
  rcases hl.b2 t with h | ⟨t', m, S, h1, h2, h3⟩
  · left
    rw [h, at0_replicate, if_pos (by omega)]
  · right
    have := Nat.le_trans (hl.anti t' t h1) (hl.b3 t' m S h2)
    have : m = at0 l.best t := by omega
    exact ⟨t', S, h1, this ▸ h2⟩

theorem getLast?_at0 {b : List Nat} {n x : Nat} (hb : b.length = n + 1) (h : b.getLast? = some x) :
    x = at0 b n := by
  rw [List.getLast?_eq_getElem?, hb] at h
  exact (at0_of_getElem? h).symm

/-- How many steps a schedule that starts with `p` has at least. -/
def Spec.Problem.atLeast (P : Problem) (p : Schedule) : Nat :=
  if p.flatten.length = P.bits.length then p.length
  else if P.blocked p = 0 then p.length + 1
  else p.length + 2

theorem minimumPathLength_eq {P : Problem} (hP : P.WF) {p : Schedule} {m : List Nat}
    {c : Scheduler Partitioner} (h : StateFor P (p ++ [m]) c) :
    minimumPathLength c.time p = P.atLeast (p ++ [m]) := by
  have h1 : c.time.hasUnmeasureable = true ↔ P.blocked (p ++ [m]) ≠ 0 := by
    rw [← h.blocked hP, PathGenerator.hasUnmeasureable, PathGenerator.numRemainingNodes]
    cases c.time.depsCounter <;> simp
  have h2 : c.time.measurable.set = [] ↔ (p ++ [m]).flatten.length = P.bits.length := by
    constructor
    · intro hs
      have : ∀ b ∈ P.bits, b ∈ (p ++ [m]).flatten := by
        intro b hb
        apply Classical.byContradiction
        intro hb'
        obtain ⟨r, hr⟩ := exists_ready hP _ hb hb'
        have := (h.time.set_mem r).2 hr
        change r ∈ c.time.measurable.set at this
        rw [hs] at this
        cases this
      exact (h.pre.valid hP.bits_nodup this).perm.length_eq
    · intro hlen
      rw [List.eq_nil_iff_forall_not_mem]
      intro r hr
      have hr' := (h.time.set_mem r).1 hr
      have := nodup_length_le_bits (P := P) (l := r :: (p ++ [m]).flatten)
        (by rw [List.nodup_cons]; exact ⟨hr'.fresh, h.pre.nodup⟩)
        (by
          intro x hx
          rcases List.mem_cons.1 hx with rfl | hx
          exacts [hr'.bit, h.pre.sub x hx])
      rw [List.length_cons] at this
      omega
  unfold minimumPathLength Problem.atLeast
  by_cases hs : c.time.measurable.set = []
  · rw [if_pos ((atLeaf_isSome _).2 hs), if_pos (h2.1 hs)]
    simp
  · rw [if_neg (fun h => hs ((atLeaf_isSome _).1 h)), if_neg (fun h => hs (h2.2 h))]
    by_cases hb : P.blocked (p ++ [m]) = 0
    · rw [if_neg (fun h => (h1.1 h) hb), if_pos hb]
      simp
    · rw [if_pos (h1.2 hb), if_neg hb]
      simp

/-- `v` is the least memory of the recorded paths of at most `t` steps; `usize::MAX` if there are
none. -/
structure LeastFound (found : MappedPaths) (t v : Nat) : Prop where
  le : ∀ t' m S, t' ≤ t → found.get t' = some (m, S) → v ≤ m
  mem : v = usizeMax ∧ (∀ t' r, t' ≤ t → found.get t' ≠ some r) ∨
    ∃ t' S, t' ≤ t ∧ found.get t' = some (v, S)

/-- The question asked when, with the paths `found` recorded, the search is at the steps `p` and
considers the step `m`. -/
structure Asked (P : Problem) (found : MappedPaths) (p : Schedule) (m : List Nat) (q : Query) :
    Prop where
  bound : LeastFound found (P.atLeast (p ++ [m])) q.bound
  minimal : LeastFound found P.n q.minimal
  lastMax : q.lastMax = P.peak p
  lastCur : q.lastCur = P.held p
  cur : q.cur = P.held (p ++ [m])
  remaining : q.remaining = P.blocked (p ++ [m])
  total : q.total = P.n
  starts : ∃ rest, P.Valid (p ++ m :: rest)
  step : m ≠ []
  below : P.peak (p ++ [m]) < q.bound
  found : ∀ t' m' S, found.get t' = some (m', S) → P.Valid S ∧ S.length = t' ∧ P.peak S = m'

theorem LInv.least {P : Problem} (hP : P.WF) {l : Loc} (hl : LInv P [] (best0 P) l) {t : Nat}
    (ht : t ≤ P.n) : LeastFound l.results t (at0 l.best t) := by
  obtain ⟨h1, h2⟩ := hl.entry ht
  refine ⟨h1, ?_⟩
  rcases h2 with h2 | h2
  · refine Or.inl ⟨h2, ?_⟩
    rintro t' ⟨m, S⟩ ht' hr
    have h3 := h1 t' m S ht' hr
    obtain ⟨_, _, h4⟩ := hl.sound t' m S hr
    have := peak_lt_max hP S
    omega
  · exact Or.inr h2

/-- One iteration of the single-threaded probabilistic search. -/
theorem probIter_asked {P : Problem} (hP : P.WF) {l : Loc} (hl : LInv P [] (best0 P) l) :
    (∃ l' stop, (∀ prof, searchIter prof l = .ok (l', stop)) ∧
      ∀ {F σ : Type} [FloatOps F] (accept : Accept F) (gen : Rng F σ) (rng : σ) prof,
        probIter prof accept gen l rng = .ok (l', rng, stop)) ∨
    ∃ s' c m q, Asked P l.results l.path m q ∧
      (∀ prof, searchIter prof l = .ok
        ({ l with sweep := ⟨c, s' :: l.sweep.stack⟩, path := l.path ++ [m] }, false)) ∧
      ∀ {F σ : Type} [FloatOps F] (accept : Accept F) (gen : Rng F σ) (rng : σ) prof,
        probIter prof accept gen l rng = .ok (
          if FloatOps.geOne (q.ask accept) then
            ({ l with sweep := ⟨c, s' :: l.sweep.stack⟩, path := l.path ++ [m] }, rng, false)
          else if FloatOps.lt (gen.sample rng).1 (q.ask accept) then
            ({ l with sweep := ⟨c, s' :: l.sweep.stack⟩, path := l.path ++ [m] },
              (gen.sample rng).2, false)
          else ({ l with sweep := ⟨s', l.sweep.stack⟩ }, (gen.sample rng).2, false)) := by
  rcases probIter_cases hP hl.ok with h | ⟨s', c, k, m, bound, minimal, hn, hb, hlt, hm, h1, h2⟩
  · exact Or.inl h
  · right
    refine ⟨s', c, m, _, ?_, h1, h2⟩
    have hle := minimumPathLength_le hP.lax hn.child
    obtain ⟨rest, hrest⟩ := hn.child.pre.extend hP
    have e1 := hl.least hP hle
    rw [at0_of_getElem? hb, minimumPathLength_eq hP hn.child] at e1
    have e2 := hl.least hP (Nat.le_refl P.n)
    rw [← getLast?_at0 hl.ok.best hm] at e2
    exact ⟨e1, e2, rfl, rfl, rfl, rfl, rfl, ⟨rest, by simpa using hrest⟩, hn.ne,
      by rw [← hn.child.space.max]; exact hlt, fun t' m' S h => ⟨(maximal_iff hP).1 (hl.sound t' m' S h).1, (hl.sound t' m' S h).2⟩⟩

/-- The answers to the questions that are asked are all that matters. -/
theorem probLoop_congr {F σ : Type} [FloatOps F] {accept accept' : Accept F} (gen : Rng F σ)
    {P : Problem} (hP : P.WF) (prof : Profile) (timer : Nat → Bool)
    (h : ∀ found p m q, Asked P found p m q → q.ask accept = q.ask accept') :
    ∀ (fuel k : Nat) (l : Loc) (rng : σ), LInv P [] (best0 P) l →
      probLoop prof accept gen timer fuel k l rng = probLoop prof accept' gen timer fuel k l rng := by
  intro fuel
  induction fuel with
  | zero => intro k l rng _; rfl
  | succ fuel ih =>
    intro k l rng hl
    have key : probIter prof accept gen l rng = probIter prof accept' gen l rng := by
      rcases probIter_asked hP hl with ⟨l', stop, _, h2⟩ | ⟨s', c, m, q, hq, _, h2⟩
      · rw [h2 accept, h2 accept']
      · rw [h2 accept, h2 accept', h _ _ _ _ hq]
    obtain ⟨l', rng', stop, e1, e2⟩ := probIter_spec accept gen rng hP.lax hl.ok
    simp only [probLoop]
    rw [← key, e1 prof]
    simp only [bind, Except.bind]
    split
    · rfl
    · split
      · rfl
      · exact ih _ _ _ (e2.inv hl).1

theorem searchProb_congr {F σ : Type} [FloatOps F] {accept accept' : Accept F} (gen : Rng F σ)
    (rng : σ) {P : Problem} (hP : P.WF) (prof : Profile) (hashIter : MappedPaths → MappedPaths)
    (timer : Nat → Bool) (fuel : Nat)
    (h : ∀ found p m q, Asked P found p m q → q.ask accept = q.ask accept') :
    searchProb prof hashIter accept gen rng timer fuel P.graph P.order =
      searchProb prof hashIter accept' gen rng timer fuel P.graph P.order := by
  obtain ⟨s, e1, e2, e3⟩ := mkScheduler_spec hP
  unfold searchProb
  rw [e1]
  simp only [bind, Except.bind]
  have : doProbabilisticSearch prof accept gen timer fuel s P.graph.length rng =
      doProbabilisticSearch prof accept' gen timer fuel s P.graph.length rng :=
    probLoop_congr gen hP prof timer h fuel 0 _ rng (init_inv e2 e3)
  rw [this]

/-- An accept function that accepts every step as long as no path is known. -/
def Bold {F : Type} [FloatOps F] (P : Problem) (accept : Accept F) : Prop :=
  ∀ p m q, Asked P [] p m q → FloatOps.geOne (q.ask accept) = true

theorem IterStep.results_ne {P : Problem} {Det : Prop} {l l' : Loc} {stop : Bool}
    (h : IterStep P Det l l' stop) (hne : ∃ t r, l.results.get t = some r) :
    ∃ t r, l'.results.get t = some r := by
  obtain ⟨t, r, hr⟩ := hne
  cases h with
  | backLeaf _ _ _ _ =>
    refine ⟨t, ?_⟩
    rw [AMap.get_insert]
    split
    · exact ⟨_, rfl⟩
    · exact ⟨r, hr⟩
  | stop _ _ _ _ => exact ⟨t, r, hr⟩
  | backInner _ _ _ => exact ⟨t, r, hr⟩
  | skip _ _ _ => exact ⟨t, r, hr⟩
  | push _ _ _ => exact ⟨t, r, hr⟩

/-- With such a function an uninterrupted search finds a path. -/
theorem probLoop_finds {F σ : Type} [FloatOps F] {accept : Accept F} (gen : Rng F σ)
    {P : Problem} (hP : P.WF) (hb : P.bits ≠ []) (hA : Bold P accept) (prof : Profile)
    {timer : Nat → Bool} (ht : ∀ j, timer j = false) :
    ∀ (fuel k : Nat) (l : Loc) (rng : σ) (l' : Loc) (rng' : σ), LInv P [] (best0 P) l →
      (l.results = [] → Cov P [] l) →
      probLoop prof accept gen timer fuel k l rng = .ok (some (l', rng')) →
      LInv P [] (best0 P) l' ∧ ∃ t r, l'.results.get t = some r := by
  intro fuel
  induction fuel with
  | zero => intro k l rng l' rng' _ _ h; simp [probLoop, pure, Except.pure] at h
  | succ fuel ih =>
    intro k l rng l' rng' hl hcov h
    obtain ⟨l1, rng1, stop, e1, e2⟩ := probIter_spec accept gen rng hP.lax hl.ok
    have hinv := (e2.inv hl).1
    simp only [probLoop, e1 prof, bind, Except.bind, ht, Bool.false_eq_true, if_false] at h
    by_cases hres : l.results = []
    · have hdet : ∃ l2 stop2, (∀ prof, searchIter prof l = .ok (l2, stop2)) ∧
          probIter prof accept gen l rng = .ok (l2, rng, stop2) := by
        rcases probIter_asked hP hl with ⟨l2, stop2, g1, g2⟩ | ⟨s', c, m, q, hq, g1, g2⟩
        · exact ⟨l2, stop2, g1, g2 accept gen rng prof⟩
        · refine ⟨_, _, g1, ?_⟩
          rw [g2 accept gen rng prof, if_pos (hA _ _ _ (hres ▸ hq))]
      obtain ⟨l2, stop2, g1, g2⟩ := hdet
      rw [e1 prof] at g2
      simp only [Except.ok.injEq, Prod.mk.injEq] at g2
      obtain ⟨rfl, rfl, rfl⟩ := g2
      obtain ⟨l3, stop3, f1, f2⟩ := searchIter_spec hP.lax hl.ok
      have := (f1 prof).symm.trans (g1 prof)
      simp only [Except.ok.injEq, Prod.mk.injEq] at this
      obtain ⟨rfl, rfl⟩ := this
      obtain ⟨c1, c2⟩ := f2.cov hP hl (hcov hres) (not_valid_nil hb)
      cases hstop : stop3 with
      | false =>
        rw [hstop] at h
        exact ih _ _ _ _ _ hinv (fun _ => c1) h
      | true =>
        rw [hstop] at h
        simp only [if_true, pure, Except.pure, Except.ok.injEq, Option.some.injEq,
          Prod.mk.injEq] at h
        obtain ⟨rfl, rfl⟩ := h
        refine ⟨hinv, ?_⟩
        obtain ⟨rest, hrest⟩ := (prefix_nil P).extend hP
        rw [List.nil_append] at hrest
        have hd := c2 hstop rest hrest (extends_nil _)
        have hlen := hrest.length_le hP
        rcases (hinv.entry hlen).2 with h5 | ⟨t', S, _, h5⟩
        · have := peak_lt_max hP rest
          unfold Dom at hd
          omega
        · exact ⟨t', _, h5⟩
    · have hne : ∃ t r, l.results.get t = some r := by
        cases hr : l.results with
        | nil => exact (hres hr).elim
        | cons a b => exact ⟨a.1, a.2, by simp [AMap.get]⟩
      have hne1 := e2.results_ne hne
      cases hstop : stop with
      | false =>
        rw [hstop] at h
        refine ih _ _ _ _ _ hinv (fun h0 => ?_) h
        obtain ⟨t, r, hr⟩ := hne1
        rw [h0] at hr
        simp [AMap.get] at hr
      | true =>
        rw [hstop] at h
        simp only [if_true, pure, Except.pure, Except.ok.injEq, Option.some.injEq,
          Prod.mk.injEq] at h
        obtain ⟨rfl, rfl⟩ := h
        exact ⟨hinv, hne1⟩

theorem searchProb_finds {F σ : Type} [FloatOps F] {accept : Accept F} (gen : Rng F σ) (rng : σ)
    {P : Problem} (hP : P.WF) (hb : P.bits ≠ []) (hA : Bold P accept) {prof : Profile}
    {hashIter : MappedPaths → MappedPaths} (hh : ∀ m, (hashIter m).Perm m)
    {timer : Nat → Bool} (ht : ∀ j, timer j = false) {fuel : Nat} {out : List Path}
    (h : searchProb prof hashIter accept gen rng timer fuel P.graph P.order = .ok (some out)) :
    out ≠ [] := by
  obtain ⟨s, e1, e2, e3⟩ := mkScheduler_spec hP
  unfold searchProb at h
  rw [e1] at h
  simp only [bind, Except.bind] at h
  cases hd : doProbabilisticSearch prof accept gen timer fuel s P.graph.length rng with
  | error e => rw [hd] at h; simp at h
  | ok r =>
    rw [hd] at h
    cases r with
    | none => simp [pure, Except.pure] at h
    | some r =>
      obtain ⟨l', rng'⟩ := r
      simp only at h
      obtain ⟨h1, t, r, h2⟩ := probLoop_finds gen hP hb hA prof ht fuel 0 _ rng l' rng'
        (init_inv e2 e3) (fun _ => init_cov hP e2 e3) hd
      obtain ⟨o, p1, p2⟩ := postprocess_spec hashIter hh P.graph.length l'.results
      rw [p1] at h
      simp only [pure, Except.pure, Except.ok.injEq, Option.some.injEq] at h
      subst h
      obtain ⟨v, hl, hm⟩ := h1.sound t r.1 r.2 h2
      obtain ⟨p, hp, _⟩ := p2.dominates (t := t) (by rw [← hl]; exact ((maximal_iff hP).1 v).length_le hP) h2
        (by rw [← hm]; exact peak_lt_max hP _)
      rintro rfl
      cases hp

end Verif
