import Verif.Props.SweepProps
import Verif.Proofs.Pool
import Verif.Proofs.Curve
/-!
# The states that a sweep keeps
-/

namespace Verif

open Spec Search Search.Threaded

/-- The number of entries in the lists and maps that a scheduler owns: its nodes, the measurable set and the counters. -/
def words (s : Scheduler Partitioner) : Nat :=
  s.space.nodes.length + s.time.measurable.set.length + s.time.depsCounter.length

section
variable {P : Problem} {prof : Profile}

/-- Every qubit that has not been measured is in the measurable set or has a counter. -/
theorem StateFor.words (hP : P.WF) {p : Schedule} {s : Scheduler Partitioner} (h : StateFor P p s) :
    words s + p.flatten.length = P.n + P.bits.length := by
  have hn : s.space.nodes.length = P.n := by rw [h.space.nodes]; simp [nodesOf, Problem.n]
  have hkeys : ∀ b, b ∈ AMap.keys s.time.depsCounter ↔ b ∈ P.bits ∧ 0 < unmet P p.flatten b := by
    intro b
    have h1 := (h.time.deps_get b).1
    rw [AMap.mem_keys_iff, ← Option.isSome_iff_ne_none, h1]
    unfold curCount
    split <;> simp_all
  have hset : ∀ b, b ∈ s.time.measurable.set ↔ b ∈ P.bits ∧ b ∉ p.flatten ∧ unmet P p.flatten b = 0 := by
    intro b
    exact (h.time.set_mem b).trans (ready_iff hP.bits_nodup)
  have hdone : ∀ b, b ∈ p.flatten → unmet P p.flatten b = 0 := fun b hb =>
    (unmet_zero_iff hP.bits_nodup).2 fun d hd => h.time.closed b hb d hd
  have hperm : (s.time.measurable.set ++ (AMap.keys s.time.depsCounter ++ p.flatten)).Perm P.bits := by
    refine (List.perm_ext_iff_of_nodup ?_ hP.bits_nodup).2 ?_
    · refine List.nodup_append'.2 ⟨h.time.set_nodup, List.nodup_append'.2 ⟨h.time.deps_nodup, h.pre.nodup, ?_⟩, ?_⟩
      · intro b h1 h2
        have := ((hkeys b).1 h1).2
        have := hdone b h2
        omega
      · intro b h1 h2
        obtain ⟨_, h3, h4⟩ := (hset b).1 h1
        rcases List.mem_append.1 h2 with h2 | h2
        · have := ((hkeys b).1 h2).2
          omega
        · exact h3 h2
    · intro b
      simp only [List.mem_append, hkeys, hset]
      constructor
      · rintro (h1 | h1 | h1)
        · exact h1.1
        · exact h1.1
        · exact h.pre.sub b h1
      · intro hb
        by_cases h1 : b ∈ p.flatten
        · exact Or.inr (Or.inr h1)
        · by_cases h2 : unmet P p.flatten b = 0
          · exact Or.inl ⟨hb, h1, h2⟩
          · exact Or.inr (Or.inl ⟨hb, by omega⟩)
  have := hperm.length_eq
  simp only [List.length_append, AMap.keys, List.length_map] at this
  unfold Verif.words
  omega

/-- The states on the stack, each with at least one measurement more than the one below. -/
theorem Chain.words_le (hP : P.WF) {p0 p : Schedule} {s : Scheduler Partitioner} {st : List (Scheduler Partitioner)}
    (h : Chain P p0 p s st) :
    2 * ((s :: st).map Verif.words).sum + st.length * (st.length + 1) ≤ 2 * ((st.length + 1) * (P.n + P.bits.length)) := by
  induction h with
  | base h hi =>
    have := h.words hP
    simp
    omega
  | @push p m top c rest h hc hi ih =>
    have h1 := hc.words hP
    have h2 := hc.pre.length_le
    have h3 := h.stack_length
    have h4 : rest.length + 1 ≤ (p ++ [m]).flatten.length := by
      simp only [List.length_append, List.length_singleton] at h2
      omega
    rw [List.map_cons, List.sum_cons, List.length_cons]
    generalize ((top :: rest).map Verif.words).sum = a at *
    generalize rest.length = k at *
    generalize P.n + P.bits.length = N at *
    have e1 : (k + 1) * (k + 1 + 1) = k * (k + 1) + 2 * (k + 1) := by ring
    have e2 : (k + 1 + 1) * N = (k + 1) * N + N := by ring
    rw [e1, e2]
    omega

/-- ... and exactly one if every step is a single measurement. -/
theorem Chain.words_eq (hP : P.WF) {p : Schedule} {s : Scheduler Partitioner} {st : List (Scheduler Partitioner)}
    (h : Chain P [] p s st) : (∀ m ∈ p, m.length = 1) →
    2 * ((s :: st).map Verif.words).sum + st.length * (st.length + 1) = 2 * ((st.length + 1) * (P.n + P.bits.length)) := by
  induction h with
  | base h hi =>
    intro _
    have := h.words hP
    simp at this ⊢
    omega
  | @push p m top c rest h hc hi ih =>
    intro hq
    have ih := ih fun x hx => hq x (List.mem_append_left _ hx)
    have h1 := hc.words hP
    have h3 := h.stack_length
    have h4 : (p ++ [m]).flatten.length = rest.length + 1 := by
      have : ∀ q : Schedule, (∀ x ∈ q, x.length = 1) → q.flatten.length = q.length := by
        intro q
        induction q with
        | nil => simp
        | cons a q ih =>
          intro hq
          have e1 := hq a (by simp)
          have e2 := ih fun x hx => hq x (by simp [hx])
          simp only [List.flatten_cons, List.length_append, List.length_cons]
          omega
      rw [this _ hq]
      simp only [List.length_append, List.length_singleton]
      simp only [List.length_nil] at h3
      omega
    rw [List.map_cons, List.sum_cons, List.length_cons]
    generalize ((top :: rest).map Verif.words).sum = a at *
    generalize rest.length = k at *
    generalize P.n + P.bits.length = N at *
    have e1 : (k + 1) * (k + 1 + 1) = k * (k + 1) + 2 * (k + 1) := by ring
    have e2 : (k + 1 + 1) * N = (k + 1) * N + N := by ring
    rw [e1, e2]
    omega

theorem Chain.stack_le {p0 p : Schedule} {s : Scheduler Partitioner} {st : List (Scheduler Partitioner)}
    (h : Chain P p0 p s st) : st.length ≤ P.bits.length := by
  obtain ⟨hs, _⟩ := h.state
  have h1 := h.stack_length
  have h2 := hs.pre.length_le
  have h3 := nodup_length_le_bits hs.pre.nodup hs.pre.sub
  omega

/-- The number of states is bounded by the number of qubits. -/
theorem Chain.total (hP : P.WF) {p0 p : Schedule} {s : Scheduler Partitioner} {st : List (Scheduler Partitioner)}
    (h : Chain P p0 p s st) :
    2 * ((s :: st).map Verif.words).sum ≤ (P.bits.length + 1) * (2 * P.n + P.bits.length) := by
  have h1 := h.words_le hP
  have h2 := h.stack_le
  generalize ((s :: st).map Verif.words).sum = a at *
  generalize st.length = k at *
  generalize P.bits.length = b at *
  generalize P.n = n at *
  obtain ⟨j, rfl⟩ := Nat.exists_eq_add_of_le h2
  nlinarith [Nat.zero_le (j * n), Nat.zero_le (k * j), Nat.zero_le (j * j), Nat.le_mul_self j]

theorem walk_append (ops ops' : List SweepOp) : ∀ (sw : Sweep (Scheduler Partitioner)) (p : Schedule)
    (sw' : Sweep (Scheduler Partitioner)) (p' : Schedule), Sweep.walk prof ops sw p = .ok (sw', p') →
    Sweep.walk prof (ops ++ ops') sw p = Sweep.walk prof ops' sw' p' := by
  induction ops with
  | nil =>
    intro sw p sw' p' h
    simp only [Sweep.walk, pure, Except.pure, Except.ok.injEq, Prod.mk.injEq] at h
    rw [h.1, h.2]; rfl
  | cons op ops ih =>
    intro sw p sw' p' h
    cases op with
    | next =>
      rw [List.cons_append]
      rw [Sweep.walk] at h ⊢
      cases hv : sw.next (Scheduler.focusIter prof) with
      | error e => rw [hv] at h; cases h
      | ok v =>
        obtain ⟨sw1, step⟩ := v
        rw [hv] at h
        match step, h with
        | none, h => exact ih _ _ _ _ h
        | some (.forward m), h => exact ih _ _ _ _ h
        | some (.backward _), h => exact ih _ _ _ _ h
    | skip =>
      rw [List.cons_append]
      rw [Sweep.walk] at h ⊢
      match sw.skipCurrent, h with
      | (sw1, .ok ()), h => exact ih _ _ _ _ h
      | (sw1, .error _), h => exact ih _ _ _ _ h

/-- Plain iteration leaves every state again. -/
theorem Below.leave {p : Schedule} {s : Scheduler Partitioner} {r : List (Schedule × Nat)}
    (h : Below P (fun _ => false) p s r) (prof : Profile) : ∀ (t : Scheduler Partitioner) (rest : List (Scheduler Partitioner)),
    ∃ k, Sweep.walk prof (List.replicate k .next) ⟨s, t :: rest⟩ p = .ok (⟨t, rest⟩, p.dropLast) := by
  induction h with
  | done h =>
    intro t rest
    refine ⟨1, ?_⟩
    simp [List.replicate, Sweep.walk, next_none h prof, bind, Except.bind, pure, Except.pure]
  | skip h hs => simp at hs
  | @child p s s' c l m rc r h hs hc hr ihc ihr =>
    intro t rest
    obtain ⟨k1, h1⟩ := ihc s' (t :: rest)
    obtain ⟨k2, h2⟩ := ihr t rest
    refine ⟨k1 + k2 + 1, ?_⟩
    rw [List.replicate_succ, ← List.replicate_append_replicate]
    simp only [Sweep.walk, next_some h prof, bind, Except.bind]
    rw [walk_append _ _ _ _ _ _ h1]
    simpa using h2

/-- Plain iteration comes to the end of every schedule that is on offer. -/
theorem Below.arrive (hP : P.WF) {p : Schedule} {s : Scheduler Partitioner} {r : List (Schedule × Nat)}
    (h : Below P (fun _ => false) p s r) (prof : Profile) :
    ∀ S, P.Valid S → Extends p S →
    (∃ s' l m, S[p.length]? = some s' ∧ (l, m) ∈ rem s ∧ m ≠ [] ∧ m.Perm s') →
    ∀ st : List (Scheduler Partitioner), ∃ k sw q,
      Sweep.walk prof (List.replicate k .next) ⟨s, st⟩ p = .ok (sw, q) ∧ StepEq q S := by
  induction h with
  | done h =>
    rintro S _ _ ⟨s', l, m, _, h2, h3, _⟩
    exact (h3 (h.no_item h2)).elim
  | skip h hs => simp at hs
  | @child p s s' c l m rc r h hs hc hr ihc ihr =>
    rintro S hS he ⟨t, l', m', h1, h2, h3, h4⟩ st
    rw [h.rem] at h2
    rcases List.mem_cons.1 h2 with h2 | h2
    · injection h2 with h2a h2b
      subst h2a h2b
      have he' : Extends (p ++ [m']) S := extends_snoc he h1 h4
      rcases (fresh_pendAt hP h.child h.fresh hS he').2 with hp | ⟨hp1, hp2⟩
      · obtain ⟨k, sw, q, h5, h6⟩ := ihc S hS he' hp (s' :: st)
        refine ⟨k + 1, sw, q, ?_, h6⟩
        rw [List.replicate_succ]
        simp only [Sweep.walk, next_some h prof, bind, Except.bind]
        exact h5
      · refine ⟨1, ⟨c, s' :: st⟩, p ++ [m'], ?_, ?_⟩
        · simp [List.replicate, Sweep.walk, next_some h prof, bind, Except.bind, pure, Except.pure]
        · have := he'
          unfold Extends at this
          rw [hp2, List.take_length] at this
          exact this
    · obtain ⟨k1, h5⟩ := hc.leave prof s' st
      obtain ⟨k2, sw, q, h6, h7⟩ := ihr S hS he ⟨t, l', m', h1, h2, h3, h4⟩ st
      refine ⟨k1 + k2 + 1, sw, q, ?_, h7⟩
      rw [List.replicate_succ, ← List.replicate_append_replicate]
      simp only [Sweep.walk, next_some h prof, bind, Except.bind]
      rw [walk_append _ _ _ _ _ _ h5]
      simpa using h6

end

/-! ## The search loops as clients -/

section
variable {P : Problem} {prof : Profile}

theorem searchLoop_locOK (hP : P.WF) {p0 : Schedule} {timer : Nat → Bool} : ∀ (fuel k : Nat) (l l' : Loc), LocOK P p0 l →
    searchLoop prof timer fuel k l = .ok (some l') → LocOK P p0 l'
  | 0, _, _, _, _, h => by simp [searchLoop, pure, Except.pure] at h
  | fuel + 1, k, l, l', hl, h => by
    obtain ⟨l1, stop, e1, e2⟩ := searchIter_spec hP.lax hl
    simp only [searchLoop, e1 prof, bind, Except.bind, pure, Except.pure] at h
    have h1 := e2.locOK hl
    split at h
    · cases h; exact h1
    · split at h
      · cases h; exact h1
      · exact searchLoop_locOK hP fuel (k + 1) l1 l' h1 h

theorem probLoop_locOK {F σ : Type} [FloatOps F] (hP : P.WF) {p0 : Schedule} {accept : Accept F} {gen : Rng F σ}
    {timer : Nat → Bool} : ∀ (fuel k : Nat) (l l' : Loc) (rng rng' : σ), LocOK P p0 l →
    probLoop prof accept gen timer fuel k l rng = .ok (some (l', rng')) → LocOK P p0 l'
  | 0, _, _, _, _, _, _, h => by simp [probLoop, pure, Except.pure] at h
  | fuel + 1, k, l, l', rng, rng', hl, h => by
    obtain ⟨l1, rng1, stop, e1, e2⟩ := probIter_spec accept gen rng hP.lax hl
    simp only [probLoop, e1 prof, bind, Except.bind, pure, Except.pure] at h
    have h1 := e2.locOK hl
    split at h
    · cases h; exact h1
    · split at h
      · cases h; exact h1
      · exact probLoop_locOK hP fuel (k + 1) l1 l' rng1 rng' h1 h

/-- The schedulers that exist because of a task: the one that waits for a worker, or the ones of the sweep. -/
def heldBy {σ : Type} : TaskState σ → List (Scheduler Partitioner)
  | .ready sched _ _ => [sched]
  | .running loc _ _ _ => loc.sweep.current :: loc.sweep.stack
  | _ => []

theorem TaskOK.held {σ : Type} {t : TaskState σ} (h : TaskOK P t) :
    (heldBy t).length ≤ 1 + if atWork t then P.bits.length else 0 := by
  cases h with
  | ready => simp [heldBy]
  | running p0 hl =>
    have := hl.chain.stack_le
    simp only [heldBy, List.length_cons, atWork, if_true]
    omega
  | finishing => simp [heldBy]
  | done => simp [heldBy]

theorem runMoves_len {F σ : Type} [FloatOps F] {mode : Mode F σ} : ∀ {moves : List (Nat × Bool)} {g g' : Global σ},
    runMoves mode prof g moves = .ok g' → g'.tasks.length = g.tasks.length
  | [], g, g', h => by
    simp only [runMoves, pure, Except.pure, Except.ok.injEq] at h
    rw [h]
  | m :: ms, g, g', h => by
    obtain ⟨g1, h1, h2⟩ := runMoves_cons h
    rw [runMoves_len h2, move_len h1]

theorem states_held_le {σ : Type} (ts : List (TaskState σ)) (h : ∀ t ∈ ts, TaskOK P t) :
    (ts.flatMap heldBy).length ≤ ts.length + (ts.filter atWork).length * P.bits.length := by
  induction ts with
  | nil => simp
  | cons t ts ih =>
    have h1 := (h t (by simp)).held
    have h2 := ih fun x hx => h x (by simp [hx])
    rw [List.flatMap_cons, List.length_append, List.length_cons]
    cases ha : atWork t
    · rw [List.filter_cons_of_neg (by simp [ha])]
      simp only [ha, Bool.false_eq_true, if_false] at h1
      omega
    · rw [List.filter_cons_of_pos ha, List.length_cons, Nat.succ_mul]
      simp only [ha, if_true] at h1
      omega

end
end Verif
