import Verif.Proofs.Footprint
import Verif.Props.Example
import Verif.Props.WidgetProps
import Verif.Props.Tasks
/-!
# How much a sweep keeps

The documentation (xdocs/scheduler.md, "Performance") says that the stack of `Sweep` comes "at the cost of memory, but this cost
is scaling linearly". What is counted are states on the stack, and the entries (`words`) of the lists and maps that the states
own: the nodes (space.rs:53-57, each with a reference to its neighbours, which belong to a buffer), the measurable set
(time.rs:70) and the counters (time.rs:71). The dependents belong to a buffer (time.rs:79). The iterator over subsets
is a constant number of lists that are not longer than the measurable set.
-/

namespace Verif

open Spec Search Search.Threaded Example

variable {P : Problem}

/-- **C82** Whatever calls of `next` and `skip_current` are made on a sweep, there are never more saved states than qubits
to measure; the current state has one entry for every node and one for every qubit that has not been measured; and the
current state and the saved ones together never have more than `(b + 1) (2 n + b) / 2` entries, where `b` is the number of
qubits to measure and `n` the number of nodes. -/
theorem C82_states (hP : P.WF) {s : Scheduler Partitioner} (h : mkScheduler P.graph P.order = .ok s) {prof : Profile}
    {ops : List SweepOp} {sw : Sweep (Scheduler Partitioner)} {p : Schedule}
    (e : Sweep.walk prof ops (Sweep.new s) [] = .ok (sw, p)) :
    sw.stack.length = p.length ∧ sw.stack.length ≤ P.bits.length ∧
    words sw.current + p.flatten.length = P.n + P.bits.length ∧
    2 * ((sw.current :: sw.stack).map words).sum ≤ (P.bits.length + 1) * (2 * P.n + P.bits.length) := by
  obtain ⟨s', h1, h2, h3, _⟩ := mkScheduler_start hP
  rw [h] at h1
  injection h1 with h1
  subst h1
  obtain ⟨sw', p', e', hc⟩ := walk_chain hP prof ops (Sweep.new s) [] (.base h2 h3.iterOK)
  rw [e] at e'
  simp only [Except.ok.injEq, Prod.mk.injEq] at e'
  obtain ⟨rfl, rfl⟩ := e'
  exact ⟨by simpa using hc.stack_length.symm, hc.stack_le, hc.state.1.words hP, hc.total hP⟩

/-- **C82** Both bounds are met for every well-formed input by just iterating: after some number of calls of `next` there are
exactly as many saved states as qubits, and the number of entries is exactly `(b + 1) (2 n + b) / 2`. -/
theorem C82_reached (hP : P.WF) {s : Scheduler Partitioner} (h : mkScheduler P.graph P.order = .ok s) (prof : Profile) :
    ∃ (k : Nat) (sw : Sweep (Scheduler Partitioner)) (p : Schedule),
      Sweep.walk prof (List.replicate k .next) (Sweep.new s) [] = .ok (sw, p) ∧ P.Valid p ∧
      sw.stack.length = P.bits.length ∧
      2 * ((sw.current :: sw.stack).map words).sum = (P.bits.length + 1) * (2 * P.n + P.bits.length) := by
  obtain ⟨s', h1, h2, h3, _⟩ := mkScheduler_start hP
  rw [h] at h1
  injection h1 with h1
  subst h1
  obtain ⟨S0, _, hS0, _⟩ := getTimeOptimal_spec hP
  obtain ⟨S, hS, hser, _⟩ := exists_serial _ S0 hS0 (Nat.le_refl _)
  have hlen : ∀ q : Schedule, (∀ x ∈ q, x.length = 1) → q.flatten.length = q.length := by
    intro q
    induction q with
    | nil => simp
    | cons a q ih =>
      intro hq
      have e1 := hq a (by simp)
      have e2 := ih fun x hx => hq x (by simp [hx])
      simp only [List.flatten_cons, List.length_append, List.length_cons]
      omega
  have hSl : S.length = P.bits.length := by rw [← hlen S hser, hS.perm.length_eq]
  have key : ∃ (k : Nat) (sw : Sweep (Scheduler Partitioner)) (p : Schedule),
      Sweep.walk prof (List.replicate k .next) (Sweep.new s) [] = .ok (sw, p) ∧ StepEq p S := by
    have he : Extends [] S := List.Forall₂.nil
    rcases (fresh_pendAt hP h2 h3 hS he).2 with hp | ⟨_, hp⟩
    · obtain ⟨r, hr⟩ := exists_below hP (fun _ => false) _ _ [] s h2 h3.iterOK (Nat.le_refl _) (Nat.le_refl _)
      exact hr.arrive hP prof S hS he hp []
    · refine ⟨0, Sweep.new s, [], rfl, ?_⟩
      rw [List.eq_nil_of_length_eq_zero (l := S) (by simpa using hp.symm)]
      exact List.Forall₂.nil
  obtain ⟨k, sw, p, e, hpS⟩ := key
  obtain ⟨sw', p', e', hc⟩ := walk_chain hP prof (List.replicate k .next) (Sweep.new s) [] (.base h2 h3.iterOK)
  rw [e] at e'
  simp only [Except.ok.injEq, Prod.mk.injEq] at e'
  obtain ⟨rfl, rfl⟩ := e'
  have hp1 : ∀ m ∈ p, m.length = 1 := by
    intro m hm
    obtain ⟨i, hi, rfl⟩ := List.getElem_of_mem hm
    have hl := hpS.length_eq
    have := (List.forall₂_iff_get.1 hpS).2 i hi (by omega)
    rw [show p[i] = p.get ⟨i, hi⟩ from rfl, this.length_eq]
    exact hser _ (List.get_mem _ _)
  have hst : sw.stack.length = P.bits.length := by
    have h5 := hc.stack_length
    rw [hpS.length_eq, hSl] at h5
    simpa using h5.symm
  refine ⟨k, sw, p, e, StepEq.valid hpS hS, hst, ?_⟩
  have h6 := hc.words_eq hP hp1
  rw [hst] at h6
  nlinarith [h6]

-- the star: four qubits, four nodes; at most four saved states, at most 30 entries, and both happen after 110 calls
example : (do
    let s ← mkScheduler star.graph star.order
    let r ← Sweep.walk .debug (List.replicate 110 .next) (Sweep.new s) []
    pure (r.2, r.1.stack.length, ((r.1.current :: r.1.stack).map words).sum)) = .ok ([[0], [3], [2], [1]], 4, 30) := by decide +kernel

/-- `n` qubits without edges and without dependencies. -/
def loose (n : Nat) : Problem := ⟨List.replicate n [], [(List.range n).map fun v => (v, [])]⟩

theorem loose_bits (n : Nat) : (loose n).bits = List.range n := by
  simp [Problem.bits, Problem.entries, loose, Function.comp_def]

theorem loose_n (n : Nat) : (loose n).n = n := by simp [Problem.n, loose]

theorem loose_wf {n : Nat} (hn : n < 2 ^ 64 - 1) : (loose n).WF := by
  refine ⟨?_, ?_, ?_, ?_, by rw [loose_n]; exact hn⟩
  · rw [loose_bits]; exact List.nodup_range
  · rw [loose_bits, loose_n]; intro b hb; exact List.mem_range.1 hb
  · intro l hl v hv
    rw [(List.mem_replicate.1 hl).2] at hv
    cases hv
  · intro i layer hi e he
    cases i with
    | zero =>
      simp only [loose, List.getElem?_cons_zero, Option.some.injEq] at hi
      subst hi
      obtain ⟨v, _, rfl⟩ := List.mem_map.1 he
      simp
    | succ i => simp [loose] at hi

/-- The size of an input: the nodes, the neighbours, the qubits and the dependencies. -/
def inputSize (P : Problem) : Nat :=
  P.graph.length + P.graph.flatten.length + P.entries.length + (P.entries.map fun e => e.2.length).sum

/-- **C82** The number of states on the stack is linear, but not the memory: for all coefficients below `2 ^ 60` there is an
input for which iterating needs more than a linear function of the size of the input. -/
theorem C82_linear_refuted : ¬ ∃ a b : Nat, a < 2 ^ 60 ∧ b < 2 ^ 60 ∧ ∀ (P : Problem), P.WF → ∀ (s : Scheduler Partitioner),
    mkScheduler P.graph P.order = .ok s → ∀ (prof : Profile) (k : Nat) (sw : Sweep (Scheduler Partitioner)) (p : Schedule),
    Sweep.walk prof (List.replicate k .next) (Sweep.new s) [] = .ok (sw, p) →
    ((sw.current :: sw.stack).map words).sum ≤ a * inputSize P + b := by
  rintro ⟨a, b, ha, hb, h⟩
  have key : ∀ n, n < 2 ^ 64 - 1 → (n + 1) * (3 * n) ≤ 2 * (a * (2 * n) + b) := by
    intro n hn
    have hP := loose_wf hn
    obtain ⟨s, h1, _⟩ := mkScheduler_start hP
    obtain ⟨k, sw, p, h2, _, _, h3⟩ := C82_reached hP h1 .debug
    have h4 := h _ hP s h1 _ _ _ _ h2
    have hsz : inputSize (loose n) = 2 * n := by
      have e1 : (loose n).entries.length = n := by simp [Problem.entries, loose]
      have e2 : ((loose n).entries.map fun e => e.2.length).sum = 0 := by
        simp [Problem.entries, loose, Function.comp_def]
      have e3 : (loose n).graph.flatten.length = 0 := by simp [loose]
      have e4 : (loose n).graph.length = n := loose_n n
      unfold inputSize
      omega
    rw [loose_bits, loose_n, List.length_range] at h3
    rw [hsz] at h4
    have : 2 * n + n = 3 * n := by omega
    rw [this] at h3
    omega
  have h1 := key (2 ^ 63) (by norm_num)
  norm_num at h1 ha hb
  omega

/-! ## The searches -/

/-- **C82** The same holds for the sweep of the exact search at every moment (the loop can be stopped by the timer after any
iteration). -/
theorem C82_search (hP : P.WF) {s : Scheduler Partitioner} (h : mkScheduler P.graph P.order = .ok s) {prof : Profile}
    {timer : Nat → Bool} {fuel : Nat} {l : Loc} (e : doSearch prof timer fuel s P.n = .ok (some l)) :
    l.sweep.stack.length ≤ P.bits.length ∧
    words l.sweep.current + l.path.flatten.length = P.n + P.bits.length ∧
    2 * ((l.sweep.current :: l.sweep.stack).map words).sum ≤ (P.bits.length + 1) * (2 * P.n + P.bits.length) := by
  obtain ⟨s', h1, h2, h3, _⟩ := mkScheduler_start hP
  rw [h] at h1
  injection h1 with h1
  subst h1
  have hl := searchLoop_locOK (p0 := []) hP fuel 0 (Loc.init s P.n) l ⟨.base h2 h3.iterOK, by simp [Loc.init]⟩ e
  exact ⟨hl.chain.stack_le, hl.chain.state.1.words hP, hl.chain.total hP⟩

/-- **C82** ... and for the approximate search, whatever the random numbers are. -/
theorem C82_probabilistic {F σ : Type} [FloatOps F] (hP : P.WF) {s : Scheduler Partitioner}
    (h : mkScheduler P.graph P.order = .ok s) {prof : Profile} {accept : Accept F} {gen : Rng F σ} {rng rng' : σ}
    {timer : Nat → Bool} {fuel : Nat} {l : Loc}
    (e : doProbabilisticSearch prof accept gen timer fuel s P.n rng = .ok (some (l, rng'))) :
    l.sweep.stack.length ≤ P.bits.length ∧
    words l.sweep.current + l.path.flatten.length = P.n + P.bits.length ∧
    2 * ((l.sweep.current :: l.sweep.stack).map words).sum ≤ (P.bits.length + 1) * (2 * P.n + P.bits.length) := by
  obtain ⟨s', h1, h2, h3, _⟩ := mkScheduler_start hP
  rw [h] at h1
  injection h1 with h1
  subst h1
  have hl := probLoop_locOK (p0 := []) hP fuel 0 (Loc.init s P.n) l rng rng' ⟨.base h2 h3.iterOK, by simp [Loc.init]⟩ e
  exact ⟨hl.chain.stack_le, hl.chain.state.1.words hP, hl.chain.total hP⟩

/-- **C82** With threads: a pool of `n` workers never holds more than one state per task and, per worker, as many saved
states as there are qubits. -/
theorem C82_threads {F σ : Type} [FloatOps F] (hP : P.WF) {s : Scheduler Partitioner}
    (h : mkScheduler P.graph P.order = .ok s) {mode : Mode F σ} {prof : Profile} {tb : Int} {seeds : Nat → σ} {n : Nat}
    {g g' : Global σ} {moves : List (Nat × Bool)} (hn : 1 ≤ n) (hg : initGlobal prof tb seeds s P.n = .ok g)
    (hp : possibleMoves mode prof n g moves = .ok true) (hr : runMoves mode prof g moves = .ok g') :
    (g'.tasks.flatMap heldBy).length ≤ g.tasks.length + n * P.bits.length := by
  obtain ⟨s', h1, h2, h3, _⟩ := mkScheduler_start hP
  rw [h] at h1
  injection h1 with h1
  subst h1
  obtain ⟨g1, e1, e2⟩ := initGlobal_spec hP.lax tb seeds h2 h3
  rw [e1 prof] at hg
  simp only [Except.ok.injEq] at hg
  subst hg
  obtain ⟨g2, e3, e4⟩ := runMoves_spec mode hP.lax moves g1 e2
  rw [e3 prof] at hr
  simp only [Except.ok.injEq] at hr
  subst hr
  have h5 := states_held_le g2.tasks e4.tasks
  have h6 := ((taken_init hn (initGlobal_ready (e1 prof))).run hp (e3 prof)).at_work
  have h7 : g2.tasks.length = g1.tasks.length := runMoves_len (e3 prof)
  have := Nat.mul_le_mul_right P.bits.length h6
  omega

theorem first_length (hP : P.WF) {set : List Nat} (hn : set.Nodup) (hm : ∀ b, b ∈ set ↔ Ready P [] b) :
    set.length = (P.order.head?.getD []).length := by
  have hperm : set.Perm ((P.order.head?.getD []).map (·.1)) := by
    refine (List.perm_ext_iff_of_nodup hn ?_).2 ?_
    · have := hP.bits_nodup
      cases ho : P.order with
      | nil => simp
      | cons l rest =>
        simp only [Problem.bits, Problem.entries, ho, List.flatten_cons, List.map_append] at this
        simpa using (List.nodup_append'.1 this).1
    · intro b
      rw [hm]
      constructor
      · intro hb
        obtain ⟨e, he, rfl⟩ := List.mem_map.1 hb.bit
        obtain ⟨layer, hl, hel⟩ := List.mem_flatten.1 he
        obtain ⟨i, hi⟩ := List.getElem?_of_mem hl
        have h1 := hP.layers i layer hi e hel
        have h2 : e.2 = [] := by
          rcases List.eq_nil_or_concat e.2 with h | ⟨_, d, h⟩
          · exact h
          · have hd : d ∈ e.2 := by rw [h]; simp
            exact absurd (hb.deps d ⟨e.2, he, hd⟩) (by simp)
        have h3 := h1.1.2 h2
        subst h3
        rw [List.head?_eq_getElem?, hi]
        exact List.mem_map_of_mem hel
      · intro hb
        obtain ⟨e, he, rfl⟩ := List.mem_map.1 hb
        cases ho : P.order with
        | nil => rw [ho] at he; simp at he
        | cons l rest =>
          rw [ho] at he
          simp only [List.head?_cons, Option.getD_some] at he
          have h0 : P.order[0]? = some l := by rw [ho]; rfl
          have hent : e ∈ P.entries := List.mem_flatten.2 ⟨l, by rw [ho]; simp, he⟩
          refine ⟨List.mem_map_of_mem hent, by simp, ?_⟩
          rintro d ⟨ds, h4, h5⟩
          have h6 : (e.1, ds) = e := by
            have hinj := List.inj_on_of_nodup_map hP.bits_nodup h4 hent rfl
            exact hinj
          have h7 := (hP.layers 0 l h0 e he).1.1 rfl
          rw [← h6] at h7
          simp only at h7
          rw [h7] at h5
          cases h5
  simpa using hperm.length_eq

/-- **C82** The tasks are not few: if `k` qubits have no dependencies, there are `2 ^ k` tasks without a task bound, and with a
bound as many as it allows, and one more; each of them holds a state from the start. -/
theorem C82_queue {σ : Type} (hP : P.WF) {s : Scheduler Partitioner} (h : mkScheduler P.graph P.order = .ok s)
    {prof : Profile} {tb : Int} {seeds : Nat → σ} {g : Global σ} (hg : initGlobal prof tb seeds s P.n = .ok g) :
    (g.tasks.flatMap heldBy).length = g.tasks.length ∧
    (tb ≤ 0 → g.tasks.length = 2 ^ (P.order.head?.getD []).length) ∧
    (1 ≤ tb → (g.tasks.length : Int) = min (2 ^ (P.order.head?.getD []).length - 1) tb + 1) := by
  obtain ⟨s', h1, h2, h3, _⟩ := mkScheduler_start hP
  rw [h] at h1
  injection h1 with h1
  subst h1
  have hready := initGlobal_ready hg
  obtain ⟨ts, rest, e, r1, r2, r3, r4, ⟨tail, r5, r6⟩, r7, r8, r9⟩ := spawnLoop_spec hP.lax tb
    (s.time.measurable.iter.length + 1) s 0 h2 h3.iterOK (by omega)
  simp only [initGlobal, spawn, e prof, bind, Except.bind, pure, Except.pure, Except.ok.injEq] at hg
  have hlen : g.tasks.length = ts.length + 1 := by rw [← hg]; simp
  have hk : (rem s).length = 2 ^ (P.order.head?.getD []).length := by
    rw [← first_length hP h2.time.set_nodup h2.time.set_mem, Verif.rem, List.length_map, h3, length_powerset]
    rfl
  -- the last item is the empty set, and no other item is
  have hlast : ((rem s).map (·.2)).getLast? = some [] := by
    rw [h3.rem, items_eq]; simp
  have hcount : (((rem s).map (·.2)).filter List.isEmpty).length = 1 := by
    rw [h3.rem, items_eq, List.map_append, List.filter_append, List.filter_eq_nil_iff.2]
    · simp
    · intro m hm
      obtain ⟨x, hx, rfl⟩ := List.mem_map.1 hm
      have := items_init_ne_nil (l := x.1) (r := x.2) hx
      simpa using this
  have htail : tail ≠ [] := by
    rintro rfl
    rw [r5, List.append_nil] at hlast
    obtain ⟨t, ht, h0⟩ := List.mem_map.1 (List.mem_of_getLast? hlast)
    exact (r3 t ht).2.2 h0
  have htot : ts.length + tail.length = 2 ^ (P.order.head?.getD []).length := by
    rw [← hk, ← List.length_map (f := fun x : List Nat × List Nat => x.2), r5]; simp
  have hpos := List.length_pos_iff.2 htail
  have hdone : rest.time.measurable.iter = [] → tail.length = 1 := by
    intro hr
    have hrem : rem rest = [] := by simp [Verif.rem, hr]
    have hall : ∀ m ∈ tail, m = [] := by
      rcases r6 with r6 | ⟨_, r6⟩
      · rw [hrem] at r6
        exact absurd r6.symm htail
      · exact r6
    rw [r5, List.filter_append, List.filter_eq_nil_iff.2, List.nil_append, List.filter_eq_self.2] at hcount
    · exact hcount
    · intro m hm; rw [hall m hm]; rfl
    · intro m hm
      obtain ⟨t, ht, rfl⟩ := List.mem_map.1 hm
      simpa using (r3 t ht).2.2
  refine ⟨?_, ?_, ?_⟩
  · have : ∀ l : List (TaskState σ), (∀ t ∈ l, ∃ sched init rng, t = .ready sched init rng) → (l.flatMap heldBy).length = l.length := by
      intro l
      induction l with
      | nil => simp
      | cons t l ih =>
        intro hl
        obtain ⟨a, b, c, rfl⟩ := hl t (by simp)
        have := ih fun x hx => hl x (by simp [hx])
        rw [List.flatMap_cons, List.length_append, this]
        simp [heldBy]
        omega
    exact this _ hready
  · intro htb
    have := hdone (r9 (Or.inl htb))
    omega
  · intro htb
    have hb := r7 (by omega)
    have hcast : ((2 ^ (P.order.head?.getD []).length : Nat) : Int) = 2 ^ (P.order.head?.getD []).length := by norm_cast
    rw [← hcast, ← htot, hlen]
    by_cases hne : (ts.length : Int) + 0 = tb
    · push_cast; omega
    · have := hdone (spawnLoop_rest hP tb prof _ s 0 ts rest h2 h3.iterOK (by omega) (e prof) hne)
      push_cast; omega

-- the star has four qubits without dependencies: 16 tasks without a bound, 6 with the bound 5
example : (do
    let s ← mkScheduler star.graph star.order
    let a ← initGlobal .debug 0 (fun _ => ()) s 4
    let b ← initGlobal .debug 5 (fun _ => ()) s 4
    pure (a.tasks.length, b.tasks.length)) = .ok (16, 6) := by decide +kernel

-- two workers that have taken a task each and made one iteration: the first one has come to the end, the second one has saved
-- a state, 14 tasks wait
example : (do
    let s ← mkScheduler star.graph star.order
    let g ← initGlobal .debug 0 (fun _ => ()) s 4
    let g' ← runMoves (.det : Mode Bool Unit) .debug g [(0, false), (1, false), (0, false), (1, false)]
    let p ← possibleMoves (.det : Mode Bool Unit) .debug 2 g [(0, false), (1, false), (0, false), (1, false)]
    pure (p, (g'.tasks.flatMap heldBy).length, g'.tasks.map fun t => (heldBy t).length)) =
      .ok (true, 16, [0, 2, 1, 1, 1, 1, 1, 1, 1, 1, 1, 1, 1, 1, 1, 1]) := by decide +kernel

-- the exact search of the star, stopped after 26 iterations
example : (do
    let s ← mkScheduler star.graph star.order
    let r ← doSearch .debug (fun k => k == 25) 1000 s 4
    pure (r.map fun l : Loc => (l.path, l.sweep.stack.length, ((l.sweep.current :: l.sweep.stack).map words).sum))) =
      .ok (some ([[3], [2], [1, 0]], 3, 25)) := by decide +kernel

end Verif
