import Verif.Props.SweepProps
import Verif.Props.CallbackProps
import Verif.Proofs.SizeLower
/-!
# How many iterations a search takes
-/

namespace Verif

open Spec Search Search.Threaded Example Callbacks

/-- `E` lists all the non-empty beginnings of valid schedules, each of them once (steps compared as sets). -/
structure Beginnings (P : Problem) (E : List Schedule) : Prop where
  ne : ∀ S ∈ E, S ≠ []
  valid : ∀ S ∈ E, ∃ rest, P.Valid (S ++ rest)
  once : E.Pairwise fun a b => ¬ List.Forall₂ List.Perm a b
  all : ∀ S, S ≠ [] → (∃ rest, P.Valid (S ++ rest)) → ∃ T ∈ E, List.Forall₂ List.Perm T S

section

variable {P : Problem} {E : List Schedule}

/-- There are no more distinct beginnings than listed. -/
theorem Beginnings.bound {E' : List Schedule} (h' : Beginnings P E') (hne : ∀ S ∈ E, S ≠ [])
    (hv : ∀ S ∈ E, ∃ rest, P.Valid (S ++ rest)) (hd : E.Pairwise fun a b => ¬ List.Forall₂ List.Perm a b) :
    E.length ≤ E'.length := by
  classical
  have hf : ∀ S : Schedule, ∃ T, S ∈ E → T ∈ E' ∧ List.Forall₂ List.Perm T S := by
    intro S
    by_cases hS : S ∈ E
    · obtain ⟨T, h1, h2⟩ := h'.all S (hne S hS) (hv S hS)
      exact ⟨T, fun _ => ⟨h1, h2⟩⟩
    · exact ⟨S, fun hn => (hS hn).elim⟩
  choose f hf using hf
  have hnd : (E.map f).Nodup := by
    rw [List.Nodup, List.pairwise_map]
    refine hd.imp_of_mem ?_
    intro a b ha hb hab heq
    refine hab ?_
    have h1 := (hf a ha).2
    have h2 := (hf b hb).2
    rw [heq] at h1
    have h3 : List.Forall₂ List.Perm a (f b) := List.Forall₂.flip (h1.imp fun x y h => h.symm)
    rw [List.forall₂_iff_get] at h2 h3 ⊢
    refine ⟨h3.1.trans h2.1, fun i hi hj => ?_⟩
    have hk : i < (f b).length := by rw [h2.1]; exact hj
    exact (h3.2 i hi hk).trans (h2.2 i hk hj)
  have hsub : E.map f ⊆ E' := by
    intro T hT
    obtain ⟨S, hS, rfl⟩ := List.mem_map.1 hT
    exact (hf S hS).1
  have := (List.subperm_of_subset hnd hsub).length_le
  rwa [List.length_map] at this

theorem Beginnings.le {E' : List Schedule} (h : Beginnings P E) (h' : Beginnings P E') : E.length ≤ E'.length :=
  h'.bound h.ne h.valid h.once

/-- The number of beginnings does not depend on the list. -/
theorem Beginnings.length_eq {E' : List Schedule} (h : Beginnings P E) (h' : Beginnings P E') :
    E.length = E'.length := Nat.le_antisymm (h.le h') (h'.le h)

theorem valid_take {S rest : Schedule} (h : P.Valid (S ++ rest)) (hnd : P.bits.Nodup) : Prefix P S := by
  have h1 : Prefix P (S ++ rest) :=
    ⟨h.nonempty, h.perm.nodup_iff.2 hnd, fun b hb => h.perm.mem_iff.1 hb, h.deps⟩
  have := prefix_take h1 S.length
  rwa [List.take_left'] at this
  rfl

theorem exists_beginnings (hP : P.WF) : ∃ s E, mkScheduler P.graph P.order = .ok s ∧ StateFor P [] s ∧ Fresh s ∧
    Tree P [] s E ∧ Beginnings P E := by
  obtain ⟨s, h1, h2, h3⟩ := mkScheduler_spec hP
  obtain ⟨r, hr⟩ := exists_tree hP.lax _ _ [] s h2 h3.iterOK (Nat.le_refl _) (Nat.le_refl _)
  refine ⟨s, r, h1, h2, h3, hr, ?_, fun S hS => (hr.sound S hS).1.extend hP, hr.nodup h2 h3.iterOK, ?_⟩
  · rintro S hS rfl
    obtain ⟨_, _, l, m, h, _⟩ := hr.sound _ hS
    simp at h
  · rintro S hne ⟨rest, hv⟩
    have hpre := valid_take hv hP.bits_nodup
    have hpos := List.length_pos_iff.2 hne
    refine hr.complete hP h2 h3.iterOK S hpre (extends_nil S) ?_
    rcases (fresh_pendAt hP h2 h3 hv (extends_nil _)).2 with hp | ⟨_, hp⟩
    · rwa [List.getElem?_append_left (by simpa using hpos)] at hp
    · simp only [List.length_nil, List.length_append] at hp
      omega

/-- **C67** Iterating a scheduler to the end takes exactly `2 * k + 1` calls of `next`, where `k` is the number of non-empty
beginnings of valid schedules: one forward and one backward step for each, and the call that ends the iteration. -/
theorem C67_sweep (hP : P.WF) (hE : Beginnings P E) (prof : Profile) (fuel : Nat) :
    ((∃ out, allPaths prof fuel P = .ok (some out)) ↔ 2 * E.length + 1 ≤ fuel) ∧
      (fuel ≤ 2 * E.length → allPaths prof fuel P = .ok none) := by
  obtain ⟨s, E', h1, h2, h3, h4, h5⟩ := exists_beginnings hP
  rw [hE.length_eq h5]
  have hn : Todos P (levels [] s []) (1 + 2 * E'.length + 0) := .cons h4 .nil
  obtain ⟨k1, k2⟩ := enumerate_todos hP.lax prof fuel [] s [] _ (.base h2 h3.iterOK) hn
  have he : allPaths prof fuel P = Sweep.enumerate (Scheduler.focusIter prof) (fun _ => false) fuel ⟨s, []⟩ [] := by
    simp only [allPaths, h1, bind, Except.bind]
    rfl
  rw [he, k1]
  exact ⟨by omega, fun h => k2 (by omega)⟩

/-- **C67** There is such a list, for every well-formed input, so these numbers exist. -/
theorem C67_exists (hP : P.WF) : ∃ E, Beginnings P E := by
  obtain ⟨s, E, _, _, _, _, h⟩ := exists_beginnings hP
  exact ⟨E, h⟩

variable {F σ : Type} [FloatOps F]

/-- **C67** A single-threaded search, with or without an accept function, ends within that number of iterations, whatever
is accepted and whatever the timer does. -/
theorem C67_search (hP : P.WF) (hE : Beginnings P E) (env : Env F σ) (he : env.OK) (args : Args F)
    (hd : args.doSearch = true) (hn : args.nthreads < 2) (hf : 2 * E.length + 1 ≤ env.fuel) :
    ∃ out, run env P.graph P.order args = .ok (some out) := by
  obtain ⟨s, E', h1, h2, h3, h4, h5⟩ := exists_beginnings hP
  rw [hE.length_eq h5] at hf
  have htodo : Todos P (levels (Loc.init s P.n).path (Loc.init s P.n).sweep.current (Loc.init s P.n).sweep.stack)
      (1 + 2 * E'.length + 0) := .cons h4 .nil
  have hok := (init_inv h2 h3).ok
  rw [run, hd, Bool.not_true, if_neg (by simp), Verif.search.eq_def, if_pos hn]
  cases hp : args.probabilistic with
  | none =>
    obtain ⟨l', h6⟩ := searchLoop_todos hP.lax env.prof (fun k => args.timeout.isSome && env.timer k) env.fuel 0 _ _ hok
      htodo (by omega)
    obtain ⟨out, h7, _⟩ := postprocess_spec env.hashIter he P.n l'.results
    refine ⟨out, ?_⟩
    have h6' : searchLoop env.prof (fun k => args.timeout.isSome && env.timer k) env.fuel 0
      (Loc.init s P.graph.length) = .ok (some l') := h6
    have h7' : postprocess env.hashIter P.graph.length l'.results = .ok out := h7
    simp [searchDet, h1, doSearch, h6', h7', bind, Except.bind, pure, Except.pure]
  | some a =>
    obtain ⟨⟨l', rng'⟩, h6⟩ := probLoop_todos a.1 env.gen hP.lax env.prof
      (fun k => args.timeout.isSome && env.timer k) env.fuel 0 _ (env.seedRng a.2) _ hok htodo (by omega)
    obtain ⟨out, h7, _⟩ := postprocess_spec env.hashIter he P.n l'.results
    refine ⟨out, ?_⟩
    have h6' : probLoop env.prof a.1 env.gen (fun k => args.timeout.isSome && env.timer k) env.fuel 0
      (Loc.init s P.graph.length) (env.seedRng a.2) = .ok (some (l', rng')) := h6
    have h7' : postprocess env.hashIter P.graph.length l'.results = .ok out := h7
    simp [searchProb, h1, doProbabilisticSearch, h6', h7', bind, Except.bind, pure, Except.pure]

/-- **C67** The same for an accept function with a state, unless it fails. -/
theorem C67_callback {ω : Type} (hP : P.WF) (hE : Beginnings P E) (env : Env F σ) (he : env.OK) (cb : Callback F ω) (w : ω)
    (seed : Option Nat) (args : Args F) (hd : args.doSearch = true) (hn : args.nthreads < 2)
    (hf : 2 * E.length + 1 ≤ env.fuel) :
    (∃ out, runS env cb w seed P.graph P.order args = .ok (some out)) ∨
      ∃ e, runS env cb w seed P.graph P.order args = .error e := by
  rcases runS_lift env cb w seed P.graph P.order args with ⟨dec, h1⟩ | ⟨e, h1, _⟩
  · obtain ⟨out, h2⟩ := C67_search hP hE (decided env dec) he
      { doSearch := args.doSearch, timeout := args.timeout, nthreads := args.nthreads, taskBound := args.taskBound
        probabilistic := some (follow, seed) } hd hn hf
    exact Or.inl ⟨out, h1.trans h2⟩
  · exact Or.inr ⟨e, h1⟩

/-- **C67** The tasks of a thread pool together need no more iterations than a single-threaded search, but one less for
each task that is split off: there are numbers `W`, depending on the input and the task bound only, one for each
task, with `∑ W + tasks = 2 * k + 2`, such that a run is complete once each task `i` was scheduled `W i + 2` times (its
start, at most `W i` iterations and the merge), in any interleaving. -/
theorem C67_threads (hP : P.WF) (hE : Beginnings P E) (taskBound : Option Nat) : ∃ W : List Nat,
    W.sum + W.length = 2 * E.length + 2 ∧ ∀ {F σ : Type} [FloatOps F] (env : Env F σ), env.OK → ∀ args : Args F,
      args.doSearch = true → 2 ≤ args.nthreads → args.taskBound = taskBound →
      (∀ (i : Nat) (hi : i < W.length), W[i] + 2 ≤ (env.moves.map (·.1)).count i) →
      ∃ out, run env P.graph P.order args = .ok (some out) := by
  obtain ⟨s, E', h1, h2, h3, h4, h5⟩ := exists_beginnings hP
  rw [hE.length_eq h5]
  obtain ⟨W, w1, w2⟩ := initGlobal_todos hP.lax ((taskBound.map fun b : Nat => (b : Int)).getD 100000) h2 h3 h4
  refine ⟨W, w1, ?_⟩
  intro F σ _ env he args hd hn htb hmoves
  have thr : ∀ (mode : Mode F σ) (seeds : Nat → σ),
      ∃ out, searchThreaded mode env.prof env.hashIter ((taskBound.map fun b : Nat => (b : Int)).getD 100000) seeds
        (env.moves.map fun m => (m.1, args.timeout.isSome && m.2)) P.graph P.order = .ok (some out) := by
    intro mode seeds
    obtain ⟨g, g1, g2⟩ := initGlobal_spec hP.lax ((taskBound.map fun b : Nat => (b : Int)).getD 100000) seeds h2 h3
    obtain ⟨g', g3, _⟩ := runMoves_spec mode hP.lax (env.moves.map fun m => (m.1, args.timeout.isSome && m.2)) g g2
    obtain ⟨k1, k2⟩ := w2 seeds (g1 env.prof)
    obtain ⟨k3, k4⟩ := runMoves_todos mode hP.lax _ g g' g2 (g3 env.prof)
    have hfin : g'.finished = true := by
      unfold Global.finished
      rw [List.all_eq_true]
      intro t' ht'
      obtain ⟨i, hi, rfl⟩ := List.getElem_of_mem ht'
      have hi' : i < W.length := by omega
      obtain ⟨t, t1, t2⟩ := k2 i hi'
      obtain ⟨t', n', t3, t4, t5⟩ := k4 i t _ t1 t2
      have hc := hmoves i hi'
      rw [List.map_map] at t5
      have hcount : (env.moves.map ((fun m : Nat × Bool => m.1) ∘ fun m => (m.1, args.timeout.isSome && m.2))).count i =
        (env.moves.map (·.1)).count i := rfl
      rw [hcount] at t5
      have : n' = 0 := by omega
      subst this
      have := t4.zero
      subst this
      rw [List.getElem?_eq_some_iff] at t3
      obtain ⟨_, t3⟩ := t3
      rw [t3]
    obtain ⟨out, p1, _⟩ := postprocess_spec env.hashIter he P.n g'.results
    refine ⟨out, ?_⟩
    have g1' : initGlobal env.prof ((taskBound.map fun b : Nat => (b : Int)).getD 100000) seeds s P.graph.length = .ok g :=
      g1 env.prof
    have p1' : postprocess env.hashIter P.graph.length g'.results = .ok out := p1
    simp only [searchThreaded, h1, g1', g3, hfin, p1', bind, Except.bind, pure, Except.pure, if_true]
  have htb' : ((args.taskBound.map fun b => (b : Int)).getD 100000) =
      (taskBound.map fun b : Nat => (b : Int)).getD 100000 := by
    rw [htb]
    cases taskBound <;> rfl
  rw [run, hd, Bool.not_true, if_neg (by simp), Verif.search.eq_def, if_neg (by omega), htb']
  cases hp : args.probabilistic with
  | none => exact thr _ _
  | some a => exact thr _ _

/-- **C67** There are at most `2 * a - 1` beginnings, where `a` is the ordered Bell number of the number of qubits, and
exactly so many if there are no dependencies. -/
theorem C67_count (hP : P.WF) (hb : P.bits ≠ []) (hE : Beginnings P E) :
    E.length + 1 ≤ 2 * orderedBell P.bits.length ∧
      ((∀ b d, ¬ P.Needs b d) → E.length + 1 = 2 * orderedBell P.bits.length) := by
  obtain ⟨s, E', h1, h2, h3, h4, h5⟩ := exists_beginnings hP
  rw [hE.length_eq h5]
  have ht := partials_bell (a := orderedBell) rfl orderedBell_succ
  have hne : ¬ P.bits.length = 0 := fun h => hb (List.length_eq_zero_iff.1 h)
  have hu : unmeasured P [] = P.bits.length := by simp [unmeasured]
  constructor
  · have := h4.length_le ht
    rw [h3.rem] at this
    have h6 := ht.le (set_length_le h2)
    rw [hu] at this h6
    simp only [if_neg hne] at h6
    omega
  · intro hfree
    have := h4.length_free hP.bits_nodup hfree ht
    rw [h3.rem, ← set_length_free hP.bits_nodup hfree h2] at this
    have h6 := ht.eq s.time.measurable.set
    rw [set_length_free hP.bits_nodup hfree h2, hu] at this h6
    simp only [if_neg hne] at h6
    omega

end

/-- `n` isolated nodes without dependencies. -/
def isolated (n : Nat) : Problem := ⟨List.replicate n [], [(List.range n).map fun b => (b, [])]⟩

theorem isolated_bits (n : Nat) : (isolated n).bits = List.range n := by
  simp [isolated, Problem.bits, Problem.entries, Function.comp_def]

theorem isolated_wf {n : Nat} (h : n < 2 ^ 64 - 1) : (isolated n).WF := by
  refine ⟨by rw [isolated_bits]; exact List.nodup_range, ?_, ?_, ?_, by simpa [isolated, Problem.n] using h⟩
  · intro b hb
    rw [isolated_bits] at hb
    simpa [isolated, Problem.n] using hb
  · intro l hl v hv
    simp only [isolated, List.mem_replicate] at hl
    rw [hl.2] at hv
    cases hv
  · intro i layer hi e he
    cases i with
    | zero =>
      simp only [isolated, List.getElem?_cons_zero, Option.some.injEq] at hi
      subst hi
      obtain ⟨b, _, rfl⟩ := List.mem_map.1 he
      simp
    | succ i => simp [isolated] at hi

theorem isolated_free (n b d : Nat) : ¬ (isolated n).Needs b d := by
  rintro ⟨ds, h1, h2⟩
  simp only [isolated, Problem.entries, List.flatten_cons, List.flatten_nil, List.append_nil, List.mem_map,
    Prod.mk.injEq] at h1
  obtain ⟨_, _, _, rfl⟩ := h1
  cases h2

theorem pow_self_le (n : Nat) : n ^ n ≤ 2 ^ (n * (n - 1)) := by
  cases n with
  | zero => simp
  | succ n =>
    rw [Nat.mul_comm, Nat.pow_mul]
    exact Nat.pow_le_pow_left (Nat.lt_two_pow_self (n := n)) _

theorem mul_pred_le (n : Nat) (h : 3 ≤ n) : n * (n - 1) + 2 ≤ 2 ^ n := by
  obtain ⟨k, rfl⟩ : ∃ k, n = k + 3 := ⟨n - 3, by omega⟩
  clear h
  induction k with
  | zero => decide
  | succ k ih =>
    rw [show k + 1 + 3 = (k + 3) + 1 by omega, Nat.pow_succ]
    simp only [Nat.add_sub_cancel] at ih ⊢
    have e1 : (k + 3) * (k + 3 - 1) = (k + 3) * (k + 2) := rfl
    rw [e1] at ih
    nlinarith

theorem four_bell_le (n : Nat) : 4 * orderedBell n ≤ 2 ^ 2 ^ n + 2 := by
  by_cases h : 3 ≤ n
  · have h1 := (bell_bounds (a := orderedBell) rfl orderedBell_succ n).2
    have h2 := Nat.le_trans h1 (pow_self_le n)
    have h3 := Nat.pow_le_pow_right (show 0 < 2 by omega) (mul_pred_le n h)
    rw [Nat.pow_add] at h3
    omega
  · have : n = 0 ∨ n = 1 ∨ n = 2 := by omega
    rcases this with rfl | rfl | rfl <;> decide

/-- **C67** The scaling in the documentation ("in the worst case something between factorial and double exponential"):
with `u ≥ 1` qubits, `4 * u ^ u`, which is at most `2 ^ 2 ^ u + 1` and much less for large `u`, iterations are enough for
every single-threaded search, and `u!` calls of `next` are not enough to iterate a scheduler for `u` independent
qubits. -/
theorem C67_scaling (u : Nat) (hu : 0 < u) :
    (∀ (P : Problem) (E : List Schedule), P.WF → P.bits.length = u → Beginnings P E →
      2 * E.length + 1 ≤ 4 * u ^ u ∧ 2 * E.length + 1 ≤ 2 ^ 2 ^ u + 1) ∧
    (u < 2 ^ 64 - 1 → ∃ P : Problem, P.WF ∧ P.bits.length = u ∧ ∀ prof, allPaths prof u.factorial P = .ok none) := by
  have hb := bell_bounds (a := orderedBell) rfl orderedBell_succ u
  have h4 := four_bell_le u
  constructor
  · intro P E hP hlen hE
    have hne : P.bits ≠ [] := by rintro h; rw [h] at hlen; simp at hlen; omega
    have := (C67_count hP hne hE).1
    rw [hlen] at this
    omega
  · intro hlt
    refine ⟨isolated u, isolated_wf hlt, by simp [isolated_bits], fun prof => ?_⟩
    obtain ⟨E, hE⟩ := C67_exists (isolated_wf hlt)
    have hne : (isolated u).bits ≠ [] := by
      rw [isolated_bits]
      intro h
      have := congrArg List.length h
      simp at this
      omega
    have h5 := (C67_count (isolated_wf hlt) hne hE).2 (isolated_free u)
    rw [isolated_bits, List.length_range] at h5
    refine (C67_sweep (isolated_wf hlt) hE prof _).2 ?_
    have := Nat.factorial_pos u
    omega

/-- **C67** What a deterministic search needs at least, if it is not interrupted: it cannot skip a beginning if all the
beginnings of it have a smaller peak than every valid schedule of the length they have to reach at least. If there are
`k` of those, more than `2 * k` iterations are needed. -/
theorem C67_lower {F σ : Type} [FloatOps F] {P : Problem} (hP : P.WF) (K : List Schedule)
    (hK : ∀ S ∈ K, Needed P S ∧ ∃ rest, P.Valid (S ++ rest))
    (hd : K.Pairwise fun a b => ¬ List.Forall₂ List.Perm a b) (env : Env F σ) (args : Args F)
    (hs : args.doSearch = true) (hn : args.nthreads < 2) (hp : args.probabilistic = none) (ht : args.timeout = none)
    (hf : env.fuel ≤ 2 * K.length) : run env P.graph P.order args = .ok none := by
  obtain ⟨s, E, h1, h2, h3, h4, h5⟩ := exists_beginnings hP
  have hlen : K.length ≤ needs P E := length_le_needs (fun S hS => (hK S hS).1) hd fun S hS =>
    h5.all S (hK S hS).1.1 (hK S hS).2
  have hat : Atleast P (levels (Loc.init s P.n).path (Loc.init s P.n).sweep.current (Loc.init s P.n).sweep.stack)
      (1 + 2 * needs P E + 0) := .cons h4 .nil
  have h6 : searchLoop env.prof (fun k => args.timeout.isSome && env.timer k) env.fuel 0
      (Loc.init s P.graph.length) = .ok none :=
    searchLoop_atleast hP env.prof (by simp [ht]) env.fuel 0 _ _ (init_inv h2 h3) hat (by omega)
  rw [run, hs, Bool.not_true, if_neg (by simp), Verif.search.eq_def, if_pos hn, hp]
  simp [searchDet, h1, doSearch, h6, bind, Except.bind, pure, Except.pure]

/-- All arrangements of `k` members of a list. -/
def arrangements : Nat → List Nat → List (List Nat)
  | 0, _ => [[]]
  | k + 1, l => l.flatMap fun x => (arrangements k (l.erase x)).map (x :: ·)

theorem length_arrangements (k : Nat) : ∀ l : List Nat, (arrangements k l).length = l.length.descFactorial k := by
  induction k with
  | zero => intro l; rfl
  | succ k ih =>
    intro l
    cases hl : l.length with
    | zero => simp [arrangements, List.length_eq_zero_iff.1 hl]
    | succ n =>
      rw [arrangements, List.length_flatMap, Nat.succ_descFactorial_succ]
      have h1 : (l.map fun x => ((arrangements k (l.erase x)).map (x :: ·)).length) =
          List.replicate (n + 1) (n.descFactorial k) := by
        rw [List.eq_replicate_iff]
        refine ⟨by simp [hl], ?_⟩
        intro b hb
        obtain ⟨x, hx, rfl⟩ := List.mem_map.1 hb
        rw [List.length_map, ih, List.length_erase_of_mem hx, hl]
        rfl
      rw [h1, List.sum_replicate_nat]

theorem nodup_arrangements (k : Nat) : ∀ l : List Nat, l.Nodup → (arrangements k l).Nodup := by
  induction k with
  | zero => intro l _; simp [arrangements]
  | succ k ih =>
    intro l hl
    rw [arrangements, List.nodup_flatMap]
    refine ⟨fun x hx => (ih _ (hl.erase x)).map fun a b h => (List.cons.inj h).2, ?_⟩
    refine List.Pairwise.imp_of_mem ?_ hl
    intro a b _ _ hab c hc hc'
    obtain ⟨c1, _, rfl⟩ := List.mem_map.1 hc
    obtain ⟨c2, _, h⟩ := List.mem_map.1 hc'
    exact hab (List.cons.inj h).1.symm

theorem mem_arrangements (k : Nat) : ∀ l : List Nat, l.Nodup → ∀ c ∈ arrangements k l,
    c.length = k ∧ c.Nodup ∧ ∀ x ∈ c, x ∈ l := by
  induction k with
  | zero => intro l _ c hc; simp [arrangements] at hc; subst hc; simp
  | succ k ih =>
    intro l hl c hc
    rw [arrangements, List.mem_flatMap] at hc
    obtain ⟨x, hx, hc⟩ := hc
    obtain ⟨c, hc1, rfl⟩ := List.mem_map.1 hc
    obtain ⟨h1, h2, h3⟩ := ih _ (hl.erase x) c hc1
    refine ⟨by simp [h1], ?_, ?_⟩
    · rw [List.nodup_cons]
      exact ⟨fun hxc => by have := h3 x hxc; rw [hl.mem_erase_iff] at this; exact this.1 rfl, h2⟩
    · intro y hy
      rcases List.mem_cons.1 hy with rfl | hy
      · exact hx
      · exact List.mem_of_mem_erase (h3 y hy)

/-- One at a time. -/
def singles (l : List Nat) : Schedule := l.map fun x => [x]

theorem singles_flatten (l : List Nat) : (singles l).flatten = l := by
  induction l with
  | nil => rfl
  | cons x l ih => simpa [singles] using ih

theorem singles_take (l : List Nat) (k : Nat) : (singles l).take k = singles (l.take k) := by
  simp [singles, List.map_take]

theorem singles_inj {l l' : List Nat} (h : List.Forall₂ List.Perm (singles l) (singles l')) : l = l' := by
  induction l generalizing l' with
  | nil => cases l' with
    | nil => rfl
    | cons _ _ => cases h
  | cons x l ih => cases l' with
    | nil => cases h
    | cons y l' =>
      cases h with
      | cons h1 h2 =>
        have hxy := List.singleton_perm_singleton.1 h1
        rw [hxy, ih h2]

theorem isolated_n (n : Nat) : (isolated n).n = n := by simp [isolated, Problem.n]

theorem isolated_inMemory {n : Nat} {S : Schedule} {k v : Nat} :
    (isolated n).inMemory S k v = true ↔ v ∈ (S.take (k + 1)).flatten ∧ v ∉ (S.take k).flatten := by
  have h : ∀ u, (isolated n).nbrs u = [] := by
    intro u
    simp only [isolated, Problem.nbrs, List.getD_eq_getElem?_getD, List.getElem?_replicate]
    split <;> rfl
  simp [Problem.inMemory, h]

/-- Qubits that are measured one at a time need space 1. -/
theorem isolated_peak_singles {n : Nat} (l : List Nat) : (isolated n).peak (singles l) ≤ 1 := by
  refine peak_le fun k hk => ?_
  have hk' : k < l.length := by simpa [singles] using hk
  have hsub : (List.range (isolated n).n).filter ((isolated n).inMemory (singles l) k) ⊆ [l[k]] := by
    intro v hv
    have h1 := isolated_inMemory.1 (List.mem_filter.1 hv).2
    rw [singles_take, singles_take, singles_flatten, singles_flatten, List.take_add_one, List.getElem?_eq_getElem hk',
      List.mem_append] at h1
    rcases h1 with ⟨h1 | h1, h2⟩
    · exact (h2 h1).elim
    · simpa using h1
  have := (List.subperm_of_subset (List.nodup_range.filter _) hsub).length_le
  simpa [Problem.memAt] using this

/-- A schedule that is shorter than the number of qubits measures two at once. -/
theorem isolated_two_le_peak {n : Nat} {V : Schedule} (hV : (isolated n).Valid V) (hl : V.length < n) :
    2 ≤ (isolated n).peak V := by
  have hnd : V.flatten.Nodup := hV.perm.nodup_iff.2 (by rw [isolated_bits]; exact List.nodup_range)
  have hlen := hV.perm.length_eq
  rw [isolated_bits, List.length_range] at hlen
  obtain ⟨s, hs, h2⟩ : ∃ s ∈ V, 2 ≤ s.length := by
    apply Classical.byContradiction
    intro hno
    have : ∀ W : Schedule, (∀ s ∈ W, ¬ 2 ≤ s.length) → W.flatten.length ≤ W.length := by
      intro W
      induction W with
      | nil => intro _; simp
      | cons s W ih =>
        intro h
        have h1 := h s List.mem_cons_self
        have h2 := ih fun t ht => h t (List.mem_cons_of_mem _ ht)
        simp only [List.flatten_cons, List.length_append, List.length_cons]
        omega
    have := this V fun s hs h => hno ⟨s, hs, h⟩
    omega
  obtain ⟨k, hk, rfl⟩ := List.getElem_of_mem hs
  refine Nat.le_trans ?_ (memAt_le_peak (isolated n) V k hk)
  refine Nat.le_trans h2 ?_
  have hsplit : V.flatten = (V.take k).flatten ++ (V[k] ++ (V.drop (k + 1)).flatten) := by
    have h := congrArg List.flatten (List.take_append_drop k V)
    rw [List.drop_eq_getElem_cons hk, List.flatten_append, List.flatten_cons] at h
    exact h.symm
  rw [hsplit, List.nodup_append'] at hnd
  obtain ⟨_, hnd2, hdis⟩ := hnd
  rw [List.nodup_append'] at hnd2
  have hsub : V[k] ⊆ (List.range (isolated n).n).filter ((isolated n).inMemory V k) := by
    intro v hv
    rw [List.mem_filter]
    constructor
    · have : v ∈ (isolated n).bits := hV.perm.mem_iff.1 (List.mem_flatten.2 ⟨_, hs, hv⟩)
      rw [isolated_bits] at this
      rwa [isolated_n]
    · rw [isolated_inMemory]
      refine ⟨?_, fun hn => hdis hn (List.mem_append_left _ hv)⟩
      rw [List.take_add_one, List.getElem?_eq_getElem hk, List.flatten_append, List.mem_append]
      exact Or.inr (by simpa using hv)
  exact (List.subperm_of_subset hnd2.1 hsub).length_le

/-- **C67** The search itself scales at least factorially: for `u` isolated qubits without dependencies, the deterministic
search, with all that it skips, is not done after `u!` iterations. -/
theorem C67_factorial {F σ : Type} [FloatOps F] {u : Nat} (hu : 3 ≤ u) (hlt : u < 2 ^ 64 - 1) (env : Env F σ)
    (args : Args F) (hs : args.doSearch = true) (hn : args.nthreads < 2) (hp : args.probabilistic = none)
    (ht : args.timeout = none) (hf : env.fuel ≤ u.factorial) :
    run env (isolated u).graph (isolated u).order args = .ok none := by
  have hP := isolated_wf hlt
  refine C67_lower hP ((arrangements (u - 2) (List.range u)).map singles) ?_ ?_ env args hs hn hp ht ?_
  · intro S hS
    obtain ⟨l, hl, rfl⟩ := List.mem_map.1 hS
    obtain ⟨h1, h2, h3⟩ := mem_arrangements _ _ List.nodup_range l hl
    have hlen : (singles l).length = u - 2 := by simp [singles, h1]
    constructor
    · refine ⟨List.length_pos_iff.1 (by omega), fun k hk hle V hV hVl => ?_⟩
      have hb : (isolated u).blocked ((singles l).take k) = 0 := by
        simp [Problem.blocked, isolated, Problem.entries]
      have hbl : (singles l).take k = singles (l.take k) := singles_take l k
      have hat : (isolated u).atLeast ((singles l).take k) ≤ k + 1 := by
        unfold Problem.atLeast
        rw [hb, if_pos rfl]
        have : ((singles l).take k).length = k := by rw [List.length_take]; omega
        split <;> omega
      have h5 := isolated_two_le_peak hV (by omega)
      have h6 := isolated_peak_singles (n := u) (l.take k)
      rw [hbl]
      omega
    · refine Prefix.extend hP ⟨?_, ?_, ?_, ?_⟩
      · intro s hs
        obtain ⟨x, _, rfl⟩ := List.mem_map.1 hs
        simp
      · rw [singles_flatten]; exact h2
      · intro b hb
        rw [singles_flatten] at hb
        rw [isolated_bits]
        exact h3 b hb
      · intro i s _ b _ d hd
        exact (isolated_free u b d hd).elim
  · rw [List.pairwise_map]
    refine (nodup_arrangements _ _ List.nodup_range).imp ?_
    intro a b hab h
    exact hab (singles_inj h)
  · rw [List.length_map, length_arrangements, List.length_range]
    have := Nat.factorial_mul_descFactorial (show u - 2 ≤ u by omega)
    rw [show u - (u - 2) = 2 by omega] at this
    have h2 : Nat.factorial 2 = 2 := rfl
    rw [h2] at this
    omega

-- 108 iterations for four isolated qubits
example : run (demo 107 []) (isolated 4).graph (isolated 4).order { doSearch := true } = .ok none ∧
    (run (demo 108 []) (isolated 4).graph (isolated 4).order { doSearch := true }).map
      (Option.map fun o => o.map fun p => (p.time, p.space)) = .ok (some [(1, 4), (2, 2), (4, 1)]) := by
  decide +kernel

-- the documentation's example has 12 beginnings
example : docs.WF ∧ allPaths .debug 24 docs = .ok none ∧
    (allPaths .debug 25 docs).map (Option.map List.length) = .ok (some 5) :=
  ⟨docs_wf, by decide +kernel, by decide +kernel⟩

-- the star has no dependencies: 2 * (2 * 75 - 1) + 1 calls; a search skips and is done after 51
example : star.WF ∧ star.bits.length = 4 ∧ orderedBell 4 = 75 ∧ allPaths .debug 298 star = .ok none ∧
    (allPaths .debug 299 star).map (Option.map List.length) = .ok (some 75) ∧
    run (demo 50 []) star.graph star.order { doSearch := true } = .ok none ∧
    (run (demo 51 []) star.graph star.order { doSearch := true }).map (Option.map List.length) = .ok (some 3) :=
  ⟨star_wf, rfl, by decide +kernel, by decide +kernel, by decide +kernel, by decide +kernel, by decide +kernel⟩

-- two tasks for the documentation's example: 23 + 1 iterations at most, 24 + 2 = 2 * 12 + 2
example : (demo 0 (roundRobin 2 25)).OK ∧
    (∀ (i : Nat) (hi : i < [23, 1].length), [23, 1][i] + 2 ≤ ((demo 0 (roundRobin 2 25)).moves.map (·.1)).count i) ∧
    (run (demo 0 (roundRobin 2 25)) docs.graph docs.order { doSearch := true, nthreads := 3 }).map
      (Option.map List.length) = .ok (some 1) :=
  ⟨demo_ok _ _, by decide +kernel, by decide +kernel⟩

/-- **C67** A search may take fewer iterations: the number above is exact for iterating a scheduler only. -/
theorem C67_exact_refuted : ¬ ∀ (P : Problem) (E : List Schedule) (args : Args Bool) (fuel : Nat), P.WF → Beginnings P E →
    args.doSearch = true → args.nthreads < 2 → (∃ out, run (demo fuel []) P.graph P.order args = .ok (some out)) →
    2 * E.length + 1 ≤ fuel := by
  intro h
  obtain ⟨E, hE⟩ := C67_exists docs_wf
  have h1 := h docs E { doSearch := true } 9 docs_wf hE rfl (by decide)
    ⟨[⟨3, 3, [[0], [3, 1], [2]]⟩], by decide +kernel⟩
  have h2 := ((C67_sweep docs_wf hE .debug 9).1).2 h1
  obtain ⟨out, h3⟩ := h2
  have h4 : allPaths .debug 9 docs = .ok none := by decide +kernel
  rw [h4] at h3
  cases h3

end Verif
