import Verif.Props.Example
import Verif.Proofs.ThreadedOpt
import Verif.Proofs.Empty
/-!
# Properties of `run`: validity, costs, optimality, termination

All statements are about `Verif.run`, the model of `interface::run`, and the vocabulary of
`Verif.Spec`. `env` collects everything the caller does not control.
-/

namespace Verif

open Spec Search Search.Threaded Example

section

variable {F σ : Type} [FloatOps F] {P : Problem} {env : Env F σ} {args : Args F} {out : List Path}

/-- **C01** Every returned path is a valid schedule, in every mode. -/
theorem C01_valid (hP : P.WF) (he : env.OK)
    (h : run env P.graph P.order args = .ok (some out)) : ∀ p ∈ out, P.Valid p.steps :=
  fun p hp => ((run_sound hP he h).valid p hp).1

example : docs.WF ∧ (demo 100 []).OK ∧ ∃ out, out ≠ [] ∧
    run (demo 100 []) docs.graph docs.order { doSearch := true } = .ok (some out) :=
  ⟨docs_wf, demo_ok _ _, _, by simp, docs_run⟩

/-- **C02** The reported time is the number of steps. -/
theorem C02_time (hP : P.WF) (he : env.OK)
    (h : run env P.graph P.order args = .ok (some out)) : ∀ p ∈ out, p.time = p.steps.length :=
  fun p hp => ((run_sound hP he h).valid p hp).2.1

example : star.WF ∧ (demo 1000 []).OK ∧ ∃ out, out.length = 3 ∧
    run (demo 1000 []) star.graph star.order { doSearch := true } = .ok (some out) :=
  ⟨star_wf, demo_ok _ _, _, by simp, star_run⟩

/-- **C03** The reported space is the peak number of qubits in memory. -/
theorem C03_space (hP : P.WF) (he : env.OK)
    (h : run env P.graph P.order args = .ok (some out)) :
    ∀ p ∈ out, (∀ k, k < p.steps.length → P.memAt p.steps k ≤ p.space) ∧
      (p.steps ≠ [] → ∃ k, k < p.steps.length ∧ P.memAt p.steps k = p.space) ∧
      p.space = P.peak p.steps := by
  intro p hp
  have h1 := ((run_sound hP he h).valid p hp).2.2
  refine ⟨fun k hk => h1 ▸ memAt_le_peak P _ k hk, ?_, h1⟩
  intro hne
  rw [h1]
  unfold Problem.peak
  have key : ∀ l : List Nat, l ≠ [] → ∃ x ∈ l, x = l.foldr max 0 := by
    intro l
    induction l with
    | nil => intro h; exact (h rfl).elim
    | cons a l ih =>
      intro _
      by_cases hl : l = []
      · subst hl; exact ⟨a, by simp, by simp⟩
      · obtain ⟨x, hx, he⟩ := ih hl
        rw [List.foldr_cons, ← he]
        rcases Nat.le_total a x with h | h
        · exact ⟨x, List.mem_cons_of_mem _ hx, by omega⟩
        · exact ⟨a, List.mem_cons_self, by omega⟩
  obtain ⟨x, hx, he⟩ := key ((List.range p.steps.length).map (P.memAt p.steps)) (by
    intro h0
    rw [List.map_eq_nil_iff, List.range_eq_nil] at h0
    exact hne (List.eq_nil_of_length_eq_zero h0))
  obtain ⟨k, hk, rfl⟩ := List.mem_map.1 hx
  exact ⟨k, by simpa using hk, he⟩

example : star.memAt [[3], [2], [1, 0]] 0 = 2 ∧ star.memAt [[3], [2], [1, 0]] 2 = 2 ∧
    star.peak [[3], [2], [1, 0]] = 2 ∧ star.peak [[1, 2, 3, 0]] = 4 := by decide +kernel

/-- Without search the environment does not matter. -/
theorem run_time_optimal (hP : P.WF) (hs : args.doSearch = false)
    (h : run env P.graph P.order args = .ok (some out)) :
    ∃ S, out = [⟨S.length, P.peak S, S⟩] ∧ P.Valid S ∧ Greedy P S := by
  obtain ⟨S, h1, h2, h3⟩ := getTimeOptimal_spec hP
  rw [run, hs, Bool.not_false, if_pos rfl] at h
  have h4 := getTimeOptimal_mono (Nat.le_max_left env.fuel (P.bits.length + 1)) h
  have h5 := h1 env.prof (max env.fuel (P.bits.length + 1)) (by omega)
  rw [h5] at h4
  injection h4 with h4
  injection h4 with h4
  exact ⟨S, h4.symm, h2, h3⟩

/-- **C05** Without search exactly one path is returned and no valid schedule is shorter. -/
theorem C05_time_optimal (hP : P.WF) (hs : args.doSearch = false)
    (h : run env P.graph P.order args = .ok (some out)) :
    ∃ p, out = [p] ∧ P.Valid p.steps ∧ p.time = p.steps.length ∧ p.space = P.peak p.steps ∧
      ∀ S, P.Valid S → p.time ≤ S.length := by
  obtain ⟨S, h1, h2, h3⟩ := run_time_optimal hP hs h
  exact ⟨_, h1, h2, rfl, rfl, fun T hT => greedy_min hP h2 h3 hT⟩

/-- **C06** Without search every qubit is measured as early as in any valid schedule; if every
qubit of layer `k + 1` depends on some qubit of layer `k`, step `k` is layer `k`. -/
theorem C06_earliest (hP : P.WF) (hs : args.doSearch = false)
    (h : run env P.graph P.order args = .ok (some out)) :
    ∃ p, out = [p] ∧
      (∀ S, P.Valid S → ∀ (b i j : Nat) (s t : List Nat), p.steps[i]? = some s → b ∈ s →
        S[j]? = some t → b ∈ t → i ≤ j) ∧
      ((∀ k layer layer', P.order[k]? = some layer → P.order[k + 1]? = some layer' →
          ∀ e' ∈ layer', ∃ e ∈ layer, e.1 ∈ e'.2) →
        ∀ (k : Nat) (s : List Nat), p.steps[k]? = some s →
          ∃ layer, P.order[k]? = some layer ∧ s.Perm (layer.map (·.1))) := by
  obtain ⟨S, h1, h2, h3⟩ := run_time_optimal hP hs h
  refine ⟨_, h1, fun T hT b i j s t hi hb hj hb' => greedy_earliest hP h2 h3 hT hi hb hj hb', ?_⟩
  intro tight k s hk
  change S[k]? = some s at hk
  have hkl := (List.getElem?_eq_some_iff.1 hk).1
  have g := greedy_layers hP h3 tight
  have hpre := h2.prefix hP.bits_nodup
  have hsne : s ≠ [] := h2.nonempty s (List.mem_of_getElem? hk)
  -- members of step `k` lie in layer `k`
  have mem1 : ∀ b, b ∈ s ↔ ∃ layer e, P.order[k]? = some layer ∧ e ∈ layer ∧ e.1 = b := by
    intro b
    have g1 := g (k + 1) (by omega) b
    have g0 := g k (by omega) b
    rw [take_succ_of_getElem? hk, List.flatten_append, List.mem_append] at g1
    have hdisj : b ∈ s → b ∉ (S.take k).flatten := by
      intro hb hb'
      have hnd := (prefix_take hpre (k + 1)).nodup
      rw [take_succ_of_getElem? hk, List.flatten_append] at hnd
      exact (List.nodup_append.1 hnd).2.2 b hb' b (by simpa using hb) rfl
    constructor
    · intro hb
      obtain ⟨j, layer, e, hj, hl, he, heb⟩ := g1.1 (Or.inr (by simpa using hb))
      rcases Nat.lt_succ_iff_lt_or_eq.1 hj with hjk | rfl
      · exact (hdisj hb (g0.2 ⟨j, layer, e, hjk, hl, he, heb⟩)).elim
      · exact ⟨layer, e, hl, he, heb⟩
    · rintro ⟨layer, e, hl, he, heb⟩
      rcases g1.2 ⟨k, layer, e, by omega, hl, he, heb⟩ with hb | hb
      · obtain ⟨j, layer', e', hj, hl', he', heb'⟩ := g0.1 hb
        have := layer_unique hP.bits_nodup hl hl' he he' (heb.trans heb'.symm)
        omega
      · simpa using hb
  obtain ⟨b, hb⟩ := List.exists_mem_of_ne_nil s hsne
  obtain ⟨layer, e, hl, he, heb⟩ := (mem1 b).1 hb
  refine ⟨layer, hl, ?_⟩
  have hs1 : s.Nodup := by
    have hnd := (prefix_take hpre (k + 1)).nodup
    rw [take_succ_of_getElem? hk, List.flatten_append] at hnd
    simpa using (List.nodup_append.1 hnd).2.1
  have hs2 : (layer.map (·.1)).Nodup := by
    refine List.Nodup.sublist ?_ hP.bits_nodup
    exact (List.sublist_flatten_of_mem (List.mem_of_getElem? hl)).map _
  refine (List.perm_ext_iff_of_nodup hs1 hs2).2 fun x => ?_
  rw [mem1 x, List.mem_map]
  constructor
  · rintro ⟨l', e', h1, h2, h3⟩
    rw [hl] at h1
    injection h1 with h1
    subst h1
    exact ⟨e', h2, h3⟩
  · rintro ⟨e', h2, h3⟩
    exact ⟨layer, e', hl, h2, h3⟩

example : run (demo 100 []) docs.graph docs.order { doSearch := false } =
    .ok (some [⟨3, 3, [[0], [3, 1], [2]]⟩]) := by decide +kernel

/-- An exhaustive search: search, one thread, no accept function, not interrupted. -/
structure Exhaustive (env : Env F σ) (args : Args F) : Prop where
  search : args.doSearch = true
  threads : args.nthreads < 2
  accept : args.probabilistic = none
  timer : args.timeout = none ∨ ∀ k, env.timer k = false

theorem run_exhaustive (hP : P.WF) (hb : P.bits ≠ []) (he : env.OK) (hx : Exhaustive env args)
    (h : run env P.graph P.order args = .ok (some out)) : Complete P out := by
  have ht : ∀ j, (args.timeout.isSome && env.timer j) = false := by
    intro j
    rcases hx.timer with h | h
    · simp [h]
    · simp [h]
  obtain ⟨o, h1, _, _, h4⟩ := searchDet_spec hP fun k => args.timeout.isSome && env.timer k
  rw [run, hx.search, Bool.not_true, if_neg (by simp), Verif.search.eq_def, if_pos hx.threads, hx.accept] at h
  have h5 := searchDet_mono (Nat.le_max_left env.fuel (searchBound P.bits.length)) h
  rw [h1 env.prof env.hashIter _ he (Nat.le_max_right _ _)] at h5
  injection h5 with h5
  injection h5 with h5
  subst h5
  exact h4 ht hb

/-- **C07** The exhaustive search misses nothing: every valid schedule is matched by a returned path
that is at least as good in both costs. -/
theorem C07_exhaustive (hP : P.WF) (hb : P.bits ≠ []) (he : env.OK) (hx : Exhaustive env args)
    (h : run env P.graph P.order args = .ok (some out)) :
    ∀ S, P.Valid S → ∃ p ∈ out, p.time ≤ S.length ∧ p.space ≤ P.peak S :=
  run_exhaustive hP hb he hx h

example : star.bits ≠ [] ∧ Exhaustive (demo 1000 []) { doSearch := true } ∧
    star.Valid [[2, 1], [0], [3]] :=
  ⟨by decide, ⟨rfl, by decide, rfl, Or.inl rfl⟩, valid_of_check (by decide +kernel)⟩

/-- **C08** The returned list is sorted by strictly increasing time and strictly decreasing space,
in every mode. -/
theorem C08_monotone (hP : P.WF) (he : env.OK)
    (h : run env P.graph P.order args = .ok (some out)) :
    out.Pairwise fun a b => a.time < b.time ∧ b.space < a.space :=
  (run_sound hP he h).strict

example : star.WF ∧ (demo 0 (swapped 8 60)).OK ∧ ∃ out, out.length = 3 ∧
    run (demo 0 (swapped 8 60)) star.graph star.order { doSearch := true, nthreads := 4 } =
      .ok (some out) :=
  ⟨star_wf, demo_ok _ _, _, by simp, star_run_threads⟩

/-- **C09** The exhaustive search returns exactly the Pareto front. -/
theorem C09_pareto (hP : P.WF) (hb : P.bits ≠ []) (he : env.OK) (hx : Exhaustive env args)
    (h : run env P.graph P.order args = .ok (some out)) (t m : Nat) :
    (∃ p ∈ out, p.time = t ∧ p.space = m) ↔ ParetoOptimal P t m :=
  ((run_sound hP he h).pareto (run_exhaustive hP hb he hx h) t m).symm

example : ∃ t m, ParetoOptimal star t m :=
  ⟨2, 3, (C09_pareto star_wf (by decide) (demo_ok 1000 [])
    ⟨rfl, by decide, rfl, Or.inl rfl⟩ star_run 2 3).1 ⟨⟨2, 3, [[2, 3], [1, 0]]⟩, by simp, rfl, rfl⟩⟩

/-- **C10** The first path needs the fewest steps and the least memory among those; the last
path needs the least memory of all. -/
theorem C10_first_last (hP : P.WF) (hb : P.bits ≠ []) (he : env.OK) (hx : Exhaustive env args)
    (h : run env P.graph P.order args = .ok (some out)) :
    ∃ f l, out.head? = some f ∧ out.getLast? = some l ∧
      (∀ S, P.Valid S → f.time ≤ S.length) ∧
      (∀ S, P.Valid S → S.length = f.time → f.space ≤ P.peak S) ∧
      (∀ S, P.Valid S → l.space ≤ P.peak S) := by
  have hs := run_sound hP he h
  have hc := run_exhaustive hP hb he hx h
  obtain ⟨S0, _, hS0, _⟩ := getTimeOptimal_spec hP
  obtain ⟨p0, hp0, _⟩ := hc S0 hS0
  have hne : out ≠ [] := List.ne_nil_of_mem hp0
  have hfirst : ∀ p ∈ out, (out.head hne).time ≤ p.time ∧
      (p.time = (out.head hne).time → p = out.head hne) := by
    intro p hp
    have : out = out.head hne :: out.tail := (List.cons_head_tail hne).symm
    rw [this] at hp
    rcases List.mem_cons.1 hp with rfl | hp'
    · exact ⟨Nat.le_refl _, fun _ => rfl⟩
    · have h1 := hs.strict
      rw [this, List.pairwise_cons] at h1
      have := h1.1 p hp'
      exact ⟨by omega, fun e => by omega⟩
  have hlast : ∀ p ∈ out, (out.getLast hne).space ≤ p.space := by
    intro p hp
    have : out = out.dropLast ++ [out.getLast hne] := (List.dropLast_append_getLast hne).symm
    rw [this] at hp
    rcases List.mem_append.1 hp with hp' | hp'
    · have h1 := hs.strict
      rw [this, List.pairwise_append] at h1
      have := h1.2.2 p hp' _ (List.mem_singleton.2 rfl)
      omega
    · rw [List.mem_singleton.1 hp']
  refine ⟨out.head hne, out.getLast hne, List.head?_eq_some_head hne, List.getLast?_eq_some_getLast hne,
    ?_, ?_, ?_⟩
  · intro S hS
    obtain ⟨p, hp, h1, _⟩ := hc S hS
    have := (hfirst p hp).1
    omega
  · intro S hS hl
    obtain ⟨p, hp, h1, h2⟩ := hc S hS
    have h3 := hfirst p hp
    have h4 := h3.2 (by omega)
    rw [← h4]
    exact h2
  · intro S hS
    obtain ⟨p, hp, _, h2⟩ := hc S hS
    have := hlast p hp
    omega

example : star.bits ≠ [] ∧ Exhaustive (demo 1000 []) { doSearch := true } ∧
    run (demo 1000 []) star.graph star.order { doSearch := true } =
    .ok (some [⟨1, 4, [[1, 2, 3, 0]]⟩, ⟨2, 3, [[2, 3], [1, 0]]⟩, ⟨3, 2, [[3], [2], [1, 0]]⟩]) :=
  ⟨by decide, ⟨rfl, by decide, rfl, Or.inl rfl⟩, star_run⟩

end

/-- The number of tasks of the thread pool. -/
theorem initGlobal_length {σ : Type} {P : Problem} (hP : Lax P) (tb : Int) (seeds : Nat → σ)
    {s : Scheduler Partitioner} (hs : StateFor P [] s) (hf : Fresh s) {prof : Profile}
    {g : Global σ} (h : initGlobal prof tb seeds s P.n = .ok g) :
    g.tasks.length ≤ 2 ^ P.bits.length + 1 := by
  obtain ⟨ts, rest, h1, -, -, -, -, ⟨tail, h2, -⟩, -⟩ :=
    spawnLoop_spec hP tb (s.time.measurable.iter.length + 1) s 0 hs hf.iterOK (by omega)
  simp only [initGlobal, spawn, h1, bind, Except.bind, pure, Except.pure, Except.ok.injEq] at h
  subst h
  have h3 : ((Verif.rem s).map (·.2)).length = (ts.map (·.2) ++ tail).length := by rw [h2]
  have h4 : s.time.measurable.iter.length = 2 ^ s.time.measurable.set.length := by
    rw [hf, length_powerset]
  have h5 := set_length_le hs
  have h6 : 2 ^ s.time.measurable.set.length ≤ 2 ^ P.bits.length :=
    Nat.pow_le_pow_right (by omega) (Nat.le_trans h5 (Nat.sub_le _ _))
  simp only [Verif.rem, List.length_map, List.length_append, h4] at h3
  simp only [List.length_append, List.length_mapIdx, List.length_cons, List.length_nil]
  omega

/-- Every mode terminates. -/
theorem run_terminates (u : Nat) : ∃ N : Nat, ∀ {F σ : Type} [FloatOps F] (P : Problem) (env : Env F σ)
    (args : Args F), P.Loose → P.bits.length = u → env.OK → N ≤ env.fuel →
    (∀ i, i < 2 ^ u + 1 → N ≤ (env.moves.map (·.1)).count i) →
    ∃ out, run env P.graph P.order args = .ok (some out) := by
  refine ⟨searchBound u + 3, ?_⟩
  intro F σ _ P env args hP hu he hfuel hmoves
  subst hu
  have hu := lt_searchBound P.bits.length
  rw [run]
  cases hsearch : args.doSearch
  · obtain ⟨S, h1, _⟩ := getTimeOptimal_loose hP
    exact ⟨_, by rw [Bool.not_false, if_pos rfl]; exact h1 env.prof env.fuel (by omega)⟩
  · rw [Bool.not_true, if_neg (by simp), Verif.search.eq_def]
    have thr : ∀ (mode : Mode F σ) (tb : Int) (seeds : Nat → σ),
        ∃ out, searchThreaded mode env.prof env.hashIter tb seeds
          (env.moves.map fun m => (m.1, args.timeout.isSome && m.2)) P.graph P.order
          = .ok (some out) := by
      intro mode tb seeds
      obtain ⟨s, h1, h2, h3⟩ := mkScheduler_loose hP
      obtain ⟨g, h4, h5⟩ := initGlobal_spec hP.lax tb seeds h2 h3
      obtain ⟨g', h6, h7⟩ := runMoves_spec mode hP.lax
        (env.moves.map fun m => (m.1, args.timeout.isSome && m.2)) g h5
      have h8 := runMoves_finishes mode hP.lax tb seeds h2 h3 h5 (h4 env.prof) (h6 env.prof) (by
        intro i hi
        have hlen := initGlobal_length hP.lax tb seeds h2 h3 (h4 env.prof)
        rw [List.map_map]
        rw [eff_bits] at hlen
        rw [eff_bits]
        exact hmoves i (by omega))
      obtain ⟨out, h9, _⟩ := postprocess_spec env.hashIter he P.n g'.results
      refine ⟨out, ?_⟩
      have h4' : initGlobal env.prof tb seeds s P.graph.length = .ok g := h4 env.prof
      have h9' : postprocess env.hashIter P.graph.length g'.results = .ok out := h9
      simp only [searchThreaded, h1, h4', h6, h8, h9', bind, Except.bind, pure, Except.pure,
        if_true]
    by_cases hn : args.nthreads < 2
    · rw [if_pos hn]
      cases hp : args.probabilistic with
      | none =>
        obtain ⟨o, h1, _⟩ := searchDet_loose hP fun k => args.timeout.isSome && env.timer k
        exact ⟨o, h1 env.prof env.hashIter env.fuel he (by omega)⟩
      | some a =>
        obtain ⟨o, h1, _⟩ := searchProb_loose a.1 env.gen (env.seedRng a.2) hP
          fun k => args.timeout.isSome && env.timer k
        exact ⟨o, h1 env.prof env.hashIter env.fuel he (by omega)⟩
    · rw [if_neg hn]
      cases hp : args.probabilistic with
      | none => exact thr _ _ _
      | some a => exact thr _ _ _

/-- **C12** Every mode terminates: there is a bound `N` on the number of loop iterations, depending
only on the number of qubits of the ordering, such that the single-threaded modes end within
`N` iterations (whatever the timer does, whatever is accepted) and the multi-threaded ones end
once each of the at most `2 ^ qubits + 1` tasks was scheduled `N` times, in any interleaving. -/
theorem C12_terminates (u : Nat) : ∃ N : Nat, ∀ {F σ : Type} [FloatOps F] (P : Problem) (env : Env F σ)
    (args : Args F), P.WF → P.bits.length = u → env.OK → N ≤ env.fuel →
    (∀ i, i < 2 ^ u + 1 → N ≤ (env.moves.map (·.1)).count i) →
    ∃ out, run env P.graph P.order args = .ok (some out) := by
  obtain ⟨N, h⟩ := run_terminates u
  exact ⟨N, fun P env args hP => h P env args hP.loose⟩

example : docs.WF ∧ docs.bits.length = 4 ∧ (demo 5 (roundRobin 17 5)).OK ∧
    ∀ i, i < 2 ^ 4 + 1 → 5 ≤ ((demo 5 (roundRobin 17 5)).moves.map (·.1)).count i :=
  ⟨docs_wf, rfl, demo_ok _ _, by decide +kernel⟩

section

variable {F σ : Type} [FloatOps F] {P : Problem}

/-- **C13** A well-formed input never panics, in any mode, wherever it is interrupted. -/
theorem C13_no_panic (hP : P.WF) (env : Env F σ) (he : env.OK) (args : Args F) :
    ∀ e, run env P.graph P.order args ≠ .error e := by
  intro e h
  obtain ⟨r, h1, _⟩ := run_spec hP env args
  have := h1 env.prof env.hashIter he
  change run env P.graph P.order args = .ok r at this
  rw [this] at h
  cases h

-- an ill-formed input (bit 7 of 2 nodes) does panic
example : run (demo 10 []) [[1], [0]] [[(7, [])]] { doSearch := true } =
    .error .indexOutOfBounds := by decide +kernel

-- a dependency on a qubit of the same layer makes the counters disagree with the look-up
example : run (demo 10 []) [[1], [0]] [[(0, [])], [(1, [0])], [(1, [0])]] { doSearch := false } =
    .error .alreadyResolved := by decide +kernel

/-- **C26** Debug and release builds agree on every call of `run`. -/
theorem C26_profiles (hP : P.WF) (env : Env F σ) (he : env.OK) (args : Args F) :
    run { env with prof := .debug } P.graph P.order args =
      run { env with prof := .release } P.graph P.order args := by
  obtain ⟨r, h1, _⟩ := run_spec hP env args
  have h2 := h1 .debug env.hashIter he
  have h3 := h1 .release env.hashIter he
  exact h2.trans h3.symm

example : star.WF ∧ (demo 1000 []).OK ∧ ∃ out, out.length = 3 ∧
    run { demo 1000 [] with prof := .release } star.graph star.order { doSearch := true } =
      .ok (some out) :=
  ⟨star_wf, demo_ok _ _, _, by simp,
    (C26_profiles star_wf (demo 1000 []) (demo_ok _ _) { doSearch := true }).symm.trans star_run⟩

-- well-formedness is needed: with a repeated bit the debug build panics, the release build does not
example : run { demo 100 [] with prof := .debug } [[], []] [[(0, []), (0, [])]] { doSearch := true } =
      .error .unwrapFailed ∧
    run { demo 100 [] with prof := .release } [[], []] [[(0, []), (0, [])]] { doSearch := true } =
      .ok (some [⟨1, 1, [[0, 0]]⟩]) := by decide +kernel

/-- **C50** The iteration order of hash maps never shows. -/
theorem C50_hash_order (hP : P.WF) (env : Env F σ) (he : env.OK) (args : Args F)
    (order : MappedPaths → MappedPaths) (ho : ∀ m, (order m).Perm m) :
    run { env with hashIter := order } P.graph P.order args = run env P.graph P.order args := by
  obtain ⟨r, h1, _⟩ := run_spec hP env args
  exact (h1 env.prof order ho).trans (h1 env.prof env.hashIter he).symm

example : run { demo 1000 [] with hashIter := List.reverse } star.graph star.order
      { doSearch := true } =
    .ok (some [⟨1, 4, [[1, 2, 3, 0]]⟩, ⟨2, 3, [[2, 3], [1, 0]]⟩, ⟨3, 2, [[3], [2], [1, 0]]⟩]) := by
  decide +kernel

/-- **C27** The multi-threaded search is sound under every interleaving and every timeout. -/
theorem C27_threaded_sound (hP : P.WF) (env : Env F σ) (he : env.OK) (args : Args F)
    (_hs : args.doSearch = true) (_ht : 2 ≤ args.nthreads) :
    ∃ r, run env P.graph P.order args = .ok r ∧ ∀ out, r = some out →
      (∀ p ∈ out, P.Valid p.steps ∧ p.time = p.steps.length ∧ p.space = P.peak p.steps) ∧
      out.Pairwise fun a b => a.time < b.time ∧ b.space < a.space := by
  obtain ⟨r, h1, h2⟩ := run_spec hP env args
  exact ⟨r, h1 env.prof env.hashIter he, fun out ho => ⟨(h2 out ho).valid, (h2 out ho).strict⟩⟩

example : ∃ out, out ≠ [] ∧ run (demo 0 (swapped 8 60)) star.graph star.order
      { doSearch := true, nthreads := 4 } = .ok (some out) := ⟨_, by simp, star_run_threads⟩

/-- **C43** `nthreads` 0 and 1 are the same and the task bound is then irrelevant; the default
bound is 100000; without search only the problem matters. -/
theorem C43_args (env : Env F σ) (graph : List (List Nat)) (order : OrderGraph) (args : Args F) :
    (∀ n b, n < 2 → args.nthreads < 2 →
      run env graph order { args with nthreads := n, taskBound := b } = run env graph order args) ∧
    (run env graph order { args with taskBound := none } =
      run env graph order { args with taskBound := some 100000 }) ∧
    (∀ args' : Args F, args.doSearch = false → args'.doSearch = false →
      run env graph order args = run env graph order args') := by
  refine ⟨?_, ?_, ?_⟩
  · intro n b hn ha
    simp only [run, Verif.search, hn, ha, if_true]
  · simp [run]
  · intro args' h1 h2
    simp [run, h1, h2]

-- with two threads the task bound does matter (the same moves no longer complete the run)
example :
    run (demo 1000 []) star.graph star.order { doSearch := true, nthreads := 0 } =
      .ok (some [⟨1, 4, [[1, 2, 3, 0]]⟩, ⟨2, 3, [[2, 3], [1, 0]]⟩, ⟨3, 2, [[3], [2], [1, 0]]⟩]) ∧
    run (demo 1000 (roundRobin 2 300)) star.graph star.order
      { doSearch := true, nthreads := 2, taskBound := some 1 } ≠
    run (demo 1000 (roundRobin 2 300)) star.graph star.order { doSearch := true, nthreads := 2 } := by
  decide +kernel

/-- **C44** Bounds on the costs of every returned path. -/
theorem C44_bounds (hP : P.WF) (hb : P.bits ≠ []) {env : Env F σ} (he : env.OK) {args : Args F}
    {out : List Path} (h : run env P.graph P.order args = .ok (some out)) :
    ∀ p ∈ out, 1 ≤ p.space ∧ p.space ≤ P.n ∧ 1 ≤ p.time ∧ p.time ≤ P.bits.length ∧
      ∀ (k : Nat) (s : List Nat) (b : Nat), p.steps[k]? = some s → b ∈ s →
        ((List.range P.n).filter fun v =>
          (v == b || (P.nbrs b).contains v) && !(p.steps.take k).flatten.contains v).length
        ≤ p.space := by
  intro p hp
  obtain ⟨hv, ht, hs⟩ := (run_sound hP he h).valid p hp
  have hpre := hv.prefix hP.bits_nodup
  have hdeg : ∀ (k : Nat) (s : List Nat) (b : Nat), p.steps[k]? = some s → b ∈ s →
        ((List.range P.n).filter fun v =>
          (v == b || (P.nbrs b).contains v) && !(p.steps.take k).flatten.contains v).length
        ≤ p.space := by
    intro k s b hk hbs
    have hkl := (List.getElem?_eq_some_iff.1 hk).1
    refine Nat.le_trans ?_ (hs ▸ memAt_le_peak P _ k hkl)
    unfold Problem.memAt
    rw [← List.countP_eq_length_filter, ← List.countP_eq_length_filter]
    refine List.countP_mono_left ?_
    intro v _ hv
    have hnow : b ∈ (p.steps.take (k + 1)).flatten := by
      rw [take_succ_of_getElem? hk]; simp [hbs]
    simp only [Bool.and_eq_true, Bool.or_eq_true, beq_iff_eq,
      Bool.not_eq_true', List.contains_eq_mem, decide_eq_false_iff_not, decide_eq_true_eq] at hv
    simp only [Problem.inMemory, Bool.and_eq_true, Bool.or_eq_true, List.contains_eq_mem,
      decide_eq_true_eq, List.any_eq_true, Bool.not_eq_true', decide_eq_false_iff_not]
    refine ⟨?_, hv.2⟩
    rcases hv.1 with h1 | h1
    · exact Or.inl (h1 ▸ hnow)
    · exact Or.inr ⟨b, hnow, h1⟩
  have hne : p.steps ≠ [] := by
    intro h0
    have := hv.perm
    rw [h0] at this
    exact hb (List.Perm.nil_eq this).symm
  refine ⟨?_, hs ▸ peak_le_n P _, ?_, ?_, hdeg⟩
  · obtain ⟨s, rest, hrest⟩ := List.exists_cons_of_ne_nil hne
    have hs0 : p.steps[0]? = some s := by rw [hrest]; rfl
    have hsne : s ≠ [] := hv.nonempty s (List.mem_of_getElem? hs0)
    obtain ⟨b, hbs⟩ := List.exists_mem_of_ne_nil s hsne
    refine Nat.le_trans ?_ (hdeg 0 s b hs0 hbs)
    have hbn : b < P.n := hP.bits_lt b (hpre.sub b (mem_flatten_iff.2 ⟨0, s, hs0, hbs⟩))
    rw [Nat.one_le_iff_ne_zero, ← Nat.pos_iff_ne_zero, List.length_pos_iff_exists_mem]
    exact ⟨b, by simp [hbn]⟩
  · rw [ht]
    exact Nat.one_le_iff_ne_zero.2 (by simpa using hne)
  · rw [ht]
    refine Nat.le_trans hpre.length_le ?_
    exact Nat.le_of_eq hv.perm.length_eq

example : star.WF ∧ star.bits ≠ [] ∧ (demo 1000 []).OK ∧ ∃ out, out.length = 3 ∧
    run (demo 1000 []) star.graph star.order { doSearch := true } = .ok (some out) :=
  ⟨star_wf, by decide, demo_ok _ _, _, by simp, star_run⟩

/-- **C41** For an ordering without qubits the time-optimal mode returns one empty path and every
search mode returns the empty list. -/
theorem C41_empty (hP : P.WF) (hb : P.bits = []) {env : Env F σ} (he : env.OK) {args : Args F}
    {out : List Path} (h : run env P.graph P.order args = .ok (some out)) :
    (args.doSearch = false → out = [⟨0, 0, []⟩]) ∧ (args.doSearch = true → out = []) := by
  refine ⟨fun hs => ?_, fun hs => ?_⟩
  · obtain ⟨S, h1, h2, _⟩ := run_time_optimal hP hs h
    have h3 := prefix_empty hb (h2.prefix hP.bits_nodup)
    subst h3
    exact h1
  · rw [run, hs, Bool.not_true, if_neg (by simp), Verif.search.eq_def] at h
    by_cases hn : args.nthreads < 2
    · rw [if_pos hn] at h
      cases hp : args.probabilistic with
      | none =>
        rw [hp] at h
        obtain ⟨o, h1, _, h2, _⟩ := searchDet_spec hP fun k => args.timeout.isSome && env.timer k
        have h5 := searchDet_mono (Nat.le_max_left env.fuel (searchBound P.bits.length)) h
        rw [h1 env.prof env.hashIter _ he (Nat.le_max_right _ _)] at h5
        injection h5 with h5
        injection h5 with h5
        exact h5 ▸ h2 hb
      | some a =>
        rw [hp] at h
        exact searchProb_empty hP hb he h
    · rw [if_neg hn] at h
      cases hp : args.probabilistic with
      | none =>
        rw [hp] at h
        exact searchThreaded_empty hP hb he h
      | some a =>
        rw [hp] at h
        exact searchThreaded_empty hP hb he h

example : emptyOrder.WF ∧ emptyOrder.bits = [] ∧
    run (demo 5 []) emptyOrder.graph emptyOrder.order { doSearch := true } = .ok (some []) ∧
    run (demo 5 []) emptyOrder.graph emptyOrder.order { doSearch := false } =
      .ok (some [⟨0, 0, []⟩]) ∧
    run (demo 5 [(0, false), (0, false), (0, false)]) emptyOrder.graph emptyOrder.order
      { doSearch := true, nthreads := 2 } = .ok (some []) :=
  ⟨emptyOrder_wf, by decide, by decide +kernel, by decide +kernel, by decide +kernel⟩

end

end Verif
