import Verif.Props.Run
import Verif.Proofs.Part
/-!
# Inputs that are not well-formed

The dependencies of an input may be arbitrary here: empty where they should not be, repeated, on qubits of
the same or a later layer, on numbers that are no qubits at all. Only the measured qubits have to be distinct
nodes (`Problem.Loose`).
-/

namespace Verif

open Spec Problem Search Search.Threaded Example

section

variable {F σ : Type} [FloatOps F] {P : Problem} {env : Env F σ} {args : Args F} {out : List Path}

/-- Qubits that can be measured are the same for the input and its part. -/
theorem ready_part (hP : P.Loose) {M : List Nat} (hM : ∀ b ∈ M, b ∈ (part P).bits) (b : Nat) :
    Ready (part P) M b ↔ Ready (eff P) M b := by
  constructor
  · intro h
    refine ⟨?_, h.fresh, fun d hd => h.deps d ((part_needs hP h.bit d).2 hd)⟩
    rw [eff_bits]; exact (part_bits_sublist P).subset h.bit
  · intro h
    have hb := part_of_deps hP h.bit fun d hd => hM d (h.deps d hd)
    exact ⟨hb, h.fresh, fun d hd => h.deps d ((part_needs hP hb d).1 hd)⟩

theorem greedy_part (hP : P.Loose) {S : Schedule} (hS : (part P).Valid S) (h : Greedy (eff P) S) :
    Greedy (part P) S := by
  intro k s hk b
  rw [ready_part hP, h k s hk b]
  intro d hd
  refine hS.perm.mem_iff.1 ?_
  rw [← List.take_append_drop k S, List.flatten_append]
  exact List.mem_append_left _ hd

/-- **C54** No panic, and the same answer in both build profiles and for every iteration order of hash maps,
whatever the dependencies are. -/
theorem C54_no_panic (hP : P.Loose) (env : Env F σ) (args : Args F) :
    ∃ r, ∀ prof hashIter, (∀ m, (hashIter m).Perm m) →
      run { env with prof := prof, hashIter := hashIter } P.graph P.order args = .ok r := by
  obtain ⟨r, h, _⟩ := run_loose hP env args
  exact ⟨r, h⟩

/-- **C54** Every mode terminates whatever the dependencies are. -/
theorem C54_terminates (u : Nat) : ∃ N : Nat, ∀ {F σ : Type} [FloatOps F] (P : Problem) (env : Env F σ)
    (args : Args F), P.Loose → P.bits.length = u → env.OK → N ≤ env.fuel →
    (∀ i, i < 2 ^ u + 1 → N ≤ (env.moves.map (·.1)).count i) →
    ∃ out, run env P.graph P.order args = .ok (some out) := run_terminates u

/-- **C54** In every mode every returned path is a valid schedule of the part of the input that can be
fulfilled, with exact costs, and the list is strictly monotone. -/
theorem C54_paths (hP : P.Loose) (he : env.OK) (h : run env P.graph P.order args = .ok (some out)) :
    (∀ p ∈ out, (part P).Valid p.steps ∧ p.time = p.steps.length ∧ p.space = P.peak p.steps) ∧
      out.Pairwise fun a b => a.time < b.time ∧ b.space < a.space := by
  obtain ⟨r, h1, h2⟩ := run_loose hP env args
  have h3 := h1 env.prof env.hashIter he
  change run env P.graph P.order args = .ok r at h3
  rw [h3] at h
  simp only [Except.ok.injEq] at h
  have h4 := h2 out h
  exact ⟨fun p hp => ⟨(maximal_part hP).1 (h4.maximal p hp).1, (h4.maximal p hp).2⟩, h4.strict⟩

/-- **C54** Nothing is dropped exactly if the dependencies of all later layers are distinct, at least one, and
on qubits of earlier layers. -/
theorem C54_dropped (hP : P.Loose) : (part P).bits = P.bits ↔
    ∀ (i : Nat) (layer : List (Nat × List Nat)), P.order[i + 1]? = some layer → ∀ e ∈ layer,
      e.2 ≠ [] ∧ e.2.Nodup ∧ ∀ d ∈ e.2, ∃ j, j < i + 1 ∧ ∃ layer', P.order[j]? = some layer' ∧
        ∃ e' ∈ layer', e'.1 = d := by
  constructor
  · intro h i layer hl e he
    have hb : e.1 ∈ (part P).bits := by
      rw [h]; exact List.mem_map.2 ⟨e, mem_entries_iff.2 ⟨_, _, hl, he⟩, rfl⟩
    obtain ⟨x, hx, hxe⟩ := List.mem_map.1 hb
    obtain ⟨k, l, hlk, hxl⟩ := mem_entries_iff.1 hx
    obtain ⟨lay, ds, g1, g2, _, g4⟩ := part_entry hlk hxl
    have hk : k = i + 1 := layer_unique hP.bits_nodup g1 hl g2 he hxe
    subst hk
    rw [hl] at g1
    simp only [Option.some.injEq] at g1
    subst g1
    have hds : ds = e.2 := by
      have h1 : AMap.get P.entries e.1 = some e.2 :=
        (get_entries hP.bits_nodup).2 (mem_entries_iff.2 ⟨_, _, hl, he⟩)
      have h2 : AMap.get P.entries x.1 = some ds :=
        (get_entries hP.bits_nodup).2 (mem_entries_iff.2 ⟨_, _, hl, g2⟩)
      rw [hxe, h1] at h2
      exact (Option.some.inj h2).symm
    rcases g4 with g4 | ⟨_, _, g5, g6, g7⟩
    · omega
    · subst hds
      refine ⟨g5, g6, fun d hd => ?_⟩
      obtain ⟨j, hj, lj, hlj, y, hy, hyd⟩ := mem_before.1 (g7 d hd)
      obtain ⟨lay', ds', q1, q2, _⟩ := part_entry hlj hy
      exact ⟨j, hj, lay', q1, _, q2, hyd⟩
  · intro h
    refine (part_bits_sublist P).eq_of_length ?_
    refine List.Perm.length_eq ((List.perm_ext_iff_of_nodup hP.part_wf.bits_nodup hP.bits_nodup).2 fun b =>
      ⟨fun hb => (part_bits_sublist P).subset hb, fun hb => ?_⟩)
    obtain ⟨e, he, rfl⟩ := List.mem_map.1 hb
    obtain ⟨i, l, hl, hel⟩ := mem_entries_iff.1 he
    clear hb he
    induction i using Nat.strongRecOn generalizing e l with
    | ind i ih =>
      cases i with
      | zero =>
        refine part_of_deps hP ?_ ?_
        · rw [eff_bits]; exact List.mem_map.2 ⟨e, mem_entries_iff.2 ⟨_, _, hl, hel⟩, rfl⟩
        · rintro d ⟨ds, hds, hd⟩
          obtain ⟨j, lj, ds', g1, g2, rfl⟩ := mem_eff_entries.1 hds
          have : j = 0 := layer_unique hP.bits_nodup g1 hl g2 hel rfl
          subst this
          simp [effDeps] at hd
      | succ i =>
        obtain ⟨h1, h2, h3⟩ := h i l hl e hel
        refine List.mem_map.2 ⟨e, mem_entries_iff.2 ⟨i + 1, _, by rw [part_layer, hl]; rfl, ?_⟩, rfl⟩
        simp only [Nat.add_one_ne_zero, ↓reduceIte, List.mem_filter, decide_eq_true_eq]
        refine ⟨hel, h1, h2, fun d hd => ?_⟩
        obtain ⟨j, hj, lj, hlj, x, hx, rfl⟩ := h3 d hd
        have := ih j hj x lj hlj hx
        obtain ⟨y, hy, hyx⟩ := List.mem_map.1 this
        obtain ⟨k, lk, hlk, hyk⟩ := mem_entries_iff.1 hy
        obtain ⟨lay, ds, g1, g2, _⟩ := part_entry hlk hyk
        have hkj : k = j := layer_unique hP.bits_nodup g1 hlj g2 hx hyx
        exact mem_before.2 ⟨k, by omega, lk, hlk, y, hyk, hyx⟩

/-- **C54** Without search the one returned path is a shortest schedule of the part. -/
theorem C54_time_optimal (hP : P.Loose) (hs : args.doSearch = false)
    (h : run env P.graph P.order args = .ok (some out)) :
    ∃ p, out = [p] ∧ (part P).Valid p.steps ∧ p.time = p.steps.length ∧ p.space = P.peak p.steps ∧
      ∀ S, (part P).Valid S → p.time ≤ S.length := by
  obtain ⟨S, h1, h2, h3⟩ := getTimeOptimal_loose hP
  rw [run, hs, Bool.not_false, if_pos rfl] at h
  have h4 := getTimeOptimal_mono (Nat.le_max_left env.fuel (P.bits.length + 1)) h
  have h5 := h1 env.prof (max env.fuel (P.bits.length + 1)) (by omega)
  rw [h5] at h4
  injection h4 with h4
  injection h4 with h4
  have hv := (maximal_part hP).1 h2
  exact ⟨_, h4.symm, hv, rfl, rfl, fun T hT => greedy_min hP.part_wf hv (greedy_part hP hv h3) hT⟩

/-- **C54** The exhaustive search is off by at most one step: for every schedule of the part there is a returned
path that needs no more memory and at most one step more; not even this step more if nothing is dropped. -/
theorem C54_one_step (hP : P.Loose) (hb : (part P).bits ≠ []) (he : env.OK) (hx : Exhaustive env args)
    (h : run env P.graph P.order args = .ok (some out)) :
    ∀ S, (part P).Valid S → ∃ p ∈ out,
      p.time ≤ S.length + (if (part P).bits = P.bits then 0 else 1) ∧ p.space ≤ P.peak S := by
  have ht : ∀ j, (args.timeout.isSome && env.timer j) = false := by
    intro j
    rcases hx.timer with h | h <;> simp [h]
  obtain ⟨o, h1, _, _, h4⟩ := searchDet_loose hP fun k => args.timeout.isSome && env.timer k
  rw [run, hx.search, Bool.not_true, if_neg (by simp), Verif.search.eq_def, if_pos hx.threads, hx.accept] at h
  have h5 := searchDet_mono (Nat.le_max_left env.fuel (searchBound P.bits.length)) h
  rw [h1 env.prof env.hashIter _ he (Nat.le_max_right _ _)] at h5
  injection h5 with h5
  injection h5 with h5
  subst h5
  intro S hS
  have hS' := (maximal_part hP).2 hS
  refine h4 ht (fun h => not_valid_nil hb ((maximal_part hP).1 h)) S _ hS' ?_
  split
  · rename_i hall
    refine minLen_zero hP.lax.bits_nodup ⟨hS.nonempty, ?_, ?_⟩
    · rw [eff_bits, ← hall]; exact hS.perm
    · intro i s hs b hb d hd
      refine hS.deps i s hs b hb d ((part_needs hP ?_ d).2 hd)
      exact hS.perm.mem_iff.1 (mem_flatten_iff.2 ⟨i, s, hs, hb⟩)
  · exact minLen_one hS'

end

/-- Qubit 2 depends on qubit 0; qubit 3 is in a later layer without dependencies. -/
def deadBit : Problem := ⟨[[2], [], [0], []], [[(0, []), (1, [])], [(2, [0])], [(3, [])]]⟩

theorem deadBit_loose : deadBit.Loose :=
  ⟨by decide +kernel, by decide +kernel, by decide +kernel, by decide +kernel⟩

theorem deadBit_run : run (demo 1000 []) deadBit.graph deadBit.order { doSearch := true } =
    .ok (some [⟨2, 3, [[0, 1], [2]]⟩, ⟨3, 2, [[1], [0], [2]]⟩]) := by decide +kernel

-- every kind of wrong dependency: only the qubits 0, 1, 5 are measured
example : let P : Problem := ⟨[[], [], [], [], [], [], []],
      [[(0, [9]), (1, [])], [(2, []), (3, [0, 0]), (4, [5]), (5, [1, 0])], [(6, [2])]]⟩
    P.Loose ∧ (part P).bits = [0, 1, 5] ∧
    run (demo 100 []) P.graph P.order { doSearch := false } = .ok (some [⟨2, 2, [[0, 1], [5]]⟩]) ∧
    run (demo 0 (roundRobin 5 60)) P.graph P.order { doSearch := true, nthreads := 2 } ≠ .ok none := by
  refine ⟨⟨?_, ?_, ?_, ?_⟩, ?_, ?_, ?_⟩ <;> decide +kernel

-- the hypotheses of `C54_one_step`, and a schedule of the part
example : (part deadBit).bits = [0, 1, 2] ∧ Exhaustive (demo 1000 []) { doSearch := true } ∧
    (part deadBit).Valid [[0], [1, 2]] :=
  ⟨by decide +kernel, ⟨rfl, by decide, rfl, Or.inl rfl⟩, valid_of_check (by decide +kernel)⟩

/-- **C54** The additional step is needed: with a qubit that can never be measured an exhaustive search
misses a schedule of the others that is better in both costs than what it returns for that memory. -/
theorem C54_optimal_refuted : ¬ ∀ (P : Problem) (out : List Path), P.Loose → (part P).bits ≠ [] →
    (∃ env : Env Bool Unit, env.OK ∧ Exhaustive env ({ doSearch := true } : Args Bool) ∧
      run env P.graph P.order { doSearch := true } = .ok (some out)) →
    ∀ S, (part P).Valid S → ∃ p ∈ out, p.time ≤ S.length ∧ p.space ≤ P.peak S := by
  intro h
  have := h deadBit _ deadBit_loose (by decide +kernel)
    ⟨demo 1000 [], demo_ok _ _, ⟨rfl, by decide, rfl, Or.inl rfl⟩, deadBit_run⟩ [[0], [1, 2]]
    (valid_of_check (by decide +kernel))
  revert this
  decide +kernel

theorem resolveFirst_error (rest : OrderGraph) (es : List (Nat × List Nat)) : ∀ look : Dependents,
    (∃ e ∈ es, look.length ≤ e.1) →
    PathGenerator.resolveFirst rest es look = .error .indexOutOfBounds := by
  induction es with
  | nil => rintro look ⟨e, he, _⟩; simp at he
  | cons x es ih =>
    rintro look ⟨e, he, hlt⟩
    by_cases hx : x.1 < look.length
    · simp only [PathGenerator.resolveFirst, PathGenerator.resolve, hx, ↓reduceIte, bind, Except.bind]
      refine ih _ ⟨e, ?_, by simpa using hlt⟩
      rcases List.mem_cons.1 he with rfl | he
      · omega
      · exact he
    · simp [PathGenerator.resolveFirst, PathGenerator.resolve, hx, bind, Except.bind]

theorem resolveLayer_cases (rest : OrderGraph) (es : List (Nat × List Nat)) :
    ∀ (look : Dependents) (deps : AMap Nat),
    ((∃ e ∈ es, look.length ≤ e.1) ∧
      PathGenerator.resolveLayer rest es look deps = .error .indexOutOfBounds) ∨
    ((∀ e ∈ es, e.1 < look.length) ∧ ∃ look' deps', look'.length = look.length ∧
      PathGenerator.resolveLayer rest es look deps = .ok (look', deps')) := by
  induction es with
  | nil => intro look deps; exact Or.inr ⟨by simp, look, deps, rfl, rfl⟩
  | cons x es ih =>
    intro look deps
    by_cases hx : x.1 < look.length
    · simp only [PathGenerator.resolveLayer, PathGenerator.resolve, hx, ↓reduceIte, bind, Except.bind]
      rcases ih (look.set x.1 (PathGenerator.collectDependents x.1 rest)) (deps.insert x.1 x.2.length) with
        ⟨⟨e, he, hlt⟩, h⟩ | ⟨h1, l', d', h2, h⟩
      · exact Or.inl ⟨⟨e, List.mem_cons_of_mem _ he, by simpa using hlt⟩, h⟩
      · refine Or.inr ⟨?_, l', d', by simpa using h2, h⟩
        intro e he
        rcases List.mem_cons.1 he with rfl | he
        · exact hx
        · simpa using h1 e he
    · exact Or.inl ⟨⟨x, by simp, by omega⟩, by
        simp [PathGenerator.resolveLayer, PathGenerator.resolve, hx, bind, Except.bind]⟩

theorem resolveRest_error (layers : OrderGraph) : ∀ (look : Dependents) (deps : AMap Nat),
    (∃ e ∈ layers.flatten, look.length ≤ e.1) →
    PathGenerator.resolveRest layers look deps = .error .indexOutOfBounds := by
  induction layers with
  | nil => rintro look deps ⟨e, he, _⟩; simp at he
  | cons l rest ih =>
    rintro look deps ⟨e, he, hlt⟩
    rw [List.flatten_cons, List.mem_append] at he
    rcases resolveLayer_cases rest l look deps with ⟨_, h⟩ | ⟨h1, l', d', h2, h⟩
    · simp [PathGenerator.resolveRest, h, bind, Except.bind]
    · simp only [PathGenerator.resolveRest, h, bind, Except.bind]
      refine ih l' d' ⟨e, ?_, by omega⟩
      rcases he with he | he
      · have := h1 e he; omega
      · exact he

theorem fromDependencyGraph_error {P : Problem} (h : ∃ b ∈ P.bits, P.n ≤ b) {T : Type} [MeasurableSet T] :
    PathGenerator.fromDependencyGraph (T := T) P.order (dependencyBufferNew P.graph.length) none =
      .error .indexOutOfBounds := by
  obtain ⟨b, hb, hlt⟩ := h
  obtain ⟨e, he, rfl⟩ := List.mem_map.1 hb
  have hlen : (dependencyBufferNew P.graph.length).length = P.n := by simp [dependencyBufferNew, Problem.n]
  cases ho : P.order with
  | nil => simp [Problem.entries, ho] at he
  | cons first rest =>
    simp only [Problem.entries, ho, List.flatten_cons, List.mem_append] at he
    by_cases hf : ∃ e ∈ first, (dependencyBufferNew P.graph.length).length ≤ e.1
    · simp [PathGenerator.fromDependencyGraph, PathGenerator.applyMapping, resolveFirst_error rest first _ hf,
        bind, Except.bind]
    · obtain ⟨l, h1, h2, _⟩ := resolveFirst_spec rest first (dependencyBufferNew P.graph.length)
        (fun e he => Nat.lt_of_not_le fun hle => hf ⟨e, he, hle⟩)
      have := resolveRest_error rest l [] ⟨e, by
        rcases he with he | he
        · exact (hf ⟨e, he, by omega⟩).elim
        · exact he, by omega⟩
      simp [PathGenerator.fromDependencyGraph, PathGenerator.applyMapping, h1, this, bind, Except.bind]

/-- **C54** A qubit of the ordering that is not a node of the graph is an index out of bounds in every mode. -/
theorem C54_out_of_range {F σ : Type} [FloatOps F] {P : Problem} (h : ∃ b ∈ P.bits, P.n ≤ b)
    (env : Env F σ) (args : Args F) : run env P.graph P.order args = .error .indexOutOfBounds := by
  have hm : mkScheduler P.graph P.order = .error .indexOutOfBounds := by
    simp [mkScheduler, fromDependencyGraph_error h, bind, Except.bind]
  rw [run]
  cases args.doSearch
  · simp [getTimeOptimal, fromDependencyGraph_error h, bind, Except.bind]
  · simp only [Bool.not_true, Bool.false_eq_true, ↓reduceIte, Verif.search.eq_def]
    split <;> split <;> simp [searchDet, searchProb, searchThreaded, hm, bind, Except.bind]

example : ∃ b ∈ (⟨[[1], [0]], [[(0, [])], [(2, [0])]]⟩ : Problem).bits, 2 ≤ b := by decide

end Verif
