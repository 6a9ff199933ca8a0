import Verif.Props.ProbProps
import Verif.Proofs.AcceptCall
import Verif.Proofs.Float
/-!
# The accept functions of the crate, and what accept functions are asked
-/

namespace Verif

open Spec Search Search.Threaded

variable {F σ : Type}

/-! ## C52: the arguments of the accept function -/

section Arguments
variable [FloatOps F]

/-- The states in which an iteration of a single-threaded probabilistic search starts. -/
inductive Reached (P : Problem) (accept : Accept F) (gen : Rng F σ) : Loc → σ → Prop
  | start {s : Scheduler Partitioner} (h : mkScheduler P.graph P.order = .ok s) (rng : σ) :
      Reached P accept gen (Loc.init s P.n) rng
  | step {l l' : Loc} {rng rng' : σ} {prof : Profile} (h : Reached P accept gen l rng)
      (hi : probIter prof accept gen l rng = .ok (l', rng', false)) : Reached P accept gen l' rng'

theorem Reached.inv {P : Problem} (hP : P.WF) {accept : Accept F} {gen : Rng F σ} {l : Loc} {rng : σ}
    (h : Reached P accept gen l rng) : LInv P [] (best0 P) l := by
  induction h with
  | start h rng =>
    obtain ⟨s, e1, e2, e3⟩ := mkScheduler_spec hP
    rw [h] at e1
    cases e1
    exact init_inv e2 e3
  | @step l l' rng rng' prof h hi ih =>
    obtain ⟨l1, rng1, stop, e1, e2⟩ := probIter_spec accept gen rng hP.lax ih.ok
    have := (e1 prof).symm.trans hi
    simp only [Except.ok.injEq, Prod.mk.injEq] at this
    rw [← this.1]
    exact (e2.inv ih).1

/-- **C52** An iteration asks the accept function at most once. If it asks, then about one step `m`
that continues the current steps `p` towards a valid schedule and whose memory is below the bound,
and the seven arguments are: the least memory recorded for a path of at most as many steps as a
completion of `p ++ [m]` has at least; the least memory recorded at all (both `usize::MAX` if there
is none); the peak memory of `p`; the memory held after `p`; the memory held after `p ++ [m]`; the
number of bits with unmeasured dependencies after `p ++ [m]`; the number of nodes. The step is taken
if the answer is at least 1, or if the next random number is less than it; otherwise it is skipped.
-/
theorem C52_arguments {P : Problem} (hP : P.WF) {accept : Accept F} {gen : Rng F σ} {l : Loc} {rng : σ}
    (h : Reached P accept gen l rng) (prof : Profile) :
    (∃ l' stop, searchIter prof l = .ok (l', stop) ∧
      ∀ accept' : Accept F, probIter prof accept' gen l rng = .ok (l', rng, stop)) ∨
    ∃ m q l₁ l₂, Asked P l.results l.path m q ∧ l₁.path = l.path ++ [m] ∧ l₂.path = l.path ∧
      l₁.results = l.results ∧ l₂.results = l.results ∧
      ∀ accept' : Accept F, probIter prof accept' gen l rng = .ok (
        if FloatOps.geOne (q.ask accept') then (l₁, rng, false)
        else if FloatOps.lt (gen.sample rng).1 (q.ask accept') then (l₁, (gen.sample rng).2, false)
        else (l₂, (gen.sample rng).2, false)) := by
  rcases probIter_asked hP (h.inv hP) with ⟨l', stop, h1, h2⟩ | ⟨s', c, m, q, hq, _, h2⟩
  · exact Or.inl ⟨l', stop, h1 prof, fun accept' => h2 accept' gen rng prof⟩
  · exact Or.inr ⟨m, q, { l with sweep := ⟨c, s' :: l.sweep.stack⟩, path := l.path ++ [m] },
      { l with sweep := ⟨s', l.sweep.stack⟩ }, hq, rfl, rfl, rfl, rfl,
      fun accept' => h2 accept' gen rng prof⟩

/-- **C52** Two accept functions that agree on these arguments give the same result. -/
theorem C52_congr {P : Problem} (hP : P.WF) {accept accept' : Accept F}
    (h : ∀ found p m q, Asked P found p m q → q.ask accept = q.ask accept') (env : Env F σ)
    {args : Args F} (ht : args.nthreads < 2) (seed : Option Nat) :
    run env P.graph P.order { args with probabilistic := some (accept, seed) } =
      run env P.graph P.order { args with probabilistic := some (accept', seed) } := by
  unfold run
  split
  · rfl
  · simp only [Verif.search.eq_def]
    rw [if_pos ht, if_pos ht]
    exact searchProb_congr _ _ hP _ _ _ _ h

end Arguments

/-- A toy float that keeps the numbers: `geOne` is `≥ 1`. -/
local instance : FloatOps Nat := ⟨id, fun x => decide (1 ≤ x), fun x y => decide (x < y)⟩

private def envNat : Env Nat Unit where
  prof := .debug
  hashIter := id
  timer := fun _ => false
  seedRng := fun _ => ()
  gen := ⟨fun _ => (1, ())⟩
  drawSeed := fun s => (0, s)
  moves := []
  fuel := 1000

/-- A question on the star: the first step measures two leaves. -/
theorem star_asked : Asked Example.star [(3, 2, [[3], [2], [1, 0]]), (1, 4, [[1, 2, 3, 0]])] [] [2, 3]
    ⟨4, 2, 0, 0, 1, 0, 4⟩ where
  bound := by
    refine ⟨?_, Or.inr ⟨1, [[1, 2, 3, 0]], by decide +kernel, by decide +kernel⟩⟩
    intro t' m S ht hr
    have ht : t' ≤ 2 := ht
    match t', ht with
    | 0, _ => cases hr
    | 1, _ => cases hr; decide
    | 2, _ => cases hr
  minimal := by
    refine ⟨?_, Or.inr ⟨3, [[3], [2], [1, 0]], by decide +kernel, by decide +kernel⟩⟩
    intro t' m S ht hr
    have ht : t' ≤ 4 := ht
    match t', ht with
    | 0, _ => cases hr
    | 1, _ => cases hr; decide
    | 2, _ => cases hr
    | 3, _ => cases hr; decide
    | 4, _ => cases hr
  lastMax := by decide +kernel
  lastCur := by decide +kernel
  cur := by decide +kernel
  remaining := by decide +kernel
  total := by decide +kernel
  starts := ⟨[[1, 0]], Example.valid_of_check (by decide +kernel)⟩
  step := by decide
  below := by decide +kernel
  found := by
    intro t m S hr
    rw [show ([(3, 2, [[3], [2], [1, 0]]), (1, 4, [[1, 2, 3, 0]])] : MappedPaths) =
      AMap.insert (AMap.insert [] 1 (4, [[1, 2, 3, 0]])) 3 (2, [[3], [2], [1, 0]]) from rfl,
      AMap.get_insert, AMap.get_insert] at hr
    split at hr
    · rename_i h; cases hr
      exact ⟨Example.valid_of_check (by decide +kernel), by subst h; decide +kernel, by decide +kernel⟩
    · split at hr
      · rename_i h; cases hr
        exact ⟨Example.valid_of_check (by decide +kernel), by subst h; decide +kernel, by decide +kernel⟩
      · cases hr

/-- The accept function that checks the first question of a search on the star; the search ends
without a path if any argument is different. -/
example : run envNat Example.star.graph Example.star.order
      { doSearch := true, probabilistic := some (fun b mi lm lc c r n =>
          if (b, mi, lm, lc, c, r, n) = (usizeMax, usizeMax, 0, 0, 0, 0, 4) then 1 else 0, none) } =
    .ok (some [⟨1, 4, [[1, 2, 3, 0]]⟩]) := by decide +kernel

/-- **C52** The fifth argument is not what the documentation says ("the memory that is required for
the current step", probabilistic.rs:14): on the star every first step requires at least 2 qubits,
and so does every step after a single leaf, but an accept function that accepts exactly the steps
with a fifth argument of at least 2 rejects everything. Nor is the sixth "how many nodes are
still left to measure" (line 15): it is 0 in every question on the star. -/
theorem C52_doc_refuted :
    (∀ m : List Nat, m ≠ [] → (∀ b ∈ m, b < 4) → 2 ≤ Example.star.memAt [m] 0) ∧
    run envNat Example.star.graph Example.star.order
      { doSearch := true, probabilistic := some (fun _ _ _ _ c _ _ => if 2 ≤ c then 1 else 0, none) } =
      .ok (some []) ∧
    (∀ found p m q, Asked Example.star found p m q → q.remaining = 0) ∧
    ∃ found p m q, Asked Example.star found p m q ∧ (p ++ [m]).flatten.length < Example.star.bits.length := by
  refine ⟨?_, by decide +kernel, ?_, _, _, _, _, star_asked, by decide⟩
  · intro m hne hlt
    obtain ⟨b, hb⟩ := List.exists_mem_of_ne_nil _ hne
    have hmem : ∀ v, v < 4 → (v = b ∨ v ∈ Example.star.nbrs b) → Example.star.inMemory [m] 0 v = true := by
      intro v _ hv
      simp only [Problem.inMemory, List.take_succ_cons, List.take_zero, List.flatten_cons,
        List.flatten_nil, List.append_nil, List.contains_nil, Bool.not_false, Bool.and_true,
        Bool.or_eq_true, List.contains_iff_mem, List.any_eq_true]
      rcases hv with rfl | hv
      exacts [Or.inl hb, Or.inr ⟨b, hb, hv⟩]
    have hsub : ∀ v w, v ≠ w → v < 4 → w < 4 → (v = b ∨ v ∈ Example.star.nbrs b) →
        (w = b ∨ w ∈ Example.star.nbrs b) → 2 ≤ Example.star.memAt [m] 0 := by
      intro v w hvw h1 h2 h3 h4
      unfold Problem.memAt
      have : [v, w].Subperm ((List.range Example.star.n).filter (Example.star.inMemory [m] 0)) := by
        refine List.Nodup.subperm (by simp [hvw]) ?_
        intro x hx
        simp only [List.mem_cons, List.not_mem_nil, or_false] at hx
        rcases hx with rfl | rfl
        · exact List.mem_filter.2 ⟨List.mem_range.2 h1, hmem _ h1 h3⟩
        · exact List.mem_filter.2 ⟨List.mem_range.2 h2, hmem _ h2 h4⟩
      exact this.length_le
    have hb4 := hlt b hb
    match b, hb4 with
    | 0, _ => exact hsub 0 1 (by decide) (by decide) (by decide) (by decide) (by decide)
    | 1, _ => exact hsub 0 1 (by decide) (by decide) (by decide) (by decide) (by decide)
    | 2, _ => exact hsub 0 2 (by decide) (by decide) (by decide) (by decide) (by decide)
    | 3, _ => exact hsub 0 3 (by decide) (by decide) (by decide) (by decide) (by decide)
  · intro found p m q hq
    rw [hq.remaining, Problem.blocked, List.length_eq_zero_iff, List.filter_eq_nil_iff]
    have : ∀ e ∈ Example.star.entries, e.2 = [] := by decide +kernel
    intro e he
    simp [this e he]

/-! ## C32, C33: the accept functions of the crate -/

section Builtin
variable [FloatArith F] {val : F → ℝ → Prop}

theorem held_le (P : Problem) (p : Schedule) : P.held p ≤ P.n := by
  unfold Problem.held
  exact Nat.le_trans (List.length_filter_le _ _) (by simp)

theorem Asked.remaining_lt {P : Problem} (hP : P.WF) {found : MappedPaths} {p : Schedule} {m : List Nat}
    {q : Query} (h : Asked P found p m q) : q.remaining < P.n := by
  obtain ⟨rest, hv⟩ := h.starts
  obtain ⟨b, hb⟩ := List.exists_mem_of_ne_nil _ h.step
  have hbit : b ∈ P.bits := hv.perm.mem_iff.1 (by simp [hb])
  obtain ⟨e, he, rfl⟩ := List.mem_map.1 hbit
  have hlen : P.entries.length ≤ P.n := by
    have := nodup_length_le_n hP.lax hP.bits_nodup fun b hb => hb
    simpa [Problem.bits] using this
  have hno : ¬ (e.2.any fun d => !(p ++ [m]).flatten.contains d) = true := by
    rw [List.any_eq_true]
    rintro ⟨d, hd, hd'⟩
    obtain ⟨j, s', hj, hs', hdm⟩ := hv.deps p.length m (by simp) e.1 hb d ⟨e.2, he, hd⟩
    rw [List.getElem?_append_left hj] at hs'
    have : d ∈ (p ++ [m]).flatten := by
      rw [List.flatten_append, List.mem_append]
      exact Or.inl (List.mem_flatten.2 ⟨s', List.mem_of_getElem? hs', hdm⟩)
    rw [Bool.not_eq_true', ← Bool.not_eq_true, List.contains_iff_mem] at hd'
    exact hd' this
  rw [h.remaining, Problem.blocked]
  exact Nat.lt_of_lt_of_le (List.length_filter_lt_length_iff_exists.2 ⟨e, he, hno⟩) hlen

theorem bold_builtin (L : FloatLaws F val) {P : Problem} (hP : P.WF) (hn : P.n ≤ 2 ^ 53) :
    Bold P (builtinHeavyside : Accept F) := by
  intro p m q hq
  have h1 : q.minimal = usizeMax := by
    rcases hq.minimal.mem with h | ⟨t', S, _, h⟩
    · exact h.1
    · cases h
  unfold Query.ask
  rw [h1, hq.total]
  exact builtin_unknown L _ _ hn (by rw [hq.lastMax]; exact peak_le_n _ _)
    (by rw [hq.cur]; exact held_le _ _) (hq.remaining_lt hP)

/-- **C32** As long as no path is recorded the built-in function answers every question of a search
with at least 1 (at most 2⁵³ nodes, any floating point arithmetic with the laws of
Proofs/Float.lean, which a model of `f64` satisfies: `F64.laws`). -/
theorem C32_unknown (L : FloatLaws F val) {P : Problem} (hP : P.WF) (hn : P.n ≤ 2 ^ 53) {p : Schedule}
    {m : List Nat} {q : Query} (hq : Asked P [] p m q) :
    FloatOps.geOne (q.ask (AcceptFunc.builtinHeavyside : AcceptFunc F).getAcceptFunc) = true :=
  bold_builtin L hP hn p m q hq

/-- **C32** So an uninterrupted single-threaded search with it returns at least one path, whatever
the random numbers are. -/
theorem C32_finds (L : FloatLaws F val) {P : Problem} (hP : P.WF) (hn : P.n ≤ 2 ^ 53)
    (hb : P.bits ≠ []) {env : Env F σ} (he : env.OK) {args : Args F} {seed : Option Nat}
    (hs : args.doSearch = true) (ht : args.nthreads < 2)
    (htimer : args.timeout = none ∨ ∀ k, env.timer k = false)
    (hp : args.probabilistic = some (AcceptFunc.builtinHeavyside.getAcceptFunc, seed)) :
    (searchBound P.bits.length ≤ env.fuel →
      ∃ out, run env P.graph P.order args = .ok (some out)) ∧
    ∀ out, run env P.graph P.order args = .ok (some out) → out ≠ [] := by
  have hrun : run env P.graph P.order args = searchProb env.prof env.hashIter
      AcceptFunc.builtinHeavyside.getAcceptFunc env.gen (env.seedRng seed)
      (fun k => args.timeout.isSome && env.timer k) env.fuel P.graph P.order := by
    rw [run, hs, Bool.not_true, if_neg (by simp), Verif.search.eq_def, if_pos ht, hp]
  rw [hrun]
  refine ⟨fun hf => ?_, fun out h => ?_⟩
  · obtain ⟨out, h, _⟩ := searchProb_spec AcceptFunc.builtinHeavyside.getAcceptFunc env.gen
      (env.seedRng seed) hP fun k => args.timeout.isSome && env.timer k
    exact ⟨out, h _ _ _ he hf⟩
  · refine searchProb_finds _ _ hP hb (bold_builtin L hP hn) he ?_ h
    intro j
    rcases htimer with h | h <;> simp [h]

/-- The hypotheses are met by the star with the model of `f64`. -/
example : FloatLaws F64 F64.val ∧ Example.star.WF ∧ Example.star.n ≤ 2 ^ 53 ∧ Example.star.bits ≠ [] ∧
    ∃ q, Asked Example.star [] [] [2, 3] q := by
  refine ⟨F64.laws, Example.star_wf, by decide, by decide, ⟨usizeMax, usizeMax, 0, 0, 1, 0, 4⟩,
    ⟨?_, ?_⟩, ⟨?_, ?_⟩, by decide +kernel, by decide +kernel, by decide +kernel, by decide +kernel,
    by decide +kernel, ⟨[[1, 0]], Example.valid_of_check (by decide +kernel)⟩, by decide,
    by decide +kernel, fun t m S h => by cases h⟩
  · intro t' m S _ h; cases h
  · exact Or.inl ⟨rfl, fun t' r _ h => by cases h⟩
  · intro t' m S _ h; cases h
  · exact Or.inl ⟨rfl, fun t' r _ h => by cases h⟩

/-- **C32** It returns 0 whenever the memory held after the step, or the peak before it, exceeds the
least memory found so far; such a step is never taken (random numbers are not negative). -/
theorem C32_zero (L : FloatLaws F val) {minimal lastMax cur : Nat} (bound lastCur rem total : F)
    (hm : minimal < max cur lastMax) (hb : max cur lastMax ≤ 2 ^ 53) {sample : F} {r : ℝ}
    (hr : val sample r) (h0 : 0 ≤ r) :
    let a := (AcceptFunc.builtinHeavyside : AcceptFunc F).getAcceptFunc bound (FloatOps.ofUsize minimal)
      (FloatOps.ofUsize lastMax) lastCur (FloatOps.ofUsize cur) rem total
    a = FloatArith.zero ∧ FloatOps.geOne a = false ∧ FloatOps.lt sample a = false := by
  have h := builtin_exceeds L bound lastCur rem total hm hb
  refine ⟨h, ?_, ?_⟩
  · show FloatOps.geOne (builtinHeavyside bound (FloatOps.ofUsize minimal) (FloatOps.ofUsize lastMax)
      lastCur (FloatOps.ofUsize cur) rem total) = false
    rw [h, ← Bool.not_eq_true, L.geOne L.zero]
    norm_num
  · show FloatOps.lt sample (builtinHeavyside bound (FloatOps.ofUsize minimal)
      (FloatOps.ofUsize lastMax) lastCur (FloatOps.ofUsize cur) rem total) = false
    rw [h, ← Bool.not_eq_true, L.lt hr L.zero]
    linarith

example : (2 : Nat) < max 1 3 ∧ max 1 3 ≤ 2 ^ 53 ∧ F64.val (.fin 0.5) 0.5 := ⟨by decide, by decide, rfl⟩

end Builtin

/-! The boundary cases, for the model of `f64`. -/

theorem F64.ofUsize_eq {k : Nat} (h : k ≤ 2 ^ 53) : (FloatOps.ofUsize k : F64) = .fin k := by
  show F64.fin (rnd k) = _
  rw [rnd_nat h]

theorem F64.sub_nat {a b : Nat} (h : b ≤ a) (ha : a ≤ 2 ^ 53) :
    FloatArith.sub (.fin a) (.fin b) = (.fin ((a - b : Nat) : ℝ) : F64) := by
  show F64.fin (rnd ((a : ℝ) - b)) = _
  rw [← Nat.cast_sub h, rnd_nat (by omega)]

theorem F64.fmax_nat (a b : Nat) :
    FloatArith.fmax (.fin a) (.fin b) = (.fin ((max a b : Nat) : ℝ) : F64) := by
  have := F64.laws.fmax (x := .fin a) (y := .fin b) rfl rfl
  rw [F64.val_iff] at this
  rw [this, Nat.cast_max]

theorem F64.powi_eq {x : ℝ} {k : Int} (h : 2 ≤ k) : FloatArith.powi (.fin x) k = (.fin (rnd (x ^ k)) : F64) := by
  show F64.powi _ _ = _
  have h4 : ¬ k = 0 := by omega
  have h5 : ¬ (x = 0 ∧ k < 0) := by omega
  have h6 : ¬ k = 1 := by omega
  simp only [F64.powi, h4, h5, h6, if_false]

/-- **C32** The peak of the step itself is not compared: if no bit is blocked, every step after which
less memory is held than the best path needs is accepted with certainty, no matter how much memory
is needed during the step. -/
theorem C32_free {n minimal lastMax cur : Nat} (bound lastCur : F64)
    (hn : n ≤ 2 ^ 53) (h1 : 1 ≤ n) (h2 : max cur lastMax < minimal) (h3 : minimal ≤ 2 ^ 53) :
    FloatOps.geOne ((AcceptFunc.builtinHeavyside : AcceptFunc F64).getAcceptFunc bound
      (FloatOps.ofUsize minimal) (FloatOps.ofUsize lastMax) lastCur
      (FloatOps.ofUsize cur) (FloatOps.ofUsize 0) (FloatOps.ofUsize n)) = true := by
  show FloatOps.geOne (builtinHeavyside bound (FloatOps.ofUsize minimal) (FloatOps.ofUsize lastMax) lastCur
    (FloatOps.ofUsize cur) (FloatOps.ofUsize 0) (FloatOps.ofUsize n) : F64) = true
  rw [F64.ofUsize_eq h3, F64.ofUsize_eq (k := lastMax) (by omega), F64.ofUsize_eq (k := cur) (by omega),
    F64.ofUsize_eq (k := 0) (by omega), F64.ofUsize_eq hn]
  unfold builtinHeavyside
  simp only [F64.fmax_nat, F64.sub_nat h2.le h3, F64.sub_nat (Nat.zero_le n) hn]
  have hlt : FloatOps.lt (.fin ((minimal - max cur lastMax : Nat) : ℝ) : F64) FloatArith.zero = false := by
    rw [← Bool.not_eq_true, F64.laws.lt (x := .fin _) rfl F64.laws.zero]
    simp
  rw [hlt]
  have d1 : (1 : ℝ) ≤ ((minimal - max cur lastMax : Nat) : ℝ) := by
    have : 1 ≤ minimal - max cur lastMax := by omega
    exact_mod_cast this
  have c2 : (1 : ℝ) ≤ n := by exact_mod_cast h1
  have h6 : 1 ≤ rnd (((minimal - max cur lastMax : Nat) : ℝ) ^ (3 : Int)) :=
    rnd_one_le (one_le_zpow₀ d1 (by norm_num))
  have h7 : 1 ≤ rnd ((n : ℝ) ^ (2 : Int)) := rnd_one_le (one_le_zpow₀ c2 (by norm_num))
  rw [F64.powi_eq (by norm_num), F64.powi_eq (by norm_num)]
  simp only [Bool.false_eq_true, if_false, Nat.sub_zero]
  generalize rnd (((minimal - max cur lastMax : Nat) : ℝ) ^ (3 : Int)) = c at h6
  generalize rnd ((n : ℝ) ^ (2 : Int)) = sq at h7
  have m1 : (FloatArith.mul (.fin n) (.fin ((0 : Nat) : ℝ)) : F64) = .fin 0 := by
    show F64.fin (rnd ((n : ℝ) * ((0 : Nat) : ℝ))) = _
    rw [Nat.cast_zero, mul_zero, rnd_zero]
  have m2 : ∀ y : ℝ, y ≠ 0 → (FloatArith.div (.fin 0) (.fin y) : F64) = .fin 0 := by
    intro y hy
    show F64.div _ _ = _
    simp [F64.div, hy, rnd_zero]
  rw [m1, m2 c (by linarith), m2 n (by linarith)]
  show F64.geOne (.fin (rnd (sq * rnd (Real.exp (-0))))) = true
  rw [neg_zero, Real.exp_zero, rnd_one, mul_one]
  simp only [F64.geOne, decide_eq_true_eq]
  exact rnd_one_le h7

/-- A question of that kind about a step that needs more memory (3) than the best path (2): the
claim that the built-in function returns 0 "whenever the step would exceed the least memory" fails
for the memory during the step. -/
theorem C32_step_refuted : ∃ P found p m q, P.WF ∧ Asked P found p m q ∧
    q.minimal < P.memAt (p ++ [m]) p.length ∧
    FloatOps.geOne (q.ask (AcceptFunc.builtinHeavyside : AcceptFunc F64).getAcceptFunc) = true :=
  ⟨_, _, _, _, _, Example.star_wf, star_asked, by decide +kernel,
    C32_free (n := 4) (minimal := 2) (lastMax := 0) (cur := 1) _ _ (by decide) (by decide) (by decide) (by decide)⟩

/-- **C32** A step that would merely equal the least memory found so far is never taken either: the
function returns 0, or, if no bit is blocked, `0. / 0.`, which is not a number. -/
theorem C32_equal {n minimal lastMax cur rem : Nat} (bound lastCur sample : F64)
    (hn : n ≤ 2 ^ 53) (hr : rem < n) (h2 : max cur lastMax = minimal) (h3 : minimal ≤ 2 ^ 53)
    (hs : ∃ x : ℝ, sample = .fin x ∧ 0 ≤ x) :
    let a := (AcceptFunc.builtinHeavyside : AcceptFunc F64).getAcceptFunc bound
      (FloatOps.ofUsize minimal) (FloatOps.ofUsize lastMax) lastCur
      (FloatOps.ofUsize cur) (FloatOps.ofUsize rem) (FloatOps.ofUsize n)
    (a = if rem = 0 then .nan else .fin 0) ∧ FloatOps.geOne a = false ∧ FloatOps.lt sample a = false := by
  intro a
  have key : a = if rem = 0 then .nan else .fin 0 := by
    show (builtinHeavyside bound (FloatOps.ofUsize minimal) (FloatOps.ofUsize lastMax) lastCur
      (FloatOps.ofUsize cur) (FloatOps.ofUsize rem) (FloatOps.ofUsize n) : F64) = _
    rw [F64.ofUsize_eq h3, F64.ofUsize_eq (k := lastMax) (by omega), F64.ofUsize_eq (k := cur) (by omega),
      F64.ofUsize_eq (k := rem) (by omega), F64.ofUsize_eq hn]
    unfold builtinHeavyside
    simp only [F64.fmax_nat, h2, F64.sub_nat (Nat.le_refl minimal) h3, F64.sub_nat hr.le hn]
    have hlt : FloatOps.lt (.fin ((minimal - minimal : Nat) : ℝ) : F64) FloatArith.zero = false := by
      rw [← Bool.not_eq_true, F64.laws.lt (x := .fin _) rfl F64.laws.zero]
      simp
    rw [hlt, F64.powi_eq (by norm_num), F64.powi_eq (by norm_num), Nat.sub_self, Nat.cast_zero,
      zero_zpow _ (by norm_num), rnd_zero]
    simp only [Bool.false_eq_true, if_false]
    have hq : (0 : ℝ) < ((n - rem : Nat) : ℝ) := by
      have : 0 < n - rem := by omega
      exact_mod_cast this
    have m1 : (FloatArith.mul (.fin n) (.fin rem) : F64) = .fin (rnd ((n : ℝ) * rem)) := rfl
    rw [m1]
    by_cases h0 : rem = 0
    · subst h0
      rw [Nat.cast_zero, mul_zero, rnd_zero, if_pos rfl]
      have m2 : (FloatArith.div (.fin 0) (.fin 0) : F64) = .nan := by
        show F64.div _ _ = _
        simp [F64.div]
      rw [m2]
      rfl
    · have p1 : (1 : ℝ) ≤ n := by exact_mod_cast (show 1 ≤ n by omega)
      have p2 : (1 : ℝ) ≤ rem := by exact_mod_cast (show 1 ≤ rem by omega)
      have p3 : 1 ≤ rnd ((n : ℝ) * rem) := rnd_one_le (by nlinarith)
      rw [if_neg h0]
      generalize rnd ((n : ℝ) * rem) = z at p3
      have z1 : z ≠ 0 := by linarith
      have z2 : ¬ z < 0 := by linarith
      have m2 : (FloatArith.div (.fin z) (.fin 0) : F64) = .inf false := by
        show F64.div _ _ = _
        simp [F64.div, z1, le_of_lt (lt_of_lt_of_le one_pos p3)]
      have m3 : (FloatArith.div (.inf false) (.fin ((n - rem : Nat) : ℝ)) : F64) = .inf false := by
        show F64.div _ _ = _
        simp only [F64.div, Bool.false_bne, not_lt.2 hq.le, decide_false]
      rw [m2, m3]
      show F64.fin (rnd (_ * 0)) = _
      rw [mul_zero, rnd_zero]
  obtain ⟨x, rfl, hx⟩ := hs
  refine ⟨key, ?_, ?_⟩ <;> rw [key] <;> split
  · rfl
  · show F64.geOne _ = false
    simp [F64.geOne]
  · rfl
  · show F64.ltb _ _ = false
    simp [F64.ltb, hx]

example : (1 : Nat) < 4 ∧ max 1 2 = 2 := by decide

/-- **C33** `ParametrizedHeavyside` with cutoff 0 and the exponents 2, 1, 1, 3, 1 is the function
`BuiltinHeavyside`, on all arguments, provided that the first power of a number is the number. -/
theorem C33_same {F : Type} [FloatArith F] (h : ∀ x : F, FloatArith.powi x 1 = x) :
    (AcceptFunc.parametrizedHeavyside ⟨FloatArith.zero, 2, 1, 1, 3, 1⟩ : AcceptFunc F).getAcceptFunc =
      (AcceptFunc.builtinHeavyside : AcceptFunc F).getAcceptFunc := by
  funext _ minimal lastMax _ cur rem total
  simp only [AcceptFunc.getAcceptFunc, createParametrizedHeavyside, builtinHeavyside, h]

/-- **C33** So the results of `run` are the same. -/
theorem C33_run {F σ : Type} [FloatArith F] (h : ∀ x : F, FloatArith.powi x 1 = x) (env : Env F σ)
    (graph : List (List Nat)) (order : OrderGraph) (args : Args F) (seed : Option Nat) :
    run env graph order { args with
        probabilistic := some ((AcceptFunc.parametrizedHeavyside ⟨FloatArith.zero, 2, 1, 1, 3, 1⟩).getAcceptFunc, seed) } =
      run env graph order { args with
        probabilistic := some (AcceptFunc.builtinHeavyside.getAcceptFunc, seed) } := by
  rw [C33_same h]

theorem F64.powi_one (x : F64) : FloatArith.powi x 1 = x := by
  show F64.powi _ _ = _
  cases x <;> simp [F64.powi]

/-- The model of `f64` has that law. -/
example : (AcceptFunc.parametrizedHeavyside ⟨FloatArith.zero, 2, 1, 1, 3, 1⟩ : AcceptFunc F64).getAcceptFunc =
    (AcceptFunc.default : AcceptFunc F64).getAcceptFunc := C33_same F64.powi_one

/-- The parameters matter: with another cutoff the functions differ. -/
theorem C33_cutoff : (AcceptFunc.parametrizedHeavyside ⟨.fin 5, 2, 1, 1, 3, 1⟩ : AcceptFunc F64).getAcceptFunc ≠
    (AcceptFunc.builtinHeavyside : AcceptFunc F64).getAcceptFunc := by
  intro h
  have h1 := C32_free (n := 1) (minimal := 4) (lastMax := 0) (cur := 0) (.fin 0) (.fin 0)
    (by decide) (by decide) (by decide) (by decide)
  rw [← h] at h1
  have h2 : FloatOps.lt (FloatArith.sub (FloatOps.ofUsize 4) (FloatArith.fmax (FloatOps.ofUsize 0)
      (FloatOps.ofUsize 0))) (.fin 5 : F64) = true := by
    rw [F64.ofUsize_eq (k := 4) (by decide), F64.ofUsize_eq (k := 0) (by decide), F64.fmax_nat,
      F64.sub_nat (by decide) (by decide),
      F64.laws.lt (x := .fin _) (y := .fin _) rfl rfl]
    norm_num
  simp only [AcceptFunc.getAcceptFunc, createParametrizedHeavyside, h2, if_true] at h1
  rw [F64.laws.geOne F64.laws.zero] at h1
  norm_num at h1

end Verif
