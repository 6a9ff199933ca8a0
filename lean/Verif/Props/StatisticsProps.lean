import Verif.Proofs.Statistics
import Verif.Proofs.Mean
/-!
# Means, deviations and the layout of the published data (C57)
-/

namespace Verif.Results

open Spec Search Example FloatArith FloatRoot FloatSum

/-! ## One row -/

/-- **C57** Mean and deviation that `do_it` computes with `f64` for a row of numbers between `lo` and `hi`. The
mean is the exact mean, rounded once, and lies between `lo` and `hi`. The deviation is between 0 and `hi - lo`,
and its square is the population variance up to an error of `(n + 9) hi² / 2⁵³`. (For the 3000 shots and at most
45 qubits of the published data the error is below 10⁻⁹.) -/
theorem C57_statistics {row : List Nat} (hne : row ≠ []) {lo hi : Nat} (h : ∀ e ∈ row, lo ≤ e ∧ e ≤ hi)
    (h1 : row.length ≤ 2 ^ 53) (h2 : row.length * hi ^ 2 ≤ 2 ^ 53) :
    ∃ m d, (statistics row : F64 × F64) = (.fin m, .fin d) ∧
      m = rnd ((row.sum : ℝ) / row.length) ∧ (lo : ℝ) ≤ m ∧ m ≤ hi ∧ 0 ≤ d ∧ d ≤ hi - lo ∧
      |d ^ 2 - (row.map fun e : Nat => ((e : ℝ) - (row.sum : ℝ) / row.length) ^ 2).sum / row.length| ≤
        (row.length + 9) * hi ^ 2 / 2 ^ 53 := by
  have hloi : lo ≤ hi := by
    obtain ⟨e, he⟩ := List.exists_mem_of_ne_nil row hne
    exact (h e he).1.trans (h e he).2
  have h3 : row.length * hi ≤ 2 ^ 53 :=
    le_trans (Nat.mul_le_mul_left _ (Nat.le_self_pow (by norm_num) hi)) h2
  obtain ⟨m, d, e, a1, a2, a3, a4, a5, a6⟩ := statistics_spec hne h h1 h3 h2
  refine ⟨m, d, e, a1, a2, a3, a4, ?_, a6⟩
  push_cast [hloi] at a5
  exact a5

/-- Without numbers both are NaN. -/
theorem C57_empty : (statistics [] : F64 × F64) = (.nan, .nan) := statistics_nil

/-- Equal numbers: the mean is this number and the deviation is 0, without any error. -/
theorem C57_constant {n x : Nat} (hn : n ≠ 0) (h1 : n ≤ 2 ^ 53) (h2 : n * x ^ 2 ≤ 2 ^ 53) :
    (statistics (List.replicate n x) : F64 × F64) = (.fin x, .fin 0) := by
  obtain ⟨m, d, e, -, a2, a3, a4, a5, -⟩ := C57_statistics (row := List.replicate n x) (lo := x) (hi := x)
    (by simpa using hn) (fun e he => by rw [List.eq_of_mem_replicate he]; exact ⟨le_rfl, le_rfl⟩)
    (by simpa using h1) (by simpa using h2)
  rw [e, le_antisymm a3 a2, le_antisymm (by simpa using a5) a4]

/-- Larger numbers have a larger mean, also after rounding. -/
theorem C57_mono {r1 r2 : List Nat} (hne : r1 ≠ []) (h : List.Forall₂ (· ≤ ·) r1 r2)
    (h1 : r2.length ≤ 2 ^ 53) (h2 : r2.sum ≤ 2 ^ 53) :
    ∃ m1 m2, (statistics r1 : F64 × F64).1 = .fin m1 ∧ (statistics r2 : F64 × F64).1 = .fin m2 ∧ m1 ≤ m2 := by
  have hl := h.length_eq
  have hs : r1.sum ≤ r2.sum := by
    clear hne h1 h2 hl
    induction h with
    | nil => exact le_rfl
    | cons h _ ih => simp only [List.sum_cons]; omega
  refine ⟨_, _, statistics_fst hne (hs.trans h2) (hl ▸ h1), statistics_fst ?_ h2 h1, rnd_mono (mean_mono h)⟩
  rintro rfl
  exact hne (List.length_eq_zero_iff.1 hl)

/-- The hypotheses for a row of four times. -/
example : ([3, 4, 4, 6] : List Nat) ≠ [] ∧ (∀ e ∈ [3, 4, 4, 6], 3 ≤ e ∧ e ≤ 6) ∧
    [3, 4, 4, 6].length * 6 ^ 2 ≤ 2 ^ 53 := by decide

/-! ## The two sweeps -/

section
variable {F σ τ : Type} [FloatSum F]

theorem filterMap_entry {ks : List Nat} {g : Nat → List (List Nat)} {full : Nat → Bool}
    (h : ∀ k ∈ ks, (g k).length = if full k then 8 else 4) (j : Nat) :
    (ks.filterMap fun k => entry ((g k).map (statistics (F := F))) j) =
      (ks.filter fun k => decide (j / 2 < if full k then 8 else 4)).map fun k =>
        if j % 2 = 0 then (statistics ((g k).getD (j / 2) [])).1 else (statistics ((g k).getD (j / 2) [])).2 := by
  induction ks with
  | nil => rfl
  | cons k ks ih =>
    have hk := h k List.mem_cons_self
    have ih := ih fun x hx => h x (List.mem_cons_of_mem _ hx)
    rw [List.filterMap_cons, List.filter_cons, ih]
    by_cases c : j / 2 < (g k).length
    · have : entry ((g k).map (statistics (F := F))) j = some (if j % 2 = 0 then
          (statistics ((g k).getD (j / 2) [])).1 else (statistics ((g k).getD (j / 2) [])).2) := by
        simp [entry, List.getElem?_eq_getElem c, List.getD_eq_getElem?_getD]
      rw [this]
      rw [hk] at c
      simp [c]
    · have : entry ((g k).map (statistics (F := F))) j = none := by
        simp only [entry, List.getElem?_map, List.getElem?_eq_none (Nat.le_of_not_lt c), Option.map_none]
      rw [this]
      rw [hk] at c
      simp [c]

/-- What one point of a sweep contributes: `Ps` are the random instances and `rows` the collected numbers. -/
structure Sampled (shots size : Nat) (getFull : Bool) (Ps : List Problem) (rows : List (List Nat)) : Prop where
  count : Ps.length = shots
  wf : ∀ P ∈ Ps, P.WF ∧ P.n = size ∧ P.bits.Perm (List.range size)
  collected : Collected size getFull Ps rows

/-- The loop over the points `f k`, for `k` from `a` on. -/
theorem sweep_layout (rand : Rand F σ) (hr : rand.OK)
    {induced : List (List Bool) → List Nat → OrderGraph}
    (hi : ∀ size frames map, Causal size frames map →
      Induced (DependsOn frames map) (List.range size) (induced frames map))
    {a n : Nat} (f : Nat → Point F τ) (hok : ∀ k, a ≤ k → k < a + n → (f k).OK) {m : Nat}
    (hm : ∀ k, a ≤ k → k < a + n → (if (f k).getFull then 16 else 8) ≤ m) (s : σ) :
    ∃ r, sweepLoop induced rand ((List.range' a n).map f) (List.replicate m []) s = .ok r ∧
      ∀ rows s', r = some (rows, s') → rows.length = m ∧
        ∃ (g : Nat → List Problem × List (List Nat)) (st : Nat → σ), st a = s ∧
          (∀ k, a ≤ k → k < a + n →
            doIt induced rand (f k).size (f k).edge (f k).correction (f k).timeout (f k).getFull (f k).shots
              (st k) = .ok (some ((g k).2, st (k + 1))) ∧
            Sampled (f k).shots.length (f k).size (f k).getFull (g k).1 (g k).2) ∧
          ∀ j, rows.getD j [] =
            ((List.range' a n).filter fun k => decide (j / 2 < if (f k).getFull then 8 else 4)).map fun k =>
              if j % 2 = 0 then (statistics ((g k).2.getD (j / 2) [])).1
              else (statistics ((g k).2.getD (j / 2) [])).2 := by
  have hmem : ∀ {k}, k ∈ List.range' a n ↔ a ≤ k ∧ k < a + n := List.mem_range'_1
  obtain ⟨r, e, -⟩ := sweepLoop_spec rand hr hi ((List.range' a n).map f) (List.replicate m []) s
    (by
      intro p hp
      obtain ⟨k, hk, rfl⟩ := List.mem_map.1 hp
      exact hok k (hmem.1 hk).1 (hmem.1 hk).2)
    (by
      intro p hp
      obtain ⟨k, hk, rfl⟩ := List.mem_map.1 hp
      rw [List.length_replicate]
      exact hm k (hmem.1 hk).1 (hmem.1 hk).2)
  have hdo : ∀ k, a ≤ k → k < a + n → ∀ s coll s', doIt induced rand (f k).size (f k).edge (f k).correction
      (f k).timeout (f k).getFull (f k).shots s = .ok (some (coll, s')) →
      ∃ Ps, Sampled (f k).shots.length (f k).size (f k).getFull Ps coll := by
    intro k k1 k2 s coll s' hd
    have hp := hok k k1 k2
    obtain ⟨r, e, h⟩ := C46_do_it rand hr hp.size hp.edge hp.correction (hi (f k).size) (f k).timeout
      (f k).getFull (f k).shots hp.shots s
    rw [e] at hd
    injection hd with hd
    obtain ⟨Ps, h1, h2, h3⟩ := h coll s' hd
    exact ⟨Ps, h1, h2, h3⟩
  refine ⟨r, e, fun rows s' hr' => ?_⟩
  subst hr'
  obtain ⟨g, st, h1, -, h3, h4, h5⟩ := sweepLoop_chain rand f (m := m) n a (List.replicate m []) s rows s' (by simp)
    (fun k k1 k2 s coll s' hd => by
      obtain ⟨Ps, hS⟩ := hdo k k1 k2 s coll s' hd
      have := hm k k1 k2
      rw [hS.collected.count]
      split at this <;> simp_all) e
  have hP : ∀ k, ∃ Ps, a ≤ k → k < a + n → Sampled (f k).shots.length (f k).size (f k).getFull Ps (g k) := by
    intro k
    by_cases hk : a ≤ k ∧ k < a + n
    · obtain ⟨Ps, hS⟩ := hdo k hk.1 hk.2 _ _ _ (h3 k hk.1 hk.2)
      exact ⟨Ps, fun _ _ => hS⟩
    · exact ⟨[], fun k1 k2 => absurd ⟨k1, k2⟩ hk⟩
  choose Ps hPs using hP
  refine ⟨h4, fun k => (Ps k, g k), st, h1, fun k k1 k2 => ⟨h3 k k1 k2, hPs k k1 k2⟩, fun j => ?_⟩
  have h6 : (List.replicate m ([] : List F)).getD j [] = [] := by
    rw [List.getD_eq_getElem?_getD]
    by_cases hj : j < m <;> simp [hj]
  rw [h5 j, h6, List.nil_append,
    ← filterMap_entry (fun k hk => (hPs k (hmem.1 hk).1 (hmem.1 hk).2).collected.count)]

/-- Constructors of densities do not change the kind of failure. -/
theorem newDensity_defined {ty : String} {x : F} {d : Density F} (_ : newDensity ty x = .ok d) {size : Nat}
    (h : size ≠ 1) : d.Defined size := by
  cases d <;> simp [Density.Defined, h]

/-- **C57** The published data of the sweep over the number of qubits. For every stream of random numbers, the
run does not panic once the densities are accepted, and has 16 rows: for `i < 4`, rows `2 i` and `2 i + 1` are
means and deviations for the sizes 2, …, 45 (in this order) of the numbers number `i` of `do_it`, and for
`4 ≤ i < 8` those for the sizes 2, …, 20. This is how `plotting/nodes.py` reads the file. `do_it` is called with
both densities and the timeout of the size, and the generator goes from one call to the next. -/
theorem C57_node (rand : Rand F σ) (hr : rand.OK)
    {induced : List (List Bool) → List Nat → OrderGraph}
    (hi : ∀ size frames map, Causal size frames map →
      Induced (DependsOn frames map) (List.range size) (induced frames map))
    {eTy cTy : String} {e c : F} {edge correction : Density F} (he : newDensity eTy e = .ok edge)
    (hc : newDensity cTy c = .ok correction) {timeouts : List Nat} (ht : timeouts.length = 46)
    (shots : Nat → List (Shot F τ))
    (hs : ∀ size, ∀ shot ∈ shots size, shot.timeOptimal.OK ∧ shot.approx.OK ∧ shot.full.OK) (s : σ) :
    ∃ r, nodeRun induced rand e eTy c cTy timeouts shots s = .ok r ∧ ∀ rows, r = some rows →
      rows.length = 16 ∧ ∃ (g : Nat → List Problem × List (List Nat)) (st : Nat → σ), st 2 = s ∧
        (∀ size, 2 ≤ size → size ≤ 45 →
          doIt induced rand size edge correction (timeouts.getD size 0) (decide (size ≤ 20)) (shots size)
            (st size) = .ok (some ((g size).2, st (size + 1))) ∧
          Sampled (shots size).length size (decide (size ≤ 20)) (g size).1 (g size).2) ∧
        ∀ i, i < 8 →
          rows.getD (2 * i) [] = (List.range' 2 (if i < 4 then 44 else 19)).map
            (fun size => (statistics ((g size).2.getD i [])).1) ∧
          rows.getD (2 * i + 1) [] = (List.range' 2 (if i < 4 then 44 else 19)).map
            (fun size => (statistics ((g size).2.getD i [])).2) := by
  have hmem : ∀ {size}, size ∈ List.range' 2 44 ↔ 2 ≤ size ∧ size ≤ 45 := by
    intro size; rw [List.mem_range'_1]; omega
  let f : Nat → Point F τ := fun size =>
    ⟨size, edge, correction, timeouts.getD size 0, size ≤ NodeSweep.maxExactSize, shots size⟩
  have hp : nodePoints edge correction timeouts shots = .ok ((List.range' 2 44).map f) := by
    unfold nodePoints
    change (List.range' 2 44).mapM _ = _
    have : ∀ l : List Nat, (∀ x ∈ l, x < 46) → l.mapM (m := R) (fun size => do
        let timeout ← idx timeouts size
        pure (⟨size, edge, correction, timeout, size ≤ NodeSweep.maxExactSize, shots size⟩ : Point F τ)) =
        .ok (l.map f) := by
      intro l
      induction l with
      | nil => intro _; rfl
      | cons x l ih =>
        intro hl
        have hx : x < timeouts.length := by rw [ht]; exact hl x List.mem_cons_self
        rw [List.mapM_cons, ih fun y hy => hl y (List.mem_cons_of_mem _ hy)]
        simp [idx, hx, f, bind, Except.bind, pure, Except.pure]
    exact this _ fun x hx => by have := hmem.1 hx; omega
  obtain ⟨r, er, h⟩ := sweep_layout rand hr hi (a := 2) (n := 44) f (by
      intro k k1 k2
      exact ⟨by change k < _; omega, newDensity_defined he (by change k ≠ 1; omega),
        newDensity_defined hc (by change k ≠ 1; omega), hs k⟩)
    (m := 16) (by intro k _ _; split <;> omega) s
  refine ⟨r.map (·.1), ?_, ?_⟩
  · simp only [nodeRun, he, hc, hp, er, bind, Except.bind, pure, Except.pure]
  · intro rows hrows
    cases r with
    | none => simp at hrows
    | some x =>
      obtain ⟨rows', s'⟩ := x
      simp only [Option.map_some, Option.some.injEq] at hrows
      subst hrows
      obtain ⟨h1, g, st, h0, h2, h3⟩ := h rows' s' rfl
      refine ⟨h1, g, st, h0, fun size a b => h2 size a (by omega), fun i hi8 => ?_⟩
      have d0 : 2 * i / 2 = i := by omega
      have d1 : (2 * i + 1) / 2 = i := by omega
      have m0 : 2 * i % 2 = 0 := by omega
      have m1 : (2 * i + 1) % 2 = 1 := by omega
      have hf : ((List.range' 2 44).filter fun k => decide (i < if (f k).getFull then 8 else 4)) =
          List.range' 2 (if i < 4 then 44 else 19) := by
        change ((List.range' 2 44).filter fun k => decide (i < if decide (k ≤ 20) then 8 else 4)) = _
        have : ∀ i : Fin 8, ((List.range' 2 44).filter fun k => decide (i.1 < if decide (k ≤ 20) then 8 else 4)) =
          List.range' 2 (if i.1 < 4 then 44 else 19) := by decide +kernel
        exact this ⟨i, hi8⟩
      constructor
      · rw [h3, d0, m0, hf]
        simp
      · rw [h3, d1, m1, hf]
        simp

/-- The exact search takes as many steps as the time-optimal search: rows 8 and 9 of the file repeat the first
19 entries of rows 0 and 1, bit for bit and for every arithmetic of floating point numbers. -/
theorem C57_exact_time (rand : Rand F σ) (hr : rand.OK)
    {induced : List (List Bool) → List Nat → OrderGraph}
    (hi : ∀ size frames map, Causal size frames map →
      Induced (DependsOn frames map) (List.range size) (induced frames map))
    {eTy cTy : String} {e c : F} {edge correction : Density F} (he : newDensity eTy e = .ok edge)
    (hc : newDensity cTy c = .ok correction) {timeouts : List Nat} (ht : timeouts.length = 46)
    (shots : Nat → List (Shot F τ))
    (hs : ∀ size, ∀ shot ∈ shots size, shot.timeOptimal.OK ∧ shot.approx.OK ∧ shot.full.OK) (s : σ)
    {rows : List (List F)} (hrun : nodeRun induced rand e eTy c cTy timeouts shots s = .ok (some rows)) :
    rows.getD 8 [] = (rows.getD 0 []).take 19 ∧ rows.getD 9 [] = (rows.getD 1 []).take 19 := by
  obtain ⟨r, e', h⟩ := C57_node rand hr hi he hc ht shots hs s
  rw [e'] at hrun
  injection hrun with hrun
  obtain ⟨-, g, _, -, h1, h2⟩ := h rows hrun
  have hq : ∀ size ∈ List.range' 2 19, (g size).2.getD 4 [] = (g size).2.getD 0 [] := by
    intro size hsz
    rw [List.mem_range'_1] at hsz
    exact ((h1 size hsz.1 (by omega)).2.collected.full (by simp; omega) (by omega)).1
  obtain ⟨a0, a1⟩ := h2 0 (by omega)
  obtain ⟨b0, b1⟩ := h2 4 (by omega)
  have hr44 : (List.range' 2 44).take 19 = List.range' 2 19 := by decide
  simp only [show (0 : Nat) < 4 by omega, show ¬ (4 : Nat) < 4 by omega, if_true, if_false, Nat.mul_zero,
    Nat.zero_add] at a0 a1 b0 b1
  rw [a0, a1, ← List.map_take, ← List.map_take, hr44, b0, b1]
  exact ⟨List.map_congr_left fun size hsz => by rw [hq size hsz],
    List.map_congr_left fun size hsz => by rw [hq size hsz]⟩

/-- **C57** The published data of the sweep over the density of the corrections: 8 rows of 21 entries, entry
`k - 1` for the density `k / 22`. -/
theorem C57_density (rand : Rand F σ) (hr : rand.OK)
    {induced : List (List Bool) → List Nat → OrderGraph}
    (hi : ∀ size frames map, Causal size frames map →
      Induced (DependsOn frames map) (List.range size) (induced frames map))
    {numNodes : Nat} (hN : numNodes < 2 ^ 64 - 1) {multiplier : F} {edge : Density F}
    (he : constantDensity multiplier = .ok edge)
    (hc : ∀ k, 1 ≤ k → k ≤ 21 → ∃ d : Density F, constantDensity (FloatOps.ofUsize k) = .ok d)
    {timeouts : List Nat} (ht : timeouts.length = 22) (shots : Nat → List (Shot F τ))
    (hs : ∀ size, ∀ shot ∈ shots size, shot.timeOptimal.OK ∧ shot.approx.OK ∧ shot.full.OK) (s : σ) :
    ∃ r, densityRun induced rand numNodes multiplier timeouts shots s = .ok r ∧ ∀ rows, r = some rows →
      rows.length = 8 ∧ ∃ (g : Nat → List Problem × List (List Nat)) (st : Nat → σ), st 1 = s ∧
        (∀ k, 1 ≤ k → k ≤ 21 → ∃ correction, constantDensity (FloatOps.ofUsize k) = .ok correction ∧
          doIt induced rand numNodes edge correction (timeouts.getD k 0) false (shots k) (st k) =
            .ok (some ((g k).2, st (k + 1))) ∧
          Sampled (shots k).length numNodes false (g k).1 (g k).2) ∧
        ∀ i, i < 4 →
          rows.getD (2 * i) [] = (List.range' 1 21).map (fun k => (statistics ((g k).2.getD i [])).1) ∧
          rows.getD (2 * i + 1) [] = (List.range' 1 21).map (fun k => (statistics ((g k).2.getD i [])).2) := by
  have hmem : ∀ {k}, k ∈ List.range' 1 21 ↔ 1 ≤ k ∧ k ≤ 21 := by
    intro k; rw [List.mem_range'_1]; omega
  have hdef : ∀ {x : F} {d : Density F} {size : Nat}, constantDensity x = .ok d → d.Defined size := by
    intro x d size h
    unfold constantDensity at h
    cases hf : newFactor (div x (add (FloatOps.ofUsize DensitySweep.numDensities) one)) with
    | error e => simp [hf, bind, Except.bind] at h
    | ok y =>
      simp only [hf, bind, Except.bind, pure, Except.pure] at h
      injection h with h
      subst h
      trivial
  have : Nonempty (Density F) := ⟨edge⟩
  choose! d hd using hc
  let f : Nat → Point F τ := fun k => ⟨numNodes, edge, d k, timeouts.getD k 0, false, shots k⟩
  have hp : ∀ l : List Nat, (∀ k ∈ l, 1 ≤ k ∧ k ≤ 21) →
      densityPoints numNodes edge timeouts shots l = .ok (l.map f) := by
    intro l
    induction l with
    | nil => intro _; rfl
    | cons k l ih =>
      intro hl
      obtain ⟨k1, k2⟩ := hl k List.mem_cons_self
      have hx : k < timeouts.length := by rw [ht]; omega
      simp [densityPoints, ih fun y hy => hl y (List.mem_cons_of_mem _ hy), hd k k1 k2, idx, hx, f, bind,
        Except.bind, pure, Except.pure]
  obtain ⟨r, er, h⟩ := sweep_layout rand hr hi (a := 1) (n := 21) f (by
      intro k k1 k2
      exact ⟨hN, hdef he, hdef (hd k k1 (by omega)), hs k⟩)
    (m := 8) (by intro k _ _; simp [f]) s
  have hp' := hp (List.range' 1 DensitySweep.numDensities) fun k hk => hmem.1 hk
  refine ⟨r.map (·.1), ?_, ?_⟩
  · have er' : sweepLoop induced rand (List.map f (List.range' 1 DensitySweep.numDensities))
        (List.replicate 8 []) s = .ok r := er
    simp only [densityRun, he, hp', er', bind, Except.bind, pure, Except.pure]
  · intro rows hrows
    cases r with
    | none => simp at hrows
    | some x =>
      obtain ⟨rows', s'⟩ := x
      simp only [Option.map_some, Option.some.injEq] at hrows
      subst hrows
      obtain ⟨h1, g, st, h0, h2, h3⟩ := h rows' s' rfl
      refine ⟨h1, g, st, h0, fun k a b => ⟨d k, hd k a b, h2 k a (by omega)⟩, fun i hi4 => ?_⟩
      have d0 : 2 * i / 2 = i := by omega
      have d1 : (2 * i + 1) / 2 = i := by omega
      have m0 : 2 * i % 2 = 0 := by omega
      have m1 : (2 * i + 1) % 2 = 1 := by omega
      have hf : ((List.range' 1 21).filter fun k => decide (i < if (f k).getFull then 8 else 4)) =
          List.range' 1 21 := by
        apply List.filter_eq_self.2
        intro k _
        simp [f, hi4]
      constructor
      · rw [h3, d0, m0, hf]
        simp
      · rw [h3, d1, m1, hf]
        simp

end

/-! ## With `f64` -/

theorem newFactor_f64 {x : ℝ} (h0 : 0 ≤ x) (h1 : x ≤ 1) : newFactor (F64.fin x) = .ok (F64.fin x) := by
  have a : (FloatRoot.le (FloatArith.zero : F64) (.fin x)) = true := by
    change F64.leb (.fin 0) (.fin x) = true
    simpa [F64.leb] using h0
  have b : (FloatRoot.le (F64.fin x) FloatRoot.one) = true := by
    change F64.leb (.fin x) (.fin 1) = true
    simpa [F64.leb] using h1
  simp [newFactor, a, b, pure, Except.pure]

/-- `density(multiplier)`, density.rs:21-23: accepted for every multiplier between 0 and 22. -/
theorem C57_multiplier {x : ℝ} (h0 : 0 ≤ x) (h1 : x ≤ 22) :
    constantDensity (F64.fin x) = .ok (.constant (.fin (rnd (x / 22)))) := by
  have e1 : (add (FloatOps.ofUsize DensitySweep.numDensities) one : F64) = .fin 22 := by
    rw [F64.ofUsize_nat (by simp [DensitySweep.numDensities])]
    change add (F64.fin _) (F64.fin 1) = _
    rw [F64.add_fin]
    have := rnd_nat (k := 22) (by norm_num)
    norm_num [DensitySweep.numDensities] at this ⊢
    exact this
  have e2 : (FloatArith.div (F64.fin x) (F64.fin 22) : F64) = .fin (rnd (x / 22)) := by
    change F64.div _ _ = _
    simp [F64.div]
  have h2 : rnd (x / 22) ≤ 1 := by
    have := rnd_le_nat (x := x / 22) (k := 1) (by norm_num) (by norm_num; linarith)
    simpa using this
  have h3 : 0 ≤ rnd (x / 22) := rnd_nonneg (by positivity)
  simp [constantDensity, e1, e2, newFactor_f64 h3 h2, bind, Except.bind, pure, Except.pure]

/-- ... and refused for a negative one: the assertion of `ConstantDensity::new` fails. -/
theorem C57_multiplier_negative {x : ℝ} (h : x < 0) :
    constantDensity (F64.fin x) = (.error .assertFailed : R (Density F64)) := by
  have e1 : (add (FloatOps.ofUsize DensitySweep.numDensities) one : F64) = .fin 22 := by
    rw [F64.ofUsize_nat (by simp [DensitySweep.numDensities])]
    change add (F64.fin _) (F64.fin 1) = _
    rw [F64.add_fin]
    have := rnd_nat (k := 22) (by norm_num)
    norm_num [DensitySweep.numDensities] at this ⊢
    exact this
  have e2 : (FloatArith.div (F64.fin x) (F64.fin 22) : F64) = .fin (rnd (x / 22)) := by
    change F64.div _ _ = _
    simp [F64.div]
  have h1 : rnd (x / 22) < 0 := by
    have hx : x / 22 < 0 := by linarith
    have := (rnd_neg_bounds hx).2
    have : (0 : ℝ) < 2 ^ Int.log 2 |x / 22| := by positivity
    linarith
  have a : (FloatRoot.le (FloatArith.zero : F64) (.fin (rnd (x / 22)))) = false := by
    change F64.leb (.fin 0) (.fin _) = false
    simpa [F64.leb] using h1
  simp [constantDensity, e1, e2, newFactor, a, bind, Except.bind]

/-- **C57** The points of the sweep over the densities: the density of the corrections at point `k` is `k / 22`,
rounded once. -/
theorem C57_density_points {τ : Type} (numNodes : Nat) (edge : Density F64) {timeouts : List Nat}
    (ht : timeouts.length = 22) (shots : Nat → List (Shot F64 τ)) :
    densityPoints numNodes edge timeouts shots (List.range' 1 21) = .ok ((List.range' 1 21).map fun k : Nat =>
      ⟨numNodes, edge, .constant (.fin (rnd ((k : ℝ) / 22))), timeouts.getD k 0, false, shots k⟩) := by
  have : ∀ l : List Nat, (∀ k ∈ l, k ≤ 21) → densityPoints numNodes edge timeouts shots l =
      .ok (l.map fun k : Nat => ⟨numNodes, edge, .constant (.fin (rnd ((k : ℝ) / 22))),
        timeouts.getD k 0, false, shots k⟩) := by
    intro l
    induction l with
    | nil => intro _; rfl
    | cons k l ih =>
      intro hl
      have hk := hl k List.mem_cons_self
      have hx : k < timeouts.length := by omega
      have hm : constantDensity (FloatOps.ofUsize k : F64) = .ok (.constant (.fin (rnd ((k : ℝ) / 22)))) := by
        rw [F64.ofUsize_nat (by omega)]
        exact C57_multiplier (by positivity) (by exact_mod_cast (show k ≤ 22 by omega))
      simp [densityPoints, ih fun y hy => hl y (List.mem_cons_of_mem _ hy), hm, idx, hx, bind, Except.bind,
        pure, Except.pure]
  exact this _ fun k hk => by rw [List.mem_range'_1] at hk; omega

/-- **C57** The whole sweep over the densities with `f64`: for every multiplier between 0 and 22 the run does not
panic, and the file has 8 rows of 21 entries. -/
theorem C57_density_f64 {σ τ : Type} (rand : Rand F64 σ) (hr : rand.OK)
    {induced : List (List Bool) → List Nat → OrderGraph}
    (hi : ∀ size frames map, Causal size frames map →
      Induced (DependsOn frames map) (List.range size) (induced frames map))
    {numNodes : Nat} (hN : numNodes < 2 ^ 64 - 1) {x : ℝ} (h0 : 0 ≤ x) (h1 : x ≤ 22)
    (sweep : Nat) (shots : Nat → List (Shot F64 τ))
    (hs : ∀ size, ∀ shot ∈ shots size, shot.timeOptimal.OK ∧ shot.approx.OK ∧ shot.full.OK) (s : σ) :
    ∃ r, densityRun induced rand numNodes (.fin x) (DensitySweep.timeouts sweep) shots s = .ok r ∧
      ∀ rows, r = some rows → rows.length = 8 ∧ ∀ row ∈ rows, row.length = 21 := by
  obtain ⟨r, e, h⟩ := C57_density rand hr hi hN (C57_multiplier h0 h1) (fun k _ h2 => by
      rw [F64.ofUsize_nat (by omega)]
      exact ⟨_, C57_multiplier (by positivity) (by exact_mod_cast (show k ≤ 22 by omega))⟩)
    (timeouts := DensitySweep.timeouts sweep) (by simp [DensitySweep.timeouts, DensitySweep.numDensities])
    shots hs s
  refine ⟨r, e, fun rows hrows => ?_⟩
  obtain ⟨h3, g, -, -, -, h4⟩ := h rows hrows
  refine ⟨h3, fun row hrow => ?_⟩
  obtain ⟨j, hj, rfl⟩ := List.mem_iff_getElem.1 hrow
  obtain ⟨h5, h6⟩ := h4 (j / 2) (by omega)
  have : rows.getD j [] = rows[j] := by simp [hj]
  rw [← this]
  rcases Nat.mod_two_eq_zero_or_one j with hm | hm
  · rw [show j = 2 * (j / 2) by omega, h5]; simp
  · rw [show j = 2 * (j / 2) + 1 by omega, h6]; simp

theorem forall₂_zip {α : Type} {R : α → Nat × Nat → Prop} :
    ∀ {l : List α} {a b : List Nat}, a.length = b.length → List.Forall₂ R l (a.zip b) →
      a.length = l.length := by
  intro l a b h hf
  have := hf.length_eq
  rw [List.length_zip, h, Nat.min_self] at this
  omega

theorem forall₂_zip_le : ∀ {a b a' b' : List Nat}, a.length = b.length → a'.length = b'.length →
    List.Forall₂ (fun x y : Nat × Nat => x.1 ≤ y.1 ∧ y.2 ≤ x.2) (a.zip b) (a'.zip b') →
    List.Forall₂ (· ≤ ·) a a' ∧ List.Forall₂ (· ≤ ·) b' b
  | [], [], [], [], _, _, _ => ⟨.nil, .nil⟩
  | _ :: _, _ :: _, _ :: _, _ :: _, h, h', .cons hx hs => by
    obtain ⟨h1, h2⟩ := forall₂_zip_le (by simpa using h) (by simpa using h') hs
    exact ⟨.cons hx.1 h1, .cons hx.2 h2⟩
  | _ :: _, _ :: _, [], _, _, _, h => by simp at h
  | [], _, _ :: _, _ :: _, h, h', hf => by
    cases hf
  | [], _ :: _, _, _, h, _, _ => by simp at h
  | _ :: _, [], _, _, h, _, _ => by simp at h
  | _, _, [], _ :: _, _, h, _ => by simp at h
  | _, _, _ :: _, [], _, h, _ => by simp at h

/-- The number of values in each of the collected rows. -/
theorem Sampled.row_length {shots size : Nat} {getFull : Bool} {Ps : List Problem} {rows : List (List Nat)}
    (h : Sampled shots size getFull Ps rows) (h0 : size ≠ 0) (i : Nat) :
    (rows.getD i []).length ≤ shots ∧
    (i < 2 ∨ (4 ≤ i ∧ i < 8 ∧ getFull = true) → (rows.getD i []).length = shots) := by
  have hc := h.collected
  have l0 := hc.lengths 0
  have l1 := hc.lengths 1
  have l2 := hc.lengths 2
  have l3 := hc.lengths 3
  simp only [Nat.mul_zero, Nat.zero_add, Nat.mul_one, show 2 * 2 = 4 from rfl, show 2 * 3 = 6 from rfl,
    show 2 + 1 = 3 from rfl, show 4 + 1 = 5 from rfl, show 6 + 1 = 7 from rfl] at l0 l1 l2 l3
  have k0 := forall₂_zip l0 hc.optimal
  have k2 := hc.approx.1
  have hcnt := h.count
  have big : rows.length ≤ i → (rows.getD i []).length = 0 := by
    intro hi
    simp [List.getElem?_eq_none hi]
  have hlen := hc.count
  by_cases hf : getFull = true
  · obtain ⟨-, f1, f2, -⟩ := hc.full hf h0
    have k4 := forall₂_zip l2 f1
    have k6 := forall₂_zip l3 f2
    rw [if_pos hf] at hlen
    by_cases hi : 8 ≤ i
    · have := big (by omega)
      omega
    · have : i = 0 ∨ i = 1 ∨ i = 2 ∨ i = 3 ∨ i = 4 ∨ i = 5 ∨ i = 6 ∨ i = 7 := by omega
      rcases this with rfl | rfl | rfl | rfl | rfl | rfl | rfl | rfl <;> omega
  · rw [if_neg hf] at hlen
    by_cases hi : 4 ≤ i
    · have := big (by omega)
      simp only [hf, Bool.false_eq_true, and_false, or_false]
      omega
    · have : i = 0 ∨ i = 1 ∨ i = 2 ∨ i = 3 := by omega
      rcases this with rfl | rfl | rfl | rfl <;> simp only [hf] <;> omega

/-- **C57** The sweep over the number of qubits with `f64`. If there is at least one shot for every size, then
the means of the time-optimal search and of the exact search are numbers between 0 and the number of qubits, and in
every column of the exact search the path with the least memory takes on average at least as long as the fastest
path (rows 12 and 8), and needs on average at most as much memory (rows 14 and 10); so the lines of the plot do not
cross. -/
theorem C57_node_f64 {σ τ : Type} (rand : Rand F64 σ) (hr : rand.OK)
    {induced : List (List Bool) → List Nat → OrderGraph}
    (hi : ∀ size frames map, Causal size frames map →
      Induced (DependsOn frames map) (List.range size) (induced frames map))
    {eTy cTy : String} {e c : F64} {edge correction : Density F64} (he : newDensity eTy e = .ok edge)
    (hc : newDensity cTy c = .ok correction) (realSweep : Nat) (shots : Nat → List (Shot F64 τ))
    (hs : ∀ size, ∀ shot ∈ shots size, shot.timeOptimal.OK ∧ shot.approx.OK ∧ shot.full.OK)
    (hne : ∀ size, shots size ≠ []) (hb : ∀ size, (shots size).length * 45 ^ 2 ≤ 2 ^ 53) (s : σ) :
    ∃ r, nodeRun induced rand e eTy c cTy (NodeSweep.timeouts realSweep NodeSweep.maxSize) shots s = .ok r ∧
      ∀ rows, r = some rows → ∀ k : Nat,
        (k < 44 → ∀ j, j = 0 ∨ j = 2 →
          ∃ m : ℝ, (rows.getD j [])[k]? = some (.fin m) ∧ 0 ≤ m ∧ m ≤ k + 2) ∧
        (k < 19 → ∃ t t' m m' : ℝ, (rows.getD 8 [])[k]? = some (.fin t) ∧ (rows.getD 12 [])[k]? = some (.fin t') ∧
          (rows.getD 10 [])[k]? = some (.fin m) ∧ (rows.getD 14 [])[k]? = some (.fin m') ∧
          0 ≤ t ∧ t ≤ t' ∧ t' ≤ k + 2 ∧ 0 ≤ m' ∧ m' ≤ m ∧ m ≤ k + 2) := by
  obtain ⟨r, er, h⟩ := C57_node rand hr hi he hc (timeouts := NodeSweep.timeouts realSweep NodeSweep.maxSize)
    (by simp [NodeSweep.timeouts, NodeSweep.maxSize]) shots hs s
  refine ⟨r, er, fun rows hrows k => ?_⟩
  obtain ⟨-, g, _, -, h1, h2⟩ := h rows hrows
  -- the mean of one cell
  have cell : ∀ size i, 2 ≤ size → size ≤ 45 → (i < 2 ∨ (4 ≤ i ∧ i < 8 ∧ decide (size ≤ 20) = true)) →
      ((g size).2.getD i []) ≠ [] ∧ ((g size).2.getD i []).length = (shots size).length ∧
      ((g size).2.getD i []).sum ≤ 2 ^ 53 ∧
      (statistics ((g size).2.getD i []) : F64 × F64).1 = .fin (rnd (mean ((g size).2.getD i []))) ∧
      0 ≤ rnd (mean ((g size).2.getD i [])) ∧ rnd (mean ((g size).2.getD i [])) ≤ size := by
    intro size i a b hcase
    have hS := (h1 size a b).2
    have hlen := (hS.row_length (by omega) i).2 hcase
    have hnil : ((g size).2.getD i []) ≠ [] := by
      intro hn
      rw [hn] at hlen
      exact hne size (List.length_eq_zero_iff.1 hlen.symm)
    have hbd := hS.collected.bounded i
    have hB := hb size
    have hsq : size ^ 2 ≤ 45 ^ 2 := Nat.pow_le_pow_left b 2
    have hl1 : ((g size).2.getD i []).length * size ^ 2 ≤ 2 ^ 53 := by
      rw [hlen]
      exact le_trans (Nat.mul_le_mul_left _ hsq) hB
    have hl3 : ((g size).2.getD i []).length ≤ 2 ^ 53 := by rw [hlen]; omega
    have hsum : ((g size).2.getD i []).sum ≤ 2 ^ 53 :=
      le_trans (sum_le_mul hbd) (le_trans (Nat.mul_le_mul_left _ (Nat.le_self_pow (by norm_num) size)) hl1)
    have hb2 := mean_bounds (lo := 0) (hi := size) hnil fun x hx => ⟨Nat.zero_le _, hbd x hx⟩
    exact ⟨hnil, hlen, hsum, statistics_fst hnil hsum hl3, rnd_nonneg (by simpa using hb2.1),
      rnd_le_nat (by omega) hb2.2⟩
  have get : ∀ i, i < 8 → ∀ k, k < (if i < 4 then 44 else 19) →
      (rows.getD (2 * i) [])[k]? = some (statistics ((g (k + 2)).2.getD i []) : F64 × F64).1 := by
    intro i hi8 k hk
    rw [(h2 i hi8).1, List.getElem?_map, List.getElem?_range' hk, Option.map_some]
    congr 3
    rw [Nat.one_mul, Nat.add_comm]
  constructor
  · intro hk j hj
    rcases hj with rfl | rfl
    · obtain ⟨-, -, -, c1, c2, c3⟩ := cell (k + 2) 0 (by omega) (by omega) (Or.inl (by omega))
      refine ⟨_, by rw [← c1]; exact get 0 (by omega) k (by simpa using hk), c2, by exact_mod_cast c3⟩
    · obtain ⟨-, -, -, c1, c2, c3⟩ := cell (k + 2) 1 (by omega) (by omega) (Or.inl (by omega))
      refine ⟨_, by rw [← c1]; exact get 1 (by omega) k (by simpa using hk), c2, by exact_mod_cast c3⟩
  · intro hk
    have hfull : decide (k + 2 ≤ 20) = true := by simp; omega
    obtain ⟨-, -, -, a1, a2, -⟩ := cell (k + 2) 4 (by omega) (by omega) (Or.inr ⟨by omega, by omega, hfull⟩)
    obtain ⟨-, -, -, b1, -, b3⟩ := cell (k + 2) 6 (by omega) (by omega) (Or.inr ⟨by omega, by omega, hfull⟩)
    obtain ⟨-, -, -, c1, -, c3⟩ := cell (k + 2) 5 (by omega) (by omega) (Or.inr ⟨by omega, by omega, hfull⟩)
    obtain ⟨-, -, -, d1, d2, -⟩ := cell (k + 2) 7 (by omega) (by omega) (Or.inr ⟨by omega, by omega, hfull⟩)
    have hS := (h1 (k + 2) (by omega) (by omega)).2.collected
    obtain ⟨-, -, -, hle⟩ := hS.full hfull (by omega)
    obtain ⟨le1, le2⟩ := forall₂_zip_le (hS.lengths 2) (hS.lengths 3) hle
    have e1 := rnd_mono (mean_mono le1)
    have e2 := rnd_mono (mean_mono le2)
    refine ⟨_, _, _, _, by rw [← a1]; exact get 4 (by omega) k (by simpa using hk),
      by rw [← b1]; exact get 6 (by omega) k (by simpa using hk),
      by rw [← c1]; exact get 5 (by omega) k (by simpa using hk),
      by rw [← d1]; exact get 7 (by omega) k (by simpa using hk), a2, e1, by exact_mod_cast b3, d2, e2,
      by exact_mod_cast c3⟩

/-! ## Concrete runs -/

/-- Numbers in place of floating point numbers, as for C46. -/
local instance : FloatSum Nat where
  ofUsize := id
  lt a b := a < b
  geOne a := 100 ≤ a
  zero := 0
  sub a b := a - b
  mul a b := a * b
  div a b := a / b
  neg a := a
  fmax a b := max a b
  powi a k := a ^ k.toNat
  exp a := a
  one := 100
  sqrt := Nat.sqrt
  le a b := a ≤ b
  add a b := a + b

/-- A shot with enough moves for three qubits. -/
def toyShot : Shot Nat Unit := ⟨toyEnv [], toyEnv (roundRobin 40 60), toyEnv (roundRobin 40 60)⟩

/-- A complete run of the sweep over the number of qubits, with shots for two and three qubits only. -/
example : newDensity "constant" 50 = .ok (.constant 50 : Density Nat) ∧
    (List.replicate 46 0).length = 46 ∧
    (∀ size, ∀ shot ∈ (if size ≤ 3 then List.replicate 4 toyShot else []),
      shot.timeOptimal.OK ∧ shot.approx.OK ∧ shot.full.OK) ∧
    (nodeRun reference toyRand 50 "constant" 50 "constant" (List.replicate 46 0)
      (fun size => if size ≤ 3 then List.replicate 4 toyShot else []) 7).toOption.join.map (·.map (·.take 3)) =
      some [[1, 2, 0], [0, 0, 0], [2, 2, 0], [0, 0, 0], [1, 0, 0], [0, 0, 0], [2, 0, 0], [0, 0, 0],
        [1, 2, 0], [0, 0, 0], [2, 2, 0], [0, 0, 0], [2, 2, 0], [0, 0, 0], [1, 2, 0], [0, 0, 0]] := by
  refine ⟨rfl, by simp, ?_, by decide +kernel⟩
  intro size shot h
  have : shot = toyShot := by
    split at h
    · simpa using h
    · simp at h
  subst this
  exact ⟨fun m => List.Perm.refl m, fun m => List.Perm.refl m, fun m => List.Perm.refl m⟩

/-- The hypotheses of `C57_node_f64` and `C57_density_f64` on the densities. -/
example : newDensity "reziprocal_square_root" (F64.fin (1 / 2)) = .ok (.reziprocalSquareRoot (.fin (1 / 2))) ∧
    (0 : ℝ) ≤ 11 ∧ (11 : ℝ) ≤ 22 ∧ 3000 * 45 ^ 2 ≤ 2 ^ 53 := by
  refine ⟨?_, by norm_num, by norm_num, by norm_num⟩
  simp only [newDensity]
  rw [newFactor_f64 (by norm_num) (by norm_num)]
  rfl

end Verif.Results
