import Verif.Props.PlotProps
import Verif.Props.FoundProps
/-!
# The generators of the published data complete (C46, C57)
-/

namespace Verif.Results

open Spec Search Example

/-- Every worker gets at least `N` moves and every loop at least `N` iterations. -/
structure EnoughMoves {F τ : Type} (N size : Nat) (env : Env F τ) : Prop where
  fuel : N ≤ env.fuel
  moves : ∀ i, i < 2 ^ size + 1 → N ≤ (env.moves.map (·.1)).count i

/-- The environments of a shot have enough moves. -/
structure Shot.Enough {F τ : Type} (N size : Nat) (shot : Shot F τ) : Prop where
  timeOptimal : EnoughMoves N size shot.timeOptimal
  approx : EnoughMoves N size shot.approx
  full : EnoughMoves N size shot.full

theorem EnoughMoves.mono {F τ : Type} {N M size : Nat} {env : Env F τ} (h : EnoughMoves N size env) (hle : M ≤ N) : EnoughMoves M size env :=
  ⟨le_trans hle h.fuel, fun i hi => le_trans hle (h.moves i hi)⟩

theorem Shot.Enough.mono {F τ : Type} {N M size : Nat} {shot : Shot F τ} (h : shot.Enough N size) (hle : M ≤ N) :
    shot.Enough M size :=
  ⟨h.timeOptimal.mono hle, h.approx.mono hle, h.full.mono hle⟩

theorem collect_ne_none {σ : Type} (getFull : Bool) (a b c : List Path) (rows : List (List Nat)) (s : σ) :
    collect getFull (some a) (some b) (some c) rows s ≠ .ok none := by
  unfold collect
  cases a with
  | nil => simp
  | cons p a =>
    simp only [List.head?_cons, bind, Except.bind, pure, Except.pure]
    cases pushPath 0 rows (some p) with
    | error => simp
    | ok r1 =>
      simp only
      cases pushPath 2 r1 b.getLast? with
      | error => simp
      | ok r2 =>
        simp only
        cases getFull with
        | false => simp
        | true =>
          simp only [if_true]
          cases pushPath 4 r2 c.head? with
          | error => simp
          | ok r3 =>
            simp only
            cases pushPath 6 r3 c.getLast? with
            | error => simp
            | ok r4 => simp

theorem doShot_completes (size : Nat) : ∃ N : Nat, ∀ {F σ τ : Type} [FloatRoot F] (rand : Rand F σ), rand.OK →
    size < 2 ^ 64 - 1 → ∀ {d d' : Density F}, d.Defined size → d'.Defined size →
    ∀ {induced : List (List Bool) → List Nat → OrderGraph}, (∀ frames map, Causal size frames map →
      Induced (DependsOn frames map) (List.range size) (induced frames map)) →
    ∀ (timeout : Nat) (getFull : Bool) (shot : Shot F τ),
      shot.timeOptimal.OK → shot.approx.OK → shot.full.OK → shot.Enough N size →
    ∀ (rows : List (List Nat)) (s : σ), doShot induced rand size d d' timeout getFull shot rows s ≠ .ok none := by
  obtain ⟨N, hN⟩ := C12_terminates size
  refine ⟨N, ?_⟩
  intro F σ τ _ rand hr hs d d' hd hd' induced hi timeout getFull shot h1 h2 h3 hf rows s
  obtain ⟨g, s1, G, s2, e1, e2, hwf, hbits, hlen⟩ := C46_instance rand hr hs hd hd' hi s
  have hbl : (⟨g, G⟩ : Problem).bits.length = size := by rw [hbits.length_eq]; simp
  have ok : ∀ (env : Env F τ) (_ : env.OK) (_ : EnoughMoves N size env) (args : Args F),
      ∃ out, run env g G args = .ok (some out) :=
    fun env he hfe args => hN ⟨g, G⟩ env args hwf hbl he hfe.fuel hfe.moves
  obtain ⟨rt, et⟩ := ok shot.timeOptimal h1 hf.timeOptimal { doSearch := false }
  obtain ⟨ra, ea⟩ := ok shot.approx h2 hf.approx
    { doSearch := true, timeout := some timeout, nthreads := ncpus,
      probabilistic := some (AcceptFunc.builtinHeavyside.getAcceptFunc, some (rand.gen s2).1) }
  cases getFull with
  | false =>
    have : doShot induced rand size d d' timeout false shot rows s =
        collect false (some rt) (some ra) (some []) rows (rand.gen s2).2 := by
      simp only [doShot, e1, e2, et, ea, bind, Except.bind]
      rfl
    rw [this]
    apply collect_ne_none
  | true =>
    obtain ⟨rf, ef⟩ := ok shot.full h3 hf.full { doSearch := true, nthreads := ncpus }
    have : doShot induced rand size d d' timeout true shot rows s =
        collect true (some rt) (some ra) (some rf) rows (rand.gen s2).2 := by
      simp only [doShot, e1, e2, et, ea, ef, if_true, bind, Except.bind]
      rfl
    rw [this]
    apply collect_ne_none

/-- **C46** `do_it` completes: for every number of qubits there is a number `N` such that, whatever the random
instances, the timeouts and the interleavings are, the call returns if every search may take `N` iterations and every
worker gets `N` moves. -/
theorem C46_completes (size : Nat) : ∃ N : Nat, ∀ {F σ τ : Type} [FloatRoot F] (rand : Rand F σ), rand.OK →
    size < 2 ^ 64 - 1 → ∀ {d d' : Density F}, d.Defined size → d'.Defined size →
    ∀ {induced : List (List Bool) → List Nat → OrderGraph}, (∀ frames map, Causal size frames map →
      Induced (DependsOn frames map) (List.range size) (induced frames map)) →
    ∀ (timeout : Nat) (getFull : Bool) (shots : List (Shot F τ)),
      (∀ shot ∈ shots, shot.timeOptimal.OK ∧ shot.approx.OK ∧ shot.full.OK) → (∀ shot ∈ shots, shot.Enough N size) →
    ∀ s : σ, ∃ rows s', doIt induced rand size d d' timeout getFull shots s = .ok (some (rows, s')) := by
  obtain ⟨N, hN⟩ := doShot_completes size
  refine ⟨N, ?_⟩
  intro F σ τ _ rand hr hs d d' hd hd' induced hi timeout getFull shots hok hf s
  have key : ∀ (shots : List (Shot F τ)), (∀ shot ∈ shots, shot.timeOptimal.OK ∧ shot.approx.OK ∧ shot.full.OK) →
      (∀ shot ∈ shots, shot.Enough N size) → ∀ rows (s : σ),
      doShots induced rand size d d' timeout getFull shots rows s ≠ .ok none := by
    intro shots
    induction shots with
    | nil => intro _ _ rows s; simp [doShots, pure, Except.pure]
    | cons shot shots ih =>
      intro hok hf rows s
      obtain ⟨h1, h2, h3⟩ := hok shot (by simp)
      have h4 := hN rand hr hs hd hd' hi timeout getFull shot h1 h2 h3 (hf shot (by simp)) rows s
      unfold doShots
      cases h5 : doShot induced rand size d d' timeout getFull shot rows s with
      | error => simp [bind, Except.bind]
      | ok r =>
        cases r with
        | none => exact absurd h5 h4
        | some x =>
          simp only [bind, Except.bind]
          exact ih (fun x hx => hok x (by simp [hx])) (fun x hx => hf x (by simp [hx])) _ _
  obtain ⟨r, e, -⟩ := C46_do_it rand hr hs hd hd' hi timeout getFull shots hok s
  cases r with
  | none => exact absurd e (key shots hok hf _ s)
  | some x => exact ⟨x.1, x.2, e⟩

section
variable {F σ τ : Type} [FloatSum F]

theorem sweepLoop_ne_none {rand : Rand F σ} {induced : List (List Bool) → List Nat → OrderGraph} :
    ∀ (ps : List (Point F τ)),
      (∀ p ∈ ps, ∀ s, doIt induced rand p.size p.edge p.correction p.timeout p.getFull p.shots s ≠ .ok none) →
      ∀ (rows : List (List F)) (s : σ), sweepLoop induced rand ps rows s ≠ .ok none := by
  intro ps
  induction ps with
  | nil => intro _ rows s; simp [sweepLoop, pure, Except.pure]
  | cons p ps ih =>
    intro h rows s
    unfold sweepLoop
    cases h1 : doIt induced rand p.size p.edge p.correction p.timeout p.getFull p.shots s with
    | error => simp [bind, Except.bind]
    | ok r =>
      cases r with
      | none => exact absurd h1 (h p (by simp) s)
      | some x =>
        simp only [bind, Except.bind]
        cases pushStatistics 0 (x.1.map statistics) rows with
        | error => simp
        | ok rows' => exact ih (fun q hq => h q (by simp [hq])) rows' x.2

theorem densityPoints_mem {size : Nat} {edge : Density F} {timeouts : List Nat} {shots : Nat → List (Shot F τ)} :
    ∀ {ks : List Nat} {ps : List (Point F τ)}, densityPoints size edge timeouts shots ks = .ok ps → ∀ p ∈ ps,
      ∃ k ∈ ks, p.size = size ∧ p.edge = edge ∧ p.shots = shots k ∧
        constantDensity (FloatOps.ofUsize k : F) = .ok p.correction
  | [], ps, h, p, hp => by
    simp only [densityPoints, pure, Except.pure, Except.ok.injEq] at h
    simp [← h] at hp
  | k :: ks, ps, h, p, hp => by
    unfold densityPoints at h
    cases h1 : constantDensity (FloatOps.ofUsize k : F) with
    | error => simp [h1, bind, Except.bind] at h
    | ok c =>
      cases h2 : idx timeouts k with
      | error => simp [h1, h2, bind, Except.bind] at h
      | ok t =>
        cases h3 : densityPoints size edge timeouts shots ks with
        | error => simp [h1, h2, h3, bind, Except.bind] at h
        | ok rest =>
          simp only [h1, h2, h3, bind, Except.bind, pure, Except.pure, Except.ok.injEq] at h
          subst h
          rcases List.mem_cons.1 hp with rfl | hp
          · exact ⟨k, by simp, rfl, rfl, rfl, h1⟩
          · obtain ⟨k', hk', h4⟩ := densityPoints_mem h3 p hp
            exact ⟨k', by simp [hk'], h4⟩

omit [FloatSum F] in
theorem nodePoints_mem {edge correction : Density F} {timeouts : List Nat} {shots : Nat → List (Shot F τ)}
    {ps : List (Point F τ)} (h : nodePoints edge correction timeouts shots = .ok ps) :
    ∀ p ∈ ps, 2 ≤ p.size ∧ p.size ≤ 45 ∧ p.edge = edge ∧ p.correction = correction ∧ p.shots = shots p.size := by
  unfold nodePoints at h
  have key : ∀ (l : List Nat) (ps : List (Point F τ)), l.mapM (m := R) (fun size => do
        let timeout ← idx timeouts size
        pure (⟨size, edge, correction, timeout, size ≤ NodeSweep.maxExactSize, shots size⟩ : Point F τ)) = .ok ps →
      ∀ p ∈ ps, p.size ∈ l ∧ p.edge = edge ∧ p.correction = correction ∧ p.shots = shots p.size := by
    intro l
    induction l with
    | nil => intro ps h p hp; simp only [List.mapM_nil, pure, Except.pure, Except.ok.injEq] at h; simp [← h] at hp
    | cons a l ih =>
      intro ps h p hp
      rw [List.mapM_cons] at h
      cases h1 : idx timeouts a with
      | error => simp [h1, bind, Except.bind] at h
      | ok t =>
        simp only [h1, bind, Except.bind, pure, Except.pure] at h
        split at h
        · simp at h
        · next rest h2 =>
          simp only [Except.ok.injEq] at h
          subst h
          rcases List.mem_cons.1 hp with rfl | hp
          · simp
          · obtain ⟨h3, h4⟩ := ih rest h2 p hp
            exact ⟨by simp [h3], h4⟩
  intro p hp
  obtain ⟨h1, h2⟩ := key _ _ h p hp
  have h3 := List.mem_range'_1.1 h1
  simp only [NodeSweep.maxSize] at h3
  exact ⟨by omega, by omega, h2⟩

theorem constantDensity_defined {x : F} {d : Density F} (h : constantDensity x = .ok d) (size : Nat) :
    d.Defined size := by
  unfold constantDensity at h
  cases h1 : newFactor (FloatArith.div x (FloatSum.add (FloatOps.ofUsize DensitySweep.numDensities) FloatRoot.one)) with
  | error => simp [h1, bind, Except.bind] at h
  | ok y =>
    simp only [h1, bind, Except.bind, pure, Except.pure, Except.ok.injEq] at h
    subst h
    trivial

end

/-- **C57** The sweep over the densities completes with `f64`: for every number of qubits there is a number `N` such that
the file is written for every multiplier between 0 and 22 if all searches get `N` iterations and moves. -/
theorem C57_density_completes (numNodes : Nat) : ∃ N : Nat, ∀ {σ τ : Type} (rand : Rand F64 σ), rand.OK →
    numNodes < 2 ^ 64 - 1 →
    ∀ {induced : List (List Bool) → List Nat → OrderGraph}, (∀ size frames map, Causal size frames map →
      Induced (DependsOn frames map) (List.range size) (induced frames map)) →
    ∀ {x : ℝ}, 0 ≤ x → x ≤ 22 → ∀ (sweep : Nat) (shots : Nat → List (Shot F64 τ)),
      (∀ k, ∀ shot ∈ shots k, shot.timeOptimal.OK ∧ shot.approx.OK ∧ shot.full.OK) →
      (∀ k, ∀ shot ∈ shots k, shot.Enough N numNodes) → ∀ s : σ,
    ∃ rows, densityRun induced rand numNodes (.fin x) (DensitySweep.timeouts sweep) shots s = .ok (some rows) := by
  obtain ⟨N, hN⟩ := C46_completes numNodes
  refine ⟨N, ?_⟩
  intro σ τ rand hr hn induced hi x h0 h1 sweep shots hok hf s
  obtain ⟨r, e, -⟩ := C57_density_f64 rand hr hi hn h0 h1 sweep shots hok s
  cases r with
  | some rows => exact ⟨rows, e⟩
  | none =>
    exfalso
    unfold densityRun at e
    have hc := C57_multiplier h0 h1
    rw [hc] at e
    cases hp : densityPoints numNodes (Density.constant (F64.fin (rnd (x / 22)))) (DensitySweep.timeouts sweep) shots
        (List.range' 1 DensitySweep.numDensities) with
    | error => simp [hp, bind, Except.bind] at e
    | ok ps =>
      simp only [hp, bind, Except.bind] at e
      cases hl : sweepLoop induced rand ps (List.replicate 8 []) s with
      | error => rw [hl] at e; simp at e
      | ok r =>
        rw [hl] at e
        simp only [ pure, Except.pure, Except.ok.injEq, Option.map_eq_none_iff] at e
        subst e
        refine sweepLoop_ne_none ps ?_ _ _ hl
        intro p hp' s'
        obtain ⟨k, -, h2, h3, h4, h5⟩ := densityPoints_mem hp p hp'
        obtain ⟨rows, s2, h6⟩ := hN rand hr hn (d := p.edge) (d' := p.correction) (by rw [h3]; trivial)
          (constantDensity_defined h5 _) (hi numNodes) p.timeout p.getFull p.shots (by rw [h4]; exact hok k)
          (by rw [h4]; exact hf k) s'
        rw [h2, h6]
        simp

/-- **C57** The sweep over the number of qubits completes. -/
theorem C57_node_completes : ∃ N : Nat, ∀ {F σ τ : Type} [FloatSum F] (rand : Rand F σ), rand.OK →
    ∀ {induced : List (List Bool) → List Nat → OrderGraph}, (∀ size frames map, Causal size frames map →
      Induced (DependsOn frames map) (List.range size) (induced frames map)) →
    ∀ {eTy cTy : String} {e c : F} {edge correction : Density F}, newDensity eTy e = .ok edge →
      newDensity cTy c = .ok correction → ∀ {timeouts : List Nat}, timeouts.length = 46 →
    ∀ (shots : Nat → List (Shot F τ)),
      (∀ size, ∀ shot ∈ shots size, shot.timeOptimal.OK ∧ shot.approx.OK ∧ shot.full.OK) →
      (∀ size, ∀ shot ∈ shots size, shot.Enough N size) → ∀ s : σ,
    ∃ rows, nodeRun induced rand e eTy c cTy timeouts shots s = .ok (some rows) := by
  have h46 : ∀ size, ∃ N : Nat, _ := fun size => C46_completes size
  choose f hfN using h46
  obtain ⟨N, hNle⟩ : ∃ N, ∀ size ≤ 45, f size ≤ N :=
    ⟨(List.range 46).foldr (fun i m => max (f i) m) 0, by
      intro size hs
      have : ∀ l : List Nat, size ∈ l → f size ≤ l.foldr (fun i m => max (f i) m) 0 := by
        intro l
        induction l with
        | nil => simp
        | cons a l ih =>
          intro h
          rcases List.mem_cons.1 h with rfl | h
          · simp
          · exact le_trans (ih h) (by simp)
      exact this _ (List.mem_range.2 (by omega))⟩
  refine ⟨N, ?_⟩
  intro F σ τ _ rand hr induced hi eTy cTy e c edge correction he hc timeouts ht shots hok hf s
  obtain ⟨r, er, -⟩ := C57_node rand hr hi he hc ht shots hok s
  cases r with
  | some rows => exact ⟨rows, er⟩
  | none =>
    exfalso
    unfold nodeRun at er
    rw [he, hc] at er
    cases hp : nodePoints edge correction timeouts shots with
    | error => simp [hp, bind, Except.bind] at er
    | ok ps =>
      simp only [hp, bind, Except.bind] at er
      cases hl : sweepLoop induced rand ps (List.replicate 16 []) s with
      | error => rw [hl] at er; simp at er
      | ok r =>
        rw [hl] at er
        simp only [pure, Except.pure, Except.ok.injEq, Option.map_eq_none_iff] at er
        subst er
        refine sweepLoop_ne_none ps ?_ _ _ hl
        intro p hp' s'
        obtain ⟨h1, h2, h3, h4, h5⟩ := nodePoints_mem hp p hp'
        obtain ⟨rows, s2, h6⟩ := hfN p.size rand hr (by omega) (d := p.edge) (d' := p.correction)
          (by rw [h3]; exact newDensity_defined he (by omega)) (by rw [h4]; exact newDensity_defined hc (by omega))
          (hi p.size) p.timeout p.getFull p.shots (by rw [h5]; exact hok p.size)
          (fun shot hs => by rw [h5] at hs; exact (hf _ shot hs).mono (hNle p.size h2)) s'
        rw [h6]
        simp

/-! ## Concrete environments -/

/-- An environment with `N` moves per worker. -/
noncomputable def halfEnv (N size : Nat) : Env F64 Unit where
  prof := .release
  hashIter := id
  timer := fun _ => false
  seedRng := fun _ => ()
  gen := ⟨fun _ => (.fin (1 / 2), ())⟩
  drawSeed := fun s => (0, s)
  moves := roundRobin (2 ^ size + 1) N
  fuel := N

theorem halfEnv_enough (N size : Nat) : EnoughMoves N size (halfEnv N size) :=
  ⟨le_refl _, fun _ hi => le_of_eq (count_roundRobin hi N).symm⟩

/-- A generator that always draws one half. -/
noncomputable def halfRand : Rand F64 Unit where
  sample s := (.fin (1 / 2), s)
  range _ s := (0, s)
  gen s := (0, s)

/-- The hypotheses of `C69_densities` can be met, with 3000 shots per point: all 21 runs complete. -/
example : ∃ (shots : Nat → Nat → List (Shot F64 Unit)) (rows : Nat → List (List F64)), halfRand.OK ∧
    (∀ size frames map, Causal size frames map →
      Induced (DependsOn frames map) (List.range size) (reference frames map)) ∧
    (∀ e k, (shots e k).length = 3000) ∧
    (∀ e k, ∀ shot ∈ shots e k, shot.timeOptimal.OK ∧ shot.approx.OK ∧ shot.full.OK) ∧
    (∀ e k, (shots e k).length * 20 ^ 2 ≤ 2 ^ 53) ∧
    ∀ e, 1 ≤ e → e ≤ 21 → densityRun reference halfRand 20 (FloatOps.ofUsize e)
      (DensitySweep.timeouts DensitySweep.sweep) (shots e) () = .ok (some (rows e)) := by
  obtain ⟨N, hN⟩ := C57_density_completes 20
  have hr : halfRand.OK := fun n s h => h
  have ok : ∀ shot ∈ List.replicate 3000 (⟨halfEnv N 20, halfEnv N 20, halfEnv N 20⟩ : Shot F64 Unit),
      (shot.timeOptimal.OK ∧ shot.approx.OK ∧ shot.full.OK) ∧ shot.Enough N 20 := by
    intro shot h
    rw [List.eq_of_mem_replicate h]
    exact ⟨⟨fun m => .refl m, fun m => .refl m, fun m => .refl m⟩,
      halfEnv_enough N 20, halfEnv_enough N 20, halfEnv_enough N 20⟩
  have h := fun e : Nat => fun he : e ≤ 21 => hN halfRand hr (by norm_num)
    (induced := reference) (fun _ _ _ h => C46_induced_exists h) (x := e) (by positivity)
    (by exact_mod_cast (show e ≤ 22 by omega)) DensitySweep.sweep
    (fun _ => List.replicate 3000 ⟨halfEnv N 20, halfEnv N 20, halfEnv N 20⟩)
    (fun _ shot h => (ok shot h).1) (fun _ shot h => (ok shot h).2) ()
  have h' : ∀ e : Nat, ∃ rows, e ≤ 21 → _ := fun e => by
    by_cases he : e ≤ 21
    · obtain ⟨rows, hrows⟩ := h e he
      exact ⟨rows, fun _ => hrows⟩
    · exact ⟨[], fun h => absurd h he⟩
  choose rows hrows using h'
  refine ⟨fun _ _ => List.replicate 3000 ⟨halfEnv N 20, halfEnv N 20, halfEnv N 20⟩, rows, hr,
    fun _ _ _ h => C46_induced_exists h, fun _ _ => List.length_replicate, fun _ _ shot h => (ok shot h).1,
    fun _ _ => by simp only [List.length_replicate]; norm_num, fun e _ he => ?_⟩
  have := hrows e he
  rw [F64.ofUsize_nat (by omega)]
  exact this

end Verif.Results
