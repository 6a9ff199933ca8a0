import Verif.Model.Space
import Verif.Model.Float
/-!
# Model of the generator of the published data, `results/src`

Modelled: the random instances, the searches on them and the collected numbers (`plots.rs`), and the
timeouts (`lib.rs`, `plots/density.rs`, `plots/node.rs`). The means and deviations are in
`Statistics.lean`. Not modelled: the command line, measuring the elapsed time, writing the output files. The function
`induced_order::get_order` belongs to the crate `pauli_tracker`; it is a parameter here.
-/

namespace Verif.Results

open Search

/-- A random number generator with what is drawn from it. -/
structure Rand (F σ : Type) where
  /-- `Uniform::new(0.0, 1.0).sample(rng)` -/
  sample : σ → F × σ
  /-- `rng.gen_range(0..n)` -/
  range : Nat → σ → Nat × σ
  /-- `rng.gen::<u64>()` -/
  gen : σ → Nat × σ

/-- Further operations on `f64`. -/
class FloatRoot (F : Type) extends FloatArith F where
  /-- the literal `1.` -/
  one : F
  sqrt : F → F
  le : F → F → Bool

open FloatArith FloatRoot

/-- `DensityEnum`, plots.rs:199-205; the structs are those of plots.rs:153-177. -/
inductive Density (F : Type) where
  | constant (factor : F)
  | reziprocalLinear (factor : F)
  | reziprocalSquareRoot (factor : F)

/-- `new` of the three structs, plots.rs:162-168. -/
def newFactor {F : Type} [FloatRoot F] (factor : F) : R F :=
  if le zero factor && le factor one then pure factor else .error .assertFailed

/-- `DensityEnum::new`, plots.rs:208-219. -/
def newDensity {F : Type} [FloatRoot F] (densityType : String) (factor : F) : R (Density F) :=
  match densityType with
  | "constant" => do pure (.constant (← newFactor factor))
  | "reziprocal_linear" => do pure (.reziprocalLinear (← newFactor factor))
  | "reziprocal_square_root" => do pure (.reziprocalSquareRoot (← newFactor factor))
  | _ => .error .unreachable

/-- `Density::get`, plots.rs:179-197, 222-230. -/
def Density.get {F : Type} [FloatRoot F] (size : Nat) : Density F → R F
  | .constant factor => pure factor
  | .reziprocalLinear factor =>
    if 1 < size then pure (div factor (sub (FloatOps.ofUsize size) one)) else .error .assertFailed
  | .reziprocalSquareRoot factor =>
    if 1 < size then pure (div factor (sqrt (sub (FloatOps.ofUsize size) one))) else .error .assertFailed

section
variable {F σ : Type} [FloatOps F]

/-- The inner loop of `get_graph`, plots.rs:242-247. -/
def graphInner (rand : Rand F σ) (density : F) (this : Nat) :
    List Nat → List (List Nat) → σ → R (List (List Nat) × σ)
  | [], ret, s => pure (ret, s)
  | other :: others, ret, s =>
    let r := rand.sample s
    if FloatOps.lt r.1 density then do
      let ret ← GraphBuffer.pushAt ret this other
      let ret ← GraphBuffer.pushAt ret other this
      graphInner rand density this others ret r.2
    else graphInner rand density this others ret r.2

/-- The outer loop of `get_graph`, plots.rs:241-248; `this + 1..size` has `size - (this + 1)` elements. -/
def graphOuter (rand : Rand F σ) (density : F) (size : Nat) :
    List Nat → List (List Nat) → σ → R (List (List Nat) × σ)
  | [], ret, s => pure (ret, s)
  | this :: rest, ret, s => do
    let (ret, s) ← graphInner rand density this (List.range' (this + 1) (size - (this + 1))) ret s
    graphOuter rand density size rest ret s

/-- `get_graph`, plots.rs:232-250, after the density is known. -/
def graphWith (rand : Rand F σ) (density : F) (size : Nat) (s : σ) : R (List (List Nat) × σ) :=
  graphOuter rand density size (List.range (size - 1)) (List.replicate size []) s

/-- The filter in `get_order`, plots.rs:273-276: one sample per element of the pool. -/
def corrections (rand : Rand F σ) (density : F) : List Nat → σ → List Nat × σ
  | [], s => ([], s)
  | x :: xs, s =>
    let r := rand.sample s
    let rest := corrections rand density xs r.2
    (if FloatOps.lt r.1 density then x :: rest.1 else rest.1, rest.2)

/-- `frames.get_mut(correction).unwrap().z.set(k, true)`, plots.rs:278. -/
def setBit (frames : List (List Bool)) (correction k : Nat) : R (List (List Bool)) :=
  match frames[correction]? with
  | none => .error .unwrapFailed
  | some z =>
    if k < z.length then pure (frames.set correction (z.set k true)) else .error .assertFailed

/-- The loop over the corrections, plots.rs:277-279. -/
def setBits (k : Nat) : List Nat → List (List Bool) → R (List (List Bool))
  | [], frames => pure frames
  | c :: cs, frames => do
    let frames ← setBit frames c k
    setBits k cs frames

/-- The loop of `get_order`, plots.rs:268-281. `fuel` only makes the recursion structural: `orderWith`
passes the size of the pool, which shrinks by one in every iteration. -/
def orderLoop (rand : Rand F σ) (density : F) :
    Nat → List Nat → List (List Bool) → List Nat → σ → R (List (List Bool) × List Nat × σ)
  | 0, _, frames, map, s => pure (frames, map, s)
  | fuel + 1, pool, frames, map, s =>
    if pool.isEmpty then pure (frames, map, s)
    else do
      let (index, s) := rand.range pool.length s
      let bit ← idx pool index
      let pool := swapRemove pool index
      let (cs, s) := corrections rand density pool s
      let frames ← setBits map.length cs frames
      orderLoop rand density fuel pool frames (map ++ [bit]) s

/-- `get_order`, plots.rs:252-281, after the density is known and up to the call of
`induced_order::get_order`: the `z` parts of the frames (the `x` parts stay zero) and the map. -/
def orderWith (rand : Rand F σ) (density : F) (size : Nat) (s : σ) :
    R (List (List Bool) × List Nat × σ) :=
  orderLoop rand density size (List.range size) (List.replicate size (List.replicate size false)) [] s

end

section
variable {F σ : Type} [FloatRoot F]

/-- `get_graph`, plots.rs:232-250. -/
def getGraph (rand : Rand F σ) (density : Density F) (size : Nat) (s : σ) : R (List (List Nat) × σ) :=
  if size = 0 then pure ([], s)
  else do
    let density ← density.get size
    graphWith rand density size s

/-- `get_order`, plots.rs:252-283. `induced` is `induced_order::get_order`. -/
def getOrder (induced : List (List Bool) → List Nat → OrderGraph) (rand : Rand F σ)
    (density : Density F) (size : Nat) (s : σ) : R (OrderGraph × σ) :=
  if size = 0 then pure ([], s)
  else do
    let density ← density.get size
    let (frames, map, s) ← orderWith rand density size s
    pure (induced frames map, s)

/-- What one shot depends on besides its arguments: the environments of the three searches. -/
structure Shot (F τ : Type) where
  timeOptimal : Env F τ
  approx : Env F τ
  full : Env F τ

/-- `NCPUS`, lib.rs:5. -/
def ncpus : Nat := 30

/-- `NUM_AVERAGE`, lib.rs:7. -/
def numAverage : Nat := 3000

/-- `results[i].push(p.time); results[i + 1].push(p.space)`. -/
def pushPath (i : Nat) (results : List (List Nat)) : Option Path → R (List (List Nat))
  | none => pure results
  | some p => do
    let results ← GraphBuffer.pushAt results i p.time
    GraphBuffer.pushAt results (i + 1) p.space

/-- The body of the loop in `do_it`, plots.rs:42-93. `timeout` in milliseconds. `none`: the environment
does not complete one of the searches. -/
def doShot {τ : Type} (induced : List (List Bool) → List Nat → OrderGraph) (rand : Rand F σ)
    (size : Nat) (edgeDensity correctionDensity : Density F) (timeout : Nat) (getFull : Bool)
    (shot : Shot F τ) (results : List (List Nat)) (s : σ) : R (Option (List (List Nat) × σ)) := do
  let (graph, s) ← getGraph rand edgeDensity size s
  let (order, s) ← getOrder induced rand correctionDensity size s
  let timeOptimal ← run shot.timeOptimal graph order { doSearch := false }
  let (seed, s) := rand.gen s
  let approx ← run shot.approx graph order
    { doSearch := true, timeout := some timeout, nthreads := ncpus,
      probabilistic := some (AcceptFunc.builtinHeavyside.getAcceptFunc, some seed) }
  let full ←
    if getFull then run shot.full graph order { doSearch := true, nthreads := ncpus }
    else pure (some [])
  match timeOptimal, approx, full with
  | some timeOptimal, some approx, some full =>
    match timeOptimal.head? with
    | none => .error .unwrapFailed
    | some p => do
      let results ← pushPath 0 results (some p)
      let results ← pushPath 2 results approx.getLast?
      if getFull then do
        let results ← pushPath 4 results full.head?
        let results ← pushPath 6 results full.getLast?
        pure (some (results, s))
      else pure (some (results, s))
  | _, _, _ => pure none

/-- The loop of `do_it`, plots.rs:41-94. -/
def doShots {τ : Type} (induced : List (List Bool) → List Nat → OrderGraph) (rand : Rand F σ)
    (size : Nat) (edgeDensity correctionDensity : Density F) (timeout : Nat) (getFull : Bool) :
    List (Shot F τ) → List (List Nat) → σ → R (Option (List (List Nat) × σ))
  | [], results, s => pure (some (results, s))
  | shot :: shots, results, s => do
    match ← doShot induced rand size edgeDensity correctionDensity timeout getFull shot results s with
    | none => pure none
    | some (results, s) =>
      doShots induced rand size edgeDensity correctionDensity timeout getFull shots results s

/-- The numbers collected by `do_it`, plots.rs:26-94; `shots` has `numAverage` elements. -/
def doIt {τ : Type} (induced : List (List Bool) → List Nat → OrderGraph) (rand : Rand F σ)
    (size : Nat) (edgeDensity correctionDensity : Density F) (timeout : Nat) (getFull : Bool)
    (shots : List (Shot F τ)) (s : σ) : R (Option (List (List Nat) × σ)) :=
  doShots induced rand size edgeDensity correctionDensity timeout getFull shots
    (List.replicate (if getFull then 8 else 4) []) s

end

/-! ## Timeouts, in nanoseconds -/

/-- `timeout_per_single_shot_sweep`, lib.rs:12-14: evaluated at compile time, an overflow is a compile
error (`none`). -/
def timeoutPerSingleShotSweep (walltime buffer : Nat) : Option Nat :=
  if walltime * 3600 < buffer * 60 then none
  else if 2 ^ 64 ≤ (walltime * 3600 - buffer * 60) * 1000000000 then none
  else some ((walltime * 3600 - buffer * 60) * 1000000000 / numAverage)

namespace DensitySweep

/-- `WALLTIME`, `NUM_DENSITIES`, density.rs:14, 18. -/
def walltime : Nat := 10
def numDensities : Nat := 21

/-- `TIMEOUT_PER_SINGLE_SHOT_SWEEP`, density.rs:15-16. -/
def sweep : Nat := (timeoutPerSingleShotSweep walltime 30).getD 0

/-- `timeouts`, density.rs:26-32. -/
def timeouts (sweep : Nat) : List Nat := 0 :: List.replicate numDensities (sweep / numDensities)

end DensitySweep

namespace NodeSweep

/-- `WALLTIME`, `MAX_SIZE`, node.rs:22, 27. -/
def walltime : Nat := 192
def maxSize : Nat := 45

/-- `REAL_TIMEOUT_PER_SINGLE_SHOT_SWEEP`, node.rs:24-25, 32, 36-37. -/
def realSweep : Nat := (timeoutPerSingleShotSweep walltime 120).getD 0 - 5000000000

/-- `x.round() as u64` for the values that occur: NaN and negative numbers give 0. Simplification: no
upper bound. -/
noncomputable def roundU64 : F64 → Nat
  | .fin x => (round x).toNat
  | _ => 0

/-- The factor `a`, node.rs:45-46. -/
noncomputable def factor (realSweep maxSize : Nat) : F64 :=
  F64.div (F64.ofUsize realSweep)
    (F64.sub (F64.mul (F64.div (.fin 1) (.fin 6))
      (F64.ofUsize (maxSize * (maxSize + 1) * (2 * maxSize + 1)))) (.fin 1))

/-- One entry, node.rs:48-51. -/
noncomputable def timeout (realSweep maxSize size : Nat) : Nat :=
  roundU64 (F64.mul (factor realSweep maxSize) (F64.powi (F64.ofUsize size) 2)) - 5000000

/-- `timeouts`, node.rs:43-54: the entries 0 and 1 are zero. -/
noncomputable def timeouts (realSweep maxSize : Nat) : List Nat :=
  (List.range (maxSize + 1)).map fun size => if size < 2 then 0 else timeout realSweep maxSize size

end NodeSweep
end Verif.Results
