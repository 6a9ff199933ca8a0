import Verif.Model.Results
/-!
# Model of the statistics in `results/src`: means, deviations and the layout of the output files

The values of the fields `results` of the two output files (`plots.rs`, `plots/node.rs`, `plots/density.rs`).
Not modelled: measuring the elapsed time (`time_results`), printing, writing the file.
-/

namespace Verif.Results

open Search FloatArith FloatRoot

/-- Addition of `f64`. -/
class FloatSum (F : Type) extends FloatRoot F where
  add : F → F → F

open FloatSum

section
variable {F σ τ : Type} [FloatSum F]

/-- `means[i]` after the loop of `do_it`: starts with 0.0 (plots.rs:36), and next to each `push` the same
number is added (plots.rs:69-91). -/
def total (row : List Nat) : F :=
  row.foldl (fun acc e => add acc (FloatOps.ofUsize e)) zero

/-- Mean and deviation of one row, plots.rs:97-112. -/
def statistics (row : List Nat) : F × F :=
  let actualNumAverage : F := FloatOps.ofUsize row.length
  let mean := div (total row) actualNumAverage
  let squares := row.map fun e => powi (sub (FloatOps.ofUsize e) mean) 2
  (mean, sqrt (div (squares.foldl add zero) actualNumAverage))

/-- `rows[i].push(x)`. -/
def pushRow (rows : List (List F)) (i : Nat) (x : F) : R (List (List F)) := do
  let row ← idx rows i
  pure (rows.set i (row ++ [x]))

/-- The loop over the result of `do_it`, node.rs:118-121 and density.rs:89-92, from index `i` on. -/
def pushStatistics : Nat → List (F × F) → List (List F) → R (List (List F))
  | _, [], rows => pure rows
  | i, (mean, deviation) :: rest, rows => do
    let rows ← pushRow rows (2 * i) mean
    let rows ← pushRow rows (2 * i + 1) deviation
    pushStatistics (i + 1) rest rows

/-- The arguments of one call of `do_it` except the generator, and the environments of its shots. -/
structure Point (F τ : Type) where
  size : Nat
  edge : Density F
  correction : Density F
  timeout : Nat
  getFull : Bool
  shots : List (Shot F τ)

/-- The loops of node.rs:98-123 and density.rs:69-94. -/
def sweepLoop (induced : List (List Bool) → List Nat → OrderGraph) (rand : Rand F σ) :
    List (Point F τ) → List (List F) → σ → R (Option (List (List F) × σ))
  | [], rows, s => pure (some (rows, s))
  | p :: ps, rows, s => do
    match ← doIt induced rand p.size p.edge p.correction p.timeout p.getFull p.shots s with
    | none => pure none
    | some (collected, s) => do
      let rows ← pushStatistics 0 (collected.map statistics) rows
      sweepLoop induced rand ps rows s

/-- `MAX_EXACT_SIZE`, node.rs:28. -/
def NodeSweep.maxExactSize : Nat := 20

/-- The calls of `do_it` in `node::run`, node.rs:34-35, 98-108. `timeouts` is the array of node.rs:89. -/
def nodePoints (edge correction : Density F) (timeouts : List Nat) (shots : Nat → List (Shot F τ)) :
    R (List (Point F τ)) :=
  (List.range' 2 (NodeSweep.maxSize - 1)).mapM fun size => do
    let timeout ← idx timeouts size
    pure ⟨size, edge, correction, timeout, size ≤ NodeSweep.maxExactSize, shots size⟩

/-- The field `results` of the output of `node::run`, node.rs:64-135. -/
def nodeRun (induced : List (List Bool) → List Nat → OrderGraph) (rand : Rand F σ)
    (edgeDensity : F) (edgeDensityType : String) (correctionDensity : F) (correctionDensityType : String)
    (timeouts : List Nat) (shots : Nat → List (Shot F τ)) (s : σ) : R (Option (List (List F))) := do
  let edge ← newDensity edgeDensityType edgeDensity
  let correction ← newDensity correctionDensityType correctionDensity
  let points ← nodePoints edge correction timeouts shots
  let r ← sweepLoop induced rand points (List.replicate 16 []) s
  pure (r.map (·.1))

/-- `density`, density.rs:21-23. -/
def constantDensity (multiplier : F) : R (Density F) := do
  pure (.constant (← newFactor (div multiplier
    (add (FloatOps.ofUsize DensitySweep.numDensities) one))))

/-- The calls of `do_it` in `density::run`, density.rs:69-81. -/
def densityPoints (size : Nat) (edge : Density F) (timeouts : List Nat) (shots : Nat → List (Shot F τ)) :
    List Nat → R (List (Point F τ))
  | [] => pure []
  | k :: ks => do
    let correction ← constantDensity (FloatOps.ofUsize k)
    let timeout ← idx timeouts k
    let rest ← densityPoints size edge timeouts shots ks
    pure (⟨size, edge, correction, timeout, false, shots k⟩ :: rest)

/-- The field `results` of the output of `density::run`, density.rs:40-106. Simplification: all densities are
evaluated before the first call of `do_it`. -/
def densityRun (induced : List (List Bool) → List Nat → OrderGraph) (rand : Rand F σ)
    (numNodes : Nat) (edgeDensityMultiplier : F)
    (timeouts : List Nat) (shots : Nat → List (Shot F τ)) (s : σ) : R (Option (List (List F))) := do
  let edge ← constantDensity edgeDensityMultiplier
  let points ← densityPoints numNodes edge timeouts shots (List.range' 1 DensitySweep.numDensities)
  let r ← sweepLoop induced rand points (List.replicate 8 []) s
  pure (r.map (·.1))

end

/-! ## `f64` -/

/-- Addition: subtract the negative. -/
noncomputable def _root_.Verif.F64.add (x y : F64) : F64 := F64.sub x (F64.neg y)

noncomputable def _root_.Verif.F64.sqrt : F64 → F64
  | .fin x => by classical exact if x < 0 then .nan else .fin (rnd (Real.sqrt x))
  | .inf s => if s then .nan else .inf false
  | .nan => .nan

noncomputable def _root_.Verif.F64.leb : F64 → F64 → Bool
  | .fin x, .fin y => by classical exact decide (x ≤ y)
  | .inf s, .fin _ => s
  | .fin _, .inf s => !s
  | .inf s, .inf t => s || !t
  | _, _ => false

noncomputable instance : FloatSum F64 where
  one := .fin 1
  sqrt := F64.sqrt
  le := F64.leb
  add := F64.add

end Verif.Results
