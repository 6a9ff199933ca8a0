import Verif.Model.Statistics
/-!
# Model of `results/plotting` and of the measured times in `results/src/plots.rs`

What the three figures of the publication draw, as a function of the fields `results` and `time_results` of the output
files. Not modelled: the appearance (colours, labels, ticks, sizes), reading the files, the names of the files.
In a JSON file `serde_json` writes `null` for a number that is not finite; `json.load` makes `None` of it.
-/

namespace Verif.Results

/-- The errors of Python that the scripts can run into. -/
inductive PyError where
  | indexError
  /-- `matplotlib`: x and y must have the same first dimension -/
  | valueError
  /-- comparison with `None` -/
  | typeError
  /-- `open` -/
  | fileNotFoundError
  /-- `int(float("inf"))` -/
  | overflowError
  deriving DecidableEq, Repr

/-- `Times`, plots.rs:124-129; durations in nanoseconds. -/
structure Times where
  timeOptimal : Nat
  spaceOptimalApproximated : Nat
  full : Option Nat
  deriving DecidableEq, Repr

/-- `Times::average`, plots.rs:144-146: the `try_into::<u64>` fails for numbers that are too large. -/
def Times.average (time : Nat) : R Nat :=
  let t := time / numAverage
  if t < 2 ^ 64 then .ok t else .error .unwrapFailed

/-- `Times::from_total`, plots.rs:132-142. -/
def Times.fromTotal (timeOptimal spaceOptimalApproximated : Nat) (full : Option Nat) : R Times := do
  let t ← Times.average timeOptimal
  let a ← Times.average spaceOptimalApproximated
  match full with
  | none => pure ⟨t, a, none⟩
  | some f => pure ⟨t, a, some (← Times.average f)⟩

/-- The `Serialize` of `std::time::Duration`: `{"secs": …, "nanos": …}`. -/
def durationJson (t : Nat) : Nat × Nat := (t / 10 ^ 9, t % 10 ^ 9)

/-- The field `time_results` of `node::run`, node.rs:98-123: `total size` are the three sums of the elapsed times in the
call of `do_it` for `size` (plots.rs:38-66). -/
def nodeTimes (total : Nat → Nat × Nat × Nat) : R (List Times) :=
  (List.range' 2 (NodeSweep.maxSize - 1)).mapM fun size =>
    Times.fromTotal (total size).1 (total size).2.1
      (if size ≤ NodeSweep.maxExactSize then some (total size).2.2 else none)

/-- The field `time_results` of `density::run`, density.rs:69-94. -/
def densityTimes (total : Nat → Nat × Nat) : R (List Times) :=
  (List.range' 1 DensitySweep.numDensities).mapM fun k => Times.fromTotal (total k).1 (total k).2 none

/-- What `serde_json` writes and `json.load` reads of a number. The text in between is exact: `serde_json` writes enough
digits, and both round correctly. -/
noncomputable def jsonNumber : F64 → Option ℝ
  | .fin x => some x
  | .inf _ => none
  | .nan => none

namespace Plot

/-- `data[i]` of a Python list. -/
def index {α : Type} (l : List α) (i : Nat) : Except PyError α :=
  match l[i]? with
  | some x => .ok x
  | none => .error .indexError

/-- `ac.plot(xs, ys)`: the points of the curve. -/
def curve {α : Type} (xs : List Nat) (ys : List α) : Except PyError (List (Nat × α)) :=
  if xs.length = ys.length then .ok (xs.zip ys) else .error .valueError

/-- One figure of `nodes.py`: the curves in the two panels, and the limits of both x axes. -/
structure NodeFigure (α : Type) where
  time : List (List (Nat × α))
  space : List (List (Nat × α))
  xlim : Nat × Nat

/-- The loop of `main`, nodes.py:53-69, for the given values of `i`; the last number is `max_x`. -/
def nodeLoop {α : Type} (data : List (List α)) : List Nat → Nat →
    Except PyError (List (List (Nat × α)) × List (List (Nat × α)) × Nat)
  | [], maxX => .ok ([], [], maxX)
  | i :: is, maxX => do
    let time ← index data (i * 4)
    let space ← index data (i * 4 + 2)
    let length := time.length
    let maxX := max maxX length
    let t ← curve (List.range' 2 length) time
    let s ← curve (List.range' 2 length) space
    let (ts, ss, maxX) ← nodeLoop data is maxX
    pure (t :: ts, s :: ss, maxX)

/-- `main`, nodes.py:31-84. -/
def nodes {α : Type} (data : List (List α)) : Except PyError (NodeFigure α) := do
  let (ts, ss, maxX) ← nodeLoop data (List.range 4) 0
  pure ⟨ts, ss, (2, maxX)⟩

/-- The colour range in `draw_images`, densities.py:121-125: the numbers of one row of an image, starting with the
smallest and the largest number so far. -/
def colourRange {α : Type} (lt : α → α → Bool) : List (Option α) → α → α → Except PyError (α × α)
  | [], lo, hi => .ok (lo, hi)
  | none :: _, _, _ => .error .typeError
  | some d :: ds, lo, hi => colourRange lt ds (if lt d lo then d else lo) (if lt hi d then d else hi)

/-- The inner loop of `draw_images`, densities.py:119-125, with `map = [0, 1, 2, 3]`: the rows that one file adds to the
four images. -/
def imageRows {α : Type} (lt : α → α → Bool) (dat : List (List (Option α))) :
    List Nat → α → α → Except PyError (List (List (Option α)) × α × α)
  | [], lo, hi => .ok ([], lo, hi)
  | i :: is, lo, hi => do
    let row ← index dat (2 * i)
    let (lo, hi) ← colourRange lt row lo hi
    let (rows, lo, hi) ← imageRows lt dat is lo hi
    pure (row :: rows, lo, hi)

/-- The loop over the files in `draw_images`, densities.py:117-125. -/
def imageLoop {α : Type} (lt : α → α → Bool) :
    List (List (List (Option α))) → List (List (List (Option α))) → α → α →
      Except PyError (List (List (List (Option α))) × α × α)
  | [], images, lo, hi => .ok (images, lo, hi)
  | dat :: dats, images, lo, hi => do
    let (rows, lo, hi) ← imageRows lt dat (List.range 4) lo hi
    imageLoop lt dats (List.zipWith (fun image row => image ++ [row]) images rows) lo hi

/-- `draw_images`, densities.py:108-133: the four images (row for row from the bottom: `origin="lower"`), `vmin` and `vmax`.
`files` are the fields `results` in the order of `parameters/density.dat`; `numnodes` and `zero` are the first values of
`min` and `max`. -/
def densities {α : Type} (lt : α → α → Bool) (numnodes zero : α) (files : List (List (List (Option α)))) :
    Except PyError (List (List (List (Option α))) × α × α) :=
  imageLoop lt files (List.replicate 4 []) numnodes zero

/-- `t["secs"] * 1000000000 + t["nanos"]`, runtimes.py:106, 136. -/
def nanos (t : Nat × Nat) : Nat := t.1 * 1000000000 + t.2

/-- The loop over the times of the sizes in `get_data`, runtimes.py:101-106: the numbers of the two curves. -/
def nodeRuntimes : List Times → List Nat × List Nat
  | [] => ([], [])
  | t :: ts =>
    let (spaceOptimal, full) := nodeRuntimes ts
    (nanos (durationJson t.spaceOptimalApproximated) :: spaceOptimal,
      match t.full with
      | none => full
      | some f => nanos (durationJson f) :: full)

/-- The curves of the left panel, runtimes.py:44-53. -/
def runtimeCurves (times : List Times) : List (Nat × Nat) × List (Nat × Nat) :=
  let (a, f) := nodeRuntimes times
  ((List.range' 2 a.length).zip a, (List.range' 2 f.length).zip f)

/-- The loop over the times of one file, runtimes.py:131-142. -/
def runtimeRow : List Times → Nat → Nat → List Nat × Nat × Nat
  | [], lo, hi => ([], lo, hi)
  | t :: ts, lo, hi =>
    let n := nanos (durationJson t.spaceOptimalApproximated)
    let (row, lo, hi) := runtimeRow ts (if n < lo then n else lo) (if n > hi then n else hi)
    (n :: row, lo, hi)

/-- The loop over the files, runtimes.py:128-143. -/
def runtimeImageLoop : List (List Times) → Nat → Nat → List (List Nat) × Nat × Nat
  | [], lo, hi => ([], lo, hi)
  | ts :: files, lo, hi =>
    let (row, lo, hi) := runtimeRow ts lo hi
    let (rows, lo, hi) := runtimeImageLoop files lo hi
    (row :: rows, lo, hi)

/-- The image in the right panel with `vmin` and `vmax`, runtimes.py:113-145. -/
def runtimeImage (files : List (List Times)) : List (List Nat) × Nat × Nat :=
  runtimeImageLoop files (999 * 60 * 1000000000) 0

end Plot
end Verif.Results
