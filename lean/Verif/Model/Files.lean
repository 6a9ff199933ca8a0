import Mathlib.Data.Nat.Digits.Defs
import Verif.Model.Cli
import Verif.Model.Plot
/-!
# Model of the files of the published data: `results/src/cli.rs`, the scripts, the names of the files

How a line of `results/parameters/*.dat` becomes the arguments of `results`, the name of the file that is written, and
the name of the file that the plots read. Simplifications: the directories (`output`, `data`) are left out, the files
are all in one directory; words that begin with a hyphen are usage errors (options, `--help`, `--` and negative
numbers); patterns and quotes mean nothing to the shell.
-/

namespace Verif.Files

open Results

abbrev Text := List Char

/-! ## Numbers as text -/

/-- The shortest decimal number that is read back as a given finite `f64`: plus or minus `0.d₁d₂d₃… · 10^point`. Zero
has no digits. Both languages calculate it (`core::num::flt2dec`, `ryu`, `float.__repr__`) and differ in how they write
it. -/
structure Decimal where
  neg : Bool
  digits : List Nat
  point : Int
  deriving DecidableEq, Repr

def digitChar (k : Nat) : Char := Char.ofNat (48 + k)

def digitsText (ds : List Nat) : Text := ds.map digitChar

def zeros (n : Nat) : Text := List.replicate n '0'

/-- `Display` of `usize`; `str` of a nonnegative `int`. -/
def natText (n : Nat) : Text := if n = 0 then ['0'] else digitsText (Nat.digits 10 n).reverse

def signText (neg : Bool) : Text := if neg then ['-'] else []

/-- `str` of an `int`. -/
def intText (i : Int) : Text := signText (i < 0) ++ natText i.natAbs

/-- `12.34`, for `0 < point < digits.length`. -/
def splitText (d : Decimal) : Text :=
  digitsText (d.digits.take d.point.toNat) ++ ['.'] ++ digitsText (d.digits.drop d.point.toNat)

/-- `0.001234`, for `point ≤ 0`. -/
def smallText (d : Decimal) : Text := "0.".toList ++ zeros (-d.point).toNat ++ digitsText d.digits

/-- `123400`, for `digits.length ≤ point`. -/
def largeText (d : Decimal) : Text := digitsText d.digits ++ zeros (d.point.toNat - d.digits.length)

/-- `1` or `1.234`, in front of an exponent. -/
def mantissa : List Nat → Text
  | [] => []
  | [k] => [digitChar k]
  | k :: k' :: ks => digitChar k :: '.' :: digitsText (k' :: ks)

/-- `Display` of `f64` in Rust: never with an exponent, and whole numbers without a point. -/
def rustDisplay (d : Decimal) : Text :=
  signText d.neg ++
    if d.digits = [] then ['0']
    else if d.point ≤ 0 then smallText d
    else if d.point.toNat < d.digits.length then splitText d
    else largeText d

/-- `ryu::Buffer::format_finite` (1.0), with which `serde_json` writes an `f64`. -/
def ryu (d : Decimal) : Text :=
  signText d.neg ++
    if d.digits = [] then "0.0".toList
    else if (d.digits.length : Int) ≤ d.point ∧ d.point ≤ 16 then largeText d ++ ".0".toList
    else if 0 < d.point ∧ d.point ≤ 16 then splitText d
    else if -5 < d.point ∧ d.point ≤ 0 then smallText d
    else mantissa d.digits ++ ['e'] ++ intText (d.point - 1)

/-- The exponent in Python: with a sign, and at least two digits. -/
def pyExponent (i : Int) : Text :=
  (if i < 0 then ['-'] else ['+']) ++ (if i.natAbs < 10 then ['0'] else []) ++ natText i.natAbs

/-- `repr` of a `float` in Python (`format_float_short` in `Python/pystrtod.c`), which an f-string uses, too. -/
def pyRepr (d : Decimal) : Text :=
  signText d.neg ++
    if d.digits = [] then "0.0".toList
    else if d.point ≤ -4 ∨ 16 < d.point then mantissa d.digits ++ ['e'] ++ pyExponent (d.point - 1)
    else if d.point ≤ 0 then smallText d
    else if d.point.toNat < d.digits.length then splitText d
    else largeText d ++ ".0".toList

/-- `int` of a `float` in Python: the digits in front of the point. (Below `2^53` this is the same for a number and its
shortest decimal number, because whole numbers are exact there.) -/
def pyInt (d : Decimal) : Int :=
  let whole := d.digits.take d.point.toNat ++ List.replicate (d.point.toNat - d.digits.length) 0
  let n : Int := (Nat.ofDigits 10 whole.reverse : Nat)
  if d.neg then -n else n

/-- What is used of `f64` and text: `f64::from_str`, `float(…)` of Python, and the shortest decimal number (`none`: infinite or
NaN). -/
structure Floats (F : Type) where
  rustParse : Text → Option F
  pyParse : Text → Option F
  decimal : F → Option Decimal

/-! ## The command line, `results/src/cli.rs` -/

/-- `plots::Args` with `node::Args` and `density::Args`; plots.rs:21-24, node.rs:57-62, density.rs:35-38. -/
inductive Args (F : Type) where
  | node (edgeDensity : F) (edgeDensityType : String) (correctionDensity : F) (correctionDensityType : String)
  | density (numNodes : Nat) (edgeDensityMultiplier : F)
  deriving DecidableEq

/-- `usize::from_str`. -/
def parseUsize (t : Text) : Option Nat :=
  let digits := match t with
    | '+' :: ds => ds
    | ds => ds
  if digits = [] then none
  else (Cli.parseDigits 0 digits).bind fun n => if n < 2 ^ 64 then some n else none

/-- The positional arguments of the subcommand, in the order in which they are added to it; cli.rs:28-35. -/
def positionals (name : Text) : Option (List String) :=
  if name = "node".toList then
    some ["edge_density", "correction_density", "edge_density_type", "correction_density_type"]
  else if name = "density".toList then some ["num_nodes", "edge_density"]
  else none

/-- `ArgMatches::remove_one`. -/
def removeOne (m : List (String × Text)) (id : String) : Option Text :=
  (m.find? fun e => e.1 == id).map (·.2)

/-- `parse`, cli.rs:38-54, with `build`, cli.rs:5-36; `none`: the program ends with an error or with the help. All positional
arguments are required; the densities have `value_parser!(f64)`, the number of nodes `value_parser!(usize)`. -/
def parse {F : Type} (fl : Floats F) : List Text → Option (Args F)
  | [] => none
  | name :: values => do
    let ids ← positionals name
    if values.length ≠ ids.length ∨ values.any (fun v => v.head? == some '-') then none
    else
      let m := ids.zip values
      if name = "node".toList then do
        let edgeDensity ← (removeOne m "edge_density").bind fl.rustParse
        let edgeDensityType ← removeOne m "edge_density_type"
        let correctionDensity ← (removeOne m "correction_density").bind fl.rustParse
        let correctionDensityType ← removeOne m "correction_density_type"
        pure (.node edgeDensity (String.ofList edgeDensityType) correctionDensity
          (String.ofList correctionDensityType))
      else do
        let numNodes ← (removeOne m "num_nodes").bind parseUsize
        let edgeDensityMultiplier ← (removeOne m "edge_density").bind fl.rustParse
        pure (.density numNodes edgeDensityMultiplier)

/-! ## Writing the files -/

section
variable {F : Type}

/-- `{}` of an `f64`. -/
def displayText (fl : Floats F) (x : F) : Text := ((fl.decimal x).map rustDisplay).getD "NaN".toList

/-- `serde_json::to_string` of an `f64`. -/
def jsonText (fl : Floats F) (x : F) : Text := ((fl.decimal x).map ryu).getD "null".toList

/-- `serde_json::to_string` of a struct of plots.rs:156-160 with the name of its field, plots.rs:173-177. -/
def densityJson (fl : Floats F) (name : Text) (factor : F) : Text :=
  "{\"".toList ++ name ++ "\":".toList ++ jsonText fl factor ++ "}".toList

/-- `output_file` of node.rs:72-77. The names of the fields are those that `DensityEnum::new` compares with. -/
def nodeFile (fl : Floats F) (edgeDensity : F) (edgeDensityType : String) (correctionDensity : F)
    (correctionDensityType : String) : Text :=
  ("node-".toList ++ densityJson fl edgeDensityType.toList edgeDensity ++ "_".toList ++
    densityJson fl correctionDensityType.toList correctionDensity ++ ".json".toList).filter
      fun c => !(c == '{' || c == '"' || c == '}')

/-- `output_file` of density.rs:48-51. -/
def densityFile (fl : Floats F) (numNodes : Nat) (edgeDensityMultiplier : F) : Text :=
  "density-numnodes:".toList ++ natText numNodes ++ "_numdensities:".toList ++ natText DensitySweep.numDensities ++
    "_density:".toList ++ displayText fl edgeDensityMultiplier ++ ".json".toList

def fileName (fl : Floats F) : Args F → Text
  | .node e eTy c cTy => nodeFile fl e eTy c cTy
  | .density n m => densityFile fl n m

/-- The files of a directory. -/
abbrev Disk (α : Type) := Text → Option α

variable {α : Type}

/-- `File::create` and `to_writer`, node.rs:138, density.rs:109. -/
def write (disk : Disk α) (name : Text) (content : α) : Disk α :=
  fun n => if n = name then some content else disk n

/-- One run of the program, main.rs:1-3 and lib.rs:19-24. `job` is what a run calculates (`nodeRun`, `densityRun`), and
`none` when it panics or does not come to an end: the file is created last. -/
def execute (fl : Floats F) (job : Args F → Option α) (disk : Disk α) (words : List Text) : Disk α :=
  match parse fl words with
  | none => disk
  | some args =>
    match job args with
    | none => disk
    | some content => write disk (fileName fl args) content

/-! ## The scripts -/

/-- Separate at the characters with `p`. -/
def splitAtP (p : Char → Bool) : Text → List Text
  | [] => [[]]
  | c :: cs =>
    if p c then [] :: splitAtP p cs
    else
      match splitAtP p cs with
      | [] => [[c]]
      | w :: ws => (c :: w) :: ws

/-- Word splitting of the shell. -/
def shellWords (t : Text) : List Text :=
  (splitAtP (fun c => c == ' ' || c == '\t') t).filter (· ≠ [])

/-- exe_density_local.bash: the loop over the lines of `parameters/density.dat`. -/
def densityLocal (fl : Floats F) (job : Args F → Option α) (lines : List Text) (disk : Disk α) : Disk α :=
  lines.foldl (fun disk para => execute fl job disk ("density".toList :: shellWords para)) disk

/-- exe_density_hpc.bash: the jobs with the given array indices (`#PBS -J 1-21`), in the order in which they end. -/
def densityHpc (fl : Floats F) (job : Args F → Option α) (lines : List Text) (indices : List Nat) (disk : Disk α) :
    Disk α :=
  indices.foldl (fun disk i =>
    execute fl job disk ("density".toList :: shellWords (lines.getD (i - 1) []))) disk

/-- exe_node_hpc.bash: the first line of `parameters/node.dat`. -/
def nodeHpc (fl : Floats F) (job : Args F → Option α) (lines : List Text) (disk : Disk α) : Disk α :=
  execute fl job disk ("node".toList :: shellWords (lines.getD 0 []))

/-! ## Reading the files -/

/-- `float(text)`. -/
def pyFloat (fl : Floats F) (t : Text) : Except PyError F :=
  match fl.pyParse t with
  | some x => .ok x
  | none => .error .valueError

/-- One line in `get_parameters`, utils.py:8-9. -/
def pyParameter (fl : Floats F) (line : Text) : Except PyError (F × F) := do
  let pair := splitAtP (· == ' ') line
  let first ← pyFloat fl (← Plot.index pair 0)
  let second ← pyFloat fl (← Plot.index pair 1)
  pure (first, second)

/-- `get_parameters`, utils.py:4-10, on the lines of the file. -/
def getParameters (fl : Floats F) (lines : List Text) : Except PyError (List (F × F)) :=
  lines.mapM (pyParameter fl)

/-- `open(file, "r")` and `json.load`. -/
def readFile (disk : Disk α) (name : Text) : Except PyError α :=
  match disk name with
  | some content => .ok content
  | none => .error .fileNotFoundError

/-- `get_data`, densities.py:90-97, with `numnodes` and `numdensity` of densities.py:14-15. (`int` of NaN is another
error than `int` of infinity; here they are one.) -/
def densityData (fl : Floats F) (disk : Disk α) (parameter : F × F) : Except PyError α :=
  match fl.decimal parameter.2 with
  | none => .error .overflowError
  | some d =>
    readFile disk ("density-numnodes:".toList ++ natText 20 ++ "_numdensities:".toList ++ natText 21 ++
      "_density:".toList ++ intText (pyInt d) ++ ".json".toList)

/-- `get_data`, nodes.py:150-157; the types are constants there, nodes.py:11-12. -/
def nodeData (fl : Floats F) (edgeDensityType correctionDensityType : String) (disk : Disk α) (parameter : F × F) :
    Except PyError α :=
  let text x := ((fl.decimal x).map pyRepr).getD "nan".toList
  readFile disk ("node-".toList ++ edgeDensityType.toList ++ ":".toList ++ text parameter.1 ++ "_".toList ++
    correctionDensityType.toList ++ ":".toList ++ text parameter.2 ++ ".json".toList)

/-- The files that `draw_images`, densities.py:111-118, and runtimes.py:112-127 load, in their order. -/
def densityInputs (fl : Floats F) (lines : List Text) (disk : Disk α) : Except PyError (List α) := do
  (← getParameters fl lines).mapM (densityData fl disk)

/-- The file that nodes.py:47-50 and runtimes.py:94-95 load. -/
def nodeInput (fl : Floats F) (edgeDensityType correctionDensityType : String) (lines : List Text) (disk : Disk α) :
    Except PyError α := do
  let parameters ← getParameters fl lines
  let para ← Plot.index parameters 0
  nodeData fl edgeDensityType correctionDensityType disk para

end

end Verif.Files
