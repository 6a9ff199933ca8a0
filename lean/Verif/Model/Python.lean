import Verif.Model.Probabilistic
/-!
# Model of the Python package, `python_lib/rust/src/lib.rs` and `python_lib/rust/src/probabilistic.rs`

The conversion of arguments is done by `pyo3`, which is not part of the repository; what is used of it is
that an integer is accepted for `uN` exactly if it is in the range, and that the arguments are converted
from left to right. Not modelled: `serialize`/`deserialize` of the classes (a macro of another crate).
Callbacks that have a state, raise or do not return a number are in `Verif.Model.Callback`.
-/

namespace Verif.Python

open Search

/-- The Python exceptions that the wrapper raises itself or passes on. -/
inductive PyErr where
  /-- `PyValueError` -/
  | value
  /-- an integer that is out of range -/
  | overflow
  /-- the warning, if the interpreter turns warnings into exceptions -/
  | warning
  /-- whatever the method of a foreign object raises -/
  | foreign
  deriving DecidableEq, Repr

/-- A Python integer as `uN`. -/
def extractInt (bits : Nat) (x : Int) : Except PyErr Nat :=
  if 0 ≤ x ∧ x < 2 ^ bits then .ok x.toNat else .error .overflow

/-- A Python list as `Vec<T>`: the first element that cannot be converted raises. -/
def extractList {α β : Type} (f : α → Except PyErr β) : List α → Except PyErr (List β)
  | [] => .ok []
  | x :: xs =>
    match f x with
    | .error e => .error e
    | .ok y =>
      match extractList f xs with
      | .error e => .error e
      | .ok ys => .ok (y :: ys)

/-- An optional argument. -/
def extractOpt {α β : Type} (f : α → Except PyErr β) : Option α → Except PyErr (Option β)
  | none => .ok none
  | some x =>
    match f x with
    | .error e => .error e
    | .ok y => .ok (some y)

/-- `SpacialGraph.__new__`, lib.rs:22-25. -/
def newSpacialGraph (graph : List (List Int)) : Except PyErr (List (List Nat)) :=
  extractList (extractList (extractInt 64)) graph

/-- The Python class `Path`, lib.rs:115-130. -/
structure PyPath where
  time : Nat
  space : Nat
  steps : List (List Nat)
  deriving DecidableEq

/-- `Path.__new__`, lib.rs:134-137. -/
def newPath (time space : Int) (steps : List (List Int)) : Except PyErr PyPath :=
  match extractInt 64 time with
  | .error e => .error e
  | .ok time =>
    match extractInt 64 space with
    | .error e => .error e
    | .ok space =>
      match extractList (extractList (extractInt 64)) steps with
      | .error e => .error e
      | .ok steps => .ok ⟨time, space, steps⟩

/-- `Paths.__new__`, lib.rs:65-73. -/
def newPaths (paths : List PyPath) : List Path :=
  paths.map fun p => { time := p.time, space := p.space, steps := p.steps }

/-- `Paths::transformation`, lib.rs:105-110. -/
def transformation (paths : List Path) : List PyPath :=
  paths.map fun p => { time := p.time, space := p.space, steps := p.steps }

/-- The methods of the opaque classes: `into_py_…` and `take_into_py_…`. -/
inductive Method where
  | into
  | take
  deriving DecidableEq

/-- `Paths.into_py_paths` and `Paths.take_into_py_paths`, lib.rs:85-101: the object afterwards, and what
is returned. -/
def Method.paths (obj : List Path) : Method → List Path × List PyPath
  | .into => (obj, transformation obj)
  | .take => ([], transformation obj)

/-- `SpacialGraph.into_py_graph` and `SpacialGraph.take_into_py_graph`, lib.rs:37-52. -/
def Method.graph (obj : List (List Nat)) : Method → List (List Nat) × List (List Nat)
  | .into => (obj, obj)
  | .take => ([], obj)

/-- A sequence of calls on one object. -/
def calls {α β : Type} (f : α → Method → α × β) (obj : α) : List Method → α × List β
  | [] => (obj, [])
  | c :: cs =>
    let r := f obj c
    let s := calls f r.1 cs
    (s.1, r.2 :: s.2)

/-- `AcceptFuncBase`, probabilistic.rs:48-54. Simplification: the callback is a function. -/
inductive AcceptFuncBase (F : Type) where
  | builtinHeavyside
  | parametrizedHeavyside (param : HeavysideParameters F)
  | custom (f : Accept F)

/-- `HeavysideParameters.__new__`, probabilistic.rs:12-29. -/
def newHeavysideParameters {F : Type} (cutoff : F) (linNumTotalNodesExp expNumTotalNodesExp
    expNumRemainingNodesExp expDiffExp expNumMeasuredNodesExp : Int) :
    Except PyErr (HeavysideParameters F) :=
  let i32 (x : Int) : Bool := -2 ^ 31 ≤ x && x < 2 ^ 31
  if i32 linNumTotalNodesExp && i32 expNumTotalNodesExp && i32 expNumRemainingNodesExp &&
      i32 expDiffExp && i32 expNumMeasuredNodesExp then
    .ok ⟨cutoff, linNumTotalNodesExp, expNumTotalNodesExp, expNumRemainingNodesExp, expDiffExp,
      expNumMeasuredNodesExp⟩
  else .error .overflow

/-- `AcceptFunc.__new__`, probabilistic.rs:64-99. `none`: the argument is not given. -/
def newAcceptFunc {F : Type} (kind : Option String) (heavysideParameters : Option (HeavysideParameters F))
    (customFunc : Option (Accept F)) : Except PyErr (AcceptFuncBase F) :=
  match kind.getD "BuiltinHeavyside" with
  | "BuiltinHeavyside" => .ok .builtinHeavyside
  | "ParametrizedHeavyside" =>
    match heavysideParameters with
    | some p => .ok (.parametrizedHeavyside p)
    | none => .error .value
  | "Custom" =>
    match customFunc with
    | some f => .ok (.custom f)
    | none => .error .value
  | _ => .error .value

/-- `AcceptFunc::to_real`, probabilistic.rs:122-159: the callback is called with the seven arguments in
their order. -/
def AcceptFuncBase.toReal {F : Type} : AcceptFuncBase F → AcceptFunc F
  | .builtinHeavyside => .builtinHeavyside
  | .parametrizedHeavyside param => .parametrizedHeavyside param
  | .custom func => .custom fun boundBestMem minimalMem lastMaxMem lastCurMem curMem numRemainingNodes
      numTotalNodes =>
    func boundBestMem minimalMem lastMaxMem lastCurMem curMem numRemainingNodes numTotalNodes

/-- The argument `time_order` of `run`. -/
inductive TimeOrder where
  /-- an instance of the class `PartialOrderGraph` of the package -/
  | own (order : OrderGraph)
  /-- any other object; the result of its method `into_py_graph` -/
  | other (intoPyGraph : Except PyErr OrderGraph)

/-- The optional arguments of `run`, lib.rs:205-213; `none`: not given. -/
structure RunArgs (F : Type) where
  doSearch : Option Bool := none
  timeout : Option (Option Int) := none
  nthreads : Option Int := none
  probabilistic : Option (Option (AcceptFuncBase F × Option Int)) := none
  taskBound : Option (Option Int) := none

/-- The arguments after the conversion, lib.rs:223-227. -/
structure Converted (F : Type) where
  doSearch : Bool
  timeout : Option Nat
  nthreads : Nat
  probabilistic : Option (AcceptFuncBase F × Option Nat)
  taskBound : Option Nat

/-- An accept function with an optional seed, lib.rs:226. -/
def extractProb {F : Type} (x : AcceptFuncBase F × Option Int) : Except PyErr (AcceptFuncBase F × Option Nat) :=
  match extractOpt (extractInt 64) x.2 with
  | .error e => .error e
  | .ok seed => .ok (x.1, seed)

/-- The conversion of the optional arguments, lib.rs:205-227. -/
def RunArgs.convert {F : Type} (a : RunArgs F) : Except PyErr (Converted F) :=
  match extractOpt (extractInt 32) (a.timeout.getD none) with
  | .error e => .error e
  | .ok timeout =>
    match extractInt 16 (a.nthreads.getD 1) with
    | .error e => .error e
    | .ok nthreads =>
      match extractOpt extractProb (a.probabilistic.getD none) with
      | .error e => .error e
      | .ok probabilistic =>
        match extractOpt (extractInt 32) (a.taskBound.getD none) with
        | .error e => .error e
        | .ok taskBound => .ok ⟨a.doSearch.getD false, timeout, nthreads, probabilistic, taskBound⟩

/-- What a call of the Python function does. -/
structure Outcome where
  warned : Bool
  result : Except PyErr (R (Option (List Path)))

/-- `Some((AcceptFunc(AcceptFuncBase::Custom(_)), _))`, lib.rs:230. -/
def isCustom {F : Type} : Option (AcceptFuncBase F × Option Nat) → Bool
  | some (.custom _, _) => true
  | _ => false

/-- `run`, lib.rs:215-273. `strict`: the interpreter turns warnings into exceptions. `timeout` in
milliseconds. -/
def pyRun {F σ : Type} [FloatArith F] (env : Env F σ) (strict : Bool) (spacialGraph : List (List Nat))
    (timeOrder : TimeOrder) (a : RunArgs F) : Outcome :=
  match a.convert with
  | .error e => ⟨false, .error e⟩
  | .ok c =>
    if isCustom c.probabilistic && 1 < c.nthreads then
      ⟨false, .error .value⟩
    else
      let args : Args F :=
        { doSearch := c.doSearch
          timeout := c.timeout.map fun t => 1000 * t
          nthreads := c.nthreads
          taskBound := c.taskBound
          probabilistic := c.probabilistic.map fun x => (x.1.toReal.getAcceptFunc, x.2) }
      match timeOrder with
      | .own order => ⟨false, .ok (run env spacialGraph order args)⟩
      | .other intoPyGraph =>
        if strict then ⟨true, .error .warning⟩
        else
          match intoPyGraph with
          | .error e => ⟨true, .error e⟩
          | .ok order => ⟨true, .ok (run env spacialGraph order args)⟩

end Verif.Python
