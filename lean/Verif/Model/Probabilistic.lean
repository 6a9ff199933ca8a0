import Verif.Model.Interface
/-!
# Model of `mbqc_scheduling/src/probabilistic.rs`
-/

namespace Verif

open Search

/-- The operations on `f64` used by the accept functions of the crate. Nothing is assumed about them
here; `F64` (Model/Float.lean) is one implementation. -/
class FloatArith (F : Type) extends FloatOps F where
  /-- the literal `0.` -/
  zero : F
  sub : F → F → F
  mul : F → F → F
  div : F → F → F
  neg : F → F
  /-- `f64::max` -/
  fmax : F → F → F
  /-- `f64::powi` -/
  powi : F → Int → F
  /-- `f64::exp` -/
  exp : F → F

open FloatArith in
/-- `builtin_heavyside`, probabilistic.rs:27-46. -/
def builtinHeavyside {F : Type} [FloatArith F] : Accept F :=
  fun _ minimalMem lastMaxMem _ curMem numRemainingNodes numTotalNodes =>
    let diff := sub minimalMem (fmax curMem lastMaxMem)
    if FloatOps.lt diff zero then zero
    else
      mul (powi numTotalNodes 2)
        (exp (neg (div (div (mul numTotalNodes numRemainingNodes) (powi diff 3))
          (sub numTotalNodes numRemainingNodes))))

/-- `HeavysideParameters`, probabilistic.rs:51-58. The exponents are `i32`, here `Int`. -/
structure HeavysideParameters (F : Type) where
  cutoff : F
  linNumTotalNodesExp : Int
  expNumTotalNodesExp : Int
  expNumRemainingNodesExp : Int
  expDiffExp : Int
  expNumMeasuredNodesExp : Int

open FloatArith in
/-- `create_parametrized_heavyside`, probabilistic.rs:60-83. -/
def createParametrizedHeavyside {F : Type} [FloatArith F] (param : HeavysideParameters F) : Accept F :=
  fun _ minimalMem lastMaxMem _ curMem numRemainingNodes numTotalNodes =>
    let diff := sub minimalMem (fmax curMem lastMaxMem)
    if FloatOps.lt diff param.cutoff then zero
    else
      mul (powi numTotalNodes param.linNumTotalNodesExp)
        (exp (neg (div (div (mul (powi numTotalNodes param.expNumTotalNodesExp)
          (powi numRemainingNodes param.expNumRemainingNodesExp)) (powi diff param.expDiffExp))
          (powi (sub numTotalNodes numRemainingNodes) param.expNumMeasuredNodesExp))))

/-- `AcceptFunc`, probabilistic.rs:90-138. -/
inductive AcceptFunc (F : Type) where
  | builtinHeavyside
  | parametrizedHeavyside (param : HeavysideParameters F)
  | custom (f : Accept F)

/-- `AcceptFunc::default`, probabilistic.rs:89-91. -/
def AcceptFunc.default {F : Type} : AcceptFunc F := .builtinHeavyside

/-- `AcceptFunc::get_accept_func`, probabilistic.rs:142-150. -/
def AcceptFunc.getAcceptFunc {F : Type} [FloatArith F] : AcceptFunc F → Accept F
  | .builtinHeavyside => Verif.builtinHeavyside
  | .parametrizedHeavyside param => createParametrizedHeavyside param
  | .custom f => f

end Verif
