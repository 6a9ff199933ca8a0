import Mathlib.Data.Real.Basic
import Mathlib.Data.Int.Log
import Mathlib.Algebra.Order.Round
import Mathlib.Analysis.SpecialFunctions.Exp
import Verif.Model.Probabilistic
/-!
# A model of `f64`

Real numbers with 53 significant bits, infinities and NaN. Not modelled: the bounds on the exponent
(no overflow to infinity, no subnormal numbers) and the sign of zero; `powi` and `exp` are correctly
rounded, whereas the standard library only promises an unspecified precision. The theorems about the
accept functions use the laws in Proofs/Float.lean, which allow for a much larger error.
-/

namespace Verif

/-- Round to nearest with 53 significant bits; ties go up (IEEE: to even). -/
noncomputable def rnd (x : ℝ) : ℝ :=
  (round (x / (2 : ℝ) ^ (Int.log 2 |x| - 52)) : ℝ) * (2 : ℝ) ^ (Int.log 2 |x| - 52)

inductive F64 where
  | nan
  | inf (negative : Bool)
  | fin (x : ℝ)

namespace F64

noncomputable def ofUsize (n : Nat) : F64 := .fin (rnd n)

noncomputable def ltb : F64 → F64 → Bool
  | .fin x, .fin y => by classical exact decide (x < y)
  | .inf s, .fin _ => s
  | .fin _, .inf s => !s
  | .inf s, .inf t => s && !t
  | _, _ => false

noncomputable def geOne : F64 → Bool
  | .fin x => by classical exact decide (1 ≤ x)
  | .inf s => !s
  | .nan => false

noncomputable def neg : F64 → F64
  | .fin x => .fin (-x)
  | .inf s => .inf (!s)
  | .nan => .nan

noncomputable def sub : F64 → F64 → F64
  | .fin x, .fin y => .fin (rnd (x - y))
  | .inf s, .fin _ => .inf s
  | .fin _, .inf s => .inf (!s)
  | .inf s, .inf t => if s = t then .nan else .inf s
  | _, _ => .nan

noncomputable def mul : F64 → F64 → F64
  | .fin x, .fin y => .fin (rnd (x * y))
  | .inf s, .fin x => by classical exact if x = 0 then .nan else .inf (s ^^ decide (x < 0))
  | .fin x, .inf s => by classical exact if x = 0 then .nan else .inf (s ^^ decide (x < 0))
  | .inf s, .inf t => .inf (s ^^ t)
  | _, _ => .nan

noncomputable def div : F64 → F64 → F64
  | .fin x, .fin y => by
    classical exact
      if y = 0 then if x = 0 then .nan else .inf (decide (x < 0)) else .fin (rnd (x / y))
  | .inf s, .fin x => by classical exact .inf (s ^^ decide (x < 0))
  | .fin _, .inf _ => .fin 0
  | _, _ => .nan

/-- `f64::max`: the other argument if one is NaN. -/
noncomputable def fmax : F64 → F64 → F64
  | .nan, y => y
  | x, .nan => x
  | x, y => if ltb x y then y else x

noncomputable def exp : F64 → F64
  | .fin x => .fin (rnd (Real.exp x))
  | .inf true => .fin 0
  | .inf false => .inf false
  | .nan => .nan

/-- `f64::powi`; `powi` with exponent 0 is 1 for every base. -/
noncomputable def powi (x : F64) (k : Int) : F64 :=
  if k = 0 then .fin 1
  else match x with
    | .fin x => by classical exact
        if x = 0 ∧ k < 0 then .inf false else .fin (if k = 1 then x else rnd (x ^ k))
    | .inf s => if k < 0 then .fin 0 else .inf (s && decide (k % 2 ≠ 0))
    | .nan => .nan

noncomputable instance : FloatArith F64 where
  ofUsize := ofUsize
  geOne := geOne
  lt := ltb
  zero := .fin 0
  sub := sub
  mul := mul
  div := div
  neg := neg
  fmax := fmax
  powi := powi
  exp := exp

end F64
end Verif
