import Mathlib.Algebra.Ring.Int.Parity
import Verif.Model.Float
import Verif.Proofs.Float
/-!
# `f64` with its exponent range

The type `B64` has one element for every number of IEEE 754 binary64, the two zeros, the two infinities
and NaN (the payloads of NaN are not distinguished). The operations are the ones of the standard: the exact
result rounded to nearest, ties to even, with gradual underflow and overflow to infinity. `f64::exp` and
`f64::powi` are not specified by Rust ("unspecified precision", core/std documentation); they are arbitrary
functions with the properties in `Libm`, which allow a relative error of 1/16.

The operations that occur: mbqc_scheduling/src/probabilistic.rs:36-45 (`builtin_heavyside`), 70-83
(`create_parametrized_heavyside`) and search.rs:302-311 (the casts, the comparison with 1 and with the
random number).
-/

namespace Verif

/-- The finite numbers of binary64, the type `f64` in probabilistic.rs:27-35. -/
def Rep (x : ℝ) : Prop :=
  ∃ m e : ℤ, |m| < 2 ^ 53 ∧ -1074 ≤ e ∧ e ≤ 971 ∧ x = m * (2 : ℝ) ^ e

/-- The exponent of the unit in the last place at `x`; needed for the operations of probabilistic.rs:36-45. -/
noncomputable def ulpExp (x : ℝ) : ℤ := max (Int.log 2 |x| - 52) (-1074)

/-- Round to the nearest integer, ties to even; needed for the operations of probabilistic.rs:36-45. -/
noncomputable def roundEven (x : ℝ) : ℤ := by
  classical exact if Int.fract x = 1 / 2 then (if Even ⌊x⌋ then ⌊x⌋ else ⌊x⌋ + 1) else round x

/-- Round to nearest, ties to even, without a bound on large numbers; every operation in
probabilistic.rs:36-45 rounds like this. -/
noncomputable def rnd64 (x : ℝ) : ℝ := roundEven (x / (2 : ℝ) ^ ulpExp x) * (2 : ℝ) ^ ulpExp x

theorem roundEven_err (x : ℝ) : |(roundEven x : ℝ) - x| ≤ 1 / 2 := by
  unfold roundEven
  have hf := Int.floor_add_fract x
  split_ifs with h1 h2
  · rw [show ((⌊x⌋ : ℤ) : ℝ) - x = -(1 / 2) by linarith]
    norm_num [abs_neg]
  · push_cast
    rw [show ((⌊x⌋ : ℤ) : ℝ) + 1 - x = 1 / 2 by linarith]
    norm_num
  · rw [abs_sub_comm]
    exact abs_sub_round x

theorem roundEven_int (k : ℤ) : roundEven (k : ℝ) = k := by
  unfold roundEven
  rw [Int.fract_intCast, if_neg (by norm_num), round_intCast]

/-- Rounding does not cross an integer. -/
theorem roundEven_ge {x : ℝ} {k : ℤ} (h : (k : ℝ) ≤ x) : k ≤ roundEven x := by
  have h1 := (abs_le.1 (roundEven_err x)).1
  have h2 : (k : ℝ) < (roundEven x : ℝ) + 1 := by linarith
  have : k < roundEven x + 1 := by exact_mod_cast h2
  omega

theorem roundEven_le {x : ℝ} {k : ℤ} (h : x ≤ (k : ℝ)) : roundEven x ≤ k := by
  have h1 := (abs_le.1 (roundEven_err x)).2
  have h2 : (roundEven x : ℝ) < (k : ℝ) + 1 := by linarith
  have : roundEven x < k + 1 := by exact_mod_cast h2
  omega

theorem roundEven_zero : roundEven 0 = 0 := by
  have := roundEven_int 0
  simpa using this

theorem rnd64_zero : rnd64 0 = 0 := by simp [rnd64, roundEven_zero]

theorem abs_le_ulp (x : ℝ) : |x| ≤ 2 ^ 53 * (2 : ℝ) ^ ulpExp x := by
  by_cases hx : x = 0
  · rw [hx, abs_zero]; positivity
  have h1 := (log_bounds hx).2
  have h2 : (2 : ℝ) ^ (Int.log 2 |x| + 1) ≤ 2 ^ (53 + ulpExp x) := by
    apply zpow_le_zpow_right₀ (by norm_num)
    unfold ulpExp
    have := le_max_left (Int.log 2 |x| - 52) (-1074)
    omega
  refine le_trans h1.le (le_trans h2 (le_of_eq ?_))
  rw [zpow_add₀ (by norm_num)]
  norm_num

theorem roundEven_ulp_abs (x : ℝ) : |roundEven (x / (2 : ℝ) ^ ulpExp x)| ≤ 2 ^ 53 := by
  have hp : (0 : ℝ) < 2 ^ ulpExp x := by positivity
  have h1 := abs_le_ulp x
  have h2 := abs_le.1 h1
  rw [abs_le]
  constructor
  · apply roundEven_ge
    rw [le_div_iff₀ hp]
    push_cast
    linarith [h2.1]
  · apply roundEven_le
    rw [div_le_iff₀ hp]
    push_cast
    linarith [h2.2]

/-- Above the smallest normal number the result is at least the power of two below. -/
theorem rnd64_ge {x : ℝ} {k : ℤ} (hk : -1022 ≤ k) (h : (2 : ℝ) ^ k ≤ x) : (2 : ℝ) ^ k ≤ rnd64 x := by
  have hxp : 0 < x := lt_of_lt_of_le (by positivity) h
  have hlog : k ≤ Int.log 2 |x| := by
    have h2 := (log_bounds hxp.ne').2
    rw [abs_of_pos hxp] at h2 ⊢
    have h3 : (2 : ℝ) ^ k < 2 ^ (Int.log 2 x + 1) := lt_of_le_of_lt h h2
    have := (zpow_lt_zpow_iff_right₀ (by norm_num : (1 : ℝ) < 2)).1 h3
    omega
  have he : ulpExp x = Int.log 2 |x| - 52 := by
    unfold ulpExp
    exact max_eq_left (by omega)
  have h1 := (log_bounds hxp.ne').1
  rw [abs_of_pos hxp] at h1 hlog
  unfold rnd64
  rw [he, abs_of_pos hxp]
  have hp : (0 : ℝ) < 2 ^ (Int.log 2 x - 52) := by positivity
  have h4 : (2 : ℝ) ^ Int.log 2 x = 2 ^ 52 * 2 ^ (Int.log 2 x - 52) := by
    rw [zpow_sub₀ (by norm_num), zpow_ofNat]
    field_simp
  have h5 : (2 ^ 52 : ℤ) ≤ roundEven (x / (2 : ℝ) ^ (Int.log 2 x - 52)) := by
    apply roundEven_ge
    rw [le_div_iff₀ hp]
    push_cast
    linarith
  have h6 : ((2 : ℝ) ^ 52) ≤ (roundEven (x / (2 : ℝ) ^ (Int.log 2 x - 52)) : ℝ) := by exact_mod_cast h5
  calc (2 : ℝ) ^ k ≤ 2 ^ Int.log 2 x := zpow_le_zpow_right₀ (by norm_num) hlog
    _ = 2 ^ 52 * 2 ^ (Int.log 2 x - 52) := h4
    _ ≤ _ := by gcongr

theorem fract_neg_half {x : ℝ} : Int.fract (-x) = 1 / 2 ↔ Int.fract x = 1 / 2 := by
  by_cases h : Int.fract x = 0
  · have h1 : Int.fract (-x) = 0 := Int.fract_neg_eq_zero.2 h
    rw [h, h1]
  · rw [Int.fract_neg h]
    constructor <;> intro h <;> linarith

theorem roundEven_neg (x : ℝ) : roundEven (-x) = -roundEven x := by
  unfold roundEven
  by_cases h : Int.fract x = 1 / 2
  · rw [if_pos (fract_neg_half.2 h), if_pos h]
    have hf := Int.floor_add_fract x
    have h2 : ⌊-x⌋ = -⌊x⌋ - 1 := by
      rw [Int.floor_eq_iff]
      push_cast
      constructor <;> linarith
    rw [h2]
    by_cases he : Even ⌊x⌋
    · rw [if_pos he, if_neg]
      · ring
      · rw [Int.even_sub_one, not_not]
        exact even_neg.2 he
    · rw [if_neg he, if_pos]
      · ring
      · rw [Int.even_sub_one, even_neg]
        exact he
  · rw [if_neg (fun h' => h (fract_neg_half.1 h')), if_neg h]
    -- away from the ties `round` is odd
    have h0 := abs_sub_round x
    have hlt : |x - round x| < 1 / 2 := by
      refine lt_of_le_of_ne h0 fun he => h ?_
      rcases abs_choice (x - round x) with h1 | h1
      · have h2 : x = round x + 1 / 2 := by linarith
        rw [h2, Int.fract_intCast_add]
        exact Int.fract_eq_self.2 ⟨by norm_num, by norm_num⟩
      · have h2 : x = ((round x - 1 : ℤ) : ℝ) + 1 / 2 := by push_cast; linarith
        rw [h2, Int.fract_intCast_add]
        exact Int.fract_eq_self.2 ⟨by norm_num, by norm_num⟩
    have h3 := abs_sub_round (-x)
    have h4 : |((round (-x) + round x : ℤ) : ℝ)| < 1 := by
      have : ((round (-x) + round x : ℤ) : ℝ) = -(-x - round (-x)) - (x - round x) := by push_cast; ring
      rw [this]
      refine lt_of_le_of_lt (abs_sub _ _) ?_
      rw [abs_neg]
      linarith
    have h5 : |round (-x) + round x| < 1 := by exact_mod_cast h4
    have := Int.abs_lt_one_iff.1 h5
    omega

theorem ulpExp_neg (x : ℝ) : ulpExp (-x) = ulpExp x := by unfold ulpExp; rw [abs_neg]

theorem rnd64_neg (x : ℝ) : rnd64 (-x) = -rnd64 x := by
  unfold rnd64
  rw [ulpExp_neg, neg_div, roundEven_neg]
  push_cast
  ring

/-- The rounded number is a number of binary64, unless it is too large. -/
theorem rnd64_rep {x : ℝ} (h : |rnd64 x| < (2 : ℝ) ^ (1024 : ℤ)) : Rep (rnd64 x) := by
  have hm := roundEven_ulp_abs x
  have hlo : -1074 ≤ ulpExp x := le_max_right _ _
  have hhi : ulpExp x ≤ 971 := by
    by_contra hc
    have h1 : 1024 ≤ Int.log 2 |x| := by unfold ulpExp at hc; omega
    have hx : x ≠ 0 := by
      rintro rfl
      rw [abs_zero, Int.log_zero_right] at h1
      omega
    have h2 : (2 : ℝ) ^ (1024 : ℤ) ≤ |x| :=
      le_trans (zpow_le_zpow_right₀ (by norm_num) h1) (log_bounds hx).1
    have h3 := rnd64_ge (by norm_num) h2
    have h4 : rnd64 |x| ≤ |rnd64 x| := by
      rcases abs_choice x with h5 | h5 <;> rw [h5]
      · exact le_abs_self _
      · rw [rnd64_neg]; exact neg_le_abs _
    linarith
  by_cases hmax : |roundEven (x / (2 : ℝ) ^ ulpExp x)| < 2 ^ 53
  · exact ⟨_, _, hmax, hlo, hhi, rfl⟩
  · have heq : |roundEven (x / (2 : ℝ) ^ ulpExp x)| = 2 ^ 53 := le_antisymm hm (not_lt.1 hmax)
    have hhi' : ulpExp x ≤ 970 := by
      by_contra hc
      have h6 : ulpExp x = 971 := by omega
      have h7 : |rnd64 x| = 2 ^ 53 * (2 : ℝ) ^ (971 : ℤ) := by
        unfold rnd64
        rw [abs_mul, h6, abs_of_pos (show (0 : ℝ) < 2 ^ (971 : ℤ) by positivity)]
        rw [h6] at heq
        congr 1
        exact_mod_cast heq
      have h8 : (2 : ℝ) ^ 53 * (2 : ℝ) ^ (971 : ℤ) = (2 : ℝ) ^ (1024 : ℤ) := by
        rw [← zpow_natCast, ← zpow_add₀ (by norm_num)]
        rfl
      rw [h7, h8] at h
      exact lt_irrefl _ h
    have hz : ∀ s : ℤ, roundEven (x / (2 : ℝ) ^ ulpExp x) = s * 2 ^ 53 → |s| = 1 → Rep (rnd64 x) := by
      intro s hs h1
      refine ⟨s * 2 ^ 52, ulpExp x + 1, ?_, by omega, by omega, ?_⟩
      · rw [abs_mul, h1]; norm_num
      · unfold rnd64
        rw [hs, zpow_add₀ (by norm_num)]
        push_cast
        ring
    rcases abs_choice (roundEven (x / (2 : ℝ) ^ ulpExp x)) with h9 | h9
    · exact hz 1 (by omega) (by norm_num)
    · exact hz (-1) (by omega) (by norm_num)

/-- The numbers of binary64 are not changed by rounding. -/
theorem rnd64_of_rep {x : ℝ} (h : Rep x) : rnd64 x = x := by
  obtain ⟨m, e, h1, h2, _, rfl⟩ := h
  by_cases hm : m = 0
  · rw [hm, Int.cast_zero, zero_mul, rnd64_zero]
  have hx : ((m : ℝ) * (2 : ℝ) ^ e) ≠ 0 := mul_ne_zero (by exact_mod_cast hm) (by positivity)
  have hu : ulpExp ((m : ℝ) * (2 : ℝ) ^ e) ≤ e := by
    unfold ulpExp
    refine max_le ?_ h2
    have h3 := (log_bounds hx).1
    have h4 : |(m : ℝ) * (2 : ℝ) ^ e| < 2 ^ (53 + e) := by
      rw [abs_mul, abs_of_pos (show (0 : ℝ) < 2 ^ e by positivity), zpow_add₀ (by norm_num)]
      have h5 : |(m : ℝ)| < 2 ^ 53 := by exact_mod_cast h1
      have h6 : (2 : ℝ) ^ (53 : ℤ) = 2 ^ 53 := by norm_cast
      rw [h6]
      gcongr
    have := (zpow_lt_zpow_iff_right₀ (by norm_num : (1 : ℝ) < 2)).1 (lt_of_le_of_lt h3 h4)
    omega
  unfold rnd64
  obtain ⟨k, hk⟩ := Int.le.dest hu
  generalize ulpExp ((m : ℝ) * (2 : ℝ) ^ e) = u at *
  have h7 : (m : ℝ) * (2 : ℝ) ^ e / 2 ^ u = ((m * 2 ^ k : ℤ) : ℝ) := by
    rw [← hk, zpow_add₀ (by norm_num)]
    push_cast
    rw [zpow_natCast]
    field_simp
  rw [h7, roundEven_int, ← h7]
  field_simp

/-- A value of type `f64`. -/
inductive B64 where
  | nan
  | inf (negative : Bool)
  | negZero
  | fin (x : ℝ) (h : Rep x)

namespace B64

theorem rep_zero : Rep 0 := ⟨0, 0, by norm_num, by norm_num, by norm_num, by norm_num⟩

/-- Round a real number, the result of every operation in probabilistic.rs:36-45; `neg`: the sign if the exact
result is zero. -/
noncomputable def ofReal (neg : Bool) (x : ℝ) : B64 := by
  classical exact
    if h : |rnd64 x| < (2 : ℝ) ^ (1024 : ℤ) then
      if rnd64 x = 0 ∧ (x < 0 ∨ (x = 0 ∧ neg = true)) then .negZero else .fin (rnd64 x) (rnd64_rep h)
    else .inf (decide (x < 0))

/-- `x` is the finite number `r` (not in the code; for statements). -/
def val : B64 → ℝ → Prop
  | .fin x _, r => x = r
  | .negZero, r => 0 = r
  | _, _ => False

/-- The sign bit, which decides `1. / 0.` and `0. * x` in probabilistic.rs:40-44. -/
noncomputable def sign : B64 → Bool
  | .fin x _ => by classical exact decide (x < 0)
  | .negZero => true
  | .inf s => s
  | .nan => false

/-- The finite value, if there is one (not in the code). -/
noncomputable def toReal : B64 → Option ℝ
  | .fin x _ => some x
  | .negZero => some 0
  | _ => none

/-- The literals `0.`, probabilistic.rs:37-38, and `-0.`. -/
def zero (negative : Bool) : B64 := if negative then .negZero else .fin 0 rep_zero

/-- `k as f64`, search.rs:303-309. -/
noncomputable def ofUsize (k : Nat) : B64 := ofReal false k

/-- `<`, probabilistic.rs:37, search.rs:311; false if one side is NaN. -/
noncomputable def ltb (x y : B64) : Bool :=
  match x, y, x.toReal, y.toReal with
  | _, _, some a, some b => by classical exact decide (a < b)
  | .inf s, _, _, some _ => s
  | _, .inf s, some _, _ => !s
  | .inf s, .inf t, _, _ => s && !t
  | _, _, _, _ => false

/-- `>= 1.`, search.rs:311. -/
noncomputable def geOne (x : B64) : Bool :=
  match x, x.toReal with
  | _, some a => by classical exact decide (1 ≤ a)
  | .inf s, _ => !s
  | _, _ => false

theorem Rep.neg {x : ℝ} (h : Rep x) : Rep (-x) := by
  obtain ⟨m, e, h1, h2, h3, rfl⟩ := h
  exact ⟨-m, e, by rwa [abs_neg], h2, h3, by push_cast; ring⟩

/-- Unary `-`, probabilistic.rs:41. -/
noncomputable def neg : B64 → B64
  | .fin x h => by classical exact if x = 0 then .negZero else .fin (-x) (Rep.neg h)
  | .negZero => .fin 0 rep_zero
  | .inf s => .inf (!s)
  | .nan => .nan

/-- `-`, probabilistic.rs:36, 43. An exact difference of 0 is `+0`, except `-0 - +0`. -/
noncomputable def sub (x y : B64) : B64 :=
  match x, y, x.toReal, y.toReal with
  | _, _, some a, some b => ofReal (x.sign && !y.sign) (a - b)
  | .inf s, _, _, some _ => .inf s
  | _, .inf s, some _, _ => .inf (!s)
  | .inf s, .inf t, _, _ => if s = t then .nan else .inf s
  | _, _, _, _ => .nan

/-- `*`, probabilistic.rs:40-41. -/
noncomputable def mul (x y : B64) : B64 :=
  match x, y, x.toReal, y.toReal with
  | _, _, some a, some b => ofReal (x.sign ^^ y.sign) (a * b)
  | .inf s, _, _, some b => by classical exact if b = 0 then .nan else .inf (s ^^ y.sign)
  | _, .inf s, some a, _ => by classical exact if a = 0 then .nan else .inf (x.sign ^^ s)
  | .inf s, .inf t, _, _ => .inf (s ^^ t)
  | _, _, _, _ => .nan

/-- `/`, probabilistic.rs:42-43. -/
noncomputable def div (x y : B64) : B64 :=
  match x, y, x.toReal, y.toReal with
  | _, _, some a, some b => by
    classical exact
      if b = 0 then if a = 0 then .nan else .inf (x.sign ^^ y.sign) else ofReal (x.sign ^^ y.sign) (a / b)
  | .inf s, _, _, some _ => .inf (s ^^ y.sign)
  | _, .inf s, some _, _ => zero (x.sign ^^ s)
  | _, _, _, _ => .nan

/-- `f64::max`, probabilistic.rs:36: the other argument if one is NaN; which zero is returned for two zeros is not specified, here
the first. -/
noncomputable def fmax (x y : B64) : B64 :=
  match x, y with
  | .nan, y => y
  | x, .nan => x
  | x, y => if ltb x y then y else x

end B64

end Verif
