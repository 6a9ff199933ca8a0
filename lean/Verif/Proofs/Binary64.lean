import Verif.Model.Binary64
import Mathlib.Analysis.SpecialFunctions.Log.Basic
import Mathlib.Tactic.IntervalCases
/-!
# The laws of `f64` with its exponent range, and the built-in accept function
-/

namespace Verif

open Search

/-! ## Rounding -/

theorem rnd64_err (x : ℝ) : |rnd64 x - x| ≤ (2 : ℝ) ^ ulpExp x / 2 := by
  unfold rnd64
  have hp : (0 : ℝ) < 2 ^ ulpExp x := by positivity
  have h1 := roundEven_err (x / (2 : ℝ) ^ ulpExp x)
  have h2 : (roundEven (x / (2 : ℝ) ^ ulpExp x) : ℝ) * 2 ^ ulpExp x - x =
      (roundEven (x / (2 : ℝ) ^ ulpExp x) - x / 2 ^ ulpExp x) * 2 ^ ulpExp x := by
    field_simp
  rw [h2, abs_mul, abs_of_pos hp]
  nlinarith

theorem ulp_le {x : ℝ} (h : (2 : ℝ) ^ (-1022 : ℤ) ≤ |x|) : (2 : ℝ) ^ ulpExp x ≤ |x| / 2 ^ 52 := by
  have hx : x ≠ 0 := by
    rintro rfl
    rw [abs_zero] at h
    have : (0 : ℝ) < 2 ^ (-1022 : ℤ) := by positivity
    linarith
  obtain ⟨h1, h2⟩ := log_bounds hx
  have h3 : -1022 ≤ Int.log 2 |x| := by
    have := (zpow_lt_zpow_iff_right₀ (by norm_num : (1 : ℝ) < 2)).1 (lt_of_le_of_lt h h2)
    omega
  have h4 : ulpExp x = Int.log 2 |x| - 52 := by
    unfold ulpExp
    exact max_eq_left (by omega)
  rw [h4, zpow_sub₀ (by norm_num), zpow_ofNat]
  gcongr

/-- The relative error of normal numbers. -/
theorem rnd64_close {x : ℝ} (h : (2 : ℝ) ^ (-1022 : ℤ) ≤ |x|) : Close x (rnd64 x) := by
  have h1 := rnd64_err x
  have h2 := ulp_le h
  unfold Close
  have h3 : |x| / 2 ^ 52 / 2 ≤ |x| / 16 := by
    rw [div_div]
    exact div_le_div_of_nonneg_left (abs_nonneg x) (by norm_num) (by norm_num)
  linarith

theorem rnd64_abs_le (x : ℝ) : |rnd64 x| ≤ 2 * |x| + 1 := by
  have h1 := rnd64_err x
  have h2 : (2 : ℝ) ^ ulpExp x ≤ |x| + 1 := by
    by_cases h : (2 : ℝ) ^ (-1022 : ℤ) ≤ |x|
    · have h3 := ulp_le h
      have h4 : |x| / 2 ^ 52 ≤ |x| := div_le_self (abs_nonneg _) (by norm_num)
      linarith
    · have h3 : ulpExp x ≤ 0 := by
        unfold ulpExp
        refine max_le ?_ (by norm_num)
        by_cases hx : x = 0
        · rw [hx, abs_zero, Int.log_zero_right]; norm_num
        · have h4 := lt_of_le_of_lt (log_bounds hx).1 (not_le.1 h)
          have := (zpow_lt_zpow_iff_right₀ (by norm_num : (1 : ℝ) < 2)).1 h4
          omega
      have h4 : (2 : ℝ) ^ ulpExp x ≤ 2 ^ (0 : ℤ) := zpow_le_zpow_right₀ (by norm_num) h3
      rw [zpow_zero] at h4
      have := abs_nonneg x
      linarith
  have h3 : |rnd64 x| ≤ |rnd64 x - x| + |x| := by
    have := abs_add_le (rnd64 x - x) x
    simpa using this
  have := abs_nonneg x
  linarith

theorem two_pow_pos (k : ℤ) : (0 : ℝ) < 2 ^ k := by positivity

theorem small_le : (2 : ℝ) ^ (-1022 : ℤ) ≤ 1 / 2 ^ 256 := by
  have h1 : (1 : ℝ) / 2 ^ 256 = 2 ^ (-256 : ℤ) := by
    rw [zpow_neg, one_div]
    norm_cast
  rw [h1]
  exact zpow_le_zpow_right₀ (by norm_num) (by norm_num)

theorem le_large : 2 * (2 : ℝ) ^ 256 + 1 < 2 ^ (1024 : ℤ) := by
  have h1 : (2 : ℝ) ^ (258 : ℤ) = 2 ^ 256 * 4 := by
    rw [show (258 : ℤ) = ((256 : ℕ) : ℤ) + 2 by norm_num, zpow_add₀ (by norm_num), zpow_natCast]
    norm_num
  have h2 : (2 : ℝ) ^ (258 : ℤ) ≤ 2 ^ (1024 : ℤ) := zpow_le_zpow_right₀ (by norm_num) (by norm_num)
  have h3 : (1 : ℝ) ≤ 2 ^ 256 := one_le_pow₀ (by norm_num)
  rw [h1] at h2
  clear h1
  generalize (2 : ℝ) ^ (1024 : ℤ) = b at *
  generalize (2 : ℝ) ^ 256 = a at *
  linarith

theorem rnd64_inRange {x : ℝ} (h : InRange x) : Close x (rnd64 x) ∧ |rnd64 x| < (2 : ℝ) ^ (1024 : ℤ) := by
  rcases h with rfl | ⟨h1, h2⟩
  · rw [rnd64_zero, abs_zero]
    exact ⟨by simp [Close], two_pow_pos _⟩
  · exact ⟨rnd64_close (le_trans small_le h1), lt_of_le_of_lt (rnd64_abs_le x)
      (lt_of_le_of_lt (by linarith) le_large)⟩

theorem rep_nat {k : Nat} (hk : k ≤ 2 ^ 53) : Rep k := by
  by_cases h : k = 2 ^ 53
  · refine ⟨2 ^ 52, 1, by norm_num, by norm_num, by norm_num, ?_⟩
    rw [h]
    norm_num
  · have h1 : k < 2 ^ 53 := by omega
    refine ⟨k, 0, ?_, by norm_num, by norm_num, by simp⟩
    rw [abs_of_nonneg (by positivity)]
    exact_mod_cast h1

theorem rnd64_nat {k : Nat} (hk : k ≤ 2 ^ 53) : rnd64 k = k := rnd64_of_rep (rep_nat hk)

theorem rnd64_max : rnd64 (usizeMax : ℝ) = 2 ^ 64 := by
  have hval : (usizeMax : ℝ) = 2 ^ 64 - 1 := by
    simp only [usizeMax]
    norm_num
  have hpos : (0 : ℝ) < 2 ^ 64 - 1 := by norm_num
  rw [hval]
  have he : Int.log 2 |(2 : ℝ) ^ 64 - 1| = 63 := by
    obtain ⟨h3, h4⟩ := log_bounds hpos.ne'
    rw [abs_of_pos hpos] at h3 h4 ⊢
    have h5 : Int.log 2 ((2 : ℝ) ^ 64 - 1) < 64 := by
      have : (2 : ℝ) ^ Int.log 2 ((2 : ℝ) ^ 64 - 1) < 2 ^ (64 : Int) := lt_of_le_of_lt h3 (by norm_num)
      exact (zpow_lt_zpow_iff_right₀ (by norm_num)).1 this
    have h6 : (63 : Int) < Int.log 2 ((2 : ℝ) ^ 64 - 1) + 1 := by
      have : (2 : ℝ) ^ (63 : Int) < 2 ^ (Int.log 2 ((2 : ℝ) ^ 64 - 1) + 1) :=
        lt_of_le_of_lt (by norm_num) h4
      exact (zpow_lt_zpow_iff_right₀ (by norm_num)).1 this
    omega
  have hu : ulpExp ((2 : ℝ) ^ 64 - 1) = 11 := by unfold ulpExp; rw [he]; rfl
  have h7 : roundEven (((2 : ℝ) ^ 64 - 1) / 2 ^ (11 : ℤ)) = 2 ^ 53 := by
    refine le_antisymm (roundEven_le (by norm_num)) ?_
    have h8 := (abs_le.1 (roundEven_err (((2 : ℝ) ^ 64 - 1) / 2 ^ (11 : ℤ)))).1
    have h9 : ((2 ^ 53 - 1 : ℤ) : ℝ) < (roundEven (((2 : ℝ) ^ 64 - 1) / 2 ^ (11 : ℤ)) : ℝ) := by
      have : (((2 : ℝ) ^ 64 - 1) / 2 ^ (11 : ℤ)) > 2 ^ 53 - 1 / 2 := by norm_num
      push_cast
      linarith
    have : (2 ^ 53 - 1 : ℤ) < roundEven (((2 : ℝ) ^ 64 - 1) / 2 ^ (11 : ℤ)) := by exact_mod_cast h9
    omega
  unfold rnd64
  rw [hu, h7]
  norm_num

/-! ## The operations -/

namespace B64

theorem val_iff {x : B64} {r : ℝ} : x.val r ↔ x.toReal = some r := by
  cases x <;> simp [val, toReal]

theorem val_ofReal {s : Bool} {x : ℝ} (h : |rnd64 x| < (2 : ℝ) ^ (1024 : ℤ)) : (ofReal s x).val (rnd64 x) := by
  unfold ofReal
  rw [dif_pos h]
  split
  · rename_i h1; exact h1.1.symm
  · rfl

theorem val_ofReal_nat {s : Bool} {k : Nat} (h : k ≤ 2 ^ 53) : (ofReal s k).val k := by
  have h1 := rnd64_inRange (x := k) (by
    by_cases h0 : k = 0
    · left; simp [h0]
    · have h2 : (1 : ℝ) ≤ k := by exact_mod_cast Nat.pos_of_ne_zero h0
      have h3 : (k : ℝ) ≤ 2 ^ 53 := by exact_mod_cast h
      exact inRange_of_pos (le_trans (by norm_num) h2) (le_trans h3 (by norm_num)))
  have := val_ofReal (s := s) h1.2
  rwa [rnd64_nat h] at this

theorem val_sub {x y : B64} {a b : ℝ} (hx : x.val a) (hy : y.val b) : sub x y = ofReal (x.sign && !y.sign) (a - b) := by
  rw [val_iff] at hx hy
  unfold sub
  rw [hx, hy]

theorem val_mul {x y : B64} {a b : ℝ} (hx : x.val a) (hy : y.val b) : mul x y = ofReal (x.sign ^^ y.sign) (a * b) := by
  rw [val_iff] at hx hy
  unfold mul
  rw [hx, hy]

theorem val_div {x y : B64} {a b : ℝ} (hx : x.val a) (hy : y.val b) (hb : b ≠ 0) :
    div x y = ofReal (x.sign ^^ y.sign) (a / b) := by
  rw [val_iff] at hx hy
  unfold div
  rw [hx, hy]
  simp [hb]

theorem val_ltb {x y : B64} {a b : ℝ} (hx : x.val a) (hy : y.val b) : ltb x y = true ↔ a < b := by
  rw [val_iff] at hx hy
  unfold ltb
  rw [hx, hy]
  simp

theorem val_fmax {x y : B64} {a b : ℝ} (hx : x.val a) (hy : y.val b) : (fmax x y).val (max a b) := by
  have h : fmax x y = if ltb x y then y else x := by
    cases x <;> cases y <;> simp_all [val, fmax]
  rw [h]
  split
  · rename_i h; rw [max_eq_right ((val_ltb hx hy).1 h).le]; exact hy
  · rename_i h; rw [max_eq_left (not_lt.1 fun h' => h ((val_ltb hx hy).2 h'))]; exact hx

theorem val_neg {x : B64} {a : ℝ} (hx : x.val a) : (neg x).val (-a) := by
  cases x with
  | nan => exact hx.elim
  | inf => exact hx.elim
  | negZero =>
    have : (0 : ℝ) = a := hx
    subst this
    show (0 : ℝ) = -0
    simp
  | fin x h =>
    have : x = a := hx
    subst this
    unfold neg
    simp only
    split
    · rename_i h0; show (0 : ℝ) = -x; rw [h0, neg_zero]
    · rfl

end B64

/-! ## The library functions -/

/-- `f64::exp` (probabilistic.rs:44) and `f64::powi` (40, 42) as far as they are used: a relative error of at most 1/16 where the result is
a normal number, and the exact values that every implementation returns. -/
structure Libm where
  exp : B64 → B64
  powi : B64 → Int → B64
  exp_normal : ∀ {x a}, B64.val x a → (2 : ℝ) ^ (-1022 : ℤ) ≤ Real.exp a → Real.exp a ≤ (2 : ℝ) ^ (1023 : ℤ) →
    ∃ r, B64.val (exp x) r ∧ Close (Real.exp a) r
  exp_zero : ∀ {x}, B64.val x 0 → B64.val (exp x) 1
  /-- no flush to zero: a result of at least 16 times the smallest number is not rounded to zero -/
  exp_subnormal : ∀ {x a}, B64.val x a → (2 : ℝ) ^ (-1070 : ℤ) ≤ Real.exp a → Real.exp a ≤ (2 : ℝ) ^ (-1022 : ℤ) →
    ∃ r, B64.val (exp x) r ∧ 0 < r ∧ r ≤ 1
  /-- below a quarter of the smallest number the result is zero -/
  exp_small : ∀ {x a}, B64.val x a → Real.exp a < (2 : ℝ) ^ (-1076 : ℤ) → B64.val (exp x) 0
  exp_negInf : B64.val (exp (.inf true)) 0
  exp_nan : exp .nan = .nan
  powi_first : ∀ x, powi x 1 = x
  powi_normal : ∀ {x a} {k : Int}, B64.val x a → |k| ≤ 2 ^ 31 → (2 : ℝ) ^ (-1022 : ℤ) ≤ |a ^ k| →
    |a ^ k| ≤ (2 : ℝ) ^ (1022 : ℤ) → ∃ r, B64.val (powi x k) r ∧ Close (a ^ k) r
  powi_base_one : ∀ {x} {k : Int}, B64.val x 1 → B64.val (powi x k) 1
  powi_base_zero : ∀ {k : Nat}, 0 < k → powi (B64.zero false) k = B64.zero false
  powi_pole : ∀ {k : Int}, k < 0 → powi (B64.zero false) k = .inf false

/-- `f64` with the library `M`: the type of the arguments and the answer of an accept function, probabilistic.rs:22. -/
def Double (_ : Libm) : Type := B64

noncomputable instance (M : Libm) : FloatArith (Double M) where
  ofUsize := B64.ofUsize
  geOne := B64.geOne
  lt := B64.ltb
  zero := B64.zero false
  sub := B64.sub
  mul := B64.mul
  div := B64.div
  neg := B64.neg
  fmax := B64.fmax
  powi := M.powi
  exp := M.exp

/-- `x` is the finite number `r`. -/
def Double.val {M : Libm} (x : Double M) (r : ℝ) : Prop := B64.val x r

theorem Double.laws (M : Libm) : FloatLaws (Double M) Double.val where
  ofUsize_small k hk := B64.val_ofReal_nat hk
  ofUsize_max := by
    have h := B64.val_ofReal (s := false) (x := (usizeMax : ℝ)) (by
      rw [rnd64_max, abs_of_pos (by positivity)]
      have h1 : (2 : ℝ) ^ (64 : ℤ) < 2 ^ (1024 : ℤ) := zpow_lt_zpow_right₀ (by norm_num) (by norm_num)
      rwa [zpow_ofNat] at h1)
    rwa [rnd64_max] at h
  zero := rfl
  lt := fun hx hy => B64.val_ltb hx hy
  geOne := by
    intro x a hx
    have hx' := B64.val_iff.1 hx
    show B64.geOne x = true ↔ _
    unfold B64.geOne
    rw [hx']
    simp
  fmax := fun hx hy => B64.val_fmax hx hy
  neg := fun hx => B64.val_neg hx
  sub := by
    intro x y a b hx hy h
    refine ⟨rnd64 (a - b), ?_, (rnd64_inRange h).1⟩
    show B64.val (B64.sub x y) _
    rw [B64.val_sub hx hy]
    exact B64.val_ofReal (rnd64_inRange h).2
  mul := by
    intro x y a b hx hy h
    refine ⟨rnd64 (a * b), ?_, (rnd64_inRange h).1, fun h1 => ?_⟩
    · show B64.val (B64.mul x y) _
      rw [B64.val_mul hx hy]
      exact B64.val_ofReal (rnd64_inRange h).2
    · have := rnd64_ge (k := 0) (by norm_num) (x := a * b) (by simpa using h1)
      simpa using this
  div := by
    intro x y a b hx hy hb h
    refine ⟨rnd64 (a / b), ?_, (rnd64_inRange h).1⟩
    show B64.val (B64.div x y) _
    rw [B64.val_div hx hy hb]
    exact B64.val_ofReal (rnd64_inRange h).2
  powi := by
    intro x a k hx h2 h3 h1 h4
    by_cases ha : a = 1
    · subst ha
      exact ⟨1, M.powi_base_one hx, by simp [Close], fun _ => rfl⟩
    · have hp : 1 ≤ a ^ k := one_le_pow₀ h1
      have hp' : a ^ k ≤ 2 ^ 256 := by
        calc a ^ k ≤ (2 ^ 65) ^ k := by gcongr
          _ ≤ (2 ^ 65) ^ 3 := pow_le_pow_right₀ (by norm_num) h3
          _ ≤ 2 ^ 256 := by norm_num
      obtain ⟨r, r1, r2⟩ := M.powi_normal (k := (k : Int)) hx (by rw [abs_of_nonneg (by omega)]; omega)
        (by
          rw [zpow_natCast, abs_of_nonneg (by linarith)]
          refine le_trans small_le (le_trans ?_ hp)
          norm_num)
        (by
          rw [zpow_natCast, abs_of_nonneg (by linarith)]
          refine le_trans hp' ?_
          have : (2 : ℝ) ^ (256 : ℤ) ≤ 2 ^ (1022 : ℤ) := zpow_le_zpow_right₀ (by norm_num) (by norm_num)
          rwa [zpow_ofNat] at this)
      rw [zpow_natCast] at r2
      exact ⟨r, r1, r2, fun h => (ha h).elim⟩
  exp := by
    intro x a hx h1 h2
    by_cases ha : a = 0
    · subst ha
      exact ⟨1, M.exp_zero hx, by simp [Close], fun _ => rfl⟩
    · have e1 : (1 / 3 : ℝ) ≤ Real.exp a := by
        have h4 : Real.exp (-1) ≤ Real.exp a := Real.exp_le_exp.2 h1
        have h5 := Real.exp_neg_one_gt_d9
        norm_num at h5 ⊢
        linarith
      have e2 : Real.exp a ≤ 1 := Real.exp_le_one_iff.2 h2
      obtain ⟨r, r1, r2⟩ := M.exp_normal hx
        (le_trans small_le (le_trans (by norm_num) e1))
        (le_trans e2 (one_le_zpow₀ (by norm_num) (by norm_num)))
      exact ⟨r, r1, r2, fun h => (ha h).elim⟩

/-! ## A library -/

/-- A number of at least the smallest one is not rounded to zero. -/
theorem rnd64_pos {x : ℝ} (h : (2 : ℝ) ^ (-1074 : ℤ) ≤ x) : 0 < rnd64 x := by
  have hx : 0 < x := lt_of_lt_of_le (two_pow_pos _) h
  have hu : (2 : ℝ) ^ ulpExp x ≤ x := by
    unfold ulpExp
    rcases le_total (Int.log 2 |x| - 52) (-1074) with h1 | h1
    · rw [max_eq_right h1]; exact h
    · rw [max_eq_left h1]
      have h2 := (log_bounds hx.ne').1
      rw [abs_of_pos hx] at h2 ⊢
      exact le_trans (zpow_le_zpow_right₀ (by norm_num) (by omega)) h2
  have h1 : ((1 : ℤ) : ℝ) ≤ x / (2 : ℝ) ^ ulpExp x := by
    rw [le_div_iff₀ (two_pow_pos _), Int.cast_one, one_mul]; exact hu
  have h2 : (1 : ℝ) ≤ (roundEven (x / (2 : ℝ) ^ ulpExp x) : ℝ) := by exact_mod_cast roundEven_ge h1
  have := two_pow_pos (ulpExp x)
  unfold rnd64
  nlinarith

/-- The least positive number. -/
theorem B64.val_pos {x : B64} {r : ℝ} (h : x.val r) (h0 : 0 < r) : (2 : ℝ) ^ (-1074 : ℤ) ≤ r := by
  cases x with
  | nan => exact h.elim
  | inf s => exact h.elim
  | negZero => have : (0 : ℝ) = r := h; linarith
  | fin x hx =>
    have : x = r := h
    subst this
    obtain ⟨m, e, _, h2, _, rfl⟩ := hx
    have hp := two_pow_pos e
    have hm : 0 < (m : ℝ) := by
      by_contra hm
      have := mul_nonpos_of_nonpos_of_nonneg (not_lt.1 hm) hp.le
      linarith
    have hm1 : (1 : ℝ) ≤ m := by
      have : 0 < m := by exact_mod_cast hm
      exact_mod_cast this
    have h3 : (2 : ℝ) ^ (-1074 : ℤ) ≤ 2 ^ e := zpow_le_zpow_right₀ (by norm_num) h2
    nlinarith

theorem rnd64_tiny {x : ℝ} (h0 : 0 < x) (h : x < (2 : ℝ) ^ (-1076 : ℤ)) : rnd64 x = 0 := by
  have hu : ulpExp x = -1074 := by
    unfold ulpExp
    refine max_eq_right ?_
    have h1 := (log_bounds h0.ne').1
    rw [abs_of_pos h0] at h1 ⊢
    have := (zpow_lt_zpow_iff_right₀ (by norm_num : (1 : ℝ) < 2)).1 (lt_of_le_of_lt h1 h)
    omega
  have hp := two_pow_pos (-1074)
  have h2 : (2 : ℝ) ^ (-1076 : ℤ) = 2 ^ (-1074 : ℤ) / 4 := by
    rw [show (-1076 : ℤ) = -1074 - 2 by norm_num, zpow_sub₀ (by norm_num)]
    norm_num
  have h3 : x / (2 : ℝ) ^ (-1074 : ℤ) < 1 / 4 := by
    rw [div_lt_iff₀ hp]
    rw [h2] at h
    generalize (2 : ℝ) ^ (-1074 : ℤ) = u at *
    linarith
  have h4 : 0 < x / (2 : ℝ) ^ (-1074 : ℤ) := by positivity
  have h5 := abs_le.1 (roundEven_err (x / (2 : ℝ) ^ (-1074 : ℤ)))
  have h6 : roundEven (x / (2 : ℝ) ^ (-1074 : ℤ)) = 0 := by
    have a1 : (roundEven (x / (2 : ℝ) ^ (-1074 : ℤ)) : ℝ) < 1 := by linarith [h5.2]
    have a2 : (-1 : ℝ) < (roundEven (x / (2 : ℝ) ^ (-1074 : ℤ)) : ℝ) := by linarith [h5.1]
    have b1 : roundEven (x / (2 : ℝ) ^ (-1074 : ℤ)) < 1 := by exact_mod_cast a1
    have b2 : -1 < roundEven (x / (2 : ℝ) ^ (-1074 : ℤ)) := by exact_mod_cast a2
    omega
  unfold rnd64
  rw [hu, h6]
  simp

theorem B64.val_ofReal_close {s : Bool} {x : ℝ} (h1 : (2 : ℝ) ^ (-1022 : ℤ) ≤ |x|) (h2 : |x| ≤ (2 : ℝ) ^ (1023 : ℤ)) :
    ∃ r, (ofReal s x).val r ∧ Close x r := by
  have hc := rnd64_close h1
  refine ⟨rnd64 x, B64.val_ofReal ?_, hc⟩
  have h3 : (2 : ℝ) ^ (1024 : ℤ) = 2 ^ (1023 : ℤ) * 2 := by
    rw [show (1024 : ℤ) = 1023 + 1 by norm_num, zpow_add₀ (by norm_num), zpow_one]
  have h4 : |rnd64 x| ≤ |rnd64 x - x| + |x| := by
    have := abs_add_le (rnd64 x - x) x
    simpa using this
  unfold Close at hc
  rw [h3]
  have h5 := two_pow_pos 1023
  clear h3
  generalize (2 : ℝ) ^ (1023 : ℤ) = u at *
  clear h1
  linarith

theorem B64.val_ofReal_one {s : Bool} : (ofReal s 1).val 1 := by
  have := B64.val_ofReal_nat (s := s) (k := 1) (by norm_num)
  simpa using this

theorem B64.val_ofReal_zero {s : Bool} : (ofReal s 0).val 0 := by
  have := B64.val_ofReal_nat (s := s) (k := 0) (by norm_num)
  simpa using this

theorem B64.ofReal_zero : ofReal false 0 = zero false := by
  have h : |rnd64 0| < (2 : ℝ) ^ (1024 : ℤ) := by rw [rnd64_zero, abs_zero]; exact two_pow_pos _
  unfold ofReal
  rw [dif_pos h, if_neg (by simp)]
  simp only [zero, rnd64_zero, Bool.false_eq_true, if_false]

/-- The library with correctly rounded results. -/
noncomputable def Libm.exact : Libm where
  exp x := match x, x.toReal with
    | _, some a => B64.ofReal false (Real.exp a)
    | .inf true, _ => B64.zero false
    | x, _ => x
  powi x k := if k = 1 then x else match x, x.toReal with
    | _, some a => by
      classical exact
        if a = 0 ∧ k < 0 then .inf (x.sign && decide (k % 2 ≠ 0)) else B64.ofReal (x.sign && decide (k % 2 ≠ 0)) (a ^ k)
    | .inf s, _ => if k = 0 then B64.ofReal false 1 else if k < 0 then B64.zero (s && decide (k % 2 ≠ 0))
        else .inf (s && decide (k % 2 ≠ 0))
    | x, _ => if k = 0 then B64.ofReal false 1 else x
  exp_normal := by
    intro x a hx h1 h2
    rw [B64.val_iff] at hx
    rw [hx]
    rw [← abs_of_pos (Real.exp_pos a)] at h1 h2
    exact B64.val_ofReal_close h1 h2
  exp_zero := by
    intro x hx
    rw [B64.val_iff] at hx
    rw [hx]
    simp only [Real.exp_zero]
    exact B64.val_ofReal_one
  exp_subnormal := by
    intro x a hx h1 h2
    rw [B64.val_iff] at hx
    rw [hx]
    have h3 : rnd64 (Real.exp a) ≤ 1 := by
      have h4 := abs_le.1 (rnd64_err (Real.exp a))
      have h5 : (2 : ℝ) ^ ulpExp (Real.exp a) ≤ 1 := by
        refine zpow_le_one_of_nonpos₀ (by norm_num) ?_
        unfold ulpExp
        refine max_le ?_ (by norm_num)
        have h6 := (log_bounds (Real.exp_pos a).ne').1
        rw [abs_of_pos (Real.exp_pos a)] at h6 ⊢
        have := (zpow_le_zpow_iff_right₀ (by norm_num : (1 : ℝ) < 2)).1 (le_trans h6 h2)
        omega
      have h6 := small_le
      have h7 : (1 : ℝ) / 2 ^ 256 ≤ 1 / 2 := by norm_num
      linarith [h4.2]
    have h4 := rnd64_pos (le_trans (zpow_le_zpow_right₀ (by norm_num) (by norm_num)) h1)
    refine ⟨_, B64.val_ofReal ?_, h4, h3⟩
    rw [abs_of_pos h4]
    exact lt_of_le_of_lt h3 (one_lt_zpow₀ (by norm_num) (by norm_num))
  exp_small := by
    intro x a hx h
    rw [B64.val_iff] at hx
    rw [hx]
    have h1 := rnd64_tiny (Real.exp_pos a) h
    have h2 := B64.val_ofReal (s := false) (x := Real.exp a) (by rw [h1, abs_zero]; exact two_pow_pos _)
    rwa [h1] at h2
  exp_negInf := rfl
  exp_nan := rfl
  powi_first := fun x => if_pos rfl
  powi_normal := by
    intro x a k hx _ h4 h5
    by_cases h : k = 1
    · subst h
      rw [if_pos rfl]
      refine ⟨a, hx, ?_⟩
      rw [zpow_one, Close, sub_self, abs_zero]
      positivity
    · rw [B64.val_iff] at hx
      have hk : ¬ (a = 0 ∧ k < 0) := by
        rintro ⟨rfl, hk⟩
        rw [zero_zpow _ (by omega), abs_zero] at h4
        exact absurd h4 (not_le.2 (two_pow_pos _))
      simp only [if_neg h, hx, if_neg hk]
      exact B64.val_ofReal_close h4 (le_trans h5 (zpow_le_zpow_right₀ (by norm_num) (by norm_num)))
  powi_base_one := by
    intro x k hx
    by_cases h : (k : Int) = 1
    · rw [if_pos h]; exact hx
    · rw [B64.val_iff] at hx
      simp only [if_neg h, hx, one_ne_zero, false_and, if_false, one_zpow]
      exact B64.val_ofReal_one
  powi_base_zero := by
    intro k h0
    by_cases h : (k : Int) = 1
    · rw [if_pos h]
    · have hz : (B64.zero false).toReal = some 0 := rfl
      simp only [if_neg h, hz, true_and, if_neg (show ¬ (k : Int) < 0 by omega)]
      show B64.ofReal (decide ((0 : ℝ) < 0) && _) ((0 : ℝ) ^ (k : Int)) = _
      rw [zpow_natCast, zero_pow h0.ne', decide_eq_false (lt_irrefl _), Bool.false_and, B64.ofReal_zero]
  powi_pole := by
    intro k h0
    have hz : (B64.zero false).toReal = some 0 := rfl
    simp only [if_neg (show ¬ k = 1 by omega), hz, true_and, if_pos h0]
    show B64.inf (decide ((0 : ℝ) < 0) && _) = _
    rw [decide_eq_false (lt_irrefl _), Bool.false_and]

/-! ## The built-in accept function -/

theorem two_zpow_eq_exp (k : ℤ) : (2 : ℝ) ^ k = Real.exp (k * Real.log 2) := by
  rw [← Real.log_zpow, Real.exp_log (by positivity)]

theorem exp_lt_tiny {a : ℝ} (h : a ≤ -746) : Real.exp a < (2 : ℝ) ^ (-1076 : ℤ) := by
  rw [two_zpow_eq_exp, Real.exp_lt_exp]
  have := Real.log_two_lt_d9
  push_cast
  linarith

theorem exp_normal_of {a : ℝ} (h : -708 ≤ a) : (2 : ℝ) ^ (-1022 : ℤ) ≤ Real.exp a := by
  rw [two_zpow_eq_exp, Real.exp_le_exp]
  have := Real.log_two_gt_d9
  push_cast
  linarith

theorem exp_subnormal_of {a : ℝ} (h : -741 ≤ a) : (2 : ℝ) ^ (-1070 : ℤ) ≤ Real.exp a := by
  rw [two_zpow_eq_exp, Real.exp_le_exp]
  have := Real.log_two_gt_d9
  push_cast
  linarith

theorem rnd64_near {x : ℝ} (h0 : 0 ≤ x) (h : InRange x) : 0.999 * x ≤ rnd64 x ∧ rnd64 x ≤ 1.001 * x := by
  rcases h with rfl | ⟨h1, _⟩
  · rw [rnd64_zero]; norm_num
  · have h2 := ulp_le (le_trans small_le h1)
    have h3 := abs_le.1 (rnd64_err x)
    rw [abs_of_nonneg h0] at h2
    have h4 : x / 2 ^ 52 ≤ x / 1000 := div_le_div_of_nonneg_left h0 (by norm_num) (by norm_num)
    constructor <;> linarith [h3.1, h3.2]

namespace Double
variable {M : Libm}

theorem ofUsize {k : Nat} (h : k ≤ 2 ^ 53) : Double.val (FloatOps.ofUsize k : Double M) k := B64.val_ofReal_nat h

theorem sub_nat {x y : Double M} {a b : Nat} (hx : x.val a) (hy : y.val b) (h : b ≤ a) (ha : a ≤ 2 ^ 53) :
    Double.val (FloatArith.sub x y) ((a - b : Nat) : ℝ) := by
  show B64.val (B64.sub x y) _
  rw [B64.val_sub hx hy, ← Nat.cast_sub h]
  exact B64.val_ofReal_nat (by omega)

theorem mul_val {x y : Double M} {a b : ℝ} (hx : x.val a) (hy : y.val b) (h : |rnd64 (a * b)| < (2 : ℝ) ^ (1024 : ℤ)) :
    Double.val (FloatArith.mul x y) (rnd64 (a * b)) := by
  show B64.val (B64.mul x y) _
  rw [B64.val_mul hx hy]
  exact B64.val_ofReal h

theorem mul_near {x y : Double M} {a b : ℝ} (hx : x.val a) (hy : y.val b) (h0 : 0 ≤ a * b) (h : InRange (a * b)) :
    ∃ r, Double.val (FloatArith.mul x y) r ∧ 0.999 * (a * b) ≤ r ∧ r ≤ 1.001 * (a * b) := by
  refine ⟨rnd64 (a * b), ?_, rnd64_near h0 h⟩
  show B64.val (B64.mul x y) _
  rw [B64.val_mul hx hy]
  exact B64.val_ofReal (rnd64_inRange h).2

theorem div_near {x y : Double M} {a b : ℝ} (hx : x.val a) (hy : y.val b) (hb : b ≠ 0) (h0 : 0 ≤ a / b) (h : InRange (a / b)) :
    ∃ r, Double.val (FloatArith.div x y) r ∧ 0.999 * (a / b) ≤ r ∧ r ≤ 1.001 * (a / b) := by
  refine ⟨rnd64 (a / b), ?_, rnd64_near h0 h⟩
  show B64.val (B64.div x y) _
  rw [B64.val_div hx hy hb]
  exact B64.val_ofReal (rnd64_inRange h).2

/-- The memory below the least known one. -/
theorem diff {minimal lastMax cur : Nat} (h : max cur lastMax ≤ minimal) (hm : minimal ≤ 2 ^ 53) :
    Double.val (FloatArith.sub (FloatOps.ofUsize minimal) (FloatArith.fmax (FloatOps.ofUsize cur)
      (FloatOps.ofUsize lastMax)) : Double M) ((minimal - max cur lastMax : Nat) : ℝ) := by
  have h1 : Double.val (FloatArith.fmax (FloatOps.ofUsize cur) (FloatOps.ofUsize lastMax) : Double M)
      ((max cur lastMax : Nat) : ℝ) := by
    rw [Nat.cast_max]
    exact B64.val_fmax (B64.val_ofReal_nat (by omega)) (B64.val_ofReal_nat (by omega))
  exact sub_nat (ofUsize hm) h1 h hm

/-- The argument of the exponential function. -/
theorem exponent {n rem d : Nat} {x : Double M} (hx : x.val d) (hn : n ≤ 2 ^ 53) (hr : rem < n) (h1 : 1 ≤ d) (h2 : d ≤ 2 ^ 53) :
    ∃ y : ℝ, Double.val (FloatArith.neg (FloatArith.div (FloatArith.div (FloatArith.mul (FloatOps.ofUsize n)
        (FloatOps.ofUsize rem)) (FloatArith.powi x 3)) (FloatArith.sub (FloatOps.ofUsize n) (FloatOps.ofUsize rem))) : Double M)
        (-y) ∧
      0.93 * ((n : ℝ) * rem / d ^ 3 / (n - rem : Nat)) ≤ y ∧ y ≤ 1.08 * ((n : ℝ) * rem / d ^ 3 / (n - rem : Nat)) ∧
      (d = 1 → 0.997 * ((n : ℝ) * rem / (n - rem : Nat)) ≤ y ∧ y ≤ 1.0031 * ((n : ℝ) * rem / (n - rem : Nat))) := by
  have e3 := ofUsize (M := M) (k := rem) (by omega)
  have e4 := ofUsize (M := M) hn
  have eq := sub_nat e4 e3 hr.le hn
  have q1 : (1 : ℝ) ≤ ((n - rem : Nat) : ℝ) := by exact_mod_cast (show 1 ≤ n - rem by omega)
  have q2 : ((n - rem : Nat) : ℝ) ≤ 2 ^ 53 := by exact_mod_cast (show n - rem ≤ 2 ^ 53 by omega)
  generalize ((n - rem : Nat) : ℝ) = q at *
  have d1 : (1 : ℝ) ≤ d := by exact_mod_cast h1
  have d2 : (d : ℝ) ≤ 2 ^ 53 := by exact_mod_cast h2
  have d3 : (d : ℝ) ^ 3 ≤ (2 ^ 53) ^ 3 := by gcongr
  have d4 : (1 : ℝ) ≤ (d : ℝ) ^ 3 := one_le_pow₀ d1
  obtain ⟨c, c1, c2, c3⟩ := (Double.laws M).powi (k := 3) hx (by omega) (by omega) d1 (le_trans d2 (by norm_num))
  have c4 := c2.pos (by linarith)
  have c3' : d = 1 → c = 1 := fun h => c3 (by rw [h]; norm_num)
  have n1 : (n : ℝ) ≤ 2 ^ 53 := by exact_mod_cast hn
  have r1 : (rem : ℝ) ≤ 2 ^ 53 := by exact_mod_cast (show rem ≤ 2 ^ 53 by omega)
  generalize hD : (d : ℝ) ^ 3 = D at *
  have cpos : 0 < c := by linarith
  have cbig : c ≤ 2 ^ 160 := le_trans c4.2 (le_trans (by linarith) (show 17 / 16 * ((2 : ℝ) ^ 53) ^ 3 ≤ 2 ^ 160 by norm_num))
  have qpos : 0 < q := by linarith
  by_cases hr0 : rem = 0
  · subst hr0
    simp only [Nat.cast_zero, mul_zero, zero_div] at e3 ⊢
    obtain ⟨a, a1, a2, a3⟩ := mul_near e4 e3 (by simp) (Or.inl (by simp))
    have a0 : a = 0 := by rw [mul_zero] at a2 a3; linarith
    subst a0
    obtain ⟨b, b1, b2, b3⟩ := div_near a1 c1 cpos.ne' (by simp) (Or.inl (by simp))
    have b0 : b = 0 := by rw [zero_div] at b2 b3; linarith
    subst b0
    obtain ⟨y, y1, y2, y3⟩ := div_near b1 eq qpos.ne' (by simp) (Or.inl (by simp))
    have y0 : y = 0 := by rw [zero_div] at y2 y3; linarith
    subst y0
    exact ⟨0, B64.val_neg y1, le_refl _, le_refl _, fun _ => ⟨le_refl _, le_refl _⟩⟩
  · have p1 : (1 : ℝ) ≤ n := by exact_mod_cast (show 1 ≤ n by omega)
    have p2 : (1 : ℝ) ≤ rem := by exact_mod_cast (show 1 ≤ rem by omega)
    have mlo : (1 : ℝ) ≤ n * rem := by nlinarith
    have mhi : (n : ℝ) * rem ≤ 2 ^ 106 := by
      calc (n : ℝ) * rem ≤ 2 ^ 53 * 2 ^ 53 := by gcongr
        _ = 2 ^ 106 := by norm_num
    obtain ⟨a, a1, a2, a3⟩ := mul_near e4 e3 (by linarith) (inRange_of_pos
      (le_trans (by norm_num) mlo) (le_trans mhi (by norm_num)))
    generalize (n : ℝ) * rem = m at *
    have apos : 0 < a := by linarith
    have blo : (1 : ℝ) / 2 ^ 161 ≤ a / c := by
      rw [div_le_div_iff₀ (by positivity) cpos]
      have : (2 : ℝ) ^ 160 ≤ 0.999 * 2 ^ 161 := by norm_num
      nlinarith
    have bhi : a / c ≤ 2 ^ 107 := by
      rw [div_le_iff₀ cpos]
      have h3 : 1.001 * (2 : ℝ) ^ 106 ≤ 2 ^ 107 * (15 / 16) := by norm_num
      nlinarith
    obtain ⟨b, b1, b2, b3⟩ := div_near a1 c1 cpos.ne' (by positivity) (inRange_of_pos
      (le_trans (by norm_num) blo) (le_trans bhi (by norm_num)))
    have bpos : 0 < b := lt_of_lt_of_le (by positivity) b2
    have blo' : (1 : ℝ) / 2 ^ 162 ≤ b := by
      have : (1 : ℝ) / 2 ^ 162 ≤ 0.999 * (1 / 2 ^ 161) := by norm_num
      linarith
    have clo : (1 : ℝ) / 2 ^ 216 ≤ b / q := by
      rw [div_le_div_iff₀ (by positivity) qpos]
      have h4 : (1 : ℝ) / 2 ^ 162 * 2 ^ 216 = 2 ^ 54 := by norm_num
      have h5 : (1 : ℝ) / 2 ^ 162 * 2 ^ 216 ≤ b * 2 ^ 216 := by gcongr
      linarith
    have chi : b / q ≤ 2 ^ 108 := by
      rw [div_le_iff₀ qpos]
      have : 1.001 * (2 : ℝ) ^ 107 ≤ 2 ^ 108 := by norm_num
      nlinarith
    obtain ⟨y, y1, y2, y3⟩ := div_near b1 eq qpos.ne' (by positivity) (inRange_of_pos
      (le_trans (by norm_num) clo) (le_trans chi (by norm_num)))
    have Dpos : 0 < D := by linarith
    have mpos : 0 < m := by linarith
    -- the errors of the three roundings and of the third power
    have k1 : a / c ≤ 1.001 * m / (15 / 16 * D) := by
      apply div_le_div₀ (by positivity) a3 (by positivity) c4.1
    have k2 : 0.999 * m / (17 / 16 * D) ≤ a / c := by
      apply div_le_div₀ apos.le a2 cpos c4.2
    have k3 : b / q ≤ 1.001 * (1.001 * m / (15 / 16 * D)) / q := by
      gcongr
      linarith
    have k4 : 0.999 * (0.999 * m / (17 / 16 * D)) / q ≤ b / q := by
      gcongr
      linarith
    have k5 : 1.001 * (1.001 * m / (15 / 16 * D)) / q = (1.001 * 1.001 * (16 / 15)) * (m / D / q) := by
      field_simp
      try norm_num
    have k6 : 0.999 * (0.999 * m / (17 / 16 * D)) / q = (0.999 * 0.999 * (16 / 17)) * (m / D / q) := by
      field_simp
      try norm_num
    have epos : 0 < m / D / q := by positivity
    rw [k5] at k3
    rw [k6] at k4
    refine ⟨y, B64.val_neg y1, ?_, ?_, ?_⟩
    · nlinarith
    · nlinarith
    · intro h
      have hc := c3' h
      subst hc
      rw [div_one] at b2 b3
      have k7 : b / q ≤ 1.001 * (1.001 * m) / q := by
        gcongr
        linarith
      have k8 : 1.001 * (1.001 * m) / q = (1.001 * 1.001) * (m / q) := by ring
      have k9 : 0.999 * (0.999 * m) / q ≤ b / q := by
        gcongr
        linarith
      have k10 : 0.999 * (0.999 * m) / q = (0.999 * 0.999) * (m / q) := by ring
      have : 0 < m / q := by positivity
      rw [k8] at k7
      rw [k10] at k9
      constructor <;> linarith

theorem sign_pos {x : B64} {a : ℝ} (hx : x.val a) (ha : 0 < a) : x.sign = false := by
  cases x with
  | nan => exact hx.elim
  | inf => exact hx.elim
  | negZero =>
    have : (0 : ℝ) = a := hx
    linarith
  | fin x h =>
    have : x = a := hx
    subst this
    simp [B64.sign, ha.le]

theorem sign_nat {k : Nat} : (B64.ofUsize k).sign = false := by
  unfold B64.ofUsize B64.ofReal
  have h0 : (0 : ℝ) ≤ k := Nat.cast_nonneg _
  have h1 : 0 ≤ rnd64 (k : ℝ) := by
    unfold rnd64
    have h2 : (0 : ℤ) ≤ roundEven ((k : ℝ) / 2 ^ ulpExp k) := roundEven_ge (by push_cast; positivity)
    have h3 : (0 : ℝ) ≤ (roundEven ((k : ℝ) / 2 ^ ulpExp k) : ℝ) := by exact_mod_cast h2
    positivity
  split
  · rw [if_neg (by simp [h0.not_gt])]
    simp [B64.sign, h1.not_gt]
  · simp [B64.sign, h0.not_gt]

/-- The difference is `+0` if the memory is the least known one. -/
theorem diff_zero {minimal lastMax cur : Nat} (h : max cur lastMax = minimal) (hm : minimal ≤ 2 ^ 53) :
    (FloatArith.sub (FloatOps.ofUsize minimal) (FloatArith.fmax (FloatOps.ofUsize cur)
      (FloatOps.ofUsize lastMax)) : Double M) = FloatArith.zero := by
  have h1 : Double.val (FloatArith.fmax (FloatOps.ofUsize cur) (FloatOps.ofUsize lastMax) : Double M)
      ((minimal : Nat) : ℝ) := by
    rw [← h, Nat.cast_max]
    exact B64.val_fmax (B64.val_ofReal_nat (by omega)) (B64.val_ofReal_nat (by omega))
  show B64.sub _ _ = B64.zero false
  have h2 : B64.val (B64.ofUsize minimal) minimal := B64.val_ofReal_nat hm
  refine (B64.val_sub h2 h1).trans ?_
  rw [sign_nat, Bool.false_and, sub_self, B64.ofReal_zero]

def nan (M : Libm) : Double M := B64.nan
def inf (M : Libm) (negative : Bool) : Double M := B64.inf negative

theorem div_nan (y : Double M) : FloatArith.div (nan M) y = nan M := by
  show B64.div B64.nan y = B64.nan
  cases y <;> rfl

theorem mul_nan (x : Double M) : FloatArith.mul x (nan M) = nan M := by
  show B64.mul x B64.nan = B64.nan
  cases x <;> rfl

theorem div_zero_zero {x : Double M} (hx : x.val 0) : FloatArith.div x FloatArith.zero = nan M := by
  show B64.div x (B64.zero false) = B64.nan
  have h5 := B64.val_iff.1 hx
  unfold B64.div
  rw [h5]
  simp [B64.zero, B64.toReal]

theorem div_pos_zero {x : Double M} {a : ℝ} (hx : x.val a) (ha : 0 < a) : FloatArith.div x FloatArith.zero = inf M false := by
  show B64.div x (B64.zero false) = B64.inf false
  have h5 := B64.val_iff.1 hx
  have h6 := sign_pos hx ha
  unfold B64.div
  rw [h5, h6]
  simp [B64.zero, B64.toReal, ha.ne', B64.sign]

theorem div_inf_pos {y : Double M} {a : ℝ} (hy : y.val a) (ha : 0 < a) : FloatArith.div (inf M false) y = inf M false := by
  show B64.div (B64.inf false) y = B64.inf false
  have h5 := B64.val_iff.1 hy
  have h6 := sign_pos hy ha
  unfold B64.div
  rw [h5, h6]
  rfl

/-- If the memory would equal the least known one. -/
theorem builtin_equal {n minimal lastMax cur rem : Nat} (bound lastCur : Double M)
    (hn : n ≤ 2 ^ 53) (hr : rem < n) (h2 : max cur lastMax = minimal) (h3 : minimal ≤ 2 ^ 53) :
    let a := (builtinHeavyside bound (FloatOps.ofUsize minimal) (FloatOps.ofUsize lastMax) lastCur
      (FloatOps.ofUsize cur) (FloatOps.ofUsize rem) (FloatOps.ofUsize n) : Double M)
    (rem = 0 → a = nan M) ∧ (rem ≠ 0 → a.val 0) := by
  have hlt : FloatOps.lt (FloatArith.zero : Double M) FloatArith.zero = false := by
    rw [Bool.eq_false_iff]
    intro h'
    have := ((Double.laws M).lt (Double.laws M).zero (Double.laws M).zero).1 h'
    linarith
  unfold builtinHeavyside
  simp only [diff_zero h2 h3, hlt, Bool.false_eq_true, if_false]
  have hc : (FloatArith.powi FloatArith.zero 3 : Double M) = FloatArith.zero :=
    M.powi_base_zero (k := 3) (by norm_num)
  rw [hc]
  have e3 := ofUsize (M := M) (k := rem) (by omega)
  have e4 := ofUsize (M := M) hn
  have eq := sub_nat e4 e3 hr.le hn
  have q1 : (0 : ℝ) < ((n - rem : Nat) : ℝ) := by exact_mod_cast (show 0 < n - rem by omega)
  constructor
  · rintro rfl
    rw [Nat.cast_zero] at e3
    have hz : rnd64 ((n : ℝ) * 0) = 0 := by rw [mul_zero, rnd64_zero]
    have m1 := mul_val e4 e3 (by rw [hz, abs_zero]; exact two_pow_pos _)
    rw [hz] at m1
    rw [div_zero_zero m1, div_nan]
    have he : FloatArith.exp (FloatArith.neg (nan M)) = nan M := M.exp_nan
    rw [he, mul_nan]
  · intro h0
    have p1 : (1 : ℝ) ≤ n := by exact_mod_cast (show 1 ≤ n by omega)
    have p2 : (1 : ℝ) ≤ rem := by exact_mod_cast (show 1 ≤ rem by omega)
    have mlo : (1 : ℝ) ≤ n * rem := by nlinarith
    have n1 : (n : ℝ) ≤ 2 ^ 53 := by exact_mod_cast hn
    have r1 : (rem : ℝ) ≤ 2 ^ 53 := by exact_mod_cast (show rem ≤ 2 ^ 53 by omega)
    have mhi : (n : ℝ) * rem ≤ 2 ^ 106 := by
      calc (n : ℝ) * rem ≤ 2 ^ 53 * 2 ^ 53 := by gcongr
        _ = 2 ^ 106 := by norm_num
    obtain ⟨a, a1, a2, a3⟩ := mul_near e4 e3 (by linarith) (inRange_of_pos
      (le_trans (by norm_num) mlo) (le_trans mhi (by norm_num)))
    have apos : 0 < a := by linarith
    rw [div_pos_zero a1 apos, div_inf_pos eq q1]
    have z : B64.val (M.exp (B64.neg (B64.inf false))) 0 := M.exp_negInf
    obtain ⟨sq, s1, _⟩ := (Double.laws M).powi (k := 2) e4 (by omega) (by omega) p1 (le_trans n1 (by norm_num))
    have hz : rnd64 (sq * 0) = 0 := by rw [mul_zero, rnd64_zero]
    have := mul_val s1 z (by rw [hz, abs_zero]; exact two_pow_pos _)
    rwa [hz] at this

/-- If no bit is blocked and the memory is below the least known one. -/
theorem builtin_free {n minimal lastMax cur : Nat} (bound lastCur : Double M)
    (hn : n ≤ 2 ^ 53) (h1 : 1 ≤ n) (h2 : max cur lastMax < minimal) (h3 : minimal ≤ 2 ^ 53) :
    FloatOps.geOne (builtinHeavyside bound (FloatOps.ofUsize minimal) (FloatOps.ofUsize lastMax) lastCur
      (FloatOps.ofUsize cur) (FloatOps.ofUsize 0) (FloatOps.ofUsize n) : Double M) = true := by
  have hd := diff (M := M) (lastMax := lastMax) (cur := cur) h2.le h3
  obtain ⟨d, hdd⟩ : ∃ d, d = minimal - max cur lastMax := ⟨_, rfl⟩
  rw [← hdd] at hd
  have d1 : 1 ≤ d := by omega
  have hlt : FloatOps.lt (FloatArith.sub (FloatOps.ofUsize minimal)
      (FloatArith.fmax (FloatOps.ofUsize cur) (FloatOps.ofUsize lastMax))) (FloatArith.zero : Double M) = false := by
    rw [Bool.eq_false_iff]
    intro h'
    have := ((Double.laws M).lt hd (Double.laws M).zero).1 h'
    have : (0 : ℝ) ≤ d := Nat.cast_nonneg _
    linarith
  unfold builtinHeavyside
  simp only [hlt, Bool.false_eq_true, if_false]
  obtain ⟨y, y1, y2, y3, _⟩ := exponent (n := n) (rem := 0) hd hn (by omega) d1 (by omega)
  have y0 : y = 0 := by
    rw [Nat.cast_zero, mul_zero, zero_div, zero_div, mul_zero] at y2 y3
    linarith
  rw [y0, neg_zero] at y1
  have z := M.exp_zero y1
  have n1 : (1 : ℝ) ≤ n := by exact_mod_cast h1
  have n2 : (n : ℝ) ≤ 2 ^ 53 := by exact_mod_cast hn
  obtain ⟨sq, s1, s2, s3⟩ := (Double.laws M).powi (k := 2) (ofUsize (M := M) hn) (by omega) (by omega) n1
    (le_trans n2 (by norm_num))
  have n3 : (n : ℝ) ^ 2 ≤ (2 ^ 53) ^ 2 := by gcongr
  have s4 := s2.pos (by positivity)
  have s5 : 1 ≤ sq := by
    by_cases h : n = 1
    · rw [s3 (by rw [h]; norm_num)]
    · have : (2 : ℝ) ≤ n := by exact_mod_cast (show 2 ≤ n by omega)
      nlinarith
  obtain ⟨r, r1, _, r3⟩ := (Double.laws M).mul s1 z (inRange_of_pos
    (by rw [mul_one]; exact le_trans (by norm_num) s5)
    (by
      rw [mul_one]
      exact le_trans s4.2 (le_trans (by linarith) (show 17 / 16 * ((2 : ℝ) ^ 53) ^ 2 ≤ 2 ^ 256 by norm_num))))
  exact ((Double.laws M).geOne r1).2 (r3 (by rw [mul_one]; exact s5))

/-- The answer of the built-in function is positive if the memory is below the least known one and not too many
bits are blocked. -/
theorem builtin_pos {n minimal lastMax cur rem : Nat} (bound lastCur : Double M) (hn : n ≤ 2 ^ 53) (hr : rem < n)
    (h : max cur lastMax < minimal) (hm : minimal ≤ 2 ^ 53)
    (hsmall : n * rem ≤ 680 * (minimal - max cur lastMax) ^ 3 * (n - rem) ∨
      (minimal - max cur lastMax = 1 ∧ n * rem ≤ 738 * (n - rem))) :
    ∃ r : ℝ, 0 < r ∧ Double.val (builtinHeavyside bound (FloatOps.ofUsize minimal) (FloatOps.ofUsize lastMax) lastCur
      (FloatOps.ofUsize cur) (FloatOps.ofUsize rem) (FloatOps.ofUsize n) : Double M) r := by
  have hd := diff (M := M) (lastMax := lastMax) (cur := cur) h.le hm
  obtain ⟨d, hdd⟩ : ∃ d, d = minimal - max cur lastMax := ⟨_, rfl⟩
  rw [← hdd] at hd hsmall
  have d1 : 1 ≤ d := by omega
  have hlt : FloatOps.lt (FloatArith.sub (FloatOps.ofUsize minimal)
      (FloatArith.fmax (FloatOps.ofUsize cur) (FloatOps.ofUsize lastMax))) (FloatArith.zero : Double M) = false := by
    rw [Bool.eq_false_iff]
    intro h'
    have := ((Double.laws M).lt hd (Double.laws M).zero).1 h'
    have : (0 : ℝ) ≤ d := Nat.cast_nonneg _
    linarith
  unfold builtinHeavyside
  simp only [hlt, Bool.false_eq_true, if_false]
  obtain ⟨y, y1, y2, y3, y4⟩ := exponent (n := n) (rem := rem) hd (by omega) hr d1 (by omega)
  have q0 : (0 : ℝ) < ((n - rem : Nat) : ℝ) := by exact_mod_cast (show 0 < n - rem by omega)
  have D0 : (0 : ℝ) < (d : ℝ) ^ 3 := by
    have : (0 : ℝ) < d := by exact_mod_cast d1
    positivity
  have ylo : 0 ≤ y := le_trans (by positivity) y2
  have yhi : y ≤ 741 := by
    rcases hsmall with h5 | ⟨h5, h6⟩
    · have h6 : (n : ℝ) * rem / (d : ℝ) ^ 3 / ((n - rem : Nat) : ℝ) ≤ 680 := by
        rw [div_div, div_le_iff₀ (by positivity), ← mul_assoc]
        exact_mod_cast h5
      linarith
    · have h7 : (n : ℝ) * rem / ((n - rem : Nat) : ℝ) ≤ 738 := by
        rw [div_le_iff₀ q0]
        exact_mod_cast h6
      linarith [(y4 h5).2]
  have e2 : Real.exp (-y) ≤ 1 := Real.exp_le_one_iff.2 (by linarith)
  obtain ⟨z, z1, z2, z3⟩ : ∃ z, Double.val (FloatArith.exp (FloatArith.neg (FloatArith.div (FloatArith.div
      (FloatArith.mul (FloatOps.ofUsize n) (FloatOps.ofUsize rem)) (FloatArith.powi (FloatArith.sub (FloatOps.ofUsize minimal)
      (FloatArith.fmax (FloatOps.ofUsize cur) (FloatOps.ofUsize lastMax))) 3)) (FloatArith.sub (FloatOps.ofUsize n)
      (FloatOps.ofUsize rem)))) : Double M) z ∧ 0 < z ∧ z ≤ 2 := by
    rcases le_total (Real.exp (-y)) ((2 : ℝ) ^ (-1022 : ℤ)) with h5 | h5
    · obtain ⟨z, z1, z2, z3⟩ := M.exp_subnormal y1 (exp_subnormal_of (by linarith)) h5
      exact ⟨z, z1, z2, by linarith⟩
    · obtain ⟨z, z1, z2⟩ := M.exp_normal y1 h5 (le_trans e2 (one_le_zpow₀ (by norm_num) (by norm_num)))
      have z3 := z2.pos (Real.exp_pos _).le
      have := Real.exp_pos (-y)
      exact ⟨z, z1, by linarith, by linarith⟩
  have n1 : (1 : ℝ) ≤ n := by exact_mod_cast (show 1 ≤ n by omega)
  have n2 : (n : ℝ) ≤ 2 ^ 53 := by exact_mod_cast hn
  obtain ⟨sq, s1, s2, s3⟩ := (Double.laws M).powi (k := 2) (ofUsize (M := M) hn) (by omega) (by omega) n1
    (le_trans n2 (by norm_num))
  have n3 : (1 : ℝ) ≤ (n : ℝ) ^ 2 := one_le_pow₀ n1
  have n4 : (n : ℝ) ^ 2 ≤ (2 ^ 53) ^ 2 := by gcongr
  have s4 := s2.pos (by linarith)
  have sq1 : 1 ≤ sq := by
    by_cases hn1 : n = 1
    · rw [s3 (by rw [hn1]; norm_num)]
    · have h5 : (2 : ℝ) ≤ n := by exact_mod_cast (show 2 ≤ n by omega)
      have h6 : (2 : ℝ) ^ 2 ≤ (n : ℝ) ^ 2 := by gcongr
      linarith
  have hle : z ≤ sq * z := by nlinarith
  have hpos : 0 < rnd64 (sq * z) := rnd64_pos (le_trans (B64.val_pos z1 z2) hle)
  have hbig : |sq * z| ≤ 2 ^ 256 := by
    rw [abs_of_nonneg (by nlinarith)]
    have h6 : sq ≤ 2 ^ 107 := le_trans s4.2 (le_trans (by linarith) (show 17 / 16 * ((2 : ℝ) ^ 53) ^ 2 ≤ 2 ^ 107 by norm_num))
    have h8 : sq * z ≤ 2 ^ 107 * 2 := mul_le_mul h6 z3 z2.le (by norm_num)
    exact le_trans h8 (by norm_num)
  refine ⟨rnd64 (sq * z), hpos, ?_⟩
  exact mul_val s1 z1 (lt_of_le_of_lt (rnd64_abs_le _) (lt_of_le_of_lt (by linarith) le_large))

/-- The answer of the built-in function is exactly zero, although the memory is below the least known one, if too
many bits are blocked. -/
theorem builtin_underflow {n minimal lastMax cur rem : Nat} (bound lastCur : Double M) (hn : n ≤ 2 ^ 53) (hr : rem < n)
    (h : max cur lastMax < minimal) (hm : minimal ≤ 2 ^ 53)
    (hbig : 810 * (minimal - max cur lastMax) ^ 3 * (n - rem) ≤ n * rem ∨
      (minimal - max cur lastMax = 1 ∧ 749 * (n - rem) ≤ n * rem)) :
    Double.val (builtinHeavyside bound (FloatOps.ofUsize minimal) (FloatOps.ofUsize lastMax) lastCur
      (FloatOps.ofUsize cur) (FloatOps.ofUsize rem) (FloatOps.ofUsize n) : Double M) 0 := by
  have hd := diff (M := M) (lastMax := lastMax) (cur := cur) h.le hm
  obtain ⟨d, hdd⟩ : ∃ d, d = minimal - max cur lastMax := ⟨_, rfl⟩
  rw [← hdd] at hd hbig
  have d1 : 1 ≤ d := by omega
  have hlt : FloatOps.lt (FloatArith.sub (FloatOps.ofUsize minimal)
      (FloatArith.fmax (FloatOps.ofUsize cur) (FloatOps.ofUsize lastMax))) (FloatArith.zero : Double M) = false := by
    rw [Bool.eq_false_iff]
    intro h'
    have := ((Double.laws M).lt hd (Double.laws M).zero).1 h'
    have : (0 : ℝ) ≤ d := Nat.cast_nonneg _
    linarith
  unfold builtinHeavyside
  simp only [hlt, Bool.false_eq_true, if_false]
  obtain ⟨y, y1, y2, _, y4⟩ := exponent (n := n) (rem := rem) hd (by omega) hr d1 (by omega)
  have q1 : (0 : ℝ) < ((n - rem : Nat) : ℝ) := by exact_mod_cast (show 0 < n - rem by omega)
  have hy : 746 ≤ y := by
    rcases hbig with h5 | ⟨h5, h6⟩
    · have hE : 810 ≤ (n : ℝ) * rem / (d : ℝ) ^ 3 / ((n - rem : Nat) : ℝ) := by
        have hD : (0 : ℝ) < (d : ℝ) ^ 3 := by
          have : (0 : ℝ) < d := by exact_mod_cast d1
          positivity
        rw [div_div, le_div_iff₀ (by positivity), ← mul_assoc]
        exact_mod_cast h5
      linarith
    · have h7 : 749 ≤ (n : ℝ) * rem / ((n - rem : Nat) : ℝ) := by
        rw [le_div_iff₀ q1]
        exact_mod_cast h6
      linarith [(y4 h5).1]
  have z := M.exp_small y1 (exp_lt_tiny (by linarith))
  have n1 : (1 : ℝ) ≤ n := by exact_mod_cast (show 1 ≤ n by omega)
  have n2 : (n : ℝ) ≤ 2 ^ 53 := by exact_mod_cast hn
  obtain ⟨sq, s1, s2, s3⟩ := (Double.laws M).powi (k := 2) (ofUsize (M := M) hn) (by omega) (by omega) n1
    (le_trans n2 (by norm_num))
  have hz : rnd64 (sq * 0) = 0 := by rw [mul_zero, rnd64_zero]
  have := mul_val s1 z (by rw [hz, abs_zero]; exact two_pow_pos _)
  rwa [hz] at this

end Double

end Verif
