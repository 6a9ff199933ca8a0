import Verif.Model.Float
import Mathlib.Tactic.Linarith
import Mathlib.Tactic.Positivity
import Mathlib.Tactic.NormNum
import Mathlib.Tactic.FieldSimp
import Mathlib.Tactic.Ring
import Mathlib.Analysis.Complex.ExponentialBounds
/-!
# Laws of floating point numbers, and the accept functions
-/

namespace Verif

open Search

/-- `r'` approximates `r` with a relative error of at most 1/16 (`f64`: 2⁻⁵³). -/
def Close (r r' : ℝ) : Prop := |r' - r| ≤ |r| / 16

/-- Exact results that are neither too large nor too small to be represented. -/
def InRange (r : ℝ) : Prop := r = 0 ∨ (1 / 2 ^ 256 ≤ |r| ∧ |r| ≤ 2 ^ 256)

/-- What is used about `f64`. `val x r` means that `x` is the finite number `r`. -/
structure FloatLaws (F : Type) [FloatArith F] (val : F → ℝ → Prop) : Prop where
  ofUsize_small : ∀ k : Nat, k ≤ 2 ^ 53 → val (FloatOps.ofUsize k) k
  ofUsize_max : val (FloatOps.ofUsize usizeMax) (2 ^ 64)
  zero : val FloatArith.zero 0
  lt : ∀ {x y a b}, val x a → val y b → (FloatOps.lt x y = true ↔ a < b)
  geOne : ∀ {x a}, val x a → (FloatOps.geOne x = true ↔ 1 ≤ a)
  fmax : ∀ {x y a b}, val x a → val y b → val (FloatArith.fmax x y) (max a b)
  neg : ∀ {x a}, val x a → val (FloatArith.neg x) (-a)
  sub : ∀ {x y a b}, val x a → val y b → InRange (a - b) →
    ∃ r, val (FloatArith.sub x y) r ∧ Close (a - b) r
  /-- rounding is monotone and 1 is a number -/
  mul : ∀ {x y a b}, val x a → val y b → InRange (a * b) →
    ∃ r, val (FloatArith.mul x y) r ∧ Close (a * b) r ∧ (1 ≤ a * b → 1 ≤ r)
  div : ∀ {x y a b}, val x a → val y b → b ≠ 0 → InRange (a / b) →
    ∃ r, val (FloatArith.div x y) r ∧ Close (a / b) r
  powi : ∀ {x a} {k : Nat}, val x a → 2 ≤ k → k ≤ 3 → 1 ≤ a → a ≤ 2 ^ 65 →
    ∃ r, val (FloatArith.powi x k) r ∧ Close (a ^ k) r ∧ (a = 1 → r = 1)
  exp : ∀ {x a}, val x a → -1 ≤ a → a ≤ 0 →
    ∃ r, val (FloatArith.exp x) r ∧ Close (Real.exp a) r ∧ (a = 0 → r = 1)

theorem Close.zero {r : ℝ} (h : Close 0 r) : r = 0 := by
  unfold Close at h
  simp only [sub_zero, abs_zero, zero_div] at h
  exact abs_eq_zero.1 (le_antisymm h (abs_nonneg _))

theorem Close.pos {a r : ℝ} (h : Close a r) (ha : 0 ≤ a) : 15 / 16 * a ≤ r ∧ r ≤ 17 / 16 * a := by
  unfold Close at h
  rw [abs_of_nonneg ha, abs_le] at h
  constructor <;> linarith [h.1, h.2]

theorem Close.neg {a r : ℝ} (h : Close a r) (ha : a < 0) : r < 0 := by
  unfold Close at h
  rw [abs_of_neg ha, abs_le] at h
  linarith [h.2]

theorem inRange_of_pos {r : ℝ} (h1 : 1 / 2 ^ 256 ≤ r) (h2 : r ≤ 2 ^ 256) : InRange r := by
  have : 0 ≤ r := le_trans (by positivity) h1
  exact Or.inr (by rw [abs_of_nonneg this]; exact ⟨h1, h2⟩)

section
variable {F : Type} [FloatArith F] {val : F → ℝ → Prop}

/-- The built-in function while no path is known. -/
theorem builtin_unknown (L : FloatLaws F val) {n lastMax cur rem : Nat} (bound lastCur : F)
    (hn : n ≤ 2 ^ 53) (h1 : lastMax ≤ n) (h2 : cur ≤ n) (h3 : rem < n) :
    FloatOps.geOne (builtinHeavyside bound (FloatOps.ofUsize usizeMax) (FloatOps.ofUsize lastMax) lastCur
      (FloatOps.ofUsize cur) (FloatOps.ofUsize rem) (FloatOps.ofUsize n)) = true := by
  have e0 := L.ofUsize_max
  have e1 := L.ofUsize_small lastMax (by omega)
  have e2 := L.ofUsize_small cur (by omega)
  have e3 := L.ofUsize_small rem (by omega)
  have e4 := L.ofUsize_small n hn
  have c1 : (lastMax : ℝ) ≤ n := by exact_mod_cast h1
  have c2 : (cur : ℝ) ≤ n := by exact_mod_cast h2
  have c3 : (rem : ℝ) + 1 ≤ n := by exact_mod_cast h3
  have c4 : (n : ℝ) ≤ 2 ^ 53 := by exact_mod_cast hn
  have p1 : (0 : ℝ) ≤ lastMax := Nat.cast_nonneg _
  have p2 : (0 : ℝ) ≤ cur := Nat.cast_nonneg _
  have p3 : (0 : ℝ) ≤ rem := Nat.cast_nonneg _
  have e5 := L.fmax e2 e1
  have m1 : max (cur : ℝ) lastMax ≤ 2 ^ 53 := max_le (by linarith) (by linarith)
  have m2 : 0 ≤ max (cur : ℝ) lastMax := le_max_of_le_left p2
  obtain ⟨diff, e6, e7⟩ := L.sub e0 e5 (inRange_of_pos
    (by
      have : (1 : ℝ) / 2 ^ 256 ≤ 1 := by norm_num
      have : (2 : ℝ) ^ 64 - 2 ^ 53 ≥ 1 := by norm_num
      linarith)
    (by
      have : (2 : ℝ) ^ 64 ≤ 2 ^ 256 := by norm_num
      linarith))
  have e8 := e7.pos (by
    have : (2 : ℝ) ^ 64 - 2 ^ 53 ≥ 1 := by norm_num
    linarith)
  have d1 : (2 : ℝ) ^ 63 ≤ diff := by
    have : 15 / 16 * ((2 : ℝ) ^ 64 - 2 ^ 53) ≥ 2 ^ 63 := by norm_num
    linarith
  have d2 : diff ≤ 2 ^ 65 := by
    have : 17 / 16 * (2 : ℝ) ^ 64 ≤ 2 ^ 65 := by norm_num
    linarith
  have hlt : FloatOps.lt (FloatArith.sub (FloatOps.ofUsize usizeMax)
      (FloatArith.fmax (FloatOps.ofUsize cur) (FloatOps.ofUsize lastMax))) (FloatArith.zero : F)
      = false := by
    rw [Bool.eq_false_iff]
    intro h
    have := (L.lt e6 L.zero).1 h
    have : (2 : ℝ) ^ 63 > 0 := by positivity
    linarith
  unfold builtinHeavyside
  simp only [hlt, Bool.false_eq_true, if_false]
  have n1 : (1 : ℝ) ≤ n := by linarith
  obtain ⟨sq, s1, s2, s3⟩ := L.powi (k := 2) e4 (by omega) (by omega) n1
    (le_trans c4 (by norm_num))
  have s4 := s2.pos (by positivity)
  obtain ⟨cube, t1, t2, _⟩ := L.powi (k := 3) e6 (by omega) (by omega)
    (le_trans (by norm_num) d1) d2
  have dpos : (0 : ℝ) < diff := lt_of_lt_of_le (by positivity) d1
  have t3 := t2.pos (by positivity)
  have cube1 : (2 : ℝ) ^ 188 ≤ cube := by
    have h4 : ((2 : ℝ) ^ 63) ^ 3 ≤ diff ^ 3 := by gcongr
    have h5 : 15 / 16 * ((2 : ℝ) ^ 63) ^ 3 ≥ 2 ^ 188 := by norm_num
    linarith
  have cube2 : cube ≤ 2 ^ 196 := by
    have h4 : diff ^ 3 ≤ ((2 : ℝ) ^ 65) ^ 3 := by gcongr
    have h5 : 17 / 16 * ((2 : ℝ) ^ 65) ^ 3 ≤ 2 ^ 196 := by norm_num
    linarith
  have cubepos : (0 : ℝ) < cube := lt_of_lt_of_le (by positivity) cube1
  -- the exponent
  have key : ∃ y, val (FloatArith.neg (FloatArith.div (FloatArith.div (FloatArith.mul
      (FloatOps.ofUsize n) (FloatOps.ofUsize rem)) (FloatArith.powi (FloatArith.sub
        (FloatOps.ofUsize usizeMax) (FloatArith.fmax (FloatOps.ofUsize cur) (FloatOps.ofUsize lastMax))) 3))
      (FloatArith.sub (FloatOps.ofUsize n) (FloatOps.ofUsize rem))) : F) y ∧ -1 ≤ y ∧ y ≤ 0 ∧
      (n = 1 → y = 0) := by
    obtain ⟨q, q1, q2⟩ := L.sub e4 e3 (inRange_of_pos
      (by
        have : (1 : ℝ) / 2 ^ 256 ≤ 1 := by norm_num
        linarith)
      (by
        have : (2 : ℝ) ^ 53 ≤ 2 ^ 256 := by norm_num
        linarith))
    have q3 := q2.pos (by linarith)
    have q4 : (1 / 2 : ℝ) ≤ q := by linarith
    have q5 : q ≤ 2 ^ 54 := by
      have : 17 / 16 * (2 : ℝ) ^ 53 ≤ 2 ^ 54 := by norm_num
      linarith
    have qpos : 0 < q := by linarith
    by_cases hr : rem = 0
    · subst hr
      simp only [Nat.cast_zero] at e3
      obtain ⟨a, a1, a2, _⟩ := L.mul e4 e3 (Or.inl (by ring))
      have a3 : a = 0 := by
        rw [mul_zero] at a2
        exact a2.zero
      subst a3
      obtain ⟨b, b1, b2⟩ := L.div a1 t1 cubepos.ne' (Or.inl (by simp))
      have b3 : b = 0 := by
        rw [zero_div] at b2
        exact b2.zero
      subst b3
      obtain ⟨c, c5, c6⟩ := L.div b1 q1 qpos.ne' (Or.inl (by simp))
      have c7 : c = 0 := by
        rw [zero_div] at c6
        exact c6.zero
      subst c7
      exact ⟨_, L.neg c5, by norm_num, by norm_num, fun _ => by simp⟩
    · have r1 : (1 : ℝ) ≤ rem := by
        have : 1 ≤ rem := by omega
        exact_mod_cast this
      have mlo : (1 : ℝ) ≤ n * rem := by nlinarith
      have mhi : (n : ℝ) * rem ≤ 2 ^ 106 := by
        have h4 : (rem : ℝ) ≤ 2 ^ 53 := by linarith
        calc (n : ℝ) * rem ≤ 2 ^ 53 * 2 ^ 53 := by gcongr
          _ = 2 ^ 106 := by norm_num
      obtain ⟨a, a1, a2, _⟩ := L.mul e4 e3 (inRange_of_pos
        (le_trans (by norm_num) mlo) (le_trans mhi (by norm_num)))
      have a3 := a2.pos (by linarith)
      have alo : (1 / 2 : ℝ) ≤ a := by linarith
      have ahi : a ≤ 2 ^ 107 := by
        have : 17 / 16 * (2 : ℝ) ^ 106 ≤ 2 ^ 107 := by norm_num
        linarith
      have blo : (1 : ℝ) / 2 ^ 200 ≤ a / cube := by
        rw [div_le_div_iff₀ (by positivity) cubepos]
        have : (2 : ℝ) ^ 196 ≤ 1 / 2 * 2 ^ 200 := by norm_num
        nlinarith
      have bhi : a / cube ≤ 1 / 2 ^ 80 := by
        rw [div_le_div_iff₀ cubepos (by positivity)]
        have : (2 : ℝ) ^ 107 * 2 ^ 80 ≤ 2 ^ 188 := by norm_num
        nlinarith
      obtain ⟨b, b1, b2⟩ := L.div a1 t1 cubepos.ne' (inRange_of_pos
        (le_trans (by norm_num) blo) (le_trans bhi (by norm_num)))
      have b3 := b2.pos (by positivity)
      have blo' : (1 : ℝ) / 2 ^ 201 ≤ b := by
        have : (1 : ℝ) / 2 ^ 201 ≤ 15 / 16 * (1 / 2 ^ 200) := by norm_num
        linarith
      have bhi' : b ≤ 1 / 2 ^ 79 := by
        have : 17 / 16 * ((1 : ℝ) / 2 ^ 80) ≤ 1 / 2 ^ 79 := by norm_num
        linarith
      have bpos : 0 < b := lt_of_lt_of_le (by positivity) blo'
      have clo : (1 : ℝ) / 2 ^ 255 ≤ b / q := by
        rw [div_le_div_iff₀ (by positivity) qpos]
        have h4 : (1 : ℝ) / 2 ^ 201 * 2 ^ 255 = 2 ^ 54 := by norm_num
        have h5 : (1 : ℝ) / 2 ^ 201 * 2 ^ 255 ≤ b * 2 ^ 255 := by gcongr
        linarith
      have chi : b / q ≤ 1 / 2 := by
        rw [div_le_div_iff₀ qpos (by norm_num)]
        have : (1 : ℝ) / 2 ^ 79 ≤ 1 / 4 := by norm_num
        linarith
      obtain ⟨c, c5, c6⟩ := L.div b1 q1 qpos.ne' (inRange_of_pos
        (le_trans (by norm_num) clo) (le_trans chi (by norm_num)))
      have c7 := c6.pos (by positivity)
      have cpos : 0 ≤ b / q := by positivity
      refine ⟨_, L.neg c5, by linarith, by linarith, ?_⟩
      intro hn1
      omega
  obtain ⟨y, y1, y2, y3, y4⟩ := key
  obtain ⟨z, z1, z2, z3⟩ := L.exp y1 y2 y3
  have z4 := z2.pos (Real.exp_pos y).le
  have z5 : Real.exp y ≤ 1 := Real.exp_le_one_iff.2 y3
  have z6 : (1 / 3 : ℝ) ≤ Real.exp y := by
    have h4 : Real.exp (-1) ≤ Real.exp y := Real.exp_le_exp.2 y2
    have h5 := Real.exp_neg_one_gt_d9
    norm_num at h5 ⊢
    linarith
  have zpos : 0 < z := by linarith
  have sqhi : sq ≤ 2 ^ 107 := by
    have h4 : (n : ℝ) ^ 2 ≤ (2 ^ 53) ^ 2 := by gcongr
    have h5 : 17 / 16 * ((2 : ℝ) ^ 53) ^ 2 ≤ 2 ^ 107 := by norm_num
    linarith
  have prod : 1 ≤ sq * z := by
    by_cases hn1 : n = 1
    · have h4 : z = 1 := z3 (y4 hn1)
      have h5 : sq = 1 := s3 (by rw [hn1]; norm_num)
      rw [h4, h5]; norm_num
    · have h4 : (2 : ℝ) ≤ n := by
        have : 2 ≤ n := by omega
        exact_mod_cast this
      have h5 : (4 : ℝ) ≤ (n : ℝ) ^ 2 := by nlinarith
      have h6 : (15 / 4 : ℝ) ≤ sq := by linarith
      have h7 : (5 / 16 : ℝ) ≤ z := by linarith
      nlinarith
  have prod2 : sq * z ≤ 2 ^ 256 := by
    have h4 : z ≤ 2 := by linarith
    have h5 : sq * z ≤ 2 ^ 107 * 2 := mul_le_mul sqhi h4 zpos.le (by positivity)
    exact le_trans h5 (by norm_num)
  obtain ⟨w, w1, _, w3⟩ := L.mul s1 z1 (inRange_of_pos (le_trans (by norm_num) prod) prod2)
  exact (L.geOne w1).2 (w3 prod)

/-- The built-in function when the memory of the best path would be exceeded. -/
theorem builtin_exceeds (L : FloatLaws F val) {minimal lastMax cur : Nat} (bound lastCur rem total : F)
    (hm : minimal < max cur lastMax) (hb : max cur lastMax ≤ 2 ^ 53) :
    builtinHeavyside bound (FloatOps.ofUsize minimal) (FloatOps.ofUsize lastMax) lastCur
      (FloatOps.ofUsize cur) rem total = FloatArith.zero := by
  have e0 := L.ofUsize_small minimal (by omega)
  have e1 := L.ofUsize_small lastMax (by omega)
  have e2 := L.ofUsize_small cur (by omega)
  have e5 := L.fmax e2 e1
  have c0 : (minimal : ℝ) + 1 ≤ max (cur : ℝ) lastMax := by
    have : minimal + 1 ≤ max cur lastMax := hm
    exact_mod_cast this
  have c1 : max (cur : ℝ) lastMax ≤ 2 ^ 53 := by exact_mod_cast hb
  have c2 : (0 : ℝ) ≤ minimal := Nat.cast_nonneg _
  obtain ⟨diff, e6, e7⟩ := L.sub e0 e5 (Or.inr (by
    rw [abs_of_neg (by linarith)]
    constructor
    · have : (1 : ℝ) / 2 ^ 256 ≤ 1 := by norm_num
      linarith
    · have : (2 : ℝ) ^ 53 ≤ 2 ^ 256 := by norm_num
      linarith))
  have hlt := (L.lt e6 L.zero).2 (e7.neg (by linarith))
  unfold builtinHeavyside
  simp only [hlt, if_true]

end

/-! ## The model of `f64` satisfies the laws -/

theorem rnd_zero : rnd 0 = 0 := by simp [rnd]

theorem log_bounds {x : ℝ} (hx : x ≠ 0) :
    (2 : ℝ) ^ Int.log 2 |x| ≤ |x| ∧ |x| < (2 : ℝ) ^ (Int.log 2 |x| + 1) := by
  have h := abs_pos.2 hx
  constructor
  · have := Int.zpow_log_le_self (b := 2) (by norm_num) h
    exact_mod_cast this
  · have := Int.lt_zpow_succ_log_self (b := 2) (by norm_num) |x|
    exact_mod_cast this

theorem rnd_err (x : ℝ) : |rnd x - x| ≤ |x| / 2 ^ 53 := by
  by_cases hx : x = 0
  · simp [hx, rnd_zero]
  · obtain ⟨h1, _⟩ := log_bounds hx
    unfold rnd
    generalize Int.log 2 |x| = e at *
    have hp : (0 : ℝ) < 2 ^ (e - 52) := by positivity
    have h2 := abs_sub_round (x / 2 ^ (e - 52))
    have h3 : (round (x / (2 : ℝ) ^ (e - 52)) : ℝ) * 2 ^ (e - 52) - x =
        -(x / 2 ^ (e - 52) - round (x / (2 : ℝ) ^ (e - 52))) * 2 ^ (e - 52) := by
      field_simp
      ring
    rw [h3, abs_mul, abs_neg, abs_of_pos hp]
    have h4 : (2 : ℝ) ^ (e - 52) = 2 ^ e / 2 ^ 52 := by
      rw [zpow_sub₀ (by norm_num)]
      norm_num
    calc _ ≤ 1 / 2 * (2 : ℝ) ^ (e - 52) := by gcongr
      _ = 2 ^ e / 2 ^ 53 := by rw [h4]; ring
      _ ≤ |x| / 2 ^ 53 := by gcongr

theorem rnd_close (x : ℝ) : Close x (rnd x) := by
  have := rnd_err x
  unfold Close
  have h : |x| / 2 ^ 53 ≤ |x| / 16 := by
    apply div_le_div_of_nonneg_left (abs_nonneg x) (by norm_num) (by norm_num)
  linarith

/-- A number that is a multiple of its unit in the last place is kept. -/
theorem rnd_eq {x : ℝ} {e : Int} (hx : x ≠ 0) (h1 : (2 : ℝ) ^ e ≤ |x|) (h2 : |x| < 2 ^ (e + 1)) {k : Int}
    (hk : x = k * 2 ^ (e - 52)) : rnd x = x := by
  have he : Int.log 2 |x| = e := by
    obtain ⟨h3, h4⟩ := log_bounds hx
    have h5 : Int.log 2 |x| < e + 1 := by
      have : (2 : ℝ) ^ Int.log 2 |x| < 2 ^ (e + 1) := lt_of_le_of_lt h3 h2
      exact (zpow_lt_zpow_iff_right₀ (by norm_num)).1 this
    have h6 : e < Int.log 2 |x| + 1 := by
      have : (2 : ℝ) ^ e < 2 ^ (Int.log 2 |x| + 1) := lt_of_le_of_lt h1 h4
      exact (zpow_lt_zpow_iff_right₀ (by norm_num)).1 this
    omega
  unfold rnd
  rw [he]
  have h7 : x / 2 ^ (e - 52) = k := by
    rw [hk]
    have : (2 : ℝ) ^ (e - 52) ≠ 0 := by positivity
    field_simp
  rw [h7, round_intCast, ← hk]

theorem rnd_nat {k : Nat} (hk : k ≤ 2 ^ 53) : rnd (k : ℝ) = k := by
  by_cases h0 : k = 0
  · simp [h0, rnd_zero]
  · have hpos : (0 : ℝ) < k := by exact_mod_cast Nat.pos_of_ne_zero h0
    by_cases h53 : k = 2 ^ 53
    · subst h53
      refine rnd_eq (e := 53) (k := 2 ^ 52) (by positivity) ?_ ?_ ?_
      · rw [abs_of_pos hpos]; norm_num
      · rw [abs_of_pos hpos]; norm_num
      · norm_num
    · have hlog : Nat.log 2 k ≤ 52 := by
        have : k < 2 ^ 53 := by omega
        have := Nat.log_lt_of_lt_pow h0 this
        omega
      refine rnd_eq (e := (Nat.log 2 k : Int)) (k := (k * 2 ^ (52 - Nat.log 2 k) : Nat)) hpos.ne' ?_ ?_ ?_
      · rw [abs_of_pos hpos, zpow_natCast]
        exact_mod_cast Nat.pow_log_le_self 2 h0
      · rw [abs_of_pos hpos]
        have := Nat.lt_pow_succ_log_self (b := 2) (by norm_num) k
        have h3 : ((Nat.log 2 k : Int) + 1) = ((Nat.log 2 k + 1 : Nat) : Int) := by push_cast; ring
        rw [h3, zpow_natCast]
        exact_mod_cast this
      · push_cast
        have h4 : (2 : ℝ) ^ ((Nat.log 2 k : Int) - 52) = 1 / 2 ^ (52 - Nat.log 2 k) := by
          have h5 : ((Nat.log 2 k : Int) - 52) = -((52 - Nat.log 2 k : Nat) : Int) := by omega
          rw [h5, zpow_neg, zpow_natCast, one_div]
        rw [h4]
        field_simp

theorem rnd_one_le {x : ℝ} (h : 1 ≤ x) : 1 ≤ rnd x := by
  have hx : x ≠ 0 := by linarith
  obtain ⟨h1, h2⟩ := log_bounds hx
  rw [abs_of_pos (by linarith)] at h1 h2
  unfold rnd
  rw [abs_of_pos (by linarith)]
  generalize Int.log 2 x = e at *
  have he : 0 ≤ e := by
    by_contra hneg
    have h3 : e + 1 ≤ 0 := by omega
    have : (2 : ℝ) ^ (e + 1) ≤ 2 ^ (0 : Int) := zpow_le_zpow_right₀ (by norm_num) h3
    rw [zpow_zero] at this
    linarith
  have hp : (0 : ℝ) < 2 ^ (e - 52) := by positivity
  have h4 : (2 : ℝ) ^ (52 : Nat) ≤ x / 2 ^ (e - 52) := by
    rw [le_div_iff₀ hp]
    have : (2 : ℝ) ^ (52 : Nat) * 2 ^ (e - 52) = 2 ^ e := by
      rw [← zpow_natCast, ← zpow_add₀ (by norm_num)]
      congr 1
      push_cast
      ring
    rw [this]
    exact h1
  have h5 : (2 : Int) ^ 52 ≤ round (x / 2 ^ (e - 52)) := by
    rw [round_eq]
    apply Int.le_floor.2
    push_cast
    linarith
  have h6 : (2 : ℝ) ^ (52 : Nat) ≤ (round (x / (2 : ℝ) ^ (e - 52)) : ℝ) := by exact_mod_cast h5
  calc (1 : ℝ) ≤ 2 ^ e := one_le_zpow₀ (by norm_num) he
    _ = (2 : ℝ) ^ (52 : Nat) * 2 ^ (e - 52) := by
      rw [← zpow_natCast, ← zpow_add₀ (by norm_num)]
      congr 1
      push_cast
      ring
    _ ≤ _ := by gcongr

theorem rnd_one : rnd 1 = 1 := by
  have := rnd_nat (k := 1) (by norm_num)
  simpa using this

theorem rnd_max : rnd (usizeMax : ℝ) = 2 ^ 64 := by
  have hval : (usizeMax : ℝ) = 2 ^ 64 - 1 := by
    simp only [usizeMax]
    norm_num
  have hpos : (0 : ℝ) < 2 ^ 64 - 1 := by norm_num
  rw [hval]
  have he : Int.log 2 |(2 : ℝ) ^ 64 - 1| = 63 := by
    obtain ⟨h3, h4⟩ := log_bounds hpos.ne'
    rw [abs_of_pos hpos] at h3 h4 ⊢
    have h5 : Int.log 2 ((2 : ℝ) ^ 64 - 1) < 64 := by
      have : (2 : ℝ) ^ Int.log 2 ((2 : ℝ) ^ 64 - 1) < 2 ^ (64 : Int) := lt_of_le_of_lt h3 (by norm_num)
      exact (zpow_lt_zpow_iff_right₀ (by norm_num)).1 this
    have h6 : (63 : Int) < Int.log 2 ((2 : ℝ) ^ 64 - 1) + 1 := by
      have : (2 : ℝ) ^ (63 : Int) < 2 ^ (Int.log 2 ((2 : ℝ) ^ 64 - 1) + 1) :=
        lt_of_le_of_lt (by norm_num) h4
      exact (zpow_lt_zpow_iff_right₀ (by norm_num)).1 this
    omega
  unfold rnd
  rw [he]
  have h7 : round (((2 : ℝ) ^ 64 - 1) / 2 ^ ((63 : Int) - 52)) = 2 ^ 53 := by
    rw [round_eq, Int.floor_eq_iff]
    norm_num
  rw [h7]
  norm_num

/-- `x` is the finite number `r`. -/
def F64.val : F64 → ℝ → Prop
  | .fin x, r => x = r
  | _, _ => False

theorem F64.val_iff {x : F64} {r : ℝ} : x.val r ↔ x = .fin r := by
  cases x <;> simp [F64.val]

theorem F64.laws : FloatLaws F64 F64.val where
  ofUsize_small k hk := by
    rw [F64.val_iff]
    show F64.fin (rnd k) = _
    rw [rnd_nat hk]
  ofUsize_max := by
    rw [F64.val_iff]
    show F64.fin (rnd usizeMax) = _
    rw [rnd_max]
  zero := rfl
  lt := by
    intro x y a b hx hy
    rw [F64.val_iff] at hx hy
    subst hx hy
    show F64.ltb _ _ = true ↔ _
    simp [F64.ltb]
  geOne := by
    intro x a hx
    rw [F64.val_iff] at hx
    subst hx
    show F64.geOne _ = true ↔ _
    simp [F64.geOne]
  fmax := by
    intro x y a b hx hy
    rw [F64.val_iff] at hx hy ⊢
    subst hx hy
    show F64.fmax _ _ = _
    simp only [F64.fmax, F64.ltb, decide_eq_true_eq]
    split
    · rename_i h; rw [max_eq_right h.le]
    · rename_i h; rw [max_eq_left (not_lt.1 h)]
  neg := by
    intro x a hx
    rw [F64.val_iff] at hx ⊢
    subst hx
    rfl
  sub := by
    intro x y a b hx hy _
    rw [F64.val_iff] at hx hy
    subst hx hy
    exact ⟨_, rfl, rnd_close _⟩
  mul := by
    intro x y a b hx hy _
    rw [F64.val_iff] at hx hy
    subst hx hy
    exact ⟨_, rfl, rnd_close _, rnd_one_le⟩
  div := by
    intro x y a b hx hy hb _
    rw [F64.val_iff] at hx hy
    subst hx hy
    refine ⟨rnd (a / b), ?_, rnd_close _⟩
    rw [F64.val_iff]
    show F64.div _ _ = _
    simp [F64.div, hb]
  powi := by
    intro x a k hx h2 h3 h1 _
    rw [F64.val_iff] at hx
    subst hx
    refine ⟨rnd (a ^ k), ?_, rnd_close _, ?_⟩
    · rw [F64.val_iff]
      show F64.powi _ _ = _
      have h4 : ¬ (k : Int) = 0 := by omega
      have h5 : ¬ (a = 0 ∧ (k : Int) < 0) := by omega
      have h6 : ¬ (k : Int) = 1 := by omega
      simp only [F64.powi, h4, h5, h6, if_false, zpow_natCast]
    · intro ha
      rw [ha, one_pow, rnd_one]
  exp := by
    intro x a hx _ _
    rw [F64.val_iff] at hx
    subst hx
    refine ⟨rnd (Real.exp a), rfl, rnd_close _, ?_⟩
    intro ha
    rw [ha, Real.exp_zero, rnd_one]

end Verif
