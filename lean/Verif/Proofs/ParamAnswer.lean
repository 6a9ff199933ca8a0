import Verif.Proofs.Params
/-!
# The answers of the parametrised accept function
-/

namespace Verif

open Search

namespace Double

variable {M : Libm}

theorem pow_bounds {m k : Nat} (h1 : 1 ≤ m) (h2 : m ≤ 2 ^ 20) :
    (1 : ℝ) ≤ (m : ℝ) ^ k ∧ (m : ℝ) ^ k ≤ 2 ^ (20 * k) := by
  have c1 : (1 : ℝ) ≤ m := by exact_mod_cast h1
  have c2 : (m : ℝ) ≤ 2 ^ 20 := by exact_mod_cast h2
  refine ⟨one_le_pow₀ c1, ?_⟩
  rw [pow_mul]
  gcongr

theorem powi_nat {x : Double M} {m k : Nat} (hx : x.val m) (h1 : 1 ≤ m) (h2 : m ≤ 2 ^ 20) (hk : k ≤ 12) :
    ∃ r, Double.val (FloatArith.powi x (k : Int)) r ∧ 15 / 16 * (m : ℝ) ^ k ≤ r ∧ r ≤ 17 / 16 * (m : ℝ) ^ k ∧
      (m = 1 → r = 1) := by
  obtain ⟨b1, b2⟩ := pow_bounds (k := k) h1 h2
  have b3 : (2 : ℝ) ^ (20 * k) ≤ 2 ^ 256 := pow_le_pow_right₀ (by norm_num) (by omega)
  have b4 : (1 : ℝ) / 2 ^ 256 ≤ 1 := by norm_num
  have c0 : (0 : ℝ) < m := by exact_mod_cast h1
  obtain ⟨r, r1, r2, r3, r4⟩ := powi_close (k := (k : Int)) hx (by rw [abs_of_nonneg (by omega)]; omega) c0
    (by rw [zpow_natCast]; linarith) (by rw [zpow_natCast]; linarith)
  rw [zpow_natCast] at r2 r3
  exact ⟨r, r1, r2, r3, fun h => r4 (by rw [h]; norm_num)⟩

theorem powi_neg_nat {x : Double M} {m k : Nat} (hx : x.val m) (h1 : 1 ≤ m) (h2 : m ≤ 2 ^ 20) (hk : k ≤ 12) :
    ∃ r, Double.val (FloatArith.powi x (-(k : Int))) r ∧ 15 / 16 * ((m : ℝ) ^ k)⁻¹ ≤ r ∧ r ≤ 17 / 16 * ((m : ℝ) ^ k)⁻¹ := by
  obtain ⟨b1, b2⟩ := pow_bounds (k := k) h1 h2
  have b3 : (2 : ℝ) ^ (20 * k) ≤ 2 ^ 256 := pow_le_pow_right₀ (by norm_num) (by omega)
  have b5 : (1 : ℝ) ≤ 2 ^ 256 := by norm_num
  have c0 : (0 : ℝ) < m := by exact_mod_cast h1
  have b6 : ((m : ℝ) ^ k)⁻¹ ≤ 1 := inv_le_one_of_one_le₀ b1
  obtain ⟨r, r1, r2, r3, r4⟩ := powi_close (k := -(k : Int)) hx (by rw [abs_neg, abs_of_nonneg (by omega)]; omega) c0
    (by
      rw [zpow_neg, zpow_natCast, one_div]
      gcongr
      linarith)
    (by rw [zpow_neg, zpow_natCast]; linarith)
  rw [zpow_neg, zpow_natCast] at r2 r3
  exact ⟨r, r1, r2, r3⟩

/-- The power of the number of nodes in front of the exponential function. -/
theorem powi_lin {x : Double M} {m : Nat} {k : Int} (hx : x.val m) (h1 : 1 ≤ m) (h2 : m ≤ 2 ^ 20) (hk : |k| ≤ 12) :
    ∃ r, Double.val (FloatArith.powi x k) r := by
  rcases Int.eq_nat_or_neg k with ⟨j, rfl | rfl⟩
  · obtain ⟨r, r1, _⟩ := powi_nat (k := j) hx h1 h2 (by rw [abs_of_nonneg (by omega)] at hk; omega)
    exact ⟨r, r1⟩
  · obtain ⟨r, r1, _⟩ := powi_neg_nat (k := j) hx h1 h2 (by rw [abs_neg, abs_of_nonneg (by omega)] at hk; omega)
    exact ⟨r, r1⟩

theorem mul_zero_right {x y : Double M} {r : ℝ} (hx : x.val r) (hy : y.val 0) : Double.val (FloatArith.mul x y) 0 := by
  have := mul_val hx hy (by rw [mul_zero, rnd64_zero, abs_zero]; exact two_pow_pos _)
  rwa [mul_zero, rnd64_zero] at this

theorem mul_inf_pos {x : Double M} {a : ℝ} (hx : x.val a) (ha : 0 < a) : FloatArith.mul x (inf M false) = inf M false := by
  show B64.mul x (B64.inf false) = B64.inf false
  have h5 := B64.val_iff.1 hx
  have h6 := sign_pos hx ha
  unfold B64.mul
  rw [h5, h6]
  have ht : (B64.inf false).toReal = none := rfl
  rw [ht]
  cases x with
  | inf s => cases h5
  | nan => cases h5
  | negZero => exact if_neg ha.ne'
  | fin x h => exact if_neg ha.ne'

/-- The answer if the memory is not too close to the least known one. -/
theorem param_answer {param : HeavysideParameters (Double M)} (bound lastCur minimal lastMax cur rem total : Double M)
    (h : FloatOps.lt (FloatArith.sub minimal (FloatArith.fmax cur lastMax)) param.cutoff = false) :
    createParametrizedHeavyside param bound minimal lastMax lastCur cur rem total =
      FloatArith.mul (FloatArith.powi total param.linNumTotalNodesExp)
        (FloatArith.exp (FloatArith.neg (FloatArith.div (FloatArith.div (FloatArith.mul
          (FloatArith.powi total param.expNumTotalNodesExp) (FloatArith.powi rem param.expNumRemainingNodesExp))
          (FloatArith.powi (FloatArith.sub minimal (FloatArith.fmax cur lastMax)) param.expDiffExp))
          (FloatArith.powi (FloatArith.sub total rem) param.expNumMeasuredNodesExp)))) := by
  simp only [createParametrizedHeavyside, h, Bool.false_eq_true, if_false]

section
variable {n lastMax cur rem : Nat}

/-- The argument of the exponential function while no path is known is close to zero. -/
theorem param_exponent {diff : Double M} {D : ℝ} (hD : diff.val D) (d1 : 2 ^ 63 ≤ D) (d2 : D ≤ 2 ^ 65)
    {a b e d : Nat} (hn : n ≤ 2 ^ 20) (hr : rem < n) (hb : 1 ≤ b) (he : e ≤ 3)
    (hab : a + b ≤ 3 * e) (hd : d ≤ 2) :
    ∃ y : ℝ, Double.val (FloatArith.neg (FloatArith.div (FloatArith.div (FloatArith.mul
        (FloatArith.powi (FloatOps.ofUsize n) (a : Int)) (FloatArith.powi (FloatOps.ofUsize rem) (b : Int)))
        (FloatArith.powi diff (e : Int))) (FloatArith.powi (FloatArith.sub (FloatOps.ofUsize n) (FloatOps.ofUsize rem))
        (d : Int))) : Double M) (-y) ∧ 0 ≤ y ∧ y ≤ 0.2 ∧ (rem = 0 → y = 0) := by
  have e4 := ofUsize (M := M) (k := n) (by omega)
  have e3 := ofUsize (M := M) (k := rem) (by omega)
  have e5 := sub_nat e4 e3 hr.le (by omega)
  obtain ⟨u, u1, u2, u3, _⟩ := powi_nat (k := a) e4 (by omega) hn (by omega)
  obtain ⟨q, q1, q2, q3, _⟩ := powi_nat (k := d) e5 (by omega) (by omega) (by omega)
  have pD : 0 < D := lt_of_lt_of_le (by positivity) d1
  have w0 : (2 : ℝ) ^ (63 * e) ≤ D ^ e := by rw [pow_mul]; gcongr
  have w0' : D ^ e ≤ (2 : ℝ) ^ (65 * e) := by rw [pow_mul]; gcongr
  have w0'' : (2 : ℝ) ^ (65 * e) ≤ 2 ^ 195 := pow_le_pow_right₀ (by norm_num) (by omega)
  have w0''' : (1 : ℝ) ≤ 2 ^ (63 * e) := one_le_pow₀ (by norm_num)
  obtain ⟨w, w1, w2, w3, _⟩ := powi_close (k := (e : Int)) hD (by rw [abs_of_nonneg (by omega)]; omega) pD
    (by
      rw [zpow_natCast]
      have : (1 : ℝ) / 2 ^ 256 ≤ 1 := by norm_num
      linarith)
    (by
      rw [zpow_natCast]
      have : (2 : ℝ) ^ 195 ≤ 2 ^ 256 := by norm_num
      linarith)
  rw [zpow_natCast] at w2 w3
  obtain ⟨q4, q5⟩ := pow_bounds (m := n - rem) (k := d) (by omega) (by omega)
  have q6 : (2 : ℝ) ^ (20 * d) ≤ 2 ^ 40 := pow_le_pow_right₀ (by norm_num) (by omega)
  obtain ⟨u4, u5⟩ := pow_bounds (m := n) (k := a) (by omega) (by omega)
  by_cases h0 : rem = 0
  · subst h0
    refine ⟨0, ?_, le_refl _, by norm_num, fun _ => rfl⟩
    rw [neg_zero]
    exact quotient_zero hb u1 w1 q1 (by nlinarith) (by nlinarith)
  · obtain ⟨v, v1, v2, v3, _⟩ := powi_nat (k := b) e3 (by omega) (by omega) (by omega)
    obtain ⟨v4, v5⟩ := pow_bounds (m := rem) (k := b) (by omega) (by omega)
    have p1 : (0.87 : ℝ) ≤ u * v := by nlinarith
    have p2 : u * v ≤ 1.13 * 2 ^ (60 * e) := by
      have : (n : ℝ) ^ a * (rem : ℝ) ^ b ≤ 2 ^ (60 * e) := by
        calc (n : ℝ) ^ a * (rem : ℝ) ^ b ≤ 2 ^ (20 * a) * 2 ^ (20 * b) := by gcongr
          _ = 2 ^ (20 * a + 20 * b) := (pow_add _ _ _).symm
          _ ≤ 2 ^ (60 * e) := pow_le_pow_right₀ (by norm_num) (by omega)
      have u0 : 0 ≤ u := by nlinarith
      have v0 : 0 ≤ v := by nlinarith
      calc u * v ≤ (17 / 16 * (n : ℝ) ^ a) * (17 / 16 * (rem : ℝ) ^ b) := by gcongr
        _ = 289 / 256 * ((n : ℝ) ^ a * (rem : ℝ) ^ b) := by ring
        _ ≤ 289 / 256 * 2 ^ (60 * e) := by gcongr
        _ ≤ 1.13 * 2 ^ (60 * e) := by gcongr; norm_num
    have p3 : u * v ≤ 0.16 * w := by
      have : (2 : ℝ) ^ (60 * e) * 8 ≤ 2 ^ (63 * e) := by
        have h8 : (8 : ℝ) = 2 ^ 3 := by norm_num
        rw [h8, ← pow_add]
        exact pow_le_pow_right₀ (by norm_num) (by omega)
      nlinarith
    have p4 : 15 / 16 ≤ w := by linarith
    have p5 : w ≤ 2 ^ 196 := by
      have : 17 / 16 * (2 : ℝ) ^ 195 ≤ 2 ^ 196 := by norm_num
      linarith
    have p6 : 15 / 16 ≤ q := by linarith
    have p7 : q ≤ 2 ^ 41 := by
      have : 17 / 16 * (2 : ℝ) ^ 40 ≤ 2 ^ 41 := by norm_num
      linarith
    have p8 : u * v ≤ 2 ^ 250 := by
      have : 0.16 * (2 : ℝ) ^ 196 ≤ 2 ^ 250 := by norm_num
      linarith
    have w00 : 0 < w := by linarith
    have q00 : 0 < q := by linarith
    have s1 : 1 / 2 ^ 197 ≤ u * v / w := by
      rw [le_div_iff₀ w00]
      have : (1 : ℝ) / 2 ^ 197 * 2 ^ 196 ≤ 0.87 := by norm_num
      have h2 : (1 : ℝ) / 2 ^ 197 * w ≤ 1 / 2 ^ 197 * 2 ^ 196 := by gcongr
      linarith
    have s2 : u * v / w ≤ 0.16 := (div_le_iff₀ w00).2 p3
    have s3 : 1 / 2 ^ 240 ≤ u * v / w / q := by
      rw [le_div_iff₀ q00]
      have : (1 : ℝ) / 2 ^ 240 * 2 ^ 41 ≤ 1 / 2 ^ 197 := by norm_num
      have h2 : (1 : ℝ) / 2 ^ 240 * q ≤ 1 / 2 ^ 240 * 2 ^ 41 := by gcongr
      linarith
    have s4 : u * v / w / q ≤ 0.18 := by
      rw [div_le_iff₀ q00]
      linarith
    have t1 : (1 : ℝ) / 2 ^ 250 ≤ 1 / 2 ^ 197 := by norm_num
    have t2 : (1 : ℝ) / 2 ^ 250 ≤ 1 / 2 ^ 240 := by norm_num
    have t3 : (0.87 : ℝ) ≥ 1 / 2 ^ 250 := by norm_num
    have t4 : (0.18 : ℝ) ≤ 2 ^ 250 := by norm_num
    have t5 : (0 : ℝ) < 1 / 2 ^ 240 := by positivity
    obtain ⟨y, y1, y2, y3⟩ := quotient u1 v1 w1 q1 w00 q00 (by linarith) p8 (by linarith) (by linarith) (by linarith)
      (by linarith)
    exact ⟨y, y1, by linarith, by linarith, fun h => (h0 h).elim⟩

/-- While no path is known: at least 1, if the number of nodes in front has a positive exponent; at most 0.6, if
it has a negative one. -/
theorem param_unknown {param : HeavysideParameters (Double M)} (bound lastCur : Double M) {c : ℝ}
    (hc : param.cutoff.val c) (hc' : c ≤ 2 ^ 63) (hn : n ≤ 2 ^ 20) (h1 : lastMax ≤ n) (h2 : cur ≤ n) (hr : rem < n)
    {a b e d : Nat} (ha : param.expNumTotalNodesExp = a) (hb : param.expNumRemainingNodesExp = b)
    (he : param.expDiffExp = e) (hd : param.expNumMeasuredNodesExp = d) (b1 : 1 ≤ b) (e3 : e ≤ 3)
    (hab : a + b ≤ 3 * e) (d2 : d ≤ 2) :
    let answer := createParametrizedHeavyside param bound (FloatOps.ofUsize usizeMax) (FloatOps.ofUsize lastMax) lastCur
      (FloatOps.ofUsize cur) (FloatOps.ofUsize rem) (FloatOps.ofUsize n)
    (∀ k : Nat, param.linNumTotalNodesExp = k → 1 ≤ k → k ≤ 12 → FloatOps.geOne answer = true) ∧
    (∀ k : Nat, param.linNumTotalNodesExp = -(k : Int) → 1 ≤ k → k ≤ 12 → 2 ≤ n →
      ∃ r, Double.val answer r ∧ 0 ≤ r ∧ r ≤ 0.6) := by
  intro answer
  have L := Double.laws M
  obtain ⟨D, D1, D2, D3⟩ := unknown (M := M) (n := n) (by omega) h1 h2
  obtain ⟨y, y1, y2, y3, y4⟩ := param_exponent D1 D2 D3 hn hr b1 e3 hab d2
  have hans : answer = _ := param_answer (param := param) bound lastCur (FloatOps.ofUsize usizeMax) (FloatOps.ofUsize lastMax)
    (FloatOps.ofUsize cur) (FloatOps.ofUsize rem) (FloatOps.ofUsize n) (by
      rw [Bool.eq_false_iff]
      intro h'
      have := (L.lt D1 hc).1 h'
      linarith)
  rw [ha, hb, he, hd] at hans
  have e4 := ofUsize (M := M) (k := n) (by omega)
  obtain ⟨z, z1, z2, z3⟩ := L.exp y1 (by linarith) (by linarith)
  have z4 := z2.pos (Real.exp_pos _).le
  have z5 : 0.8 ≤ Real.exp (-y) := by
    have := Real.add_one_le_exp (-y)
    linarith
  have z6 : Real.exp (-y) ≤ 1 := Real.exp_le_one_iff.2 (by linarith)
  refine ⟨fun k hk k1 k2 => ?_, fun k hk k1 k2 hn2 => ?_⟩
  · rw [hans, hk]
    obtain ⟨r, r1, r2, r3, r4⟩ := powi_nat (k := k) e4 (by omega) hn k2
    obtain ⟨n1, n2⟩ := pow_bounds (m := n) (k := k) (by omega) hn
    have n3 : (2 : ℝ) ^ (20 * k) ≤ 2 ^ 240 := pow_le_pow_right₀ (by norm_num) (by omega)
    have hprod : 1 ≤ r * z := by
      by_cases hn1 : n = 1
      · rw [r4 hn1, z3 (by rw [y4 (by omega), neg_zero])]
        norm_num
      · have n4 : (2 : ℝ) ≤ (n : ℝ) ^ k := by
          calc (2 : ℝ) ≤ n := by exact_mod_cast (show 2 ≤ n by omega)
            _ = (n : ℝ) ^ 1 := (pow_one _).symm
            _ ≤ (n : ℝ) ^ k := pow_le_pow_right₀ (by exact_mod_cast (show 1 ≤ n by omega)) k1
        nlinarith
    have hprod' : r * z ≤ 2 ^ 250 := by
      have h3 : (17 / 16 * 2 ^ 240 : ℝ) * (17 / 16) ≤ 2 ^ 250 := by norm_num
      calc r * z ≤ (17 / 16 * 2 ^ 240) * (17 / 16) := by gcongr <;> linarith
        _ ≤ 2 ^ 250 := h3
    obtain ⟨s, s1, _, s3⟩ := L.mul r1 z1 (inRange_of_pos
      (by
        have : (1 : ℝ) / 2 ^ 256 ≤ 1 := by norm_num
        linarith)
      (by
        have : (2 : ℝ) ^ 250 ≤ 2 ^ 256 := by norm_num
        linarith))
    exact (L.geOne s1).2 (s3 hprod)
  · rw [hans, hk]
    obtain ⟨r, r1, r2, r3⟩ := powi_neg_nat (k := k) e4 (by omega) hn k2
    obtain ⟨n1, n2⟩ := pow_bounds (m := n) (k := k) (by omega) hn
    have n3 : (2 : ℝ) ^ (20 * k) ≤ 2 ^ 240 := pow_le_pow_right₀ (by norm_num) (by omega)
    have n4 : (2 : ℝ) ≤ (n : ℝ) ^ k := by
      calc (2 : ℝ) ≤ n := by exact_mod_cast hn2
        _ = (n : ℝ) ^ 1 := (pow_one _).symm
        _ ≤ (n : ℝ) ^ k := pow_le_pow_right₀ (by exact_mod_cast (show 1 ≤ n by omega)) k1
    have n5 : ((n : ℝ) ^ k)⁻¹ ≤ 1 / 2 := by rw [one_div]; gcongr
    have n6 : 1 / 2 ^ 240 ≤ ((n : ℝ) ^ k)⁻¹ := by rw [one_div]; gcongr; linarith
    have n7 : (0 : ℝ) < 1 / 2 ^ 240 := by positivity
    have hprod : r * z ≤ 0.57 := by
      calc r * z ≤ (17 / 16 * (1 / 2)) * (17 / 16) := by gcongr <;> linarith
        _ ≤ 0.57 := by norm_num
    have hprod' : 1 / 2 ^ 242 ≤ r * z := by
      have : (1 : ℝ) / 2 ^ 242 ≤ (15 / 16 * (1 / 2 ^ 240)) * 0.7 := by norm_num
      calc (1 : ℝ) / 2 ^ 242 ≤ (15 / 16 * (1 / 2 ^ 240)) * 0.7 := this
        _ ≤ r * z := by gcongr <;> linarith
    have n8 : (0 : ℝ) < 1 / 2 ^ 242 := by positivity
    obtain ⟨s, s1, s2, s3⟩ := mul_near r1 z1 (by linarith) (inRange_of_pos
      (by
        have : (1 : ℝ) / 2 ^ 256 ≤ 1 / 2 ^ 242 := by norm_num
        linarith)
      (by
        have : (0.57 : ℝ) ≤ 2 ^ 256 := by norm_num
        linarith))
    exact ⟨s, s1, by linarith, by linarith⟩

/-- A cutoff above every distance: zero. -/
theorem param_cutoff {param : HeavysideParameters (Double M)} (bound lastCur : Double M) {c : ℝ}
    (hc : param.cutoff.val c) (hc' : 2 ^ 65 < c) (hn : n ≤ 2 ^ 53) (h1 : lastMax ≤ n) (h2 : cur ≤ n)
    (rem total : Double M) :
    Double.val (createParametrizedHeavyside param bound (FloatOps.ofUsize usizeMax) (FloatOps.ofUsize lastMax) lastCur
      (FloatOps.ofUsize cur) rem total) 0 := by
  obtain ⟨D, D1, D2, D3⟩ := unknown (M := M) (n := n) hn h1 h2
  have hlt := ((Double.laws M).lt D1 hc).2 (by linarith)
  simp only [createParametrizedHeavyside, hlt, if_true]
  exact (Double.laws M).zero

/-- A negative exponent of the distance: zero while bits are blocked. -/
theorem param_diff {param : HeavysideParameters (Double M)} (bound lastCur : Double M) {c : ℝ}
    (hc : param.cutoff.val c) (hc' : c ≤ 2 ^ 63) (hn : n ≤ 2 ^ 20) (h1 : lastMax ≤ n) (h2 : cur ≤ n) (hr : rem < n)
    (hr0 : 1 ≤ rem) {a b e d : Nat} (ha : param.expNumTotalNodesExp = a) (hb : param.expNumRemainingNodesExp = b)
    (he : param.expDiffExp = -(e : Int)) (hd : param.expNumMeasuredNodesExp = d) (e1 : 1 ≤ e) (e3 : e ≤ 2)
    (hab : a + b ≤ 3) (d2 : d ≤ 2) (hl : |param.linNumTotalNodesExp| ≤ 12) :
    Double.val (createParametrizedHeavyside param bound (FloatOps.ofUsize usizeMax) (FloatOps.ofUsize lastMax) lastCur
      (FloatOps.ofUsize cur) (FloatOps.ofUsize rem) (FloatOps.ofUsize n)) 0 := by
  have L := Double.laws M
  obtain ⟨D, D1, D2, D3⟩ := unknown (M := M) (n := n) (by omega) h1 h2
  rw [param_answer (param := param) bound lastCur (FloatOps.ofUsize usizeMax) (FloatOps.ofUsize lastMax)
    (FloatOps.ofUsize cur) (FloatOps.ofUsize rem) (FloatOps.ofUsize n) (by
      rw [Bool.eq_false_iff]
      intro h'
      have := (L.lt D1 hc).1 h'
      linarith), ha, hb, he, hd]
  have e4 := ofUsize (M := M) (k := n) (by omega)
  have e3' := ofUsize (M := M) (k := rem) (by omega)
  have e5 := sub_nat e4 e3' hr.le (by omega)
  obtain ⟨u, u1, u2, u3, _⟩ := powi_nat (k := a) e4 (by omega) hn (by omega)
  obtain ⟨v, v1, v2, v3, _⟩ := powi_nat (k := b) e3' (by omega) (by omega) (by omega)
  obtain ⟨q, q1, q2, q3, _⟩ := powi_nat (k := d) e5 (by omega) (by omega) (by omega)
  obtain ⟨l, l1⟩ := powi_lin e4 (by omega) hn hl
  refine mul_zero_right l1 ?_
  have pD : 0 < D := lt_of_lt_of_le (by positivity) D2
  have w0 : (2 : ℝ) ^ 63 ≤ D ^ e := by
    calc (2 : ℝ) ^ 63 ≤ 2 ^ (63 * e) := pow_le_pow_right₀ (by norm_num) (by omega)
      _ ≤ D ^ e := by rw [pow_mul]; gcongr
  have w0' : D ^ e ≤ (2 : ℝ) ^ 130 := by
    calc D ^ e ≤ (2 : ℝ) ^ (65 * e) := by rw [pow_mul]; gcongr
      _ ≤ 2 ^ 130 := pow_le_pow_right₀ (by norm_num) (by omega)
  have hi1 : 1 / 2 ^ 130 ≤ (D ^ e)⁻¹ := by rw [one_div]; gcongr
  have hi2 : (D ^ e)⁻¹ ≤ 1 / 2 ^ 63 := by rw [one_div]; gcongr
  obtain ⟨w, w1, w2, w3, _⟩ := powi_close (k := -(e : Int)) D1 (by rw [abs_neg, abs_of_nonneg (by omega)]; omega) pD
    (by
      rw [zpow_neg, zpow_natCast]
      have : (1 : ℝ) / 2 ^ 256 ≤ 1 / 2 ^ 130 := by norm_num
      linarith)
    (by
      rw [zpow_neg, zpow_natCast]
      have : (1 : ℝ) / 2 ^ 63 ≤ 2 ^ 256 := by norm_num
      linarith)
  rw [zpow_neg, zpow_natCast] at w2 w3
  obtain ⟨q4, q5⟩ := pow_bounds (m := n - rem) (k := d) (by omega) (by omega)
  have q6 : (2 : ℝ) ^ (20 * d) ≤ 2 ^ 40 := pow_le_pow_right₀ (by norm_num) (by omega)
  obtain ⟨u4, u5⟩ := pow_bounds (m := n) (k := a) (by omega) (by omega)
  obtain ⟨v4, v5⟩ := pow_bounds (m := rem) (k := b) (by omega) (by omega)
  have p1 : (0.87 : ℝ) ≤ u * v := by nlinarith
  have p2 : u * v ≤ 2 ^ 61 := by
    have : (n : ℝ) ^ a * (rem : ℝ) ^ b ≤ 2 ^ 60 := by
      calc (n : ℝ) ^ a * (rem : ℝ) ^ b ≤ 2 ^ (20 * a) * 2 ^ (20 * b) := by gcongr
        _ = 2 ^ (20 * a + 20 * b) := (pow_add _ _ _).symm
        _ ≤ 2 ^ 60 := pow_le_pow_right₀ (by norm_num) (by omega)
    have u0 : 0 ≤ u := by nlinarith
    have v0 : 0 ≤ v := by nlinarith
    calc u * v ≤ (17 / 16 * (n : ℝ) ^ a) * (17 / 16 * (rem : ℝ) ^ b) := by gcongr
      _ = 289 / 256 * ((n : ℝ) ^ a * (rem : ℝ) ^ b) := by ring
      _ ≤ 289 / 256 * 2 ^ 60 := by gcongr
      _ ≤ 2 ^ 61 := by norm_num
  have p4 : 1 / 2 ^ 131 ≤ w := by
    have : (1 : ℝ) / 2 ^ 131 ≤ 15 / 16 * (1 / 2 ^ 130) := by norm_num
    linarith
  have p5 : w ≤ 1 / 2 ^ 62 := by
    have : 17 / 16 * ((1 : ℝ) / 2 ^ 63) ≤ 1 / 2 ^ 62 := by norm_num
    linarith
  have p6 : 15 / 16 ≤ q := by linarith
  have p7 : q ≤ 2 ^ 41 := by
    have : 17 / 16 * (2 : ℝ) ^ 40 ≤ 2 ^ 41 := by norm_num
    linarith
  have w00 : 0 < w := lt_of_lt_of_le (by positivity) p4
  have q00 : 0 < q := by linarith
  have s1 : 2 ^ 61 ≤ u * v / w := by
    rw [le_div_iff₀ w00]
    calc (2 : ℝ) ^ 61 * w ≤ 2 ^ 61 * (1 / 2 ^ 62) := by gcongr
      _ ≤ 0.87 := by norm_num
      _ ≤ u * v := p1
  have s2 : u * v / w ≤ 2 ^ 192 := by
    rw [div_le_iff₀ w00]
    calc u * v ≤ 2 ^ 61 := p2
      _ ≤ 2 ^ 192 * (1 / 2 ^ 131) := by norm_num
      _ ≤ 2 ^ 192 * w := by gcongr
  have s3 : 2 ^ 20 ≤ u * v / w / q := by
    rw [le_div_iff₀ q00]
    calc (2 : ℝ) ^ 20 * q ≤ 2 ^ 20 * 2 ^ 41 := by gcongr
      _ ≤ 2 ^ 61 := by norm_num
      _ ≤ u * v / w := s1
  have s4 : u * v / w / q ≤ 2 ^ 193 := by
    rw [div_le_iff₀ q00]
    calc u * v / w ≤ 2 ^ 192 := s2
      _ ≤ 2 ^ 193 * (15 / 16) := by norm_num
      _ ≤ 2 ^ 193 * q := by gcongr
  have t1 : (1 : ℝ) / 2 ^ 250 ≤ 0.87 := by norm_num
  have t2 : (0.87 : ℝ) ≤ 2 ^ 20 := by norm_num
  have t3 : (2 : ℝ) ^ 20 ≤ 2 ^ 61 := by norm_num
  have t4 : (2 : ℝ) ^ 61 ≤ 2 ^ 250 := by norm_num
  have t5 : (2 : ℝ) ^ 192 ≤ 2 ^ 250 := by norm_num
  have t6 : (2 : ℝ) ^ 193 ≤ 2 ^ 250 := by norm_num
  obtain ⟨y, y1, y2, y3⟩ := quotient u1 v1 w1 q1 w00 q00 (by linarith) (by linarith) (by linarith) (by linarith) (by linarith)
    (by linarith)
  refine M.exp_small y1 (exp_lt_tiny ?_)
  have : (0.99 : ℝ) * 2 ^ 20 ≥ 746 := by norm_num
  linarith

/-- A negative exponent of the number of blocked bits: zero if there is none. -/
theorem param_remaining {param : HeavysideParameters (Double M)} (bound lastCur : Double M) {c : ℝ}
    (hc : param.cutoff.val c) (hc' : c ≤ 2 ^ 63) (hn0 : 1 ≤ n) (hn : n ≤ 2 ^ 20) (h1 : lastMax ≤ n) (h2 : cur ≤ n)
    {a e d : Nat} (ha : param.expNumTotalNodesExp = a) (hb : param.expNumRemainingNodesExp < 0)
    (he : param.expDiffExp = e) (hd : param.expNumMeasuredNodesExp = d) (a2 : a ≤ 12) (e3 : e ≤ 3)
    (d2 : d ≤ 12) (hl : |param.linNumTotalNodesExp| ≤ 12) :
    Double.val (createParametrizedHeavyside param bound (FloatOps.ofUsize usizeMax) (FloatOps.ofUsize lastMax) lastCur
      (FloatOps.ofUsize cur) (FloatOps.ofUsize 0) (FloatOps.ofUsize n)) 0 := by
  have L := Double.laws M
  obtain ⟨D, D1, D2, D3⟩ := unknown (M := M) (n := n) (by omega) h1 h2
  rw [param_answer (param := param) bound lastCur (FloatOps.ofUsize usizeMax) (FloatOps.ofUsize lastMax)
    (FloatOps.ofUsize cur) (FloatOps.ofUsize 0) (FloatOps.ofUsize n) (by
      rw [Bool.eq_false_iff]
      intro h'
      have := (L.lt D1 hc).1 h'
      linarith), ha, he, hd]
  have e4 := ofUsize (M := M) (k := n) (by omega)
  have e3' := ofUsize (M := M) (k := 0) (by omega)
  have e5 := sub_nat e4 e3' (Nat.zero_le n) (by omega)
  obtain ⟨u, u1, u2, u3, _⟩ := powi_nat (k := a) e4 (by omega) hn (by omega)
  obtain ⟨q, q1, q2, q3, _⟩ := powi_nat (k := d) e5 (by omega) (by omega) (by omega)
  obtain ⟨l, l1⟩ := powi_lin e4 (by omega) hn hl
  refine mul_zero_right l1 ?_
  have pD : 0 < D := lt_of_lt_of_le (by positivity) D2
  have w0 : (1 : ℝ) ≤ D ^ e := one_le_pow₀ (le_trans (by norm_num) D2)
  have w0' : D ^ e ≤ (2 : ℝ) ^ 195 := by
    calc D ^ e ≤ (2 : ℝ) ^ (65 * e) := by rw [pow_mul]; gcongr
      _ ≤ 2 ^ 195 := pow_le_pow_right₀ (by norm_num) (by omega)
  obtain ⟨w, w1, w2, w3, _⟩ := powi_close (k := (e : Int)) D1 (by rw [abs_of_nonneg (by omega)]; omega) pD
    (by
      rw [zpow_natCast]
      have : (1 : ℝ) / 2 ^ 256 ≤ 1 := by norm_num
      linarith)
    (by
      rw [zpow_natCast]
      have : (2 : ℝ) ^ 195 ≤ 2 ^ 256 := by norm_num
      linarith)
  rw [zpow_natCast] at w2
  obtain ⟨q4, q5⟩ := pow_bounds (m := n - 0) (k := d) (by omega) (by omega)
  obtain ⟨u4, u5⟩ := pow_bounds (m := n) (k := a) (by omega) (by omega)
  have hpole : (FloatArith.powi (FloatOps.ofUsize 0) param.expNumRemainingNodesExp : Double M) = inf M false := by
    have : (FloatOps.ofUsize 0 : Double M) = B64.zero false := by
      show B64.ofReal false ((0 : Nat) : ℝ) = _
      rw [Nat.cast_zero, B64.ofReal_zero]
    rw [this]
    exact M.powi_pole hb
  rw [hpole, mul_inf_pos u1 (by linarith), div_inf_pos w1 (by linarith), div_inf_pos q1 (by linarith)]
  exact M.exp_negInf

end
end Double
end Verif
