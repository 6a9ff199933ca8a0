import Verif.Model.Statistics
import Verif.Proofs.Float
/-!
# Rounding is monotone; means and deviations computed with `f64`
-/

namespace Verif

theorem le_round_of_le {z : ℝ} {n : Int} (h : (n : ℝ) ≤ z) : n ≤ round z := by
  rw [round_eq]
  apply Int.le_floor.2
  linarith

theorem round_le_of_le {z : ℝ} {n : Int} (h : z ≤ n) : round z ≤ n := by
  rw [round_eq, ← Int.lt_add_one_iff]
  apply Int.floor_lt.2
  push_cast
  linarith

theorem round_mono' {y z : ℝ} (h : y ≤ z) : round y ≤ round z := by
  rw [round_eq, round_eq]
  exact Int.floor_le_floor (by linarith)

theorem two_zpow_split (e : Int) : (2 : ℝ) ^ e = ((2 ^ 52 : Int) : ℝ) * 2 ^ (e - 52) := by
  have : (2 : ℝ) ^ e = 2 ^ (52 : Int) * 2 ^ (e - 52) := by
    rw [← zpow_add₀ (by norm_num)]
    congr 1
    ring
  rw [this]
  norm_num

/-- Rounding stays between the powers of two around a number. -/
theorem rnd_pos_bounds {x : ℝ} (h : 0 < x) :
    (2 : ℝ) ^ Int.log 2 |x| ≤ rnd x ∧ rnd x ≤ 2 ^ (Int.log 2 |x| + 1) := by
  obtain ⟨h1, h2⟩ := log_bounds h.ne'
  unfold rnd
  rw [abs_of_pos h] at *
  generalize Int.log 2 x = e at *
  have hp : (0 : ℝ) < 2 ^ (e - 52) := by positivity
  have s1 := two_zpow_split e
  have s2 : (2 : ℝ) ^ (e + 1) = ((2 ^ 53 : Int) : ℝ) * 2 ^ (e - 52) := by
    rw [zpow_add₀ (by norm_num), s1]
    push_cast
    ring
  constructor
  · rw [s1]
    have := le_round_of_le (z := x / 2 ^ (e - 52)) (n := 2 ^ 52) (by
      rw [le_div_iff₀ hp, ← s1]; exact h1)
    have : ((2 ^ 52 : Int) : ℝ) ≤ (round (x / (2 : ℝ) ^ (e - 52)) : ℝ) := by exact_mod_cast this
    gcongr
  · rw [s2]
    have := round_le_of_le (z := x / 2 ^ (e - 52)) (n := 2 ^ 53) (by
      rw [div_le_iff₀ hp, ← s2]; exact h2.le)
    have : (round (x / (2 : ℝ) ^ (e - 52)) : ℝ) ≤ ((2 ^ 53 : Int) : ℝ) := by exact_mod_cast this
    gcongr

theorem rnd_neg_bounds {x : ℝ} (h : x < 0) :
    -(2 : ℝ) ^ (Int.log 2 |x| + 1) ≤ rnd x ∧ rnd x ≤ -2 ^ Int.log 2 |x| := by
  obtain ⟨h1, h2⟩ := log_bounds h.ne
  unfold rnd
  rw [abs_of_neg h] at *
  generalize Int.log 2 (-x) = e at *
  have hp : (0 : ℝ) < 2 ^ (e - 52) := by positivity
  have s1 := two_zpow_split e
  have s2 : (2 : ℝ) ^ (e + 1) = ((2 ^ 53 : Int) : ℝ) * 2 ^ (e - 52) := by
    rw [zpow_add₀ (by norm_num), s1]
    push_cast
    ring
  constructor
  · rw [s2]
    have := le_round_of_le (z := x / 2 ^ (e - 52)) (n := -2 ^ 53) (by
      rw [le_div_iff₀ hp]
      push_cast at s2 ⊢
      linarith)
    have : ((-2 ^ 53 : Int) : ℝ) ≤ (round (x / (2 : ℝ) ^ (e - 52)) : ℝ) := by exact_mod_cast this
    have h3 : ((-2 ^ 53 : Int) : ℝ) * 2 ^ (e - 52) ≤ (round (x / (2 : ℝ) ^ (e - 52)) : ℝ) * 2 ^ (e - 52) := by
      gcongr
    push_cast at h3 ⊢
    linarith
  · rw [s1]
    have := round_le_of_le (z := x / 2 ^ (e - 52)) (n := -2 ^ 52) (by
      rw [div_le_iff₀ hp]
      push_cast at s1 ⊢
      linarith)
    have : (round (x / (2 : ℝ) ^ (e - 52)) : ℝ) ≤ ((-2 ^ 52 : Int) : ℝ) := by exact_mod_cast this
    have h3 : (round (x / (2 : ℝ) ^ (e - 52)) : ℝ) * 2 ^ (e - 52) ≤ ((-2 ^ 52 : Int) : ℝ) * 2 ^ (e - 52) := by
      gcongr
    push_cast at h3 ⊢
    linarith

theorem rnd_nonneg {x : ℝ} (h : 0 ≤ x) : 0 ≤ rnd x := by
  rcases h.eq_or_lt with rfl | h
  · rw [rnd_zero]
  · exact le_trans (by positivity) (rnd_pos_bounds h).1

theorem rnd_nonpos {x : ℝ} (h : x ≤ 0) : rnd x ≤ 0 := by
  rcases h.eq_or_lt with rfl | h
  · rw [rnd_zero]
  · have h1 := (rnd_neg_bounds h).2
    have : (0 : ℝ) < 2 ^ Int.log 2 |x| := by positivity
    linarith

theorem rnd_mono_of_log {x y : ℝ} (h : x ≤ y) (hl : Int.log 2 |x| = Int.log 2 |y|) : rnd x ≤ rnd y := by
  unfold rnd
  rw [hl]
  generalize Int.log 2 |y| = e at *
  have hp : (0 : ℝ) < 2 ^ (e - 52) := by positivity
  have h2 : x / (2 : ℝ) ^ (e - 52) ≤ y / 2 ^ (e - 52) := by gcongr
  have h3 := round_mono' h2
  have h4 : (round (x / (2 : ℝ) ^ (e - 52)) : ℝ) ≤ (round (y / (2 : ℝ) ^ (e - 52)) : ℝ) := by
    exact_mod_cast h3
  gcongr

/-- Rounding is monotone. -/
theorem rnd_mono {x y : ℝ} (h : x ≤ y) : rnd x ≤ rnd y := by
  rcases lt_trichotomy x 0 with hx | hx | hx
  · rcases lt_or_ge y 0 with hy | hy
    · have hlog : Int.log 2 |y| ≤ Int.log 2 |x| := by
        apply Int.log_mono_right (abs_pos.2 hy.ne)
        rw [abs_of_neg hx, abs_of_neg hy]
        linarith
      rcases hlog.eq_or_lt with hl | hl
      · exact rnd_mono_of_log h hl.symm
      · have h1 := (rnd_neg_bounds hx).2
        have h2 := (rnd_neg_bounds hy).1
        have h3 : (2 : ℝ) ^ (Int.log 2 |y| + 1) ≤ 2 ^ Int.log 2 |x| :=
          zpow_le_zpow_right₀ (by norm_num) (by omega)
        linarith
    · exact le_trans (rnd_nonpos hx.le) (rnd_nonneg hy)
  · subst hx
    rw [rnd_zero]
    exact rnd_nonneg h
  · have hy : 0 < y := lt_of_lt_of_le hx h
    have hlog : Int.log 2 |x| ≤ Int.log 2 |y| := by
      apply Int.log_mono_right (abs_pos.2 hx.ne')
      rw [abs_of_pos hx, abs_of_pos hy]
      exact h
    rcases hlog.eq_or_lt with hl | hl
    · exact rnd_mono_of_log h hl
    · have h1 := (rnd_pos_bounds hx).2
      have h2 := (rnd_pos_bounds hy).1
      have h3 : (2 : ℝ) ^ (Int.log 2 |x| + 1) ≤ 2 ^ Int.log 2 |y| :=
        zpow_le_zpow_right₀ (by norm_num) (by omega)
      linarith

theorem rnd_le_nat {x : ℝ} {k : Nat} (hk : k ≤ 2 ^ 53) (h : x ≤ k) : rnd x ≤ k := by
  rw [← rnd_nat hk]
  exact rnd_mono h

theorem nat_le_rnd {x : ℝ} {k : Nat} (hk : k ≤ 2 ^ 53) (h : (k : ℝ) ≤ x) : (k : ℝ) ≤ rnd x := by
  rw [← rnd_nat hk]
  exact rnd_mono h

theorem rnd_neg_nat {k : Nat} (hk : k ≤ 2 ^ 53) : rnd (-(k : ℝ)) = -k := by
  by_cases h0 : k = 0
  · simp [h0, rnd_zero]
  · have hpos : (0 : ℝ) < k := by exact_mod_cast Nat.pos_of_ne_zero h0
    have h1 := rnd_nat hk
    unfold rnd at h1 ⊢
    rw [abs_neg, neg_div]
    have hne : (2 : ℝ) ^ (Int.log 2 |(k : ℝ)| - 52) ≠ 0 := by positivity
    generalize (2 : ℝ) ^ (Int.log 2 |(k : ℝ)| - 52) = u at *
    have h2 : (k : ℝ) / u = (round ((k : ℝ) / u) : ℝ) := by
      rw [div_eq_iff hne, h1]
    rw [h2, ← Int.cast_neg, round_intCast, Int.cast_neg, ← h2]
    field_simp

theorem neg_nat_le_rnd {x : ℝ} {k : Nat} (hk : k ≤ 2 ^ 53) (h : -(k : ℝ) ≤ x) : -(k : ℝ) ≤ rnd x := by
  rw [← rnd_neg_nat hk]
  exact rnd_mono h

namespace Results

open FloatArith FloatRoot FloatSum

theorem F64.add_fin (x y : ℝ) : (add (F64.fin x) (F64.fin y) : F64) = .fin (rnd (x + y)) := by
  change F64.sub (.fin x) (F64.neg (.fin y)) = _
  simp [F64.sub, F64.neg]

theorem F64.ofUsize_nat {k : Nat} (h : k ≤ 2 ^ 53) : (Search.FloatOps.ofUsize k : F64) = .fin k := by
  change F64.fin (rnd k) = _
  rw [rnd_nat h]

theorem total_eq (row : List Nat) (h : row.sum ≤ 2 ^ 53) : (total row : F64) = .fin row.sum := by
  have key : ∀ (row : List Nat) (a : Nat), a + row.sum ≤ 2 ^ 53 →
      row.foldl (fun acc e => add acc (Search.FloatOps.ofUsize e)) (F64.fin a) = .fin ((a + row.sum : Nat) : ℝ) := by
    intro row
    induction row with
    | nil => intro a _; simp
    | cons e row ih =>
      intro a h
      rw [List.sum_cons] at h
      rw [List.foldl_cons, F64.ofUsize_nat (by omega), F64.add_fin]
      have e1 : rnd ((a : ℝ) + e) = ((a + e : Nat) : ℝ) := by
        rw [← Nat.cast_add]
        exact rnd_nat (by omega)
      rw [e1, ih (a + e) (by omega), List.sum_cons, Nat.add_assoc]
  have := key row 0 (by omega)
  simpa [total, FloatArith.zero] using this

/-- The exact mean and variance. -/
noncomputable def mean (row : List Nat) : ℝ := (row.sum : ℝ) / row.length
noncomputable def variance (row : List Nat) : ℝ :=
  (row.map fun e : Nat => ((e : ℝ) - mean row) ^ 2).sum / row.length

theorem sum_le_mul {row : List Nat} {hi : Nat} (h : ∀ e ∈ row, e ≤ hi) : row.sum ≤ row.length * hi := by
  induction row with
  | nil => simp
  | cons e row ih =>
    have h1 := h e List.mem_cons_self
    have h2 := ih fun x hx => h x (List.mem_cons_of_mem _ hx)
    rw [List.sum_cons, List.length_cons, Nat.succ_mul]
    omega

theorem mul_le_sum {row : List Nat} {lo : Nat} (h : ∀ e ∈ row, lo ≤ e) : row.length * lo ≤ row.sum := by
  induction row with
  | nil => simp
  | cons e row ih =>
    have h1 := h e List.mem_cons_self
    have h2 := ih fun x hx => h x (List.mem_cons_of_mem _ hx)
    rw [List.sum_cons, List.length_cons, Nat.succ_mul]
    omega

theorem mean_bounds {row : List Nat} (hne : row ≠ []) {lo hi : Nat} (h : ∀ e ∈ row, lo ≤ e ∧ e ≤ hi) :
    (lo : ℝ) ≤ mean row ∧ mean row ≤ hi := by
  have hn : (0 : ℝ) < row.length := by exact_mod_cast List.length_pos_iff.2 hne
  have h1 := mul_le_sum fun e he => (h e he).1
  have h2 := sum_le_mul fun e he => (h e he).2
  unfold mean
  constructor
  · rw [le_div_iff₀ hn, mul_comm]
    exact_mod_cast h1
  · rw [div_le_iff₀ hn, mul_comm]
    exact_mod_cast h2

/-- The computed mean is the exact mean, rounded once. -/
theorem statistics_fst {row : List Nat} (hne : row ≠ []) (h1 : row.sum ≤ 2 ^ 53)
    (h2 : row.length ≤ 2 ^ 53) : (statistics row : F64 × F64).1 = .fin (rnd (mean row)) := by
  have hn : (row.length : ℝ) ≠ 0 := by exact_mod_cast (List.length_pos_iff.2 hne).ne'
  simp only [statistics, total_eq row h1, F64.ofUsize_nat h2, FloatArith.div, F64.div, if_neg hn, mean]

theorem statistics_nil : (statistics [] : F64 × F64) = (.nan, .nan) := by
  have h : (Search.FloatOps.ofUsize 0 : F64) = .fin 0 := by
    rw [F64.ofUsize_nat (by norm_num)]; simp
  simp [statistics, total, h, FloatArith.div, F64.div, FloatArith.zero, FloatRoot.sqrt, F64.sqrt]

/-- Spread around any number. -/
theorem sum_sq_shift (row : List Nat) (hne : row ≠ []) (m : ℝ) :
    (row.map fun e : Nat => ((e : ℝ) - m) ^ 2).sum / row.length = variance row + (m - mean row) ^ 2 := by
  have hn : (row.length : ℝ) ≠ 0 := by exact_mod_cast (List.length_pos_iff.2 hne).ne'
  have key : ∀ (l : List Nat) (m c : ℝ), (l.map fun e : Nat => ((e : ℝ) - m) ^ 2).sum =
      (l.map fun e : Nat => ((e : ℝ) - c) ^ 2).sum + 2 * (c - m) * (l.sum - l.length * c) + l.length * (c - m) ^ 2 := by
    intro l m c
    induction l with
    | nil => simp
    | cons e l ih =>
      simp only [List.map_cons, List.sum_cons, List.length_cons, ih]
      push_cast
      ring
  have h1 : ((row.sum : ℝ) - row.length * mean row) = 0 := by
    unfold mean
    field_simp
    ring
  rw [key row m (mean row), h1]
  unfold variance
  field_simp
  ring

/-- Relative error of one rounding. -/
theorem rnd_err_le {x b : ℝ} (h : |x| ≤ b) : |rnd x - x| ≤ b / 2 ^ 53 :=
  le_trans (rnd_err x) (by gcongr)

/-- The loop over the squares. -/
theorem fold_squares {D : Nat} : ∀ (qs : List ℝ) (a : ℝ) (k : Nat), (∀ q ∈ qs, 0 ≤ q ∧ q ≤ D) → 0 ≤ a →
    a ≤ (k * D : Nat) → (k + qs.length) * D ≤ 2 ^ 53 →
    ∃ t, (qs.map F64.fin).foldl add (F64.fin a) = F64.fin t ∧ 0 ≤ t ∧ t ≤ ((k + qs.length) * D : Nat) ∧
      |t - (a + qs.sum)| ≤ qs.length * (((k + qs.length) * D : Nat) / 2 ^ 53) := by
  intro qs
  induction qs with
  | nil =>
    intro a k _ h0 h1 _
    exact ⟨a, rfl, h0, by simpa using h1, by simp⟩
  | cons q qs ih =>
    intro a k hq h0 h1 hb
    obtain ⟨q0, q1⟩ := hq q List.mem_cons_self
    have hle : (k + 1) * D ≤ (k + (q :: qs).length) * D := by
      apply Nat.mul_le_mul_right
      simp
    have hs : a + q ≤ ((k + 1) * D : Nat) := by
      push_cast at h1 ⊢
      linarith
    have r0 := rnd_nonneg (add_nonneg h0 q0)
    have r1 := rnd_le_nat (by omega) hs
    obtain ⟨t, e, t0, t1, t2⟩ := ih (rnd (a + q)) (k + 1) (fun x hx => hq x (List.mem_cons_of_mem _ hx)) r0 r1
      (by rw [List.length_cons] at hb; rw [show k + 1 + qs.length = k + (qs.length + 1) by omega]; exact hb)
    have hk : k + 1 + qs.length = k + (q :: qs).length := by simp; omega
    rw [hk] at t1 t2
    refine ⟨t, ?_, t0, t1, ?_⟩
    · rw [List.map_cons, List.foldl_cons, F64.add_fin]
      exact e
    · have e1 : |rnd (a + q) - (a + q)| ≤ ((k + (q :: qs).length) * D : Nat) / 2 ^ 53 := by
        apply rnd_err_le
        rw [abs_of_nonneg (add_nonneg h0 q0)]
        refine le_trans hs ?_
        exact_mod_cast hle
      have e2 : t - (a + (q :: qs).sum) = (t - (rnd (a + q) + qs.sum)) + (rnd (a + q) - (a + q)) := by
        rw [List.sum_cons]; ring
      rw [e2]
      refine le_trans (abs_add_le _ _) ?_
      have e3 : (((q :: qs).length : Nat) : ℝ) = (qs.length : ℝ) + 1 := by
        rw [List.length_cons]; push_cast; rfl
      rw [e3, add_mul, one_mul]
      exact add_le_add t2 e1

/-- One square: bounds and error. -/
theorem square_fin {e lo hi : Nat} {m : ℝ} (hl : lo ≤ e) (hh : e ≤ hi) (m1 : (lo : ℝ) ≤ m) (m2 : m ≤ hi)
    (hb : (hi - lo) ^ 2 ≤ 2 ^ 53) :
    ∃ q, (powi (FloatArith.sub (F64.fin e) (F64.fin m)) 2 : F64) = .fin q ∧ 0 ≤ q ∧ q ≤ ((hi - lo) ^ 2 : Nat) ∧
      |q - ((e : ℝ) - m) ^ 2| ≤ 4 * ((hi - lo) ^ 2 : Nat) / 2 ^ 53 := by
  have hle : lo ≤ hi := hl.trans hh
  have hD : ((hi - lo : Nat) : ℝ) = hi - lo := by push_cast [hle]; ring
  have hD0 : hi - lo ≤ 2 ^ 53 := le_trans (by nlinarith [Nat.zero_le (hi - lo), Nat.le_self_pow (n := 2) (by norm_num) (hi - lo)]) hb
  have el : (lo : ℝ) ≤ e := by exact_mod_cast hl
  have eh : (e : ℝ) ≤ hi := by exact_mod_cast hh
  have b1 : (e : ℝ) - m ≤ ((hi - lo : Nat) : ℝ) := by rw [hD]; linarith
  have b2 : -((hi - lo : Nat) : ℝ) ≤ (e : ℝ) - m := by rw [hD]; linarith
  have c1 := rnd_le_nat hD0 b1
  have c2 := neg_nat_le_rnd hD0 b2
  have d1 : |rnd ((e : ℝ) - m) - ((e : ℝ) - m)| ≤ ((hi - lo : Nat) : ℝ) / 2 ^ 53 :=
    rnd_err_le (abs_le.2 ⟨b2, b1⟩)
  generalize hy : rnd ((e : ℝ) - m) = y at *
  generalize hx : (e : ℝ) - m = x at *
  have hsq : y ^ 2 ≤ (((hi - lo) ^ 2 : Nat) : ℝ) := by
    push_cast
    exact sq_le_sq' c2 c1
  have hsub : (FloatArith.sub (F64.fin e) (F64.fin m) : F64) = .fin y := by
    change F64.fin (rnd ((e : ℝ) - m)) = _
    rw [hx, hy]
  refine ⟨rnd (y ^ 2), ?_, rnd_nonneg (sq_nonneg y), rnd_le_nat hb hsq, ?_⟩
  · rw [hsub]
    change F64.powi (.fin y) 2 = _
    have : (y ^ (2 : Int) : ℝ) = y ^ 2 := by norm_cast
    simp [F64.powi, this]
  · have d2 : |rnd (y ^ 2) - y ^ 2| ≤ (((hi - lo) ^ 2 : Nat) : ℝ) / 2 ^ 53 := by
      apply rnd_err_le
      rwa [abs_of_nonneg (sq_nonneg y)]
    have d3 : |y ^ 2 - x ^ 2| ≤ 2 * (((hi - lo) ^ 2 : Nat) : ℝ) / 2 ^ 53 := by
      have : y ^ 2 - x ^ 2 = (y - x) * (y + x) := by ring
      rw [this, abs_mul]
      have h1 : |y + x| ≤ 2 * ((hi - lo : Nat) : ℝ) := abs_le.2 ⟨by linarith, by linarith⟩
      have h2 := mul_le_mul d1 h1 (abs_nonneg _) (by positivity)
      push_cast
      refine le_trans h2 (le_of_eq ?_)
      ring
    have e1 : rnd (y ^ 2) - x ^ 2 = (rnd (y ^ 2) - y ^ 2) + (y ^ 2 - x ^ 2) := by ring
    rw [e1]
    refine le_trans (abs_add_le _ _) (le_trans (add_le_add d2 d3) ?_)
    rw [← add_div]
    have : (0 : ℝ) ≤ (((hi - lo) ^ 2 : Nat) : ℝ) := by positivity
    gcongr
    linarith

/-- All squares. -/
theorem squares_fin {lo hi : Nat} {m : ℝ} (m1 : (lo : ℝ) ≤ m) (m2 : m ≤ hi) (hb : (hi - lo) ^ 2 ≤ 2 ^ 53)
    (hhi : hi ≤ 2 ^ 53) (row : List Nat) (h : ∀ e ∈ row, lo ≤ e ∧ e ≤ hi) :
    ∃ qs : List ℝ, (row.map fun e => (powi (FloatArith.sub (Search.FloatOps.ofUsize e) (F64.fin m)) 2 : F64)) =
        qs.map F64.fin ∧ qs.length = row.length ∧ (∀ q ∈ qs, 0 ≤ q ∧ q ≤ ((hi - lo) ^ 2 : Nat)) ∧
      |qs.sum - (row.map fun e : Nat => ((e : ℝ) - m) ^ 2).sum| ≤
        row.length * (4 * ((hi - lo) ^ 2 : Nat) / 2 ^ 53) := by
  induction row with
  | nil => exact ⟨[], by simp⟩
  | cons e row ih =>
    obtain ⟨qs, h1, h2, h3, h4⟩ := ih fun x hx => h x (List.mem_cons_of_mem _ hx)
    obtain ⟨hl, hh⟩ := h e List.mem_cons_self
    obtain ⟨q, q1, q2, q3, q4⟩ := square_fin hl hh m1 m2 hb
    refine ⟨q :: qs, ?_, by simp [h2], ?_, ?_⟩
    · rw [List.map_cons, List.map_cons, h1, F64.ofUsize_nat (by omega), q1]
    · intro x hx
      rcases List.mem_cons.1 hx with rfl | hx
      · exact ⟨q2, q3⟩
      · exact h3 x hx
    · rw [List.map_cons, List.sum_cons, List.sum_cons]
      have e1 : q + qs.sum - (((e : ℝ) - m) ^ 2 + (row.map fun e : Nat => ((e : ℝ) - m) ^ 2).sum) =
          (qs.sum - (row.map fun e : Nat => ((e : ℝ) - m) ^ 2).sum) + (q - ((e : ℝ) - m) ^ 2) := by ring
      have e3 : (((e :: row).length : Nat) : ℝ) = (row.length : ℝ) + 1 := by
        rw [List.length_cons]; push_cast; rfl
      rw [e1, e3, add_mul, one_mul]
      exact le_trans (abs_add_le _ _) (add_le_add h4 q4)

/-- Mean and deviation of a nonempty row computed with `f64`: the mean is the exact mean rounded once, and the
square of the deviation is the exact variance up to `(n + 9) hi² / 2⁵³`. -/
theorem statistics_spec {row : List Nat} (hne : row ≠ []) {lo hi : Nat} (h : ∀ e ∈ row, lo ≤ e ∧ e ≤ hi)
    (h1 : row.length ≤ 2 ^ 53) (h2 : row.length * hi ≤ 2 ^ 53) (h3 : row.length * hi ^ 2 ≤ 2 ^ 53) :
    ∃ m d, (statistics row : F64 × F64) = (.fin m, .fin d) ∧ m = rnd (mean row) ∧ (lo : ℝ) ≤ m ∧ m ≤ hi ∧
      0 ≤ d ∧ d ≤ (hi - lo : Nat) ∧ |d ^ 2 - variance row| ≤ (row.length + 9) * hi ^ 2 / 2 ^ 53 := by
  have hpos := List.length_pos_iff.2 hne
  have hn : (0 : ℝ) < row.length := by exact_mod_cast hpos
  have hloi : lo ≤ hi := by
    obtain ⟨e, he⟩ := List.exists_mem_of_ne_nil row hne
    exact (h e he).1.trans (h e he).2
  have hhi : hi ≤ 2 ^ 53 := le_trans (Nat.le_mul_of_pos_left hi hpos) h2
  have hsum : row.sum ≤ 2 ^ 53 := (sum_le_mul fun e he => (h e he).2).trans h2
  have hDle : (hi - lo) ^ 2 ≤ hi ^ 2 := Nat.pow_le_pow_left (Nat.sub_le _ _) 2
  have hnD : row.length * (hi - lo) ^ 2 ≤ 2 ^ 53 := le_trans (Nat.mul_le_mul_left _ hDle) h3
  have hD2 : (hi - lo) ^ 2 ≤ 2 ^ 53 := le_trans (Nat.le_mul_of_pos_left _ hpos) hnD
  have hD1 : hi - lo ≤ 2 ^ 53 := by omega
  obtain ⟨μ1, μ2⟩ := mean_bounds hne h
  have m1 : (lo : ℝ) ≤ rnd (mean row) := nat_le_rnd (by omega) μ1
  have m2 : rnd (mean row) ≤ hi := rnd_le_nat hhi μ2
  have hfst := statistics_fst hne hsum h1
  obtain ⟨qs, q1, q2, q3, q4⟩ := squares_fin m1 m2 hD2 hhi row h
  obtain ⟨t, t1, t2, t3, t4⟩ := fold_squares (D := (hi - lo) ^ 2) qs 0 0 q3 le_rfl (by simp)
    (by rw [q2, Nat.zero_add]; exact hnD)
  rw [q2, Nat.zero_add] at t3 t4
  rw [zero_add] at t4
  -- the variance before the root
  have v0 : 0 ≤ t / row.length := div_nonneg t2 hn.le
  have v1 : t / row.length ≤ (((hi - lo) ^ 2 : Nat) : ℝ) := by
    rw [div_le_iff₀ hn, mul_comm]
    exact_mod_cast t3
  have w0 := rnd_nonneg v0
  have w1 := rnd_le_nat hD2 v1
  have w2 : |rnd (t / row.length) - t / row.length| ≤ (((hi - lo) ^ 2 : Nat) : ℝ) / 2 ^ 53 :=
    rnd_err_le (by rwa [abs_of_nonneg v0])
  generalize hw : rnd (t / row.length) = w at *
  have s1 : Real.sqrt w ≤ ((hi - lo : Nat) : ℝ) := by
    rw [Real.sqrt_le_left (by positivity)]
    exact_mod_cast w1
  have s0 := Real.sqrt_nonneg w
  have ssq := Real.sq_sqrt w0
  have d0 := rnd_nonneg s0
  have d1 := rnd_le_nat hD1 s1
  have d2 : |rnd (Real.sqrt w) - Real.sqrt w| ≤ ((hi - lo : Nat) : ℝ) / 2 ^ 53 :=
    rnd_err_le (by rwa [abs_of_nonneg s0])
  refine ⟨rnd (mean row), rnd (Real.sqrt w), ?_, rfl, m1, m2, d0, d1, ?_⟩
  · refine Prod.ext hfst ?_
    have e1 : (statistics row : F64 × F64).2 = FloatRoot.sqrt (FloatArith.div
        ((row.map fun e => (powi (FloatArith.sub (Search.FloatOps.ofUsize e) (statistics row : F64 × F64).1) 2 :
          F64)).foldl add (F64.fin 0)) (Search.FloatOps.ofUsize row.length)) := rfl
    rw [e1, hfst, q1, t1, F64.ofUsize_nat h1]
    have e2 : (FloatArith.div (F64.fin t) (F64.fin row.length) : F64) = .fin w := by
      change F64.div _ _ = _
      simp only [F64.div, if_neg hn.ne', hw]
    rw [e2]
    change F64.sqrt _ = _
    simp only [F64.sqrt, if_neg (not_lt.2 w0)]
  · have hshift := sum_sq_shift row hne (rnd (mean row))
    generalize rnd (Real.sqrt w) = d at *
    have hHr : (((hi - lo) ^ 2 : Nat) : ℝ) ≤ (hi : ℝ) ^ 2 := by exact_mod_cast hDle
    generalize hDr : (((hi - lo) ^ 2 : Nat) : ℝ) = D2 at *
    have hD2' : ((hi - lo : Nat) : ℝ) ^ 2 = D2 := by rw [← hDr]; push_cast; rfl
    have hD0 : 0 ≤ D2 := by rw [← hD2']; positivity
    -- root
    have a1 : |d ^ 2 - w| ≤ 2 * D2 / 2 ^ 53 := by
      have : d ^ 2 - w = (d - Real.sqrt w) * (d + Real.sqrt w) := by linear_combination ssq
      rw [this, abs_mul]
      have g1 : |d + Real.sqrt w| ≤ 2 * ((hi - lo : Nat) : ℝ) := by
        rw [abs_of_nonneg (add_nonneg d0 s0)]; linarith
      have g2 := mul_le_mul d2 g1 (abs_nonneg _) (by positivity)
      refine le_trans g2 (le_of_eq ?_)
      rw [← hD2']
      ring
    -- sum
    have a2 : |t / row.length - (row.map fun e : Nat => ((e : ℝ) - rnd (mean row)) ^ 2).sum / row.length| ≤
        (row.length + 4) * (D2 / 2 ^ 53) := by
      rw [← sub_div, abs_div, abs_of_pos hn, div_le_iff₀ hn]
      have : t - (row.map fun e : Nat => ((e : ℝ) - rnd (mean row)) ^ 2).sum = (t - qs.sum) +
          (qs.sum - (row.map fun e : Nat => ((e : ℝ) - rnd (mean row)) ^ 2).sum) := by ring
      rw [this]
      refine le_trans (abs_add_le _ _) (le_trans (add_le_add t4 q4) (le_of_eq ?_))
      push_cast
      rw [← hD2']
      ring
    rw [hshift] at a2
    -- mean
    have a3 : (rnd (mean row) - mean row) ^ 2 ≤ (hi : ℝ) ^ 2 / 2 ^ 53 := by
      have g := rnd_err_le (x := mean row) (b := hi) (by
        rw [abs_of_nonneg (le_trans (by positivity) μ1)]; exact μ2)
      rw [← sq_abs]
      have g2 := pow_le_pow_left₀ (abs_nonneg _) g 2
      refine le_trans g2 ?_
      rw [div_pow]
      have : (0 : ℝ) ≤ (hi : ℝ) ^ 2 := by positivity
      gcongr
      norm_num
    have a4 := sq_nonneg (rnd (mean row) - mean row)
    have hfin : |d ^ 2 - variance row| ≤ 2 * D2 / 2 ^ 53 + D2 / 2 ^ 53 + (row.length + 4) * (D2 / 2 ^ 53) +
        (hi : ℝ) ^ 2 / 2 ^ 53 := by
      rw [abs_le] at *
      constructor <;> linarith [a1.1, a1.2, a2.1, a2.2, w2.1, w2.2]
    refine le_trans hfin ?_
    have : (2 * D2 / 2 ^ 53 + D2 / 2 ^ 53 + (row.length + 4) * (D2 / 2 ^ 53) + (hi : ℝ) ^ 2 / 2 ^ 53) =
        ((row.length + 7) * D2 + (hi : ℝ) ^ 2) / 2 ^ 53 := by ring
    rw [this]
    gcongr
    nlinarith

/-- The mean grows with the numbers. -/
theorem mean_mono {r1 r2 : List Nat} (h : List.Forall₂ (· ≤ ·) r1 r2) : mean r1 ≤ mean r2 := by
  have : r1.sum ≤ r2.sum := by
    induction h with
    | nil => exact le_rfl
    | cons h _ ih => simp only [List.sum_cons]; omega
  have : (r1.sum : ℝ) ≤ r2.sum := by exact_mod_cast this
  unfold mean
  rw [h.length_eq]
  gcongr

end Results
end Verif
