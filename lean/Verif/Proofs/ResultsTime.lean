import Mathlib.Tactic.Linarith
import Mathlib.Tactic.FieldSimp
import Verif.Proofs.Float
import Verif.Model.Results
/-!
# The timeouts of the node sweep: rounding errors
-/

namespace Verif.Results

/-- Equal up to a relative error of `k` units of `2 ^ -53`. -/
def Near (k : ℝ) (x y : ℝ) : Prop := y * (1 - k / 2 ^ 53) ≤ x ∧ x ≤ y * (1 + k / 2 ^ 53)

theorem Near.rnd {k x y : ℝ} (h : Near k x y) (hy : 0 ≤ y) (hk' : k ≤ 1000) :
    Near (k + 2) (rnd x) y := by
  obtain ⟨h1, h2⟩ := h
  have hx : 0 ≤ x := le_trans (mul_nonneg hy (by norm_num; linarith)) h1
  have he := rnd_err x
  rw [abs_of_nonneg hx, abs_le] at he
  have hx2 : x ≤ 2 * y := by
    have : y * (1 + k / 2 ^ 53) ≤ y * 2 := mul_le_mul_of_nonneg_left (by norm_num; linarith) hy
    linarith
  have hb : x / 2 ^ 53 ≤ y * (2 / 2 ^ 53) := by
    have : x / 2 ^ 53 ≤ 2 * y / 2 ^ 53 := by gcongr
    linarith
  constructor
  · have : y * (1 - (k + 2) / 2 ^ 53) = y * (1 - k / 2 ^ 53) - y * (2 / 2 ^ 53) := by ring
    linarith [he.1]
  · have : y * (1 + (k + 2) / 2 ^ 53) = y * (1 + k / 2 ^ 53) + y * (2 / 2 ^ 53) := by ring
    linarith [he.2]

theorem Near.refl {y : ℝ} : Near 0 y y := by constructor <;> simp

theorem Near.mul {k x y : ℝ} (h : Near k x y) {c : ℝ} (hc : 0 ≤ c) : Near k (x * c) (y * c) := by
  obtain ⟨h1, h2⟩ := h
  constructor
  · calc y * c * (1 - k / 2 ^ 53) = y * (1 - k / 2 ^ 53) * c := by ring
      _ ≤ x * c := mul_le_mul_of_nonneg_right h1 hc
  · calc x * c ≤ y * (1 + k / 2 ^ 53) * c := mul_le_mul_of_nonneg_right h2 hc
      _ = y * c * (1 + k / 2 ^ 53) := by ring

theorem Near.sub_one {k x y : ℝ} (h : Near k x y) (hy : 2 ≤ y) (hk : 0 ≤ k) :
    Near (2 * k) (x - 1) (y - 1) := by
  obtain ⟨h1, h2⟩ := h
  have : y * (k / 2 ^ 53) ≤ (y - 1) * (2 * k / 2 ^ 53) := by
    have hk2 : 0 ≤ k / 2 ^ 53 := by positivity
    have : (y - 1) * (2 * k / 2 ^ 53) - y * (k / 2 ^ 53) = (y - 2) * (k / 2 ^ 53) := by ring
    nlinarith [mul_nonneg (sub_nonneg.2 hy) hk2]
  constructor
  · have e1 : (y - 1) * (1 - 2 * k / 2 ^ 53) = (y - 1) - (y - 1) * (2 * k / 2 ^ 53) := by ring
    have e2 : y * (1 - k / 2 ^ 53) = y - y * (k / 2 ^ 53) := by ring
    linarith
  · have e1 : (y - 1) * (1 + 2 * k / 2 ^ 53) = (y - 1) + (y - 1) * (2 * k / 2 ^ 53) := by ring
    have e2 : y * (1 + k / 2 ^ 53) = y + y * (k / 2 ^ 53) := by ring
    linarith

theorem Near.div {k x y : ℝ} (h : Near k x y) (hy : 0 < y) {c : ℝ} (hc : 0 ≤ c) (hk : 0 ≤ k)
    (hk' : k ≤ 1000) : Near (2 * k) (c / x) (c / y) := by
  obtain ⟨h1, h2⟩ := h
  set t := k / 2 ^ 53 with ht
  have ht0 : 0 ≤ t := by positivity
  have ht1 : t ≤ 1 / 4 := by rw [ht]; norm_num; linarith
  have hlow : 0 < y * (1 - t) := mul_pos hy (by linarith)
  have hx : 0 < x := lt_of_lt_of_le hlow h1
  have e2 : 2 * k / 2 ^ 53 = 2 * t := by rw [ht]; ring
  unfold Near
  rw [e2]
  constructor
  · rw [le_div_iff₀ hx]
    calc c / y * (1 - 2 * t) * x ≤ c / y * (1 - 2 * t) * (y * (1 + t)) := by
          apply mul_le_mul_of_nonneg_left h2
          exact mul_nonneg (div_nonneg hc hy.le) (by linarith)
      _ = c * ((1 - 2 * t) * (1 + t)) := by field_simp
      _ ≤ c * 1 := mul_le_mul_of_nonneg_left (by nlinarith) hc
      _ = c := mul_one c
  · rw [div_le_iff₀ hx]
    calc c = c * 1 := (mul_one c).symm
      _ ≤ c * ((1 + 2 * t) * (1 - t)) := mul_le_mul_of_nonneg_left (by nlinarith) hc
      _ = c / y * (1 + 2 * t) * (y * (1 - t)) := by field_simp
      _ ≤ c / y * (1 + 2 * t) * x := by
          apply mul_le_mul_of_nonneg_left h1
          exact mul_nonneg (div_nonneg hc hy.le) (by linarith)

/-- `n (n + 1) (2 n + 1) / 6 - 1`, the sum of the squares from 2 to `n`. -/
noncomputable def squares (n : Nat) : ℝ := (n * (n + 1) * (2 * n + 1) : ℝ) / 6 - 1

theorem four_le_squares {n : Nat} (hn : 2 ≤ n) : 4 ≤ squares n := by
  unfold squares
  have : (2 : ℝ) ≤ n := by exact_mod_cast hn
  have h2 : (6 : ℝ) ≤ n * (n + 1) := by nlinarith
  have h3 : (30 : ℝ) ≤ n * (n + 1) * (2 * n + 1) := by nlinarith
  linarith

open NodeSweep

theorem factor_near {real n : Nat} (hr : real ≤ 2 ^ 53) (hn : 2 ≤ n) (hn' : n ≤ 2 ^ 17) :
    ∃ a, factor real n = .fin a ∧ Near 40 a (real / squares n) := by
  have hm : n * (n + 1) * (2 * n + 1) ≤ 2 ^ 53 := by
    calc n * (n + 1) * (2 * n + 1) ≤ 2 ^ 17 * (2 ^ 17 + 1) * (2 * 2 ^ 17 + 1) := by gcongr
      _ ≤ 2 ^ 53 := by norm_num
  have h4 := four_le_squares hn
  have hM : ((n * (n + 1) * (2 * n + 1) : Nat) : ℝ) = 6 * (squares n + 1) := by
    unfold squares; push_cast; ring
  have n1 : Near 2 (rnd (1 / 6)) (1 / 6) := by
    have := (Near.refl (y := 1 / 6)).rnd (by norm_num) (by norm_num)
    simpa using this
  have n2 := (n1.mul (c := 6 * (squares n + 1)) (by linarith)).rnd (by nlinarith) (by norm_num)
  have e2 : (1 : ℝ) / 6 * (6 * (squares n + 1)) = squares n + 1 := by ring
  rw [e2] at n2
  have n3 := n2.sub_one (by linarith) (by norm_num)
  have e3 : squares n + 1 - 1 = squares n := by ring
  rw [e3] at n3
  have n4 := n3.rnd (by linarith) (by norm_num)
  norm_num at n4
  have hpos : 0 < rnd (rnd (rnd (1 / 6) * (6 * (squares n + 1))) - 1) := by
    refine lt_of_lt_of_le ?_ n4.1
    norm_num
    linarith
  have n5 := (n4.div (c := (real : ℝ)) (by linarith) (by positivity) (by norm_num) (by norm_num)).rnd
    (by positivity) (by norm_num)
  norm_num at n5
  refine ⟨rnd (real / rnd (rnd (rnd (1 / 6) * (6 * (squares n + 1))) - 1)), ?_, ?_⟩
  · have e6 : F64.div (.fin 1) (.fin 6) = .fin (rnd (1 / 6)) := by
      simp [F64.div]
    unfold factor
    rw [e6]
    have e7 := rnd_nat hm
    rw [hM] at e7
    simp only [F64.ofUsize, rnd_nat hr, hM, e7, F64.mul, F64.sub, F64.div]
    rw [if_neg hpos.ne']
  · have hr0 : (0 : ℝ) ≤ real / squares n := by positivity
    obtain ⟨q1, q2⟩ := n5
    constructor
    · refine le_trans (mul_le_mul_of_nonneg_left ?_ hr0) q1
      norm_num
    · refine le_trans q2 (mul_le_mul_of_nonneg_left ?_ hr0)
      norm_num

/-- Every timeout is the share of the budget, less five milliseconds, up to 50 nanoseconds; and never
more than the share. -/
theorem timeout_near {real n size : Nat} (hr : real ≤ 2 ^ 53) (hn : 2 ≤ n) (hn' : n ≤ 2 ^ 17)
    (hs : 2 ≤ size) (hs' : size ≤ n) :
    (timeout real n size : ℝ) ≤ real / squares n * (size : ℝ) ^ 2 ∧
    real / squares n * (size : ℝ) ^ 2 ≤ timeout real n size + 5000050 := by
  obtain ⟨a, ea, na⟩ := factor_near hr hn hn'
  have h4 := four_le_squares hn
  have hA : (0 : ℝ) ≤ real / squares n := by positivity
  have hsz : (size ^ 2 : Nat) ≤ 2 ^ 53 := by
    calc size ^ 2 ≤ (2 ^ 17) ^ 2 := by gcongr; omega
      _ ≤ 2 ^ 53 := by norm_num
  have hsz1 : size ≤ 2 ^ 53 := by
    calc size ≤ 2 ^ 17 := by omega
      _ ≤ 2 ^ 53 := by norm_num
  have ep : F64.powi (F64.ofUsize size) 2 = .fin ((size : ℝ) ^ 2) := by
    have hne : ¬ ((size : ℝ) = 0) := by
      have : 0 < size := by omega
      exact_mod_cast this.ne'
    simp only [F64.powi, F64.ofUsize, rnd_nat hsz1]
    have h2 : rnd ((size : ℝ) ^ 2) = (size : ℝ) ^ 2 := by
      have := rnd_nat hsz
      push_cast at this
      exact this
    have h3 : (size : ℝ) ^ (2 : Int) = (size : ℝ) ^ 2 := by norm_cast
    rw [if_neg (by norm_num), if_neg (by norm_num), if_neg (by norm_num), h3, h2]
  set S : ℝ := (size : ℝ) ^ 2 with hS
  have hS0 : 0 ≤ S := by positivity
  have nt := (na.mul hS0).rnd (by positivity) (by norm_num)
  norm_num at nt
  set A : ℝ := real / squares n with hAdef
  have hle : A * S ≤ 2 ^ 53 := by
    have hSle : S ≤ squares n := by
      have h2 : (2 : ℝ) ≤ size := by exact_mod_cast hs
      have h3 : (size : ℝ) ≤ n := by exact_mod_cast hs'
      have : S ≤ (n : ℝ) ^ 2 := by rw [hS]; gcongr
      have hn2 : (2 : ℝ) ≤ n := by exact_mod_cast hn
      have : (n : ℝ) ^ 2 ≤ squares n := by
        unfold squares
        have e : (n * (n + 1) * (2 * n + 1) : ℝ) = 2 * n ^ 3 + 3 * n ^ 2 + n := by ring
        rw [e]
        nlinarith [sq_nonneg ((n : ℝ) - 2), mul_nonneg (sub_nonneg.2 hn2) (sq_nonneg ((n : ℝ)))]
      linarith
    calc A * S ≤ A * squares n := mul_le_mul_of_nonneg_left hSle hA
      _ = real := by rw [hAdef]; field_simp
      _ ≤ 2 ^ 53 := by exact_mod_cast hr
  have ht : timeout real n size = (round (rnd (a * S))).toNat - 5000000 := by
    unfold timeout
    rw [ea, ep]
    rfl
  set x := rnd (a * S) with hx
  have hAS : 0 ≤ A * S := mul_nonneg hA hS0
  have h42 : A * S * (42 / 2 ^ 53) ≤ 42 := by
    calc A * S * (42 / 2 ^ 53) ≤ 2 ^ 53 * (42 / 2 ^ 53) := by gcongr
      _ = 42 := by norm_num
  obtain ⟨nt1, nt2⟩ := nt
  have hx1 : A * S - 42 ≤ x := by
    have : A * S * (1 - 42 / 2 ^ 53) = A * S - A * S * (42 / 2 ^ 53) := by ring
    linarith
  have hx2 : x ≤ A * S + 42 := by
    have : A * S * (1 + 42 / 2 ^ 53) = A * S + A * S * (42 / 2 ^ 53) := by ring
    linarith
  have hr1 := abs_sub_round x
  rw [abs_le] at hr1
  obtain ⟨k, hk⟩ : ∃ k, (round x).toNat = k := ⟨_, rfl⟩
  have hk1 : ((round x : Int) : ℝ) ≤ k := by
    have := Int.self_le_toNat (round x)
    rw [hk] at this
    exact_mod_cast this
  have hk2 : (k : ℝ) ≤ max ((round x : Int) : ℝ) 0 := by
    have : ((round x).toNat : Int) ≤ max (round x) 0 := by omega
    rw [hk] at this
    exact_mod_cast this
  rw [ht, hk]
  obtain ⟨c, hc⟩ : ∃ c : Nat, 5000000 = c := ⟨_, rfl⟩
  have hc' : (c : ℝ) = 5000000 := by rw [← hc]; norm_num
  rw [hc]
  have hsub1 : ((k - c : Nat) : ℝ) + c = max (k : ℝ) c := by
    have : (k - c) + c = max k c := by omega
    exact_mod_cast this
  constructor
  · have : max (k : ℝ) c ≤ A * S + c := by
      refine max_le ?_ (by linarith)
      refine le_trans hk2 (max_le ?_ ?_) <;> rw [hc'] <;> linarith
    linarith
  · have := le_max_left (k : ℝ) c
    linarith

theorem sum_near {f : Nat → Nat} {A : ℝ} {c n : Nat}
    (h : ∀ size, 2 ≤ size → size ≤ n →
      (f size : ℝ) ≤ A * (size : ℝ) ^ 2 ∧ A * (size : ℝ) ^ 2 ≤ f size + c) (m : Nat) :
    1 ≤ m → m ≤ n →
      ((((List.range (m + 1)).map fun size => if size < 2 then 0 else f size).sum : Nat) : ℝ) ≤
        A * squares m ∧
      A * squares m ≤
        (((List.range (m + 1)).map fun size => if size < 2 then 0 else f size).sum : Nat) + (m * c : Nat) := by
  induction m with
  | zero => intro hm; omega
  | succ m ih =>
    intro hm hmn
    rw [List.range_succ, List.map_append, List.sum_append]
    by_cases h1 : m = 0
    · subst h1
      have e : squares (0 + 1) = 0 := by unfold squares; norm_num
      rw [e]
      constructor
      · simp
      · simp only [mul_zero]
        positivity
    · obtain ⟨i1, i2⟩ := ih (by omega) (by omega)
      obtain ⟨t1, t2⟩ := h (m + 1) (by omega) hmn
      have e : squares (m + 1) = squares m + ((m + 1 : Nat) : ℝ) ^ 2 := by
        unfold squares; push_cast; ring
      simp only [List.map_cons, List.map_nil, List.sum_cons, List.sum_nil, add_zero,
        if_neg (show ¬ m + 1 < 2 by omega)]
      rw [e, mul_add]
      push_cast at t1 t2 i1 i2 ⊢
      constructor
      · linarith
      · linarith

theorem timeouts_sum {real n : Nat} (hr : real ≤ 2 ^ 53) (hn : 2 ≤ n) (hn' : n ≤ 2 ^ 17) :
    (timeouts real n).sum ≤ real ∧ real ≤ (timeouts real n).sum + n * 5000050 := by
  have h4 := four_le_squares hn
  obtain ⟨c, hc⟩ : ∃ c : Nat, 5000050 = c := ⟨_, rfl⟩
  have hc' : (c : ℝ) = 5000050 := by rw [← hc]; norm_num
  obtain ⟨k1, k2⟩ := sum_near (f := timeout real n) (A := real / squares n) (c := c) (n := n)
    (fun size h1 h2 => by rw [hc']; exact timeout_near hr hn hn' h1 h2) n (by omega) (Nat.le_refl n)
  have e : (real : ℝ) / squares n * squares n = real := by field_simp
  rw [e] at k1 k2
  rw [hc]
  unfold timeouts
  constructor
  · exact_mod_cast k1
  · exact_mod_cast k2

end Verif.Results
