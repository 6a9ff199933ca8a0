import Mathlib.Analysis.Real.Sqrt
import Mathlib.Tactic.Linarith
import Mathlib.Tactic.FieldSimp
import Verif.Model.Results
/-!
# The densities of the published data, in exact arithmetic (C46)

`f64` is replaced by the real numbers: these statements are about the formulas, not about rounding.
-/

namespace Verif.Results

open FloatArith FloatRoot

/-- The operations that the densities use, on real numbers; the others are not used by them and are
arbitrary. -/
noncomputable instance exactReal : FloatRoot ℝ where
  ofUsize n := n
  geOne x := by classical exact decide (1 ≤ x)
  lt x y := by classical exact decide (x < y)
  zero := 0
  sub := (· - ·)
  mul := (· * ·)
  div := (· / ·)
  neg x := -x
  fmax := max
  powi x k := x ^ k
  exp := id
  one := 1
  sqrt := Real.sqrt
  le x y := by classical exact decide (x ≤ y)

/-- **C46** The expected number of neighbours `(size - 1) * density` of a node is `factor * (size - 1)`,
`factor` and `factor * √(size - 1)` for the three kinds of density, and every density is a probability. -/
theorem C46_degree (ty : String) (factor : ℝ) (d : Density ℝ) (h : newDensity ty factor = .ok d)
    (size : Nat) (hs : 1 < size) : ∃ x, d.get size = .ok x ∧ 0 ≤ x ∧ x ≤ 1 ∧
      (ty = "constant" → x = factor) ∧
      (ty = "reziprocal_linear" → ((size : ℝ) - 1) * x = factor) ∧
      (ty = "reziprocal_square_root" → ((size : ℝ) - 1) * x = factor * Real.sqrt (size - 1)) := by
  have h2 : (2 : ℝ) ≤ size := by exact_mod_cast hs
  have h1 : (1 : ℝ) ≤ size - 1 := by linarith
  have hq : 1 ≤ Real.sqrt ((size : ℝ) - 1) := by
    rw [show (1 : ℝ) = Real.sqrt 1 from Real.sqrt_one.symm]
    exact Real.sqrt_le_sqrt (by simpa using h1)
  have hqq : Real.sqrt ((size : ℝ) - 1) * Real.sqrt ((size : ℝ) - 1) = size - 1 :=
    Real.mul_self_sqrt (by linarith)
  have key : ∀ c : ℝ, 1 ≤ c → 0 ≤ factor → factor ≤ 1 → 0 ≤ factor / c ∧ factor / c ≤ 1 := by
    intro c hc h0 hf
    refine ⟨div_nonneg h0 (by linarith), ?_⟩
    rw [div_le_one (by linarith)]
    linarith
  have hfac : ∀ y, newFactor factor = .ok y → y = factor ∧ 0 ≤ factor ∧ factor ≤ 1 := by
    intro y hy
    unfold newFactor at hy
    split at hy
    · rename_i hb
      simp only [Bool.and_eq_true] at hb
      simp only [pure, Except.pure, Except.ok.injEq] at hy
      exact ⟨hy.symm, of_decide_eq_true hb.1, of_decide_eq_true hb.2⟩
    · simp at hy
  unfold newDensity at h
  split at h
  · cases hn : newFactor factor with
    | error e => simp [hn, bind, Except.bind] at h
    | ok y =>
      obtain ⟨rfl, h0, h1'⟩ := hfac y hn
      simp only [hn, bind, Except.bind, pure, Except.pure, Except.ok.injEq] at h
      subst h
      exact ⟨y, rfl, h0, h1', fun _ => rfl, fun h => absurd h (by decide), fun h => absurd h (by decide)⟩
  · cases hn : newFactor factor with
    | error e => simp [hn, bind, Except.bind] at h
    | ok y =>
      obtain ⟨rfl, h0, h1'⟩ := hfac y hn
      simp only [hn, bind, Except.bind, pure, Except.pure, Except.ok.injEq] at h
      subst h
      refine ⟨y / ((size : ℝ) - 1), ?_, (key _ h1 h0 h1').1, (key _ h1 h0 h1').2,
        fun h => absurd h (by decide), fun _ => ?_, fun h => absurd h (by decide)⟩
      · simp only [Density.get, hs, ↓reduceIte]; rfl
      · field_simp
  · cases hn : newFactor factor with
    | error e => simp [hn, bind, Except.bind] at h
    | ok y =>
      obtain ⟨rfl, h0, h1'⟩ := hfac y hn
      simp only [hn, bind, Except.bind, pure, Except.pure, Except.ok.injEq] at h
      subst h
      refine ⟨y / Real.sqrt ((size : ℝ) - 1), ?_, (key _ hq h0 h1').1, (key _ hq h0 h1').2,
        fun h => absurd h (by decide), fun h => absurd h (by decide), fun _ => ?_⟩
      · simp only [Density.get, hs, ↓reduceIte]; rfl
      · generalize Real.sqrt ((size : ℝ) - 1) = q at *
        rw [← hqq, mul_div_assoc', mul_assoc, mul_div_assoc, mul_div_cancel_left₀ _ (by linarith), mul_comm]
  · simp at h

/-- The density of the node sweep, and a size for it. -/
theorem new_half : newDensity "reziprocal_square_root" (1 / 2 : ℝ) =
    .ok (.reziprocalSquareRoot (1 / 2)) := by
  have a : FloatRoot.le (FloatArith.zero : ℝ) (1 / 2) = true := decide_eq_true (by
    change (0 : ℝ) ≤ 1 / 2
    norm_num)
  have b : FloatRoot.le (1 / 2 : ℝ) FloatRoot.one = true := decide_eq_true (by
    change (1 / 2 : ℝ) ≤ 1
    norm_num)
  have c : newFactor (1 / 2 : ℝ) = .ok (1 / 2) := by
    unfold newFactor
    rw [a, b]
    rfl
  simp only [newDensity, c, bind, Except.bind, pure, Except.pure]

example : ∃ d, newDensity "reziprocal_square_root" (1 / 2 : ℝ) = .ok d ∧ 1 < 17 :=
  ⟨_, new_half, by decide⟩

/-- **C46** The comment in plots.rs:193 gives `factor / √(size - 1)` for the number of neighbours with the
third kind of density; this is not what the formula yields. -/
theorem C46_degree_comment_refuted : ¬ ∀ (factor : ℝ) (d : Density ℝ) (size : Nat) (x : ℝ),
    newDensity "reziprocal_square_root" factor = .ok d → 1 < size → d.get size = .ok x →
    ((size : ℝ) - 1) * x = factor / Real.sqrt (size - 1) := by
  intro h
  obtain ⟨x, h1, _, _, _, _, h2⟩ := C46_degree _ _ _ new_half 5 (by decide)
  have h3 := h _ _ _ _ new_half (by decide : 1 < 5) h1
  rw [h2 rfl] at h3
  have h4 : Real.sqrt (((5 : Nat) : ℝ) - 1) = 2 := by
    rw [show (((5 : Nat) : ℝ) - 1) = 2 ^ 2 by norm_num]
    exact Real.sqrt_sq (by norm_num)
  rw [h4] at h3
  norm_num at h3

end Verif.Results
