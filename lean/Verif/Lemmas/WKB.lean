import Verif.Model.WKB
import Mathlib.Analysis.Calculus.SmoothSeries
import Mathlib.Analysis.SpecificLimits.Normed
import Mathlib.Analysis.SpecialFunctions.Pow.Deriv
import Mathlib.Analysis.SpecialFunctions.Log.Deriv
import Mathlib.Analysis.SpecialFunctions.Integrals.Basic
import Mathlib.MeasureTheory.Integral.IntervalIntegral.FundThmCalculus
import Mathlib.Tactic.FieldSimp
import Mathlib.Tactic.LinearCombination
import Mathlib.Tactic.Positivity
/-
Lemmas for C61: the hypergeometric series `₂F₁(1/2, 1; c; x)` and primitives of the frequency.
-/
namespace Jaxions.WKB

open Real

/-! ### The series -/

/-- Coefficients of `₂F₁(1/2, 1; c; x)`. -/
noncomputable def coef (c : ℝ) (n : ℕ) : ℝ := ordinaryHypergeometricCoefficient (1 / 2 : ℝ) 1 c n

theorem coef_zero (c : ℝ) : coef c 0 = 1 := by
  simp [coef, ordinaryHypergeometricCoefficient]

theorem coef_succ {c : ℝ} (hc : 0 < c) (n : ℕ) : (c + n) * coef c (n + 1) = (1 / 2 + n) * coef c n := by
  have h1 : (c + n) ≠ 0 := by positivity
  have h2 : (ascPochhammer ℝ n).eval c ≠ 0 := (ascPochhammer_pos n c hc).ne'
  have h3 : ((n.factorial : ℕ) : ℝ) ≠ 0 := by exact_mod_cast n.factorial_ne_zero
  have h4 : ((n : ℝ) + 1) ≠ 0 := by positivity
  simp only [coef, ordinaryHypergeometricCoefficient, ascPochhammer_succ_eval, Nat.factorial_succ]
  push_cast
  field_simp
  ring

theorem coef_nonneg {c : ℝ} (hc : 1 / 2 ≤ c) (n : ℕ) : 0 ≤ coef c n := by
  induction n with
  | zero => rw [coef_zero]; exact zero_le_one
  | succ n ih =>
    have h := coef_succ (c := c) (by linarith) n
    have h1 : 0 < c + n := by positivity
    have : 0 ≤ (c + n) * coef c (n + 1) := by rw [h]; positivity
    exact nonneg_of_mul_nonneg_right this h1

theorem coef_le {c : ℝ} (hc : 1 / 2 ≤ c) (n : ℕ) : coef c n ≤ 1 := by
  induction n with
  | zero => rw [coef_zero]
  | succ n ih =>
    have h := coef_succ (c := c) (by linarith) n
    have h0 := coef_nonneg hc n
    have h1 : 0 < c + n := by positivity
    have : (c + n) * coef c (n + 1) ≤ (c + n) * 1 := by
      rw [h]
      nlinarith
    exact le_of_mul_le_mul_left this h1

theorem hyper_eq (c x : ℝ) : ordinaryHypergeometric (1 / 2 : ℝ) 1 c x = ∑' n, coef c n * x ^ n := by
  rw [ordinaryHypergeometric_eq_tsum]
  rfl

theorem summable_coef {c : ℝ} (hc : 1 / 2 ≤ c) {x : ℝ} (hx : |x| < 1) :
    Summable fun n => coef c n * x ^ n := by
  refine Summable.of_norm_bounded (summable_geometric_of_lt_one (abs_nonneg x) hx) fun n => ?_
  rw [norm_mul, norm_pow, norm_eq_abs, norm_eq_abs, abs_of_nonneg (coef_nonneg hc n)]
  exact mul_le_of_le_one_left (by positivity) (coef_le hc n)

theorem summable_deriv {c : ℝ} (hc : 1 / 2 ≤ c) {x : ℝ} (hx : |x| < 1) :
    Summable fun n : ℕ => (n : ℝ) * coef c n * x ^ (n - 1) := by
  refine Summable.of_norm_bounded
    (g := fun n : ℕ => (n : ℝ) * |x| ^ (n - 1)) ?_ fun n => ?_
  · rw [← summable_nat_add_iff 1]
    have h1 := summable_pow_mul_geometric_of_norm_lt_one 1 (r := |x|) (by simpa using hx)
    have h2 := summable_geometric_of_lt_one (abs_nonneg x) hx
    refine (h1.add h2).congr fun n => ?_
    simp
    ring
  · rw [norm_mul, norm_mul, norm_pow, norm_eq_abs, norm_eq_abs, norm_eq_abs,
      abs_of_nonneg (coef_nonneg hc n), abs_of_nonneg (Nat.cast_nonneg n)]
    have : (n : ℝ) * coef c n ≤ n := mul_le_of_le_one_right (Nat.cast_nonneg n) (coef_le hc n)
    exact mul_le_mul_of_nonneg_right this (by positivity)

theorem hasDerivAt_series {c : ℝ} (hc : 1 / 2 ≤ c) {x : ℝ} (hx : |x| < 1) :
    HasDerivAt (fun y => ∑' n, coef c n * y ^ n) (∑' n : ℕ, (n : ℝ) * coef c n * x ^ (n - 1)) x := by
  obtain ⟨r, hr, hr1⟩ := exists_between hx
  have hr0 : 0 ≤ r := (abs_nonneg x).trans hr.le
  have hs := summable_deriv hc (x := r) (by rwa [abs_of_nonneg hr0])
  have hd : ∀ (n : ℕ) (y : ℝ), y ∈ Metric.ball (0 : ℝ) r →
      HasDerivAt (fun y => coef c n * y ^ n) ((n : ℝ) * coef c n * y ^ (n - 1)) y := by
    intro n y _
    have h := (hasDerivAt_pow n y).const_mul (coef c n)
    have e : coef c n * ((n : ℝ) * y ^ (n - 1)) = (n : ℝ) * coef c n * y ^ (n - 1) := by ring
    rw [e] at h
    exact h
  have hb : ∀ (n : ℕ) (y : ℝ), y ∈ Metric.ball (0 : ℝ) r →
      ‖(n : ℝ) * coef c n * y ^ (n - 1)‖ ≤ (n : ℝ) * coef c n * r ^ (n - 1) := by
    intro n y hy
    rw [mem_ball_zero_iff, norm_eq_abs] at hy
    rw [norm_mul, norm_mul, norm_pow, norm_eq_abs, norm_eq_abs, norm_eq_abs,
      abs_of_nonneg (coef_nonneg hc n), abs_of_nonneg (Nat.cast_nonneg n)]
    have h1 := coef_nonneg hc n
    exact mul_le_mul_of_nonneg_left (pow_le_pow_left₀ (abs_nonneg y) hy.le _) (by positivity)
  have hx' : x ∈ Metric.ball (0 : ℝ) r := by rwa [mem_ball_zero_iff, norm_eq_abs]
  exact hasDerivAt_tsum_of_isPreconnected (g := fun n y => coef c n * y ^ n)
    (g' := fun n y => (n : ℝ) * coef c n * y ^ (n - 1)) hs Metric.isOpen_ball
    (convex_ball (0 : ℝ) r).isPreconnected hd hb hx' (summable_coef hc hx) hx'

theorem series_eq {c : ℝ} (hc : 1 / 2 ≤ c) {x : ℝ} (hx : |x| < 1) :
    x * (1 - x) * (∑' n : ℕ, (n : ℝ) * coef c n * x ^ (n - 1)) =
      x * (∑' n, coef c n * x ^ n) / 2 - (c - 1) * ((∑' n, coef c n * x ^ n) - 1) := by
  have s0 := summable_coef hc hx
  have s1 := summable_deriv hc hx
  set F := ∑' n, coef c n * x ^ n with hF
  set F' := ∑' n : ℕ, (n : ℝ) * coef c n * x ^ (n - 1) with hF'
  have hxF : x * F' = ∑' n : ℕ, (n : ℝ) * coef c n * x ^ n := by
    rw [hF', ← tsum_mul_left]
    refine tsum_congr fun n => ?_
    cases n with
    | zero => simp
    | succ n => rw [Nat.add_sub_cancel, pow_succ]; ring
  have s2 : Summable fun n : ℕ => (n : ℝ) * coef c n * x ^ n := by
    refine (s1.mul_left x).congr fun n => ?_
    cases n with
    | zero => simp
    | succ n => rw [Nat.add_sub_cancel, pow_succ]; ring
  have hF0 : F = 1 + ∑' n : ℕ, coef c (n + 1) * x ^ (n + 1) := by
    rw [hF, s0.tsum_eq_zero_add, coef_zero]; simp
  have hxF0 : x * F' = ∑' n : ℕ, ((n + 1 : ℕ) : ℝ) * coef c (n + 1) * x ^ (n + 1) := by
    rw [hxF, s2.tsum_eq_zero_add]; simp
  have t0 : Summable fun n : ℕ => coef c (n + 1) * x ^ (n + 1) := (summable_nat_add_iff 1).2 s0
  have t2 : Summable fun n : ℕ => ((n + 1 : ℕ) : ℝ) * coef c (n + 1) * x ^ (n + 1) :=
    (summable_nat_add_iff 1).2 s2
  have key : (c - 1) * (F - 1) + x * F' = x * (F / 2 + x * F') := by
    rw [hF0, hxF0, add_sub_cancel_left, ← tsum_mul_left, ← (t0.mul_left _).tsum_add t2, ← hF0,
      ← hxF0, hxF, hF, div_eq_mul_inv, ← tsum_mul_right,
      ← (s0.mul_right _).tsum_add s2, ← tsum_mul_left]
    refine tsum_congr fun n => ?_
    have h := coef_succ (c := c) (by linarith) n
    push_cast
    rw [pow_succ]
    linear_combination x ^ n * x * h
  linear_combination key


/-- The series satisfies a differential equation of first order. -/
theorem hyper_deriv {c : ℝ} (hc : 1 / 2 ≤ c) {x : ℝ} (hx : |x| < 1) :
    ∃ F', HasDerivAt (fun y => ordinaryHypergeometric (1 / 2 : ℝ) 1 c y) F' x ∧
      x * (1 - x) * F' = x * ordinaryHypergeometric (1 / 2 : ℝ) 1 c x / 2 -
        (c - 1) * (ordinaryHypergeometric (1 / 2 : ℝ) 1 c x - 1) := by
  have e : (fun y => ordinaryHypergeometric (1 / 2 : ℝ) 1 c y) =
      fun y => ∑' n, coef c n * y ^ n := funext fun y => hyper_eq c y
  refine ⟨∑' n : ℕ, (n : ℝ) * coef c n * x ^ (n - 1), ?_, ?_⟩
  · rw [e]
    exact hasDerivAt_series hc hx
  · rw [hyper_eq]
    exact series_eq hc hx

end Jaxions.WKB
