import Verif.Model.MassRate
import Verif.Props.Mass
import Mathlib.Analysis.SpecialFunctions.Pow.Deriv
import Mathlib.Analysis.SpecialFunctions.Sqrt
import Mathlib.Analysis.SpecialFunctions.Log.Deriv
import Mathlib.Analysis.SpecialFunctions.Integrals.Basic
/-
Lemmas for C62.
-/
namespace Jaxions.Cosmo
open Set Filter Topology

/-- The local exponent of the mass law. -/
noncomputable def slope (n nr zT zR R : ℝ) : ℝ :=
  open Classical in if R < zT then n else if zT ≤ zR ∧ zR < R then nr else 0

/-- Away from the two thresholds the mass law is a power with the local exponent. -/
theorem law_deriv (A n nr zT zR R : ℝ) (hT : 0 < zT) (hR : 0 < R) (h1 : R ≠ zT)
    (h2 : zT ≤ zR → R ≠ zR) :
    HasDerivAt (law A n nr zT zR) (slope n nr zT zR R * law A n nr zT zR R / R) R := by
  unfold slope
  by_cases hlt : R < zT
  · rw [if_pos hlt]
    have hev : (fun r => A ^ 2 * r ^ n) =ᶠ[𝓝 R] law A n nr zT zR := by
      filter_upwards [Iio_mem_nhds hlt, Ioi_mem_nhds hR] with r hr hr0
      have hr' : r < zT := hr
      have hr0' : 0 < r := hr0
      unfold law
      rw [min_eq_left hr'.le]
      split
      · rename_i hz
        rw [max_eq_left, Real.one_rpow, mul_one]
        rw [div_le_one (by linarith)]; linarith
      · rw [mul_one]
    have hd := ((Real.hasDerivAt_rpow_const (p := n) (Or.inl hR.ne')).const_mul (A ^ 2))
    refine (hd.congr_of_eventuallyEq hev.symm).congr_deriv ?_
    rw [← hev.eq_of_nhds, Real.rpow_sub_one hR.ne']
    ring
  · rw [if_neg hlt]
    have hgt : zT < R := lt_of_le_of_ne (not_lt.1 hlt) (Ne.symm h1)
    by_cases hr : zT ≤ zR ∧ zR < R
    · rw [if_pos hr]
      have hz0 : 0 < zR := lt_of_lt_of_le hT hr.1
      have hev : (fun r => A ^ 2 * zT ^ n * (r / zR) ^ nr) =ᶠ[𝓝 R] law A n nr zT zR := by
        filter_upwards [Ioi_mem_nhds hr.2] with r h
        have h' : zR < r := h
        unfold law
        rw [min_eq_right (hr.1.trans h'.le), if_pos hr.1, max_eq_right]
        rw [one_le_div hz0]; exact h'.le
      have hq : R / zR ≠ 0 := (div_pos hR hz0).ne'
      have hd := (((hasDerivAt_id R).div_const zR).rpow_const (p := nr) (Or.inl hq)).const_mul
        (A ^ 2 * zT ^ n)
      refine (hd.congr_of_eventuallyEq hev.symm).congr_deriv ?_
      rw [← hev.eq_of_nhds]
      simp only [id]
      rw [Real.rpow_sub_one hq]
      field_simp
    · rw [if_neg hr]
      have hev : (fun _ => A ^ 2 * zT ^ n) =ᶠ[𝓝 R] law A n nr zT zR := by
        by_cases hz : zT ≤ zR
        · have hRz : R < zR := by
            refine lt_of_le_of_ne ?_ (h2 hz)
            by_contra hc
            exact hr ⟨hz, not_le.1 hc⟩
          filter_upwards [Ioi_mem_nhds hgt, Iio_mem_nhds hRz] with r ha hb
          have ha' : zT < r := ha
          have hb' : r < zR := hb
          unfold law
          rw [min_eq_right ha'.le, if_pos hz, max_eq_left, Real.one_rpow, mul_one]
          rw [div_le_one (by linarith)]; exact hb'.le
        · filter_upwards [Ioi_mem_nhds hgt] with r ha
          have ha' : zT < r := ha
          unfold law
          rw [min_eq_right ha'.le, if_neg hz, mul_one]
      refine ((hasDerivAt_const R (A ^ 2 * zT ^ n)).congr_of_eventuallyEq hev.symm).congr_deriv ?_
      ring

/-- What the rate of the mass evaluates to. -/
theorem dAxionMass2_val (c : Cosmos) (hu : c.ueCosm = false) (ct : ℝ) (hct : 0 < ct)
    (hT : 0 < c.zThRes) :
    c.dAxionMass2Dct ct = some (slope c.nQcd c.nQcdr c.zThRes c.zRestore (c.R ct) * c.frw *
      law c.indi3 c.nQcd c.nQcdr c.zThRes c.zRestore (c.R ct) / ct) := by
  unfold Cosmos.dAxionMass2Dct slope
  simp only [hu, Bool.false_eq_true, if_false, C19_is_law c hu ct hT, Option.bind_some, quot,
    hct.ne']
  by_cases hz : c.zThRes ≤ c.zRestore
  · simp only [hz, if_true, true_and]
    by_cases h1 : c.R ct < c.zThRes
    · have h2 : ¬ c.zRestore < c.R ct := by linarith
      have h3 : ¬ (c.R ct ≥ c.zThRes ∧ c.R ct ≤ c.zRestore) := by rintro ⟨h, _⟩; linarith
      simp only [gt_iff_lt, h1, h2, h3, if_true, if_false]
    · by_cases h2 : c.zRestore < c.R ct
      · simp only [gt_iff_lt, h1, h2, if_true, if_false]
      · have h3 : c.R ct ≥ c.zThRes ∧ c.R ct ≤ c.zRestore := ⟨not_lt.1 h1, not_lt.1 h2⟩
        simp only [gt_iff_lt, h1, h2, h3, if_true, if_false, and_self, zero_mul, zero_div]
  · simp only [hz, if_false, false_and]
    by_cases h1 : c.R ct < c.zThRes
    · simp only [h1, if_true]
    · simp only [h1, if_false, zero_mul, zero_div]

/-- What the logarithmic rate evaluates to. -/
theorem dlogMAR_val (c : Cosmos) (hu : c.ueCosm = false) (ct : ℝ) :
    c.dlogMAR ct =
      some (c.frw * (slope c.nQcd c.nQcdr c.zThRes c.zRestore (c.R ct) / 2 + 1)) := by
  unfold Cosmos.dlogMAR slope
  simp only [hu, Bool.false_eq_true, if_false]
  by_cases hz : c.zThRes ≤ c.zRestore
  · simp only [hz, if_true, true_and]
    by_cases h1 : c.R ct < c.zThRes
    · have h2 : ¬ c.zRestore < c.R ct := by linarith
      have h3 : ¬ (c.R ct ≥ c.zThRes ∧ c.R ct ≤ c.zRestore) := by rintro ⟨h, _⟩; linarith
      simp only [gt_iff_lt, h1, h2, h3, if_true, if_false]
    · by_cases h2 : c.zRestore < c.R ct
      · simp only [gt_iff_lt, h1, h2, if_true, if_false]
      · have h3 : c.R ct ≥ c.zThRes ∧ c.R ct ≤ c.zRestore := ⟨not_lt.1 h1, not_lt.1 h2⟩
        simp only [gt_iff_lt, h1, h2, h3, if_true, if_false, and_self, zero_div, zero_add, mul_one]
  · simp only [hz, if_false, false_and]
    by_cases h1 : c.R ct < c.zThRes
    · simp only [h1, if_true]
    · simp only [h1, if_false, zero_div, zero_add, mul_one]

/-- The scale factor of the power law and its rate. -/
theorem R_deriv (c : Cosmos) (hu : c.ueCosm = false) (hg : ¬ (c.frw = 1 ∧ c.grav > 0)) (ct : ℝ)
    (hct : 0 < ct) : HasDerivAt c.R (c.frw / ct * c.R ct) ct := by
  have hf : c.R = fun t => t ^ c.frw := by
    funext t
    unfold Cosmos.R
    simp only [hu, Bool.false_eq_true, if_false, hg]
  rw [hf]
  refine (Real.hasDerivAt_rpow_const (Or.inl hct.ne')).congr_deriv ?_
  rw [Real.rpow_sub_one hct.ne']
  ring

/-- The scale factor with the matter term. -/
theorem R_grav (c : Cosmos) (hu : c.ueCosm = false) (hf : c.frw = 1) (hg : 0 < c.grav) :
    c.R = fun t => t * (1 + 0.25 * t * c.grav) := by
  funext t
  unfold Cosmos.R
  simp only [hu, Bool.false_eq_true, if_false, hf, gt_iff_lt, hg, and_self, if_true]

/-- Its rate. -/
theorem R_grav_deriv (c : Cosmos) (hu : c.ueCosm = false) (hf : c.frw = 1) (hg : 0 < c.grav)
    (ct : ℝ) : HasDerivAt c.R (1 + 0.5 * ct * c.grav) ct := by
  rw [R_grav c hu hf hg]
  have h1 : HasDerivAt (fun t : ℝ => 1 + 0.25 * t * c.grav) (0.25 * c.grav) ct := by
    have := (((hasDerivAt_id ct).const_mul (0.25 : ℝ)).mul_const c.grav).const_add 1
    refine this.congr_deriv ?_
    ring
  refine ((hasDerivAt_id ct).mul h1).congr_deriv ?_
  simp only [id]
  ring

/-- Below the threshold the integrand is one power. -/
theorem low_integral (A n nr zT zR : ℝ) (nn : ℤ) (f a b : ℝ) (ha : 0 < a) (hb : 0 < b)
    (haT : a ^ f ≤ zT) (hbT : b ^ f ≤ zT) (he : f * (n + nn) + 1 ≠ 0)
    (hf : 0 < f) :
    ∫ t in a..b, law A n nr zT zR (t ^ f) * (t ^ f) ^ nn =
      (b ^ (f * (n + nn) + 1) - a ^ (f * (n + nn) + 1)) * A * A / (f * (n + nn) + 1) := by
  have hpos : ∀ t ∈ uIcc a b, 0 < t := by
    intro t ht
    exact lt_of_lt_of_le (lt_min ha hb) ht.1
  have hcongr : ∀ t ∈ uIcc a b, law A n nr zT zR (t ^ f) * (t ^ f) ^ nn =
      A ^ 2 * t ^ (f * (n + nn)) := by
    intro t ht
    have ht0 := hpos t ht
    have hr : t ^ f ≤ zT := by
      rcases le_total a b with h | h
      · exact (Real.rpow_le_rpow ht0.le (by rw [uIcc_of_le h] at ht; exact ht.2) hf.le).trans hbT
      · exact (Real.rpow_le_rpow ht0.le (by rw [uIcc_of_ge h] at ht; exact ht.2) hf.le).trans haT
    have hp : 0 < t ^ f := Real.rpow_pos_of_pos ht0 _
    unfold law
    rw [min_eq_left hr]
    have h1 : (if zT ≤ zR then (max 1 (t ^ f / zR)) ^ nr else 1) = 1 := by
      split
      · rw [max_eq_left, Real.one_rpow]
        rw [div_le_one (by linarith)]; linarith
      · rfl
    rw [h1, mul_one, mul_assoc, ← Real.rpow_intCast (t ^ f) nn, ← Real.rpow_add hp,
      ← Real.rpow_mul ht0.le]
  rw [intervalIntegral.integral_congr hcongr, intervalIntegral.integral_const_mul,
    integral_rpow (Or.inr ⟨fun h => he (by rw [h]; ring), fun h => (hpos 0 h).ne' rfl⟩)]
  ring

/-- Between the thresholds the mass is constant. -/
theorem high_integral (A n nr zT zR : ℝ) (nn : ℤ) (a b : ℝ) (hT : 0 < zT)
    (haT : zT ≤ a) (hbT : zT ≤ b) (haR : zT ≤ zR → a ≤ zR) (hbR : zT ≤ zR → b ≤ zR)
    (he : (nn : ℝ) + 1 ≠ 0) :
    ∫ t in a..b, law A n nr zT zR t * t ^ nn =
      zT ^ n * ((b ^ ((nn : ℝ) + 1) - a ^ ((nn : ℝ) + 1)) * A * A / ((nn : ℝ) + 1)) := by
  have hpos : ∀ t ∈ uIcc a b, zT ≤ t := by
    intro t ht
    exact (le_min haT hbT).trans ht.1
  have hcongr : ∀ t ∈ uIcc a b, law A n nr zT zR t * t ^ nn = A ^ 2 * zT ^ n * t ^ (nn : ℝ) := by
    intro t ht
    have ht0 : 0 < t := hT.trans_le (hpos t ht)
    unfold law
    rw [min_eq_right (hpos t ht)]
    have h1 : (if zT ≤ zR then (max 1 (t / zR)) ^ nr else 1) = 1 := by
      split
      · rename_i hz
        rw [max_eq_left, Real.one_rpow]
        rw [div_le_one (by linarith)]
        exact ht.2.trans (max_le (haR hz) (hbR hz))
      · rfl
    rw [h1, mul_one, Real.rpow_intCast]
  rw [intervalIntegral.integral_congr hcongr, intervalIntegral.integral_const_mul,
    integral_rpow (Or.inr ⟨fun h => he (by rw [h]; ring), fun h => by
      have := hpos 0 h; linarith⟩)]
  ring

end Jaxions.Cosmo
