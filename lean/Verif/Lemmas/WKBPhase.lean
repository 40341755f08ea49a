import Verif.Lemmas.WKB
/-
Lemmas for C61: primitives of `√(k² + m²) - m`.
-/
namespace Jaxions.WKB

open Real

/-- Conformal mass of a power law. -/
noncomputable def mu (n a z : ℝ) : ℝ := a * z ^ (n / 2 + 1)

/-- Frequency. -/
noncomputable def om (k n a z : ℝ) : ℝ := √(k * k + mu n a z * mu n a z)

theorem om_pos {k n a z : ℝ} (hk : 0 < k) : 0 < om k n a z :=
  sqrt_pos.2 (by nlinarith [mul_pos hk hk, mul_self_nonneg (mu n a z)])

theorem om_sq (k n a z : ℝ) : om k n a z * om k n a z = k * k + mu n a z * mu n a z :=
  mul_self_sqrt (by nlinarith [mul_self_nonneg k, mul_self_nonneg (mu n a z)])

theorem mu_pos {n a z : ℝ} (ha : 0 < a) (hz : 0 < z) : 0 < mu n a z :=
  mul_pos ha (rpow_pos_of_pos hz _)

theorem hasDerivAt_mu {n a z : ℝ} (hz : 0 < z) :
    HasDerivAt (mu n a) ((n / 2 + 1) * mu n a z / z) z := by
  have h := (hasDerivAt_rpow_const (x := z) (p := n / 2 + 1) (Or.inl hz.ne')).const_mul a
  have e : a * ((n / 2 + 1) * z ^ (n / 2 + 1 - 1)) = (n / 2 + 1) * mu n a z / z := by
    rw [rpow_sub_one hz.ne']
    unfold mu
    field_simp
  rw [e] at h
  exact h

theorem hasDerivAt_om {k n a z : ℝ} (hk : 0 < k) (hz : 0 < z) :
    HasDerivAt (om k n a) ((n / 2 + 1) * (mu n a z * mu n a z) / (z * om k n a z)) z := by
  have hm := hasDerivAt_mu (n := n) (a := a) hz
  have h := ((hm.mul hm).const_add (k * k)).sqrt
    (by have h1 : 0 < k * k + mu n a z * mu n a z := by
          nlinarith [mul_pos hk hk, mul_self_nonneg (mu n a z)]
        exact h1.ne')
  have hw := om_pos (n := n) (a := a) (z := z) hk
  have e : ((n / 2 + 1) * mu n a z / z * mu n a z + mu n a z * ((n / 2 + 1) * mu n a z / z)) /
      (2 * √(k * k + mu n a z * mu n a z)) =
      (n / 2 + 1) * (mu n a z * mu n a z) / (z * om k n a z) := by
    change _ / (2 * om k n a z) = _
    field_simp
    ring
  change HasDerivAt _ (((n / 2 + 1) * mu n a z / z * mu n a z +
    mu n a z * ((n / 2 + 1) * mu n a z / z)) / (2 * √(k * k + mu n a z * mu n a z))) z at h
  rw [e] at h
  exact h

/-- Argument of the hypergeometric function. -/
noncomputable def arg (k n a z : ℝ) : ℝ := 1 - k * k / (k * k + mu n a z * mu n a z)

theorem arg_range {k n a z : ℝ} (hk : 0 < k) : |arg k n a z| < 1 := by
  have h1 := mul_pos hk hk
  have h2 := mul_self_nonneg (mu n a z)
  have h3 : 0 < k * k / (k * k + mu n a z * mu n a z) := div_pos h1 (by linarith)
  have h4 : k * k / (k * k + mu n a z * mu n a z) ≤ 1 := (div_le_one (by linarith)).2 (by linarith)
  unfold arg
  rw [abs_lt]
  constructor <;> linarith

theorem hasDerivAt_arg {k n a z : ℝ} (hk : 0 < k) (hz : 0 < z) :
    HasDerivAt (arg k n a) (2 * (n / 2 + 1) / z * (arg k n a z * (1 - arg k n a z))) z := by
  have hm := hasDerivAt_mu (n := n) (a := a) hz
  have hne : k * k + mu n a z * mu n a z ≠ 0 := by
    nlinarith [mul_pos hk hk, mul_self_nonneg (mu n a z)]
  have h := (((hasDerivAt_const z (k * k)).div ((hm.mul hm).const_add (k * k)) hne).const_sub 1)
  have e : -((0 * (k * k + mu n a z * mu n a z) - k * k * ((n / 2 + 1) * mu n a z / z * mu n a z +
      mu n a z * ((n / 2 + 1) * mu n a z / z))) / (k * k + mu n a z * mu n a z) ^ 2) =
      2 * (n / 2 + 1) / z * (arg k n a z * (1 - arg k n a z)) := by
    unfold arg
    field_simp
    ring
  change HasDerivAt _ (-((0 * (k * k + mu n a z * mu n a z) - k * k * ((n / 2 + 1) * mu n a z / z *
    mu n a z + mu n a z * ((n / 2 + 1) * mu n a z / z))) / (k * k + mu n a z * mu n a z) ^ 2)) z at h
  rw [e] at h
  exact h

/-- `∫ dz/ω = (z/ω) ₂F₁(1/2, 1; 1 + 1/(2+n); m²/ω²)`. -/
theorem hasDerivAt_inv {k n a z : ℝ} (hn : -2 < n) (hk : 0 < k) (hz : 0 < z) :
    HasDerivAt (fun y => y / om k n a y *
      ordinaryHypergeometric (1 / 2 : ℝ) 1 (1 / (2 + n) + 1) (arg k n a y)) (1 / om k n a z) z := by
  have h2n : 0 < 2 + n := by linarith
  have hc : 1 / 2 ≤ 1 / (2 + n) + 1 := by
    have := one_div_pos.2 h2n
    linarith
  obtain ⟨F', hF, eF⟩ := hyper_deriv hc (arg_range (n := n) (a := a) (z := z) hk)
  have hx := hasDerivAt_arg (n := n) (a := a) hk hz
  have hw := hasDerivAt_om (n := n) (a := a) hk hz
  have hw0 := om_pos (n := n) (a := a) (z := z) hk
  have hs := om_sq k n a z
  have h := ((hasDerivAt_id z).div hw hw0.ne').mul (hF.comp z hx)
  have harg : arg k n a z * (om k n a z * om k n a z) = mu n a z * mu n a z := by
    unfold arg
    rw [← hs]
    have : k * k = om k n a z * om k n a z - mu n a z * mu n a z := by linarith
    field_simp
    linarith
  refine h.congr_deriv ?_
  simp only [id, Function.comp, Pi.div_apply]
  generalize ordinaryHypergeometric (1 / 2 : ℝ) 1 (1 / (2 + n) + 1) (arg k n a z) = F at *
  generalize arg k n a z = x at *
  generalize om k n a z = w at *
  rw [← harg]
  have e2 : (1 / (2 + n) + 1 - 1) = 1 / (2 + n) := by ring
  rw [e2] at eF
  have e3 : F' * (2 * (n / 2 + 1) / z * (x * (1 - x))) =
      (2 + n) / z * (x * F / 2 - 1 / (2 + n) * (F - 1)) := by
    rw [← eF]; ring
  rw [e3]
  field_simp
  ring

open Classical in
/-- The term of `calculatePhiexact` at one end. -/
noncomputable def term (k n a z : ℝ) : ℝ :=
  2 * z / (4 + n) * om k n a z * (k * k / (k * k + mu n a z * mu n a z)) *
    (om k n a z / (om k n a z + mu n a z) +
      (1 + n / 2) * con2F1 0.5 1 (1 / (2 + n) + 1) (arg k n a z))

/-- It is a primitive of `ω - m`. -/
theorem hasDerivAt_term {k n a z : ℝ} (hn : -2 < n) (ha : 0 < a) (hk : 0 < k) (hz : 0 < z) :
    HasDerivAt (term k n a) (om k n a z - mu n a z) z := by
  have hw0 := om_pos (n := n) (a := a) (z := z) hk
  have hs := om_sq k n a z
  have h := ((((hasDerivAt_id z).mul ((hasDerivAt_om (n := n) (a := a) hk hz).sub
    (hasDerivAt_mu (n := n) (a := a) hz))).add
    ((hasDerivAt_inv (a := a) hn hk hz).const_mul ((n / 2 + 1) * (k * k)))).const_mul (2 / (4 + n)))
  have h2 : term k n a =ᶠ[nhds z] fun y => 2 / (4 + n) * (y * (om k n a y - mu n a y) +
      (n / 2 + 1) * (k * k) * (y / om k n a y *
        ordinaryHypergeometric (1 / 2 : ℝ) 1 (1 / (2 + n) + 1) (arg k n a y))) := by
    filter_upwards [Ioi_mem_nhds hz] with y hy
    have hy : 0 < y := hy
    have hwy := om_pos (n := n) (a := a) (z := y) hk
    have hmy := mu_pos (n := n) ha hy
    have hsy := om_sq k n a y
    have hF : con2F1 0.5 1 (1 / (2 + n) + 1) (arg k n a y) =
        ordinaryHypergeometric (1 / 2 : ℝ) 1 (1 / (2 + n) + 1) (arg k n a y) := by
      unfold con2F1
      rw [if_pos (arg_range hk)]
      norm_num
    unfold term
    rw [hF, ← hsy]
    generalize ordinaryHypergeometric (1 / 2 : ℝ) 1 (1 / (2 + n) + 1) (arg k n a y) = F
    generalize om k n a y = w at *
    generalize mu n a y = m at *
    have hk2 : k * k = (w - m) * (w + m) := by linarith
    rw [hk2]
    have : w + m ≠ 0 := by positivity
    have h4 : 4 + n ≠ 0 := by linarith
    field_simp
    ring
  refine HasDerivAt.congr_of_eventuallyEq (h.congr_deriv ?_) h2
  simp only [id, Pi.sub_apply]
  have h4 : 4 + n ≠ 0 := by linarith
  have hk2 : k * k = om k n a z * om k n a z - mu n a z * mu n a z := by linarith
  rw [hk2]
  generalize om k n a z = w at *
  generalize mu n a z = m at *
  field_simp
  ring

theorem continuous_om {k n a : ℝ} {s : Set ℝ} (hs : ∀ z ∈ s, 0 < z) :
    ContinuousOn (om k n a) s := by
  unfold om mu
  refine (ContinuousOn.add continuousOn_const (ContinuousOn.mul ?_ ?_)).sqrt <;>
  exact continuousOn_const.mul fun z hz =>
    ((continuousAt_rpow_const z _ (Or.inl (hs z hz).ne')).continuousWithinAt)

theorem continuous_mu {n a : ℝ} {s : Set ℝ} (hs : ∀ z ∈ s, 0 < z) : ContinuousOn (mu n a) s :=
  continuousOn_const.mul fun z hz =>
    ((continuousAt_rpow_const z _ (Or.inl (hs z hz).ne')).continuousWithinAt)

/-- Primitive for `n = 0`. -/
theorem hasDerivAt_log {k a z : ℝ} (ha : 0 < a) (hk : 0 < k) (hz : 0 < z) :
    HasDerivAt (fun y => 0.5 * (k * k) * (log (mu 0 a y + om k 0 a y) +
      mu 0 a y / (om k 0 a y + mu 0 a y)) / a) (om k 0 a z - mu 0 a z) z := by
  have hw0 := om_pos (n := 0) (a := a) (z := z) hk
  have hm0 := mu_pos (n := 0) ha hz
  have hm := hasDerivAt_mu (n := 0) (a := a) hz
  have hw := hasDerivAt_om (n := 0) (a := a) hk hz
  have hs := om_sq k 0 a z
  have hma : mu 0 a z = a * z := by simp [mu]
  have h := (((((hm.add hw).log (show mu 0 a z + om k 0 a z ≠ 0 by positivity)).add
    (hm.div (hw.add hm) (show om k 0 a z + mu 0 a z ≠ 0 by positivity))).const_mul (0.5 * (k * k))).div_const a)
  refine h.congr_deriv ?_
  simp only [Pi.add_apply]
  have hk2 : k * k = (om k 0 a z - mu 0 a z) * (om k 0 a z + mu 0 a z) := by linarith
  rw [hk2]
  have ez : z = mu 0 a z / a := by rw [hma]; field_simp
  generalize om k 0 a z = w at *
  generalize mu 0 a z = m at *
  rw [ez]
  have : m + w ≠ 0 := by positivity
  have : w + m ≠ 0 := by positivity
  field_simp
  ring

end Jaxions.WKB
