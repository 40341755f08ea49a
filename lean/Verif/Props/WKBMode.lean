import Verif.Props.WKB
import Mathlib.Analysis.SpecialFunctions.Trigonometric.Deriv
import Mathlib.Analysis.Complex.RealDeriv
/-
C61, continued: what happens to one mode.
-/
namespace Jaxions.WKB

open Cosmo Real

variable {c : Cosmos}

/-! ### Phase of the mode at rest -/

theorem hasDerivAt_rest {n a z : ℝ} (hn : -2 < n) (hz : 0 < z) :
    HasDerivAt (fun y => 2 * y / (4 + n) * mu n a y) (mu n a z) z := by
  have h := (((hasDerivAt_id z).const_mul 2).div_const (4 + n)).mul (hasDerivAt_mu (n := n) (a := a) hz)
  refine h.congr_deriv ?_
  have h4 : 4 + n ≠ 0 := by linarith
  simp only [id]
  field_simp
  ring

theorem integral_mu {z₁ z₂ n a : ℝ} (hn : -2 < n) (h1 : 0 < z₁) (h2 : 0 < z₂) :
    ∫ z in z₁..z₂, mu n a z = 2 * z₂ / (4 + n) * mu n a z₂ - 2 * z₁ / (4 + n) * mu n a z₁ := by
  have hpos : ∀ z ∈ Set.uIcc z₁ z₂, 0 < z := fun z hz =>
    (lt_min h1 h2).trans_le (Set.mem_Icc.1 hz).1
  exact intervalIntegral.integral_eq_sub_of_hasDerivAt
    (fun z hz => hasDerivAt_rest hn (hpos z hz)) (continuous_mu hpos).intervalIntegrable

/-- Phase of a mode at rest. -/
noncomputable def rest (c : Cosmos) (z₁ z₂ : ℝ) : ℝ := ∫ z in z₁..z₂, conf c z

theorem rest_below (h : Law c) {z₁ z₂ : ℝ} (h1 : 0 < z₁) (h12 : z₁ ≤ z₂) (h2 : z₂ ≤ c.zThRes) :
    rest c z₁ z₂ = 2 * z₂ / (4 + c.nQcd) * conf c z₂ - 2 * z₁ / (4 + c.nQcd) * conf c z₁ := by
  rw [conf_below h1 (h12.trans h2), conf_below (h1.trans_le h12) h2,
    ← integral_mu h.exponent h1 (h1.trans_le h12)]
  refine intervalIntegral.integral_congr fun z hz => ?_
  rw [Set.uIcc_of_le h12] at hz
  exact conf_below (c := c) (h1.trans_le hz.1) (hz.2.trans h2)

theorem rest_above {z₁ z₂ : ℝ} (h1 : 0 < z₁) (h12 : z₁ ≤ z₂) (h2 : c.zThRes ≤ z₁) :
    rest c z₁ z₂ = 2 * z₂ / (4 + 0) * conf c z₂ - 2 * z₁ / (4 + 0) * conf c z₁ := by
  rw [conf_above h2, conf_above (h2.trans h12),
    ← integral_mu (by norm_num : (-2 : ℝ) < 0) h1 (h1.trans_le h12)]
  refine intervalIntegral.integral_congr fun z hz => ?_
  rw [Set.uIcc_of_le h12] at hz
  exact conf_above (c := c) (h2.trans hz.1)

theorem rest_add (h : Law c) {z₁ z₂ z₃ : ℝ} (h1 : 0 < z₁) (h2 : 0 < z₂) (h3 : 0 < z₃) :
    rest c z₁ z₂ + rest c z₂ z₃ = rest c z₁ z₃ :=
  intervalIntegral.integral_add_adjacent_intervals (integrable_freq h 0 h1 h2).2
    (integrable_freq h 0 h2 h3).2

/-- The numbers common to all modes, and the phase at rest. -/
theorem prepare_eq (h : Law c) {z₁ z₂ : ℝ} (h1 : 0 < z₁) (h12 : z₁ ≤ z₂)
    (hne : z₁ ≠ c.zThRes ∨ z₁ ≠ z₂) :
    prepare c z₁ z₂ = some ⟨conf c z₁ * conf c z₁, conf c z₂ * conf c z₂,
      0.25 * (nQcdI c z₁ + 2) * (conf c z₁ * conf c z₁ / z₁),
      0.25 * (nQcdE c z₂ + 2) * (conf c z₂ * conf c z₂ / z₂), rest c z₁ z₂⟩ := by
  have h2 := h1.trans_le h12
  have hT := h.thres
  unfold prepare
  rw [mass_eq h h1, mass_eq h h2, mass_eq h hT]
  simp only [Option.bind_eq_bind, Option.bind_some, h1.ne', h2.ne', or_self, if_false, Option.map_some]
  have e1 : lawMass c z₁ * z₁ = conf c z₁ := mul_comm _ _
  have e2 : lawMass c z₂ * z₂ = conf c z₂ := mul_comm _ _
  have eT : lawMass c c.zThRes * c.zThRes = conf c c.zThRes := mul_comm _ _
  rw [e1, e2, mul_assoc (2 * z₂ / (4 + nQcdE c z₂)), e2, mul_assoc (-2 * z₁ / (4 + nQcdI c z₁)), e1,
    mul_assoc (-2 * c.zThRes / (4 + nQcdE c z₂)), eT, mul_assoc (2 * c.zThRes / (4 + nQcdI c z₁)), eT]
  by_cases hx : z₁ < c.zThRes ∧ c.zThRes < z₂
  · rw [if_pos hx]
    simp only [pure, Option.some.injEq, Pre.mk.injEq, true_and]
    have eI : nQcdI c z₁ = c.nQcd := if_neg (not_le.2 hx.1)
    have eE : nQcdE c z₂ = 0 := if_pos hx.2
    rw [eI, eE, ← rest_add h h1 hT h2, rest_below h h1 hx.1.le le_rfl,
      rest_above hT hx.2.le le_rfl]
    ring
  · rw [if_neg hx]
    simp only [pure, Option.some.injEq, Pre.mk.injEq, true_and]
    rcases lt_or_ge z₁ c.zThRes with hlt | hge
    · have h2T : z₂ ≤ c.zThRes := by
        by_contra hcon
        exact hx ⟨hlt, not_le.1 hcon⟩
      have eI : nQcdI c z₁ = c.nQcd := if_neg (not_le.2 hlt)
      have eE : nQcdE c z₂ = c.nQcd := if_neg (not_lt.2 h2T)
      rw [eI, eE, rest_below h h1 h12 h2T]
      ring
    · have h2T : c.zThRes < z₂ := by
        rcases hne with hne | hne
        · exact (hge.lt_of_ne' hne).trans_le h12
        · exact hge.trans_lt (h12.lt_of_ne hne)
      have eI : nQcdI c z₁ = 0 := if_pos hge
      have eE : nQcdE c z₂ = 0 := if_pos h2T
      rw [eI, eE, rest_above h1 h12 hge]
      ring

/-- The phase added for all modes is the phase of the mode at rest, through the threshold too. -/
theorem C61_massphase (h : Law c) {z₁ z₂ : ℝ} (h1 : 0 < z₁) (h12 : z₁ < z₂) :
    ∃ p, prepare c z₁ z₂ = some p ∧ p.massphase = ∫ z in z₁..z₂, conf c z :=
  ⟨_, prepare_eq h h1 h12.le (Or.inr h12.ne), rfl⟩

/-! ### The step as a real matrix -/

/-- `α cos θ + β sin θ` and its derivative, with the amplitude and the friction of the adiabatic
solution. -/
noncomputable def osc (s w g θ α β : ℝ) : ℝ × ℝ :=
  let f := s * (α * cos θ + β * sin θ)
  (f, w * s * (β * cos θ - α * sin θ) - g * f)

theorem modeStep_eq {p : Pre} {k2 ph : ℝ} (h1 : 0 < k2 + p.m2Ini) (h2 : 0 < k2 + p.m2End) (M D : ℂ) :
    let w1 := √(k2 + p.m2Ini)
    let w2 := √(k2 + p.m2End)
    let s := √(w1 / w2)
    let g := w2 * (p.zBase2 / (w2 * w2 * w2))
    let a := osc s w2 g (ph + p.massphase) 1 (p.zBase1 / (w1 * w1 * w1))
    let b := osc s w2 g (ph + p.massphase) 0 (1 / w1)
    modeStep p k2 ph M D = some (a.1 * M + b.1 * D, a.2 * M + b.2 * D) := by
  intro w1 w2 s g a b
  have hw1 : 0 < w1 := sqrt_pos.2 h1
  have hw2 : 0 < w2 := sqrt_pos.2 h2
  unfold modeStep
  dsimp only
  rw [if_neg (by rw [not_or]; exact ⟨hw1.ne', hw2.ne'⟩)]
  have hpha : Complex.exp (Complex.I * ph) * Complex.exp (Complex.I * p.massphase) =
      Complex.cos (ph + p.massphase) + Complex.sin (ph + p.massphase) * Complex.I := by
    rw [← Complex.exp_add, ← Complex.exp_mul_I]
    congr 1
    ring
  have hconj : starRingEnd ℂ (Complex.cos (ph + p.massphase) +
      Complex.sin (ph + p.massphase) * Complex.I) =
      Complex.cos (ph + p.massphase) - Complex.sin (ph + p.massphase) * Complex.I := by
    rw [← Complex.ofReal_add, ← Complex.ofReal_cos, ← Complex.ofReal_sin, map_add, map_mul,
      Complex.conj_ofReal, Complex.conj_ofReal, Complex.conj_I]
    ring
  rw [hpha, hconj]
  simp only [a, b, osc, g]
  push_cast
  change some (_, _) = some (_, _)
  have hI : Complex.I * Complex.I = -1 := Complex.I_mul_I
  generalize Complex.cos (ph + p.massphase) = C
  generalize Complex.sin (ph + p.massphase) = S
  have hw1' : (w1 : ℂ) ≠ 0 := by exact_mod_cast hw1.ne'
  have hD : D / (Complex.I * w1) = -(Complex.I * (D * (1 / (w1 : ℂ)))) := by
    rw [div_mul_eq_div_div, Complex.div_I]
    ring
  change some ((0.5 * (M * (1 - Complex.I * (p.zBase1 / (w1 * w1 * w1))) + D / (Complex.I * w1)) *
      (s * (C + S * Complex.I)) + 0.5 * (M * (1 + Complex.I * (p.zBase1 / (w1 * w1 * w1))) -
      D / (Complex.I * w1)) * (s * (C - S * Complex.I))),
    (0.5 * (M * (1 - Complex.I * (p.zBase1 / (w1 * w1 * w1))) + D / (Complex.I * w1)) *
      (s * (C + S * Complex.I)) - 0.5 * (M * (1 + Complex.I * (p.zBase1 / (w1 * w1 * w1))) -
      D / (Complex.I * w1)) * (s * (C - S * Complex.I)) +
      Complex.I * (p.zBase2 / (w2 * w2 * w2)) * (0.5 * (M * (1 - Complex.I * (p.zBase1 /
      (w1 * w1 * w1))) + D / (Complex.I * w1)) * (s * (C + S * Complex.I)) +
      0.5 * (M * (1 + Complex.I * (p.zBase1 / (w1 * w1 * w1))) - D / (Complex.I * w1)) *
      (s * (C - S * Complex.I)))) * (Complex.I * w2)) = _
  rw [hD]
  generalize (p.zBase1 / (w1 * w1 * w1) : ℂ) = Z1
  generalize (p.zBase2 / (w2 * w2 * w2) : ℂ) = Z2
  generalize (1 / (w1 : ℂ)) = Q1
  generalize (s : ℂ) = s'
  generalize (w2 : ℂ) = w'
  congr 1
  refine Prod.ext ?_ ?_
  · linear_combination (-(M * Z1 * s' * S) - D * Q1 * s' * S) * hI
  · linear_combination (w' * s' * (M * S - M * Z1 * C - D * Q1 * C) +
      w' * Z2 * s' * (M * C + M * Z1 * S + D * Q1 * S) -
      Complex.I ^ 2 * w' * Z2 * s' * S * (M * Z1 + D * Q1)) * hI

/-- Two solutions keep their Wronskian. -/
theorem osc_det {w1 w2 g θ ζ : ℝ} (h1 : 0 < w1) (h2 : 0 < w2) :
    (osc √(w1 / w2) w2 g θ 1 ζ).1 * (osc √(w1 / w2) w2 g θ 0 (1 / w1)).2 -
      (osc √(w1 / w2) w2 g θ 1 ζ).2 * (osc √(w1 / w2) w2 g θ 0 (1 / w1)).1 = 1 := by
  have hs : √(w1 / w2) * √(w1 / w2) = w1 / w2 := mul_self_sqrt (div_pos h1 h2).le
  have ht := sin_sq_add_cos_sq θ
  simp only [osc]
  have e : √(w1 / w2) * √(w1 / w2) * w2 * (1 / w1) = 1 := by rw [hs]; field_simp
  generalize √(w1 / w2) = s at *
  linear_combination e + s * s * w2 * (1 / w1) * ht

theorem C61_wronskian {p : Pre} {k2 ph : ℝ} (h1 : 0 < k2 + p.m2Ini) (h2 : 0 < k2 + p.m2End)
    {M D N E M' D' N' E' : ℂ} (hM : modeStep p k2 ph M D = some (M', D'))
    (hN : modeStep p k2 ph N E = some (N', E')) : M' * E' - D' * N' = M * E - D * N := by
  rw [modeStep_eq h1 h2] at hM hN
  have hd := osc_det (g := √(k2 + p.m2End) * (p.zBase2 / (√(k2 + p.m2End) * √(k2 + p.m2End) *
    √(k2 + p.m2End)))) (θ := ph + p.massphase)
    (ζ := p.zBase1 / (√(k2 + p.m2Ini) * √(k2 + p.m2Ini) * √(k2 + p.m2Ini)))
    (sqrt_pos.2 h1) (sqrt_pos.2 h2)
  simp only [Option.some.injEq, Prod.mk.injEq] at hM hN
  obtain ⟨rfl, rfl⟩ := hM
  obtain ⟨rfl, rfl⟩ := hN
  have hd' := congrArg (fun x : ℝ => (x : ℂ)) hd
  push_cast at hd' ⊢
  linear_combination (M * E - D * N) * hd'

/-- The step has real coefficients: opposite modes of a real field stay conjugate. -/
theorem C61_real {p : Pre} {k2 ph : ℝ} {M D M' D' : ℂ} (hM : modeStep p k2 ph M D = some (M', D')) :
    modeStep p k2 ph (starRingEnd ℂ M) (starRingEnd ℂ D) =
      some (starRingEnd ℂ M', starRingEnd ℂ D') := by
  by_cases h : √(k2 + p.m2Ini) = 0 ∨ √(k2 + p.m2End) = 0
  · unfold modeStep at hM
    dsimp only at hM
    rw [if_pos h] at hM
    cases hM
  · rw [not_or] at h
    have h1 : 0 < k2 + p.m2Ini := by
      by_contra hc; exact h.1 (sqrt_eq_zero_of_nonpos (not_lt.1 hc))
    have h2 : 0 < k2 + p.m2End := by
      by_contra hc; exact h.2 (sqrt_eq_zero_of_nonpos (not_lt.1 hc))
    rw [modeStep_eq h1 h2] at hM ⊢
    simp only [Option.some.injEq, Prod.mk.injEq] at hM ⊢
    obtain ⟨rfl, rfl⟩ := hM
    simp only [map_add, map_mul, Complex.conj_ofReal]
    exact ⟨trivial, trivial⟩

end Jaxions.WKB
