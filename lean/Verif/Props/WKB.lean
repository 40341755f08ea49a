import Verif.Spec.WKB
import Verif.Lemmas.WKBPhase
/-
C61: the last stage of a run takes every mode of the axion field by the adiabatic solution to the
final time.
-/
namespace Jaxions.WKB

open Cosmo Real

variable {c : Cosmos}

/-! ### The mass law -/

theorem Law.R (h : Law c) (z : ℝ) : c.R z = z := by
  unfold Cosmos.R
  rw [h.file, h.frw]
  simp [not_lt.2 h.grav]

theorem lawMass_pos (h : Law c) {z : ℝ} (hz : 0 < z) : 0 < lawMass c z :=
  mul_pos h.mass (rpow_pos_of_pos (lt_min hz h.thres) _)

/-- `AxionMass` is the law. -/
theorem mass_eq (h : Law c) {z : ℝ} (hz : 0 < z) : mass c z = some (lawMass c z) := by
  have key : ∀ y : ℝ, 0 < y → √(c.indi3 * c.indi3 * y ^ c.nQcd) = c.indi3 * y ^ (c.nQcd / 2) := by
    intro y hy
    have h1 : c.indi3 * c.indi3 * y ^ c.nQcd =
        (c.indi3 * y ^ (c.nQcd / 2)) * (c.indi3 * y ^ (c.nQcd / 2)) := by
      have : y ^ c.nQcd = y ^ (c.nQcd / 2) * y ^ (c.nQcd / 2) := by
        rw [← rpow_add hy]; congr 1; ring
      rw [this]; ring
    rw [h1]
    exact sqrt_mul_self (mul_nonneg h.mass.le (rpow_nonneg hy.le _))
  unfold mass Cosmos.axionMass2 lawMass
  simp only [h.R, h.file]
  rw [if_neg (not_le.2 h.saturate)]
  by_cases hlt : z < c.zThRes
  · rw [if_pos hlt, min_eq_left hlt.le]
    simp [key z hz]
  · rw [if_neg hlt, min_eq_right (not_lt.1 hlt)]
    simp [key _ h.thres]

theorem conf_below {z : ℝ} (hz : 0 < z) (hle : z ≤ c.zThRes) :
    conf c z = mu c.nQcd c.indi3 z := by
  unfold conf lawMass mu
  rw [min_eq_left hle, rpow_add_one hz.ne']
  ring

theorem conf_above {z : ℝ} (hle : c.zThRes ≤ z) :
    conf c z = mu 0 (c.indi3 * c.zThRes ^ (c.nQcd / 2)) z := by
  unfold conf lawMass mu
  rw [min_eq_right hle]
  simp
  ring

theorem freq_eq (k z m : ℝ) (h : conf c z = m) : freq c k z = √(k * k + m * m) := by
  unfold freq
  rw [h, sq, sq]

/-! ### One piece of the phase -/

theorem phiExact_power {z₁ z₂ k n a : ℝ} (hn : -2 < n) (hn0 : n ≠ 0) (ha : 0 < a) (hk : 0 < k)
    (h1 : 0 < z₁) (h2 : 0 < z₂) :
    phiExact z₁ z₂ k n a = ∫ z in z₁..z₂, (om k n a z - mu n a z) := by
  have e : phiExact z₁ z₂ k n a = term k n a z₂ - term k n a z₁ := by
    unfold phiExact term arg om mu
    rw [if_neg hk.ne', if_neg ha.ne', if_neg hn0]
  rw [e]
  have hpos : ∀ z ∈ Set.uIcc z₁ z₂, 0 < z := fun z hz =>
    (lt_min h1 h2).trans_le (Set.mem_Icc.1 hz).1
  exact (intervalIntegral.integral_eq_sub_of_hasDerivAt
    (fun z hz => hasDerivAt_term hn ha hk (hpos z hz))
    ((continuous_om hpos).sub (continuous_mu hpos)).intervalIntegrable).symm

theorem phiExact_const {z₁ z₂ k a : ℝ} (ha : 0 < a) (hk : 0 < k) (h1 : 0 < z₁) (h2 : 0 < z₂) :
    k * phiExact z₁ z₂ k 0 a = ∫ z in z₁..z₂, (om k 0 a z - mu 0 a z) := by
  have hpos : ∀ z ∈ Set.uIcc z₁ z₂, 0 < z := fun z hz =>
    (lt_min h1 h2).trans_le (Set.mem_Icc.1 hz).1
  rw [intervalIntegral.integral_eq_sub_of_hasDerivAt
    (fun z hz => hasDerivAt_log ha hk (hpos z hz))
    ((continuous_om hpos).sub (continuous_mu hpos)).intervalIntegrable]
  have hm : ∀ z, mu 0 a z = a * z := fun z => by simp [mu]
  unfold phiExact
  rw [if_neg hk.ne', if_neg ha.ne', if_pos rfl]
  dsimp only
  have p1 : 0 < a * z₁ + om k 0 a z₁ := by have := om_pos (n := 0) (a := a) (z := z₁) hk; positivity
  have p2 : 0 < a * z₂ + om k 0 a z₂ := by have := om_pos (n := 0) (a := a) (z := z₂) hk; positivity
  have o1 : √(k * k + a * z₁ * (a * z₁)) = om k 0 a z₁ := by unfold om; rw [hm]
  have o2 : √(k * k + a * z₂ * (a * z₂)) = om k 0 a z₂ := by unfold om; rw [hm]
  rw [o1, o2, hm, hm, log_div p2.ne' p1.ne']
  ring

/-- `ω - m` is positive, so it has a positive integral. -/
theorem integral_pos' {z₁ z₂ k n a : ℝ} (hk : 0 < k) (h1 : 0 < z₁) (h12 : z₁ < z₂) :
    0 < ∫ z in z₁..z₂, (om k n a z - mu n a z) := by
  have hpos : ∀ z ∈ Set.Icc z₁ z₂, 0 < z := fun z hz => h1.trans_le hz.1
  refine intervalIntegral.intervalIntegral_pos_of_pos_on ?_ ?_ h12
  · rw [← Set.uIcc_of_le h12.le] at hpos
    exact ((continuous_om hpos).sub (continuous_mu hpos)).intervalIntegrable
  · intro z _
    have h := om_sq k n a z
    have h0 := om_pos (n := n) (a := a) (z := z) hk
    have := mul_pos hk hk
    nlinarith [abs_lt_of_sq_lt_sq (a := mu n a z) (b := om k n a z) (by nlinarith) h0.le,
      le_abs_self (mu n a z)]

/-! ### The phase table -/

theorem integrable_freq (h : Law c) (k : ℝ) {z₁ z₂ : ℝ} (h1 : 0 < z₁) (h2 : 0 < z₂) :
    IntervalIntegrable (freq c k) MeasureTheory.volume z₁ z₂ ∧
    IntervalIntegrable (conf c) MeasureTheory.volume z₁ z₂ := by
  have hpos : ∀ z ∈ Set.uIcc z₁ z₂, 0 < z := fun z hz =>
    (lt_min h1 h2).trans_le (Set.mem_Icc.1 hz).1
  have hc : ContinuousOn (conf c) (Set.uIcc z₁ z₂) := by
    unfold conf lawMass
    refine continuousOn_id.mul (continuousOn_const.mul ?_)
    exact ContinuousOn.rpow_const ((continuous_id.min continuous_const).continuousOn)
      fun z hz => Or.inl (lt_min (hpos z hz) h.thres).ne'
  refine ⟨ContinuousOn.intervalIntegrable ?_, hc.intervalIntegrable⟩
  unfold freq
  exact (continuousOn_const.add (hc.pow 2)).sqrt

/-- Phase beyond that of a mode at rest. -/
noncomputable def extra (c : Cosmos) (k z₁ z₂ : ℝ) : ℝ := ∫ z in z₁..z₂, (freq c k z - conf c z)

theorem extra_below {k z₁ z₂ : ℝ} (h1 : 0 < z₁) (h12 : z₁ ≤ z₂) (h2 : z₂ ≤ c.zThRes) :
    extra c k z₁ z₂ = ∫ z in z₁..z₂, (om k c.nQcd c.indi3 z - mu c.nQcd c.indi3 z) := by
  refine intervalIntegral.integral_congr fun z hz => ?_
  rw [Set.uIcc_of_le h12] at hz
  have e := conf_below (c := c) (h1.trans_le hz.1) (hz.2.trans h2)
  change freq c k z - conf c z = _
  rw [freq_eq k z _ e, e]
  rfl

theorem extra_above {k z₁ z₂ : ℝ} (h12 : z₁ ≤ z₂) (h2 : c.zThRes ≤ z₁) :
    extra c k z₁ z₂ = ∫ z in z₁..z₂, (om k 0 (c.indi3 * c.zThRes ^ (c.nQcd / 2)) z -
      mu 0 (c.indi3 * c.zThRes ^ (c.nQcd / 2)) z) := by
  refine intervalIntegral.integral_congr fun z hz => ?_
  rw [Set.uIcc_of_le h12] at hz
  have e := conf_above (c := c) (h2.trans hz.1)
  change freq c k z - conf c z = _
  rw [freq_eq k z _ e, e]
  rfl

theorem extra_add (h : Law c) (k : ℝ) {z₁ z₂ z₃ : ℝ} (h1 : 0 < z₁) (h2 : 0 < z₂) (h3 : 0 < z₃) :
    extra c k z₁ z₂ + extra c k z₂ z₃ = extra c k z₁ z₃ :=
  intervalIntegral.integral_add_adjacent_intervals
    ((integrable_freq h k h1 h2).1.sub (integrable_freq h k h1 h2).2)
    ((integrable_freq h k h2 h3).1.sub (integrable_freq h k h2 h3).2)

theorem k0_pos (h : Law c) : 0 < k0 c := div_pos (by positivity) h.size

/-- The table: right as long as the mass grows; afterwards, and always if it is constant, the phase is
divided once too often by the momentum. -/
theorem table_eq (h : Law c) {z₁ z₂ : ℝ} (h1 : 0 < z₁) (h12 : z₁ ≤ z₂) {ik : ℕ} (hik : 0 < ik) :
    superTable c z₁ z₂ ik =
      if c.nQcd = 0 then extra c (k0 c * ik) z₁ z₂ / (k0 c * ik)
      else extra c (k0 c * ik) (min z₁ c.zThRes) (min z₂ c.zThRes) +
        extra c (k0 c * ik) (max z₁ c.zThRes) (max z₂ c.zThRes) / (k0 c * ik) := by
  have hk : 0 < k0 c * ik := mul_pos (k0_pos h) (Nat.cast_pos.2 hik)
  have haux : 0 < c.indi3 * c.zThRes ^ (c.nQcd / 2) := mul_pos h.mass (rpow_pos_of_pos h.thres _)
  have hT := h.thres
  have below0 : ∀ z₁ z₂ : ℝ, 0 < z₁ → z₁ ≤ z₂ → z₂ ≤ c.zThRes → c.nQcd = 0 →
      phiExact z₁ z₂ (k0 c * ik) c.nQcd c.indi3 = extra c (k0 c * ik) z₁ z₂ / (k0 c * ik) := by
    intro z₁ z₂ h1 h12 h2 hn
    rw [extra_below h1 h12 h2, eq_div_iff hk.ne', mul_comm, hn]
    exact phiExact_const h.mass hk h1 (h1.trans_le h12)
  have below : ∀ z₁ z₂ : ℝ, 0 < z₁ → z₁ ≤ z₂ → z₂ ≤ c.zThRes → c.nQcd ≠ 0 →
      phiExact z₁ z₂ (k0 c * ik) c.nQcd c.indi3 = extra c (k0 c * ik) z₁ z₂ := by
    intro z₁ z₂ h1 h12 h2 hn
    rw [extra_below h1 h12 h2]
    exact phiExact_power h.exponent hn h.mass hk h1 (h1.trans_le h12)
  have above : ∀ z₁ z₂ : ℝ, 0 < z₁ → z₁ ≤ z₂ → c.zThRes ≤ z₁ →
      phiExact z₁ z₂ (k0 c * ik) 0 (c.indi3 * c.zThRes ^ (c.nQcd / 2)) =
        extra c (k0 c * ik) z₁ z₂ / (k0 c * ik) := by
    intro z₁ z₂ h1 h12 h2
    rw [extra_above h12 h2, eq_div_iff hk.ne', mul_comm]
    exact phiExact_const haux hk h1 (h1.trans_le h12)
  have hself : ∀ z, extra c (k0 c * ik) z z = 0 := fun z => intervalIntegral.integral_same
  unfold superTable
  rw [if_neg hik.ne']
  dsimp only
  by_cases hx : z₁ ≤ c.zThRes ∧ c.zThRes < z₂
  · rw [if_pos hx, above _ _ hT hx.2.le le_rfl, min_eq_left hx.1, min_eq_right hx.2.le,
      max_eq_right hx.1, max_eq_left hx.2.le]
    by_cases hn : c.nQcd = 0
    · rw [if_pos hn, below0 _ _ h1 hx.1 le_rfl hn, ← add_div,
        extra_add h _ h1 hT (h1.trans_le h12)]
    · rw [if_neg hn, below _ _ h1 hx.1 le_rfl hn]
  · rw [if_neg hx]
    by_cases hz : c.zThRes ≤ z₁
    · rw [if_pos hz, above _ _ h1 h12 hz, min_eq_right hz, min_eq_right (hz.trans h12),
        max_eq_left hz, max_eq_left (hz.trans h12), hself, zero_add, ite_self]
    · rw [if_neg hz]
      have hz := not_le.1 hz
      have hz2 : z₂ ≤ c.zThRes := by
        by_contra hcon
        exact hx ⟨hz.le, not_le.1 hcon⟩
      rw [min_eq_left hz.le, min_eq_left hz2, max_eq_right hz.le, max_eq_right hz2, hself, zero_div,
        add_zero]
      by_cases hn : c.nQcd = 0
      · rw [if_pos hn, below0 _ _ h1 h12 hz2 hn]
      · rw [if_neg hn, below _ _ h1 h12 hz2 hn]

/-- The phase of a mode in the table is right exactly if the mass still grows at the final time, or
the momentum is one. -/
theorem C61_phase_iff (h : Law c) {z₁ z₂ : ℝ} (h1 : 0 < z₁) (h12 : z₁ < z₂) {ik : ℕ} (hik : 0 < ik) :
    superTable c z₁ z₂ ik = ∫ z in z₁..z₂, (freq c (k0 c * ik) z - conf c z) ↔
      (c.nQcd ≠ 0 ∧ z₂ ≤ c.zThRes) ∨ k0 c * ik = 1 := by
  have hk : 0 < k0 c * ik := mul_pos (k0_pos h) (Nat.cast_pos.2 hik)
  have hT := h.thres
  have hpos : ∀ {z₁ z₂ : ℝ}, 0 < z₁ → z₁ < z₂ → 0 < extra c (k0 c * ik) z₁ z₂ := by
    have haux : 0 < c.indi3 * c.zThRes ^ (c.nQcd / 2) := mul_pos h.mass (rpow_pos_of_pos h.thres _)
    intro z₁ z₂ h1 h12
    rcases le_total z₂ c.zThRes with h2 | h2
    · rw [extra_below h1 h12.le h2]; exact integral_pos' hk h1 h12
    · rcases le_total c.zThRes z₁ with h3 | h3
      · rw [extra_above h12.le h3]; exact integral_pos' hk h1 h12
      · rw [← extra_add h _ h1 hT (h1.trans h12)]
        rcases h3.lt_or_eq with h3 | h3
        · refine add_pos_of_pos_of_nonneg ?_ ?_
          · rw [extra_below h1 h3.le le_rfl]; exact integral_pos' hk h1 h3
          · rcases h2.lt_or_eq with h2 | h2
            · rw [extra_above h2.le le_rfl]; exact (integral_pos' hk hT h2).le
            · rw [← h2]; exact (intervalIntegral.integral_same).ge
        · rw [← h3, show extra c (k0 c * ik) z₁ z₁ = 0 from intervalIntegral.integral_same, zero_add,
            extra_above h12.le h3.ge]
          exact integral_pos' hk h1 h12
  change superTable c z₁ z₂ ik = extra c (k0 c * ik) z₁ z₂ ↔ _
  rw [table_eq h h1 h12.le hik]
  have hdiv : ∀ {e : ℝ}, 0 < e → (e / (k0 c * ik) = e ↔ k0 c * ik = 1) := by
    intro e he
    rw [div_eq_iff hk.ne']
    constructor
    · intro hh
      exact (mul_left_cancel₀ he.ne' (by rw [mul_one]; exact hh)).symm
    · intro hh
      rw [hh, mul_one]
  by_cases hn : c.nQcd = 0
  · rw [if_pos hn, hdiv (hpos h1 h12)]
    simp [hn]
  · rw [if_neg hn]
    rcases le_or_gt z₂ c.zThRes with h2 | h2
    · have h3 : z₁ ≤ c.zThRes := h12.le.trans h2
      rw [min_eq_left h3, min_eq_left h2, max_eq_right h3, max_eq_right h2,
        show extra c (k0 c * ik) c.zThRes c.zThRes = 0 from intervalIntegral.integral_same]
      simp [hn, h2]
    · have hm : max z₁ c.zThRes < z₂ := max_lt h12 h2
      have e : extra c (k0 c * ik) z₁ z₂ = extra c (k0 c * ik) (min z₁ c.zThRes) (min z₂ c.zThRes) +
          extra c (k0 c * ik) (max z₁ c.zThRes) (max z₂ c.zThRes) := by
        rw [min_eq_right h2.le, max_eq_left h2.le]
        rcases le_total z₁ c.zThRes with h3 | h3
        · rw [min_eq_left h3, max_eq_right h3, extra_add h _ h1 hT (h1.trans h12)]
        · rw [min_eq_right h3, max_eq_left h3,
            show extra c (k0 c * ik) c.zThRes c.zThRes = 0 from intervalIntegral.integral_same,
            zero_add]
      rw [e, add_right_inj, max_eq_left h2.le, hdiv (hpos (lt_max_of_lt_left h1) hm)]
      simp [hn, not_le.2 h2]

end Jaxions.WKB
