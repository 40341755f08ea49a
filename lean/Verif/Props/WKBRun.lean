import Verif.Props.WKBMode
/-
C61, continued: a mode from one time to another.
-/
namespace Jaxions.WKB

open Cosmo Real

variable {c : Cosmos}

theorem conf_pos (h : Law c) {z : ℝ} (hz : 0 < z) : 0 < conf c z := mul_pos hz (lawMass_pos h hz)

theorem freq_pos (h : Law c) (k : ℝ) {z : ℝ} (hz : 0 < z) : 0 < freq c k z :=
  sqrt_pos.2 (by have := conf_pos h hz; positivity)

/-- Half of the logarithmic derivative of the frequency, for a mass growing with exponent `n`. -/
noncomputable def fric (c : Cosmos) (k n z : ℝ) : ℝ :=
  (n / 2 + 1) * conf c z ^ 2 / (2 * z * freq c k z ^ 2)

theorem evolve_eq (h : Law c) {z₁ z₂ : ℝ} (h1 : 0 < z₁) (h12 : z₁ ≤ z₂)
    (hne : z₁ ≠ c.zThRes ∨ z₁ ≠ z₂) (S : ℝ → ℝ) (k : ℝ) (M D : ℂ) :
    let w1 := freq c k z₁
    let w2 := freq c k z₂
    let a := osc √(w1 / w2) w2 (fric c k (nQcdE c z₂) z₂) (S (k ^ 2) + rest c z₁ z₂) 1
      (fric c k (nQcdI c z₁) z₁ / w1)
    let b := osc √(w1 / w2) w2 (fric c k (nQcdE c z₂) z₂) (S (k ^ 2) + rest c z₁ z₂) 0 (1 / w1)
    evolve c S z₁ z₂ (k ^ 2) M D = some (a.1 * M + b.1 * D, a.2 * M + b.2 * D) := by
  intro w1 w2 a b
  have h2 := h1.trans_le h12
  have hw1 := freq_pos h k h1
  have hw2 := freq_pos h k h2
  have p1 := conf_pos h h1
  have p2 := conf_pos h h2
  unfold evolve
  rw [prepare_eq h h1 h12 hne]
  simp only [Option.bind_eq_bind, Option.bind_some]
  rw [modeStep_eq (by dsimp only; positivity) (by dsimp only; positivity)]
  dsimp only
  have e1 : √(k ^ 2 + conf c z₁ * conf c z₁) = w1 := by
    change _ = √(k ^ 2 + conf c z₁ ^ 2); rw [sq (conf c z₁)]
  have e2 : √(k ^ 2 + conf c z₂ * conf c z₂) = w2 := by
    change _ = √(k ^ 2 + conf c z₂ ^ 2); rw [sq (conf c z₂)]
  rw [e1, e2]
  have e3 : w2 * (0.25 * (nQcdE c z₂ + 2) * (conf c z₂ * conf c z₂ / z₂) / (w2 * w2 * w2)) =
      fric c k (nQcdE c z₂) z₂ := by
    unfold fric
    change _ = _ / (2 * z₂ * w2 ^ 2)
    have : w2 ≠ 0 := hw2.ne'
    field_simp
    ring
  have e4 : 0.25 * (nQcdI c z₁ + 2) * (conf c z₁ * conf c z₁ / z₁) / (w1 * w1 * w1) =
      fric c k (nQcdI c z₁) z₁ / w1 := by
    unfold fric
    change _ = _ / (2 * z₁ * w1 ^ 2) / w1
    have : w1 ≠ 0 := hw1.ne'
    field_simp
    ring
  rw [e3, e4]

/-- The table of phases is empty if there is no time to go. -/
theorem superTable_same (h : Law c) {z : ℝ} (hz : 0 < z) (ik : ℕ) : superTable c z z ik = 0 := by
  rcases Nat.eq_zero_or_pos ik with rfl | hik
  · simp [superTable]
  · rw [table_eq h hz le_rfl hik]
    have hself : ∀ k z, extra c k z z = 0 := fun k z => intervalIntegral.integral_same
    simp [hself]

/-- Going to the time where the field is leaves every mode as it is. -/
theorem C61_start (h : Law c) {z : ℝ} (hz : 0 < z) (hne : z ≠ c.zThRes) (S : ℝ → ℝ) (k : ℝ)
    (hS : S (k ^ 2) = 0) (M D : ℂ) : evolve c S z z (k ^ 2) M D = some (M, D) := by
  have hw := freq_pos h k hz
  have hn : nQcdE c z = nQcdI c z := by
    unfold nQcdE nQcdI
    rcases lt_or_gt_of_ne hne with hl | hl
    · rw [if_neg (not_lt.2 hl.le), if_neg (not_le.2 hl)]
    · rw [if_pos hl, if_pos hl.le]
  rw [evolve_eq h hz le_rfl (Or.inl hne)]
  have hr : rest c z z = 0 := intervalIntegral.integral_same
  simp only [osc, hS, hr, hn, div_self hw.ne', sqrt_one, add_zero, cos_zero, sin_zero]
  have hw' : (freq c k z : ℂ) ≠ 0 := by exact_mod_cast hw.ne'
  push_cast
  congr 1
  refine Prod.ext ?_ ?_
  · simp
  · change _ = D
    field_simp
    ring

/-- The phases of two stages add up, right or wrong. -/
theorem C61_table_add (h : Law c) {z₁ z₂ z₃ : ℝ} (h1 : 0 < z₁) (h12 : z₁ ≤ z₂) (h23 : z₂ ≤ z₃)
    (ik : ℕ) : superTable c z₁ z₂ ik + superTable c z₂ z₃ ik = superTable c z₁ z₃ ik := by
  rcases Nat.eq_zero_or_pos ik with rfl | hik
  · simp [superTable]
  · have h2 := h1.trans_le h12
    have h3 := h2.trans_le h23
    have hT := h.thres
    rw [table_eq h h1 h12 hik, table_eq h h2 h23 hik, table_eq h h1 (h12.trans h23) hik]
    by_cases hn : c.nQcd = 0
    · simp only [if_pos hn]
      rw [← add_div, extra_add h _ h1 h2 h3]
    · simp only [if_neg hn]
      rw [← extra_add h _ (lt_min h1 hT) (lt_min h2 hT) (lt_min h3 hT),
        ← extra_add h _ (lt_max_of_lt_left h1) (lt_max_of_lt_left (b := z₂) (c := c.zThRes) h2)
          (lt_max_of_lt_left h3)]
      ring

theorem osc_compose {w1 w2 w3 : ℝ} (h1 : 0 < w1) (h2 : 0 < w2) (h3 : 0 < w3) (g2 g3 θ θ' α β : ℝ) :
    let f := osc √(w1 / w2) w2 g2 θ α β
    let a := osc √(w2 / w3) w3 g3 θ' 1 (g2 / w2)
    let b := osc √(w2 / w3) w3 g3 θ' 0 (1 / w2)
    let f' := osc √(w1 / w3) w3 g3 (θ + θ') α β
    a.1 * f.1 + b.1 * f.2 = f'.1 ∧ a.2 * f.1 + b.2 * f.2 = f'.2 := by
  have hs : √(w1 / w3) = √(w1 / w2) * √(w2 / w3) := by
    rw [← sqrt_mul (div_pos h1 h2).le]
    congr 1
    field_simp
  have hw : w2 * (1 / w2) = 1 := by field_simp
  intro f a b f'
  have hg : g2 / w2 = g2 * (1 / w2) := by ring
  simp only [f, a, b, f', osc, cos_add, sin_add, hs, hg]
  generalize 1 / w2 = q at *
  constructor
  · linear_combination (√(w1 / w2) * √(w2 / w3) * sin θ' * (β * cos θ - α * sin θ)) * hw
  · linear_combination (w3 * √(w1 / w2) * √(w2 / w3) * cos θ' * (β * cos θ - α * sin θ) -
      g3 * √(w1 / w2) * √(w2 / w3) * sin θ' * (β * cos θ - α * sin θ)) * hw

/-- Two stages one after the other do the same as one, whatever the spline makes of the table as long
as its phases add up. -/
theorem C61_compose (h : Law c) {z₁ z₂ z₃ : ℝ} (h1 : 0 < z₁) (h12 : z₁ ≤ z₂) (h23 : z₂ ≤ z₃)
    (hne : z₂ ≠ c.zThRes) (S₁ S₂ S : ℝ → ℝ) (k : ℝ) (hS : S (k ^ 2) = S₁ (k ^ 2) + S₂ (k ^ 2))
    (M D : ℂ) : ((evolve c S₁ z₁ z₂ (k ^ 2) M D).bind fun q => evolve c S₂ z₂ z₃ (k ^ 2) q.1 q.2) =
      evolve c S z₁ z₃ (k ^ 2) M D := by
  have h2 := h1.trans_le h12
  have h3 := h2.trans_le h23
  have n1 : z₁ ≠ c.zThRes ∨ z₁ ≠ z₂ := by
    by_cases e : z₁ = z₂
    · exact Or.inl (e ▸ hne)
    · exact Or.inr e
  have n3 : z₁ ≠ c.zThRes ∨ z₁ ≠ z₃ := by
    by_cases e : z₁ = z₃
    · have : z₁ = z₂ := le_antisymm h12 (e ▸ h23)
      exact Or.inl (this ▸ hne)
    · exact Or.inr e
  have hn : nQcdE c z₂ = nQcdI c z₂ := by
    unfold nQcdE nQcdI
    rcases lt_or_gt_of_ne hne with hl | hl
    · rw [if_neg (not_lt.2 hl.le), if_neg (not_le.2 hl)]
    · rw [if_pos hl, if_pos hl.le]
  rw [evolve_eq h h1 h12 n1, Option.bind_some, evolve_eq h h2 h23 (Or.inl hne),
    evolve_eq h h1 (h12.trans h23) n3, hn, hS, ← rest_add h h1 h2 h3]
  have hθ : S₁ (k ^ 2) + S₂ (k ^ 2) + (rest c z₁ z₂ + rest c z₂ z₃) =
      (S₁ (k ^ 2) + rest c z₁ z₂) + (S₂ (k ^ 2) + rest c z₂ z₃) := by ring
  rw [hθ]
  have ca := osc_compose (freq_pos h k h1) (freq_pos h k h2) (freq_pos h k h3)
    (fric c k (nQcdI c z₂) z₂) (fric c k (nQcdE c z₃) z₃) (S₁ (k ^ 2) + rest c z₁ z₂)
    (S₂ (k ^ 2) + rest c z₂ z₃) 1 (fric c k (nQcdI c z₁) z₁ / freq c k z₁)
  have cb := osc_compose (freq_pos h k h1) (freq_pos h k h2) (freq_pos h k h3)
    (fric c k (nQcdI c z₂) z₂) (fric c k (nQcdE c z₃) z₃) (S₁ (k ^ 2) + rest c z₁ z₂)
    (S₂ (k ^ 2) + rest c z₂ z₃) 0 (1 / freq c k z₁)
  simp only at ca cb ⊢
  rw [← ca.1, ← ca.2, ← cb.1, ← cb.2]
  push_cast
  congr 1
  refine Prod.ext ?_ ?_ <;> ring

/-! ### The equation of motion -/

/-- The real solution: its derivative, and the derivative of that. -/
theorem hasDerivAt_osc {w g θ : ℝ → ℝ} {w1 q z α β : ℝ} (h1 : 0 < w1) (hw0 : 0 < w z)
    (hw : HasDerivAt w (2 * g z * w z) z) (hg : HasDerivAt g q z) (hθ : HasDerivAt θ (w z) z) :
    HasDerivAt (fun y => (osc √(w1 / w y) (w y) (g y) (θ y) α β).1)
      (osc √(w1 / w z) (w z) (g z) (θ z) α β).2 z ∧
    HasDerivAt (fun y => (osc √(w1 / w y) (w y) (g y) (θ y) α β).2)
      ((g z ^ 2 - q - w z ^ 2) * (osc √(w1 / w z) (w z) (g z) (θ z) α β).1) z := by
  have hs : HasDerivAt (fun y => √(w1 / w y)) (-(g z) * √(w1 / w z)) z := by
    have hd := ((hasDerivAt_const z w1).div hw hw0.ne')
    have h := hd.sqrt (show w1 / w z ≠ 0 from (div_pos h1 hw0).ne')
    refine h.congr_deriv ?_
    have hsq : √(w1 / w z) * √(w1 / w z) = w1 / w z := mul_self_sqrt (div_pos h1 hw0).le
    have hsp : √(w1 / w z) ≠ 0 := (sqrt_pos.2 (div_pos h1 hw0)).ne'
    simp only [Pi.div_apply]
    rw [div_eq_iff (mul_ne_zero two_ne_zero hsp)]
    have : -(g z) * √(w1 / w z) * (2 * √(w1 / w z)) = -(2 * g z) * (w1 / w z) := by
      rw [mul_assoc, ← mul_assoc _ (2 : ℝ), mul_comm _ (2 : ℝ), mul_assoc (2 : ℝ), hsq]; ring
    rw [this]
    field_simp
    ring
  have hc := hθ.cos
  have hn := hθ.sin
  have hu := hs.mul ((hc.const_mul α).add (hn.const_mul β))
  have hv := (hw.mul hs).mul ((hc.const_mul β).sub (hn.const_mul α))
  have hf : HasDerivAt (fun y => (osc √(w1 / w y) (w y) (g y) (θ y) α β).1)
      (osc √(w1 / w z) (w z) (g z) (θ z) α β).2 z := by
    refine hu.congr_deriv ?_
    simp only [osc, Pi.add_apply]
    ring
  refine ⟨hf, (hv.sub (hg.mul hf)).congr_deriv ?_⟩
  simp only [osc, Pi.sub_apply, Pi.mul_apply]
  ring

theorem conf_eventually {z : ℝ} (hz : 0 < z) (hT : z < c.zThRes) :
    conf c =ᶠ[nhds z] mu c.nQcd c.indi3 := by
  filter_upwards [Ioo_mem_nhds hz hT] with y hy
  exact conf_below hy.1 hy.2.le

theorem freq_eventually {z : ℝ} (k : ℝ) (hz : 0 < z) (hT : z < c.zThRes) :
    freq c k =ᶠ[nhds z] om k c.nQcd c.indi3 := by
  filter_upwards [Ioo_mem_nhds hz hT] with y hy
  exact freq_eq k y _ (conf_below hy.1 hy.2.le)

/-- While the mass grows the frequency changes at twice the friction. -/
theorem hasDerivAt_freq (h : Law c) {k z : ℝ} (hk : 0 < k) (hz : 0 < z) (hT : z < c.zThRes) :
    HasDerivAt (freq c k) (2 * fric c k c.nQcd z * freq c k z) z := by
  have hf := freq_pos h k hz
  refine HasDerivAt.congr_of_eventuallyEq ((hasDerivAt_om hk hz).congr_deriv ?_)
    (freq_eventually k hz hT)
  unfold fric
  rw [← (freq_eventually k hz hT).eq_of_nhds, ← (conf_eventually hz hT).eq_of_nhds]
  field_simp

theorem hasDerivAt_fric (h : Law c) {k z : ℝ} (hk : 0 < k) (hz : 0 < z) (hT : z < c.zThRes) :
    HasDerivAt (fric c k c.nQcd) (fric c k c.nQcd z ^ 2 - defect c k z) z := by
  have hf := freq_pos h k hz
  have e : fric c k c.nQcd =ᶠ[nhds z] fun y => (c.nQcd / 2 + 1) / 2 * (arg k c.nQcd c.indi3 y / y) := by
    filter_upwards [Ioo_mem_nhds hz hT] with y hy
    have e1 := conf_below (c := c) hy.1 hy.2.le
    have e2 : freq c k y ^ 2 = k * k + mu c.nQcd c.indi3 y * mu c.nQcd c.indi3 y := by
      rw [freq_eq k y _ e1, sq_sqrt (by nlinarith [mul_self_nonneg k, mul_self_nonneg (mu c.nQcd c.indi3 y)])]
    have h3 : k * k + mu c.nQcd c.indi3 y * mu c.nQcd c.indi3 y ≠ 0 := by
      nlinarith [mul_pos hk hk, mul_self_nonneg (mu c.nQcd c.indi3 y)]
    have hy0 : y ≠ 0 := hy.1.ne'
    unfold fric arg
    rw [e2, e1]
    field_simp
    ring
  have e1 := conf_below (c := c) hz hT.le
  have e2 : freq c k z ^ 2 = k * k + mu c.nQcd c.indi3 z * mu c.nQcd c.indi3 z := by
    rw [freq_eq k z _ e1, sq_sqrt (by nlinarith [mul_self_nonneg k, mul_self_nonneg (mu c.nQcd c.indi3 z)])]
  have harg : arg k c.nQcd c.indi3 z = conf c z ^ 2 / freq c k z ^ 2 := by
    unfold arg
    rw [← e2, e1, eq_div_iff (by positivity), sub_mul, div_mul_cancel₀ _ (by positivity), e2]
    ring
  refine HasDerivAt.congr_of_eventuallyEq ((((hasDerivAt_arg hk hz).div (hasDerivAt_id z)
    hz.ne').const_mul _).congr_deriv ?_) e
  simp only [id]
  rw [harg]
  unfold fric defect
  dsimp only
  have hf2 : freq c k z ^ 4 = freq c k z ^ 2 * freq c k z ^ 2 := by ring
  rw [hf2]
  have hq : freq c k z ^ 2 ≠ 0 := by positivity
  generalize freq c k z ^ 2 = w at *
  field_simp
  ring

/-- While the mass grows, and if the spline returns the table, the result as a function of the final
time starts from the field at the initial time, its second part is the derivative of the first, and
the first obeys the equation of the mode up to the adiabatic defect. -/
theorem C61_motion (h : Law c) (hn : c.nQcd ≠ 0) {z₁ : ℝ} (h1 : 0 < z₁) {ik : ℕ} (hik : 0 < ik)
    (S : ℝ → ℝ → ℝ) (hS : ∀ z, S z ((k0 c * ik) ^ 2) = superTable c z₁ z ik) (M₀ D₀ : ℂ) :
    ∃ M D : ℝ → ℂ, (∀ z, z₁ ≤ z → z < c.zThRes →
        evolve c (S z) z₁ z ((k0 c * ik) ^ 2) M₀ D₀ = some (M z, D z)) ∧
      (z₁ < c.zThRes → M z₁ = M₀ ∧ D z₁ = D₀) ∧
      ∀ z, z₁ < z → z < c.zThRes → HasDerivAt M (D z) z ∧
        HasDerivAt D (-(freq c (k0 c * ik) z ^ 2 - defect c (k0 c * ik) z : ℝ) * M z) z := by
  have hk : 0 < k0 c * ik := mul_pos (k0_pos h) (Nat.cast_pos.2 hik)
  set k := k0 c * ik with hkdef
  let α := fric c k (nQcdI c z₁) z₁ / freq c k z₁
  let o : ℝ → ℝ → ℝ → ℝ × ℝ := fun y a b => osc √(freq c k z₁ / freq c k y) (freq c k y)
    (fric c k c.nQcd y) (extra c k z₁ y + rest c z₁ y) a b
  have hev : ∀ z, z₁ ≤ z → z < c.zThRes → evolve c (S z) z₁ z (k ^ 2) M₀ D₀ =
      some ((o z 1 α).1 * M₀ + (o z 0 (1 / freq c k z₁)).1 * D₀,
        (o z 1 α).2 * M₀ + (o z 0 (1 / freq c k z₁)).2 * D₀) := by
    intro z hz hT
    rw [evolve_eq h h1 hz (Or.inl (hz.trans_lt hT).ne), hS z,
      table_eq h h1 hz hik, if_neg hn, min_eq_left (hz.trans hT.le), min_eq_left hT.le,
      max_eq_right (hz.trans hT.le), max_eq_right hT.le,
      show extra c (k0 c * ik) c.zThRes c.zThRes = 0 from intervalIntegral.integral_same, zero_div,
      add_zero]
    have hE : nQcdE c z = c.nQcd := if_neg (not_lt.2 hT.le)
    rw [hE]
  refine ⟨fun z => (o z 1 α).1 * M₀ + (o z 0 (1 / freq c k z₁)).1 * D₀,
    fun z => (o z 1 α).2 * M₀ + (o z 0 (1 / freq c k z₁)).2 * D₀, hev, ?_, ?_⟩
  · intro hT
    have e := hev z₁ le_rfl hT
    rw [C61_start h h1 hT.ne (S z₁) k (by rw [hS]; exact superTable_same h h1 ik)] at e
    simp only [Option.some.injEq, Prod.mk.injEq] at e
    exact ⟨e.1.symm, e.2.symm⟩
  · intro z hz hT
    have hz0 := h1.trans hz
    have hθ : HasDerivAt (fun y => extra c k z₁ y + rest c z₁ y) (freq c k z) z := by
      have hcw : ContinuousOn (conf c) (Set.Ioo 0 c.zThRes) := by
        refine (continuous_mu (n := c.nQcd) (a := c.indi3) fun y hy => hy.1).congr fun y hy => ?_
        exact conf_below hy.1 hy.2.le
      have hfw : ContinuousOn (freq c k) (Set.Ioo 0 c.zThRes) := by
        unfold freq
        exact (continuousOn_const.add (hcw.pow 2)).sqrt
      have hnh : Set.Ioo 0 c.zThRes ∈ nhds z := Ioo_mem_nhds hz0 hT
      have i := integrable_freq h k h1 hz0
      have d1 := intervalIntegral.integral_hasDerivAt_right (i.1.sub i.2)
        ((hfw.sub hcw).stronglyMeasurableAtFilter isOpen_Ioo z ⟨hz0, hT⟩)
        ((hfw.sub hcw).continuousAt hnh)
      have d2 := intervalIntegral.integral_hasDerivAt_right i.2
        (hcw.stronglyMeasurableAtFilter isOpen_Ioo z ⟨hz0, hT⟩) (hcw.continuousAt hnh)
      refine (d1.add d2).congr_deriv ?_
      simp
    have hD := fun a b => hasDerivAt_osc (α := a) (β := b) (freq_pos h k h1) (freq_pos h k hz0)
      (hasDerivAt_freq h hk hz0 hT) (hasDerivAt_fric h hk hz0 hT) hθ
    refine ⟨((hD 1 α).1.ofReal_comp.mul_const M₀).add
      ((hD 0 (1 / freq c k z₁)).1.ofReal_comp.mul_const D₀), ?_⟩
    refine (((hD 1 α).2.ofReal_comp.mul_const M₀).add
      ((hD 0 (1 / freq c k z₁)).2.ofReal_comp.mul_const D₀)).congr_deriv ?_
    simp only [o]
    push_cast
    ring

end Jaxions.WKB
