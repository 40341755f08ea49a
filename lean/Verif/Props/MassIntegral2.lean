import Verif.Props.MassIntegral
/-
C62: the second time integral of the axion mass.
-/
namespace Jaxions.Cosmo
open Set Filter Topology MeasureTheory

/-- The integral of one power, integrated again. -/
theorem again (A e a b : ℝ) (ha : 0 < a) (hb : 0 < b) (he : e ≠ 0) (he' : e + 1 ≠ 0) :
    ∫ y in a..b, (y ^ e - a ^ e) * A * A / e =
      (b ^ (e + 1) - a ^ (e + 1)) * A * A / (e * (e + 1)) - a ^ e * (b - a) * A * A / e := by
  have h0 : (0 : ℝ) ∉ uIcc a b := fun h => by
    have := lt_of_lt_of_le (lt_min ha hb) h.1
    exact lt_irrefl _ this
  have hi : IntervalIntegrable (fun y : ℝ => y ^ e) volume a b :=
    intervalIntegral.intervalIntegrable_rpow (Or.inr h0)
  have hfun : ∀ y : ℝ, (y ^ e - a ^ e) * A * A / e = A * A / e * (y ^ e - a ^ e) := fun y => by ring
  simp only [hfun]
  rw [intervalIntegral.integral_const_mul, intervalIntegral.integral_sub hi (by simp),
    integral_rpow (Or.inr ⟨fun h => he' (by rw [h]; ring), h0⟩), intervalIntegral.integral_const,
    smul_eq_mul]
  field_simp

/-- The second integral from `z0`. -/
noncomputable def double (c : Cosmos) (m : ℝ → ℝ) (nn : ℤ) (z0 z : ℝ) : ℝ :=
  ∫ y in z0..z, ∫ t in z0..y, dens c m nn t

section
variable (c : Cosmos) (hu : c.ueCosm = false) (hf : c.frw = 1) (hg : c.grav ≤ 0)
include hu hf hg

theorem double_low (m : ℝ → ℝ) (hm : IsMass c m) (nn : ℤ) (a b : ℝ)
    (ha : 0 < a) (hb : 0 < b) (haT : a ≤ c.zThRes) (hbT : b ≤ c.zThRes)
    (he : c.nQcd + nn + 1 ≠ 0) (he' : c.nQcd + nn + 1 + 1 ≠ 0) :
    piece2 c (c.nQcd + nn + 1) a b = some (double c m nn a b) := by
  rw [piece2_val c _ _ _ he he', ← again c.indi3 _ a b ha hb he he']
  congr 1
  unfold double
  apply intervalIntegral.integral_congr
  intro y hy
  have hy0 : 0 < y := lt_of_lt_of_le (lt_min ha hb) hy.1
  simp only
  rw [dens_low c hu hf hg m hm nn a y ha hy0 haT (hy.2.trans (max_le haT hbT)) he]

theorem double_high (hT : 0 < c.zThRes) (m : ℝ → ℝ) (hm : IsMass c m) (nn : ℤ) (a b : ℝ)
    (haT : c.zThRes ≤ a) (hbT : c.zThRes ≤ b) (haR : c.zThRes ≤ c.zRestore → a ≤ c.zRestore)
    (hbR : c.zThRes ≤ c.zRestore → b ≤ c.zRestore) (he : (nn : ℝ) + 1 ≠ 0)
    (he' : (nn : ℝ) + 1 + 1 ≠ 0) :
    ∃ v, piece2 c ((nn : ℝ) + 1) a b = some v ∧ double c m nn a b = c.zThRes ^ c.nQcd * v ∧
      v = ∫ y in a..b, (y ^ ((nn : ℝ) + 1) - a ^ ((nn : ℝ) + 1)) * c.indi3 * c.indi3 /
        ((nn : ℝ) + 1) := by
  have ha : 0 < a := hT.trans_le haT
  have hb : 0 < b := hT.trans_le hbT
  refine ⟨_, piece2_val c _ _ _ he he', ?_, (again c.indi3 _ a b ha hb he he').symm⟩
  rw [← again c.indi3 _ a b ha hb he he', ← intervalIntegral.integral_const_mul]
  unfold double
  apply intervalIntegral.integral_congr
  intro y hy
  simp only
  rw [dens_high c hu hf hg hT m hm nn a y haT ((le_min haT hbT).trans hy.1) haR
    (fun h => hy.2.trans (max_le (haR h) (hbR h))) he]

/-- **C62** While the mass still grows the second integral is the integral of the first. -/
theorem C62_second_growing (hn : 0 ≤ c.nQcd) (m : ℝ → ℝ) (hm : IsMass c m) (nn : ℕ)
    (z0 z : ℝ) (h0 : 0 < z0) (h1 : 0 < z) (hz0 : z0 ≤ c.zThRes) (hz : z ≤ c.zThRes) :
    c.iiMass z0 z nn = some (∫ y in z0..z, ∫ t in z0..y, dens c m nn t) := by
  have hnn : (0 : ℝ) ≤ ((nn : ℤ) : ℝ) := by exact_mod_cast Nat.zero_le nn
  have hval : c.iiMass z0 z nn = piece2 c (c.nQcd + ((nn : ℤ) : ℝ) + 1) z0 z := by
    unfold Cosmos.iiMass
    simp only [hf, one_mul, hz0, hz, if_true, ite_self]
  rw [hval]
  exact double_low c hu hf hg m hm nn z0 z h0 h1 hz0 hz (by positivity) (by positivity)

/-- **C62** After the mass saturates the second integral lacks the factor `zThRes^nQcd`. -/
theorem C62_second_saturated (hT : 0 < c.zThRes) (m : ℝ → ℝ) (hm : IsMass c m)
    (nn : ℕ) (z0 z : ℝ) (hz0 : c.zThRes ≤ z0) (hz : c.zThRes < z)
    (hr0 : c.zThRes ≤ c.zRestore → z0 ≤ c.zRestore)
    (hr : c.zThRes ≤ c.zRestore → z ≤ c.zRestore) :
    ∃ v, c.iiMass z0 z nn = some v ∧
      ∫ y in z0..z, ∫ t in z0..y, dens c m nn t = c.zThRes ^ c.nQcd * v := by
  have hnn : (0 : ℝ) ≤ ((nn : ℤ) : ℝ) := by exact_mod_cast Nat.zero_le nn
  obtain ⟨v, h1, h2, -⟩ := double_high c hu hf hg hT m hm nn z0 z hz0 hz.le hr0 hr
    (by positivity) (by positivity)
  refine ⟨v, ?_, h2⟩
  rw [← h1]
  have k1 : ¬ z ≤ c.zThRes := by linarith
  have k2 : ¬ (z > c.zThRes ∧ z0 < c.zThRes) := fun h => by linarith [h.2]
  have k3 : z > c.zThRes ∧ z0 ≥ c.zThRes := ⟨hz, hz0⟩
  unfold Cosmos.iiMass
  simp only [hf, one_mul]
  by_cases hlt : z > z0
  · rw [if_pos hlt, if_neg k1, if_neg k2, if_pos k3]
  · have k4 : ¬ z0 ≤ c.zThRes := by linarith
    have k5 : ¬ (z0 > c.zThRes ∧ z < c.zThRes) := fun h => by linarith [h.2]
    rw [if_neg hlt, if_neg k4, if_neg k5, if_pos k3]

omit hu hf hg in
/-- **C62** Back to the very moment of saturation there is no value: the function ends without a
`return`. -/
theorem C62_second_no_value (z0 : ℝ) (nn : ℤ) (h : c.zThRes < z0) :
    c.iiMass z0 c.zThRes nn = none := by
  unfold Cosmos.iiMass
  have k0 : ¬ c.zThRes > z0 := by linarith
  have k1 : ¬ z0 ≤ c.zThRes := by linarith
  simp only [k0, k1, if_false, lt_irrefl, and_false, false_and, gt_iff_lt]

/-- **C62** Over the saturation the second integral lacks two things: what the first integral has
gathered by then, times the time that is left, and the factor `zThRes^nQcd`.  With
`zThRes ≥ 1` and a mass it is too small, however short the step. -/
theorem C62_second_crossing (hn : 0 ≤ c.nQcd) (m : ℝ → ℝ) (hm : IsMass c m)
    (nn : ℕ) (z0 z : ℝ) (h0 : 0 < z0) (hz0 : z0 < c.zThRes) (hz : c.zThRes < z)
    (hr : c.zThRes ≤ c.zRestore → z ≤ c.zRestore) :
    ∃ v d, c.iiMass z0 z nn = some v ∧ 0 ≤ d ∧
      ∫ y in z0..z, ∫ t in z0..y, dens c m nn t =
        v + (z - c.zThRes) * (∫ t in z0..c.zThRes, dens c m nn t) +
          (c.zThRes ^ c.nQcd - 1) * d ∧
      (1 ≤ c.zThRes → c.indi3 ≠ 0 → v < ∫ y in z0..z, ∫ t in z0..y, dens c m nn t) := by
  have hT : 0 < c.zThRes := h0.trans hz0
  have h1 : 0 < z := hT.trans hz
  have hnn : (0 : ℝ) ≤ ((nn : ℤ) : ℝ) := by exact_mod_cast Nat.zero_le nn
  have he1 : c.nQcd + ((nn : ℤ) : ℝ) + 1 ≠ 0 := by positivity
  have hlow := double_low c hu hf hg m hm nn z0 c.zThRes h0 hT hz0.le le_rfl (by positivity)
    (by positivity)
  obtain ⟨d, hd1, hd2, hd3⟩ := double_high c hu hf hg hT m hm nn c.zThRes z le_rfl hz.le id hr
    (by positivity) (by positivity)
  have hval : c.iiMass z0 z nn = some (double c m nn z0 c.zThRes + d) := by
    have k0 : z > z0 := hz0.trans hz
    have k1 : ¬ z ≤ c.zThRes := by linarith
    have k2 : z > c.zThRes ∧ z0 < c.zThRes := ⟨hz, hz0⟩
    unfold Cosmos.iiMass
    simp only [hf, one_mul]
    rw [if_pos k0, if_neg k1, if_pos k2, hlow, hd1]
    rfl
  -- the exact second integral
  have hcont : ContinuousOn (fun y => ∫ t in z0..y, dens c m nn t) (Ioi 0) := by
    intro y hy
    have hy0 : 0 < y := hy
    have hat : ContinuousAt (dens c m nn) y :=
      (dens_cont c hu hf hg hT m hm nn).continuousAt (Ioi_mem_nhds hy0)
    have hmeas : StronglyMeasurableAtFilter (dens c m nn) (𝓝 y) volume :=
      (dens_cont c hu hf hg hT m hm nn).stronglyMeasurableAtFilter isOpen_Ioi y hy
    exact (intervalIntegral.integral_hasDerivAt_right (dens_int c hu hf hg hT m hm nn _ _ h0 hy0)
      hmeas hat).continuousAt.continuousWithinAt
  have hint : ∀ a b, 0 < a → 0 < b →
      IntervalIntegrable (fun y => ∫ t in z0..y, dens c m nn t) volume a b := by
    intro a b ha hb
    apply ContinuousOn.intervalIntegrable
    exact hcont.mono fun t ht => lt_of_lt_of_le (lt_min ha hb) ht.1
  have hint' : IntervalIntegrable (fun y => ∫ t in c.zThRes..y, dens c m nn t) volume c.zThRes z := by
    have hc : ContinuousOn (fun y => ∫ t in c.zThRes..y, dens c m nn t) (Ioi 0) := by
      intro y hy
      have hy0 : 0 < y := hy
      exact (intervalIntegral.integral_hasDerivAt_right
        (dens_int c hu hf hg hT m hm nn _ _ hT hy0)
        ((dens_cont c hu hf hg hT m hm nn).stronglyMeasurableAtFilter isOpen_Ioi y hy)
        ((dens_cont c hu hf hg hT m hm nn).continuousAt
          (Ioi_mem_nhds hy0))).continuousAt.continuousWithinAt
    apply ContinuousOn.intervalIntegrable
    exact hc.mono fun t ht => lt_of_lt_of_le (lt_min hT h1) ht.1
  have hexact : ∫ y in z0..z, ∫ t in z0..y, dens c m nn t =
      double c m nn z0 c.zThRes + ((z - c.zThRes) * (∫ t in z0..c.zThRes, dens c m nn t) +
        c.zThRes ^ c.nQcd * d) := by
    rw [← intervalIntegral.integral_add_adjacent_intervals (hint z0 c.zThRes h0 hT)
      (hint c.zThRes z hT h1)]
    congr 1
    rw [← hd2]
    have : ∫ y in c.zThRes..z, ∫ t in z0..y, dens c m nn t =
        ∫ y in c.zThRes..z, ((∫ t in z0..c.zThRes, dens c m nn t) +
          ∫ t in c.zThRes..y, dens c m nn t) := by
      apply intervalIntegral.integral_congr
      intro y hy
      have hy0 : 0 < y := lt_of_lt_of_le (lt_min hT h1) hy.1
      simp only
      rw [intervalIntegral.integral_add_adjacent_intervals
        (dens_int c hu hf hg hT m hm nn _ _ h0 hT) (dens_int c hu hf hg hT m hm nn _ _ hT hy0)]
    rw [this, intervalIntegral.integral_add (by simp) hint', intervalIntegral.integral_const,
      smul_eq_mul]
    rfl
  have hd0 : 0 ≤ d := by
    rw [hd3]
    apply intervalIntegral.integral_nonneg hz.le
    intro y hy
    have : c.zThRes ^ (((nn : ℤ) : ℝ) + 1) ≤ y ^ (((nn : ℤ) : ℝ) + 1) :=
      Real.rpow_le_rpow hT.le hy.1 (by positivity)
    have h2 : 0 ≤ c.indi3 * c.indi3 := mul_self_nonneg _
    rw [mul_assoc]
    exact div_nonneg (mul_nonneg (by linarith) h2) (by positivity)
  refine ⟨_, d, hval, hd0, ?_, ?_⟩
  · rw [hexact]; ring
  · intro hge hi
    rw [hexact]
    have hp : 0 < ∫ t in z0..c.zThRes, dens c m nn t := by
      rw [dens_low c hu hf hg m hm nn z0 c.zThRes h0 hT hz0.le le_rfl he1]
      have hlt : z0 ^ (c.nQcd + ((nn : ℤ) : ℝ) + 1) < c.zThRes ^ (c.nQcd + ((nn : ℤ) : ℝ) + 1) :=
        Real.rpow_lt_rpow h0.le hz0 (by positivity)
      have h2 : 0 < c.indi3 * c.indi3 := mul_self_pos.2 hi
      rw [mul_assoc]
      exact div_pos (mul_pos (by linarith) h2) (by positivity)
    have hq : 1 ≤ c.zThRes ^ c.nQcd := Real.one_le_rpow hge hn
    have h3 := mul_pos (sub_pos.2 hz) hp
    have h4 := mul_nonneg (sub_nonneg.2 hq) hd0
    linarith

end

/-- The hypotheses of the integrals, before and over the saturation of the demonstration
background. -/
example : demo.ueCosm = false ∧ demo.frw = 1 ∧ demo.grav ≤ 0 ∧ 0 ≤ demo.nQcd ∧
    (1 : ℝ) < demo.zThRes ∧ demo.zThRes < 3 ∧ 3 ≤ demo.zRestore ∧ IsMass demo demoM := by
  refine ⟨rfl, rfl, ?_, ?_, ?_, ?_, ?_, demo_isMass _⟩ <;> norm_num [demo]

/-- There the first integral from 1 to 3 is wrong. -/
example : demo.iMass 1 3 3 ≠ some (∫ t in (1:ℝ)..3, dens demo demoM 3 t) := by
  intro h
  have := (C62_integral_iff demo rfl rfl (by norm_num [demo]) (by norm_num [demo])
    (by norm_num [demo]) demoM (demo_isMass _) 3 1 3 (by norm_num) (by norm_num)
    (by norm_num [demo]) (by norm_num [demo])).1 h
  rcases this with h | h | h | h
  · norm_num [demo] at h
  · norm_num [demo] at h
  · norm_num [demo] at h
  · norm_num at h

end Jaxions.Cosmo
