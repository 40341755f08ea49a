import Verif.Lemmas.AxionSweep
import Mathlib.Analysis.SpecialFunctions.ExpDeriv
import Mathlib.Analysis.SpecialFunctions.Complex.Arg

/-
**C72** The arrays behind the axion spectra of the complex field: velocity, gradients, potential.
-/

namespace Jaxions.AxSpec

open Complex

variable {g : Grid} {T z0 : ℕ} {M : Mem} {φ ω : ℕ → ℕ → ℕ → ℂ} {hit : ℕ → ℕ → ℕ → Bool}

theorem hit_of (h : Holds g T z0 M φ ω hit) {p : Site} (hp : g.In p) :
    M.sd (g.bare p) = some (hit p.1 p.2.1 (z0 + p.2.2)) := h.sd _ _ _ hp.1 hp.2.1 hp.2.2

/-- **C72** The array of the velocity.  Whatever the order of the sites, with tables or without,
`buildc_k` ends.  In the padded cell of a site it leaves the rate of change of the phase of the
field, times the factor of the mask, unless the tables were used there or the field vanishes; sites
taken out by the mask get 0 in any case.  No other cell changes. -/
theorem C72_velocity (hg : g.Ok) {order : List Site} (ho : g.Order order) {t : M2} (hr : g.Room t)
    (h : Holds g T z0 M φ ω hit) (P : Par) (hP : P.Full) (k : Mask) (q : Site → ℝ)
    (hq : k = .gaus ∨ k = .diff → ∀ p, g.In p → t (g.v3 + g.bare p) = some (some (q p))) :
    ∃ t', sweep (stepK g k P M) order t = some t' ∧
      (∀ x y z, x < g.L → y < g.L → z < g.Lz →
        Plain P (around g.L T φ x y (z0 + z)) ∧ φ x y (z0 + z) - P.shift ≠ 0 ∨
          Out k (hit x y (z0 + z)) →
        t' (g.pad (x, y, z)) = some (some (maskedRate k P.R (φ x y (z0 + z) - P.shift)
          (hit x y (z0 + z)) (q (x, y, z))
          (phaseRate (φ x y (z0 + z) - P.shift) (ω x y (z0 + z)))))) ∧
      ∀ a, (∀ p, g.In p → a ≠ g.pad p) → t' a = t a := by
  classical
  have hrate : ∀ p : Site, ∃ r, rate P.lut P.pre ((around g.L T φ p.1 p.2.1 (z0 + p.2.2)).c - P.shift)
      (around g.L T φ p.1 p.2.1 (z0 + p.2.2)) (ω p.1 p.2.1 (z0 + p.2.2)) = some r := fun p =>
    rate_some hP _ _
  choose r hr' using hrate
  have hw : ∀ p, g.In p → ∃ x, weigh g k.built P.R 1
      ((around g.L T φ p.1 p.2.1 (z0 + p.2.2)).c - P.shift) M t p (r p) = some x := fun p hp =>
    weigh_some (hit_of h hp) (room_bare2 hg hr hp) _ _ _ _ _
  obtain ⟨t', e1, e2, e3⟩ := one_write hg ho hr (step := stepK g k P M)
    (fun p => (weigh g k.built P.R 1 ((around g.L T φ p.1 p.2.1 (z0 + p.2.2)).c - P.shift) M t p
      (r p)).getD none)
    (by
      intro p hp t1 h1
      obtain ⟨x, hx⟩ := hw p hp
      unfold stepK
      rw [near_spec h hp, show M.v (g.bare p) = some (ω p.1 p.2.1 (z0 + p.2.2)) from
        h.v _ _ _ hp.1 hp.2.1 hp.2.2]
      simp only [Option.bind_eq_bind, Option.bind_some]
      rw [hr' p]
      simp only [Option.bind_some]
      rw [weigh_congr h1, hx]
      rfl)
  refine ⟨t', e1, ?_, e3⟩
  intro x y z hx hy hz hc
  have hp : g.In (x, y, z) := ⟨hx, hy, hz⟩
  rw [e2 _ hp]
  have := site_val (g := g) (t := t) (M := M) (k := k) (q := q (x, y, z)) 1 (hr' (x, y, z)) (hit_of h hp)
    (fun hk => hq hk _ hp) hc
  dsimp only at this ⊢
  rw [this, one_mul]
  rfl

/-- **C72** The array of the gradient along x: the same with half the difference of the two
neighbours over the spacing. -/
theorem C72_gradient_x (hg : g.Ok) {order : List Site} (ho : g.Order order) {t : M2} (hr : g.Room t)
    (h : Holds g T z0 M φ ω hit) (P : Par) (hP : P.Full) (k : Mask) (q : Site → ℝ)
    (hq : k = .gaus ∨ k = .diff → ∀ p, g.In p → t (g.v3 + g.bare p) = some (some (q p))) :
    ∃ t', sweep (stepGX g k P M) order t = some t' ∧
      (∀ x y z, x < g.L → y < g.L → z < g.Lz →
        Plain P (around g.L T φ x y (z0 + z)) ∧ φ x y (z0 + z) - P.shift ≠ 0 ∨
          Out k (hit x y (z0 + z)) →
        t' (g.pad (x, y, z)) = some (some (1 / P.delta / 2 *
          maskedRate k P.R (φ x y (z0 + z) - P.shift) (hit x y (z0 + z)) (q (x, y, z))
          (phaseRate (φ x y (z0 + z) - P.shift)
            (φ ((x + 1) % g.L) y (z0 + z) - φ ((x + g.L - 1) % g.L) y (z0 + z)))))) ∧
      ∀ a, (∀ p, g.In p → a ≠ g.pad p) → t' a = t a := by
  classical
  have hrate : ∀ p : Site, ∃ r, rate P.lut P.pre ((around g.L T φ p.1 p.2.1 (z0 + p.2.2)).c - P.shift)
      (around g.L T φ p.1 p.2.1 (z0 + p.2.2)) ((around g.L T φ p.1 p.2.1 (z0 + p.2.2)).xp -
        (around g.L T φ p.1 p.2.1 (z0 + p.2.2)).xm) = some r := fun p => rate_some hP _ _
  choose r hr' using hrate
  have hw : ∀ p, g.In p → ∃ x, weigh g k.built P.R (1 / P.delta / 2)
      ((around g.L T φ p.1 p.2.1 (z0 + p.2.2)).c - P.shift) M t p (r p) = some x := fun p hp =>
    weigh_some (hit_of h hp) (room_bare2 hg hr hp) _ _ _ _ _
  obtain ⟨t', e1, e2, e3⟩ := one_write hg ho hr (step := stepGX g k P M)
    (fun p => (weigh g k.built P.R (1 / P.delta / 2)
      ((around g.L T φ p.1 p.2.1 (z0 + p.2.2)).c - P.shift) M t p (r p)).getD none)
    (by
      intro p hp t1 h1
      obtain ⟨x, hx⟩ := hw p hp
      unfold stepGX
      rw [near_spec h hp]
      simp only [Option.bind_eq_bind, Option.bind_some]
      rw [hr' p]
      simp only [Option.bind_some]
      rw [weigh_congr h1, hx]
      rfl)
  refine ⟨t', e1, ?_, e3⟩
  intro x y z hx hy hz hc
  have hp : g.In (x, y, z) := ⟨hx, hy, hz⟩
  rw [e2 _ hp]
  have := site_val (g := g) (t := t) (M := M) (k := k) (q := q (x, y, z)) (1 / P.delta / 2)
    (hr' (x, y, z)) (hit_of h hp) (fun hk => hq hk _ hp) hc
  dsimp only at this ⊢
  rw [this]
  rfl

theorem zcell_bounds (hg : g.Ok) (k : Mask) (p : Site) (hp : g.In p) :
    g.v3 ≤ g.zcell k p ∧ g.zcell k p < 2 * g.v3 := by
  have h1 := pad_lt hg p hp
  have h2 := bare_lt hg p hp
  unfold Grid.zcell
  split <;> omega

theorem zcell_inj (k : Mask) (p p' : Site) (hp : g.In p) (hp' : g.In p')
    (h : g.zcell k p = g.zcell k p') : p = p' := by
  unfold Grid.zcell at h
  split at h
  · exact bare_inj p p' hp hp' (by omega)
  · exact pad_inj p p' hp hp' (by omega)

theorem built_diff (k : Mask) : k.built = .diff ↔ k = .gaus ∨ k = .diff := by
  cases k <;> simp [Mask.built]

/-- Steps that depend on the old contents only through the mask. -/
theorem weigh_congr' {t t' : M2} {p : Site} {k : Mask} (h : t' (g.zcell k p) = t (g.zcell k p))
    (R f : ℝ) (w : ℂ) (M : Mem) (r : Val) :
    weigh g k.built R f w M t' p r = weigh g k.built R f w M t p r := by
  by_cases hk : k.built = .diff
  · refine weigh_congr ?_ _ _ _ _ _ _
    simpa [Grid.zcell, hk] using h
  · cases k <;> simp_all [weigh, Mask.built]

/-- **C72** The arrays of the gradients along y and z: the first in the padded cells, the second in
the second half of `m2`. -/
theorem C72_gradient_yz (hg : g.Ok) {order : List Site} (ho : g.Order order) {t : M2} (hr : g.Room t)
    (h : Holds g T z0 M φ ω hit) (P : Par) (hP : P.Full) (k : Mask) (q : Site → ℝ)
    (hq : k = .gaus ∨ k = .diff → ∀ p, g.In p → t (g.v3 + g.bare p) = some (some (q p))) :
    ∃ t', sweep (stepGYZ g k P M) order t = some t' ∧
      (∀ x y z, x < g.L → y < g.L → z < g.Lz →
        Plain P (around g.L T φ x y (z0 + z)) ∧ φ x y (z0 + z) - P.shift ≠ 0 ∨
          Out k (hit x y (z0 + z)) →
        t' (g.pad (x, y, z)) = some (some (1 / P.delta / 2 *
          maskedRate k P.R (φ x y (z0 + z) - P.shift) (hit x y (z0 + z)) (q (x, y, z))
          (phaseRate (φ x y (z0 + z) - P.shift)
            (φ x ((y + 1) % g.L) (z0 + z) - φ x ((y + g.L - 1) % g.L) (z0 + z))))) ∧
        t' (g.zcell k (x, y, z)) = some (some (1 / P.delta / 2 *
          maskedRate k P.R (φ x y (z0 + z) - P.shift) (hit x y (z0 + z)) (q (x, y, z))
          (phaseRate (φ x y (z0 + z) - P.shift)
            (φ x y ((z0 + z + 1) % T) - φ x y ((z0 + z + T - 1) % T)))))) ∧
      ∀ a, (∀ p, g.In p → a ≠ g.pad p ∧ a ≠ g.zcell k p) → t' a = t a := by
  classical
  have hrate : ∀ p : Site, ∃ r, rate P.lut P.pre ((around g.L T φ p.1 p.2.1 (z0 + p.2.2)).c - P.shift)
      (around g.L T φ p.1 p.2.1 (z0 + p.2.2)) ((around g.L T φ p.1 p.2.1 (z0 + p.2.2)).yp -
        (around g.L T φ p.1 p.2.1 (z0 + p.2.2)).ym) = some r := fun p => rate_some hP _ _
  have hrate2 : ∀ p : Site, ∃ r, rate P.lut P.pre ((around g.L T φ p.1 p.2.1 (z0 + p.2.2)).c - P.shift)
      (around g.L T φ p.1 p.2.1 (z0 + p.2.2)) ((around g.L T φ p.1 p.2.1 (z0 + p.2.2)).zp -
        (around g.L T φ p.1 p.2.1 (z0 + p.2.2)).zm) = some r := fun p => rate_some hP _ _
  choose r hr' using hrate
  choose s hs' using hrate2
  have hw : ∀ p, g.In p → ∀ v, ∃ x, weigh g k.built P.R (1 / P.delta / 2)
      ((around g.L T φ p.1 p.2.1 (z0 + p.2.2)).c - P.shift) M t p v = some x := fun p hp v =>
    weigh_some (hit_of h hp) (room_bare2 hg hr hp) _ _ _ _ _
  obtain ⟨t', e1, e2, e3⟩ := two_writes hg ho hr (step := stepGYZ g k P M) (g.zcell k)
    (fun p => (weigh g k.built P.R (1 / P.delta / 2)
      ((around g.L T φ p.1 p.2.1 (z0 + p.2.2)).c - P.shift) M t p (r p)).getD none)
    (fun p => (weigh g k.built P.R (1 / P.delta / 2)
      ((around g.L T φ p.1 p.2.1 (z0 + p.2.2)).c - P.shift) M t p (s p)).getD none)
    (zcell_bounds hg k) (zcell_inj k)
    (by
      intro p hp t1 h1
      obtain ⟨x, hx⟩ := hw p hp (r p)
      obtain ⟨x', hx'⟩ := hw p hp (s p)
      unfold stepGYZ
      rw [near_spec h hp]
      simp only [Option.bind_eq_bind, Option.bind_some]
      rw [hr' p, hs' p]
      simp only [Option.bind_some]
      rw [weigh_congr' h1, weigh_congr' h1, hx, hx']
      rfl)
  refine ⟨t', e1, ?_, e3⟩
  intro x y z hx hy hz hc
  have hp : g.In (x, y, z) := ⟨hx, hy, hz⟩
  have a1 := site_val (g := g) (t := t) (M := M) (k := k) (q := q (x, y, z)) (1 / P.delta / 2)
    (hr' (x, y, z)) (hit_of h hp) (fun hk => hq hk _ hp) hc
  have a2 := site_val (g := g) (t := t) (M := M) (k := k) (q := q (x, y, z)) (1 / P.delta / 2)
    (hs' (x, y, z)) (hit_of h hp) (fun hk => hq hk _ hp) hc
  rw [(e2 _ hp).1, (e2 _ hp).2]
  dsimp only at a1 a2 ⊢
  rw [a1, a2]
  exact ⟨rfl, rfl⟩

/-! ### In terms of the phase -/

/-- **C72** The stored rate is the derivative of the phase: for any modulus `r` and any
continuous choice of the phase `θ`. -/
theorem C72_phase {r θ : ℝ → ℝ} {r' θ' s : ℝ} {u : ℂ} (hr : HasDerivAt r r' s)
    (hθ : HasDerivAt θ θ' s) (h0 : r s ≠ 0)
    (hu : HasDerivAt (fun s => (r s : ℂ) * exp (θ s * I)) u s) :
    phaseRate (r s * exp (θ s * I)) u = θ' := by
  have h1 : HasDerivAt (fun s => (r s : ℂ) * exp (θ s * I))
      ((r' : ℂ) * exp (θ s * I) + r s * (exp (θ s * I) * (θ' * I))) s :=
    hr.ofReal_comp.mul ((hθ.ofReal_comp.mul_const I).cexp)
  rw [hu.unique h1]
  unfold phaseRate
  have hr0 : (r s : ℂ) ≠ 0 := by exact_mod_cast h0
  rw [show ((r' : ℂ) * exp (θ s * I) + r s * (exp (θ s * I) * (θ' * I))) / (r s * exp (θ s * I)) =
    ((r' / r s : ℝ) : ℂ) + θ' * I by
      push_cast
      field_simp [exp_ne_zero]]
  simp

theorem exp_div_im (a b : ℝ) : (exp (a * I) / exp (b * I)).im = Real.sin (a - b) := by
  rw [← exp_sub, ← sub_mul, ← ofReal_sub, exp_ofReal_mul_I_im]

/-- **C72** Where the three moduli agree, the central difference stores the sines of the phase
differences. -/
theorem C72_central (r α β γ : ℝ) (hr : r ≠ 0) :
    phaseRate (r * exp (γ * I)) (r * exp (α * I) - r * exp (β * I)) =
      Real.sin (α - γ) + Real.sin (γ - β) := by
  unfold phaseRate
  have hr0 : (r : ℂ) ≠ 0 := by exact_mod_cast hr
  rw [← mul_sub, mul_div_mul_left _ _ hr0, sub_div, sub_im, exp_div_im, exp_div_im,
    ← neg_sub γ β, Real.sin_neg, sub_neg_eq_add]

/-- **C72** Where the two moduli agree, the old gradient stores twice the tangent of half the phase
difference. -/
theorem C72_forward (s : ℂ) (r α γ : ℝ) (hr : r ≠ 0) (hc : Real.cos ((α - γ) / 2) ≠ 0) :
    slope s (s + r * exp (α * I)) (s + r * exp (γ * I)) = some (2 * Real.tan ((α - γ) / 2)) := by
  have hr0 : (r : ℂ) ≠ 0 := by exact_mod_cast hr
  have ea : exp (α * I) = exp (((α + γ) / 2 : ℝ) * I) * exp (((α - γ) / 2 : ℝ) * I) := by
    rw [← exp_add]; congr 1; push_cast; ring
  have eg : exp (γ * I) = exp (((α + γ) / 2 : ℝ) * I) * exp ((-((α - γ) / 2) : ℝ) * I) := by
    rw [← exp_add]; congr 1; push_cast; ring
  have hsum : s + r * exp (α * I) + (s + r * exp (γ * I)) - s - s =
      r * exp (((α + γ) / 2 : ℝ) * I) * (2 * Real.cos ((α - γ) / 2) : ℝ) := by
    rw [ea, eg]
    generalize (α - γ) / 2 = η
    have : exp ((η : ℝ) * I) + exp ((-η : ℝ) * I) = ((2 * Real.cos η : ℝ) : ℂ) := by
      apply Complex.ext <;>
        simp only [add_re, add_im, exp_ofReal_mul_I_re, exp_ofReal_mul_I_im, ofReal_re, ofReal_im,
          Real.cos_neg, Real.sin_neg] <;> ring
    rw [← this]; ring
  have hdiff : s + r * exp (α * I) - (s + r * exp (γ * I)) =
      r * exp (((α + γ) / 2 : ℝ) * I) * ((2 * Real.sin ((α - γ) / 2) : ℝ) * I) := by
    rw [ea, eg]
    generalize (α - γ) / 2 = η
    have : exp ((η : ℝ) * I) - exp ((-η : ℝ) * I) = ((2 * Real.sin η : ℝ) : ℂ) * I := by
      apply Complex.ext <;>
        simp only [sub_re, sub_im, exp_ofReal_mul_I_re, exp_ofReal_mul_I_im, ofReal_re, ofReal_im,
          Real.cos_neg, Real.sin_neg, mul_re, mul_im, I_re, I_im] <;> ring
    rw [← this]; ring
  have hne : (r : ℂ) * exp (((α + γ) / 2 : ℝ) * I) ≠ 0 := mul_ne_zero hr0 (exp_ne_zero _)
  have h2 : ((2 * Real.cos ((α - γ) / 2) : ℝ) : ℂ) ≠ 0 := by
    exact_mod_cast mul_ne_zero two_ne_zero hc
  unfold slope
  rw [hsum, if_neg (mul_ne_zero hne h2), hdiff, mul_div_mul_left _ _ hne]
  congr 2
  rw [mul_div_right_comm, ← ofReal_div, im_ofReal_mul, I_im, mul_one, Real.tan_eq_sin_div_cos,
    mul_div_mul_left _ _ two_ne_zero]

end Jaxions.AxSpec
