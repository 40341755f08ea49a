import Verif.Lemmas.SmoothFourierRun
import Verif.Props.SpectrumTotal
import Mathlib.Analysis.Calculus.Deriv.MeanValue
import Mathlib.Analysis.SpecialFunctions.Trigonometric.Deriv
import Mathlib.Analysis.SpecialFunctions.Trigonometric.Bounds
import Mathlib.Analysis.Real.Pi.Bounds
/-
**C85** Smoothing of the energy map in Fourier space: what the smoothed density has in common with the
density.
-/
namespace Jaxions.SmoothF

open Finset Gravity

/-! ### The windows -/

theorem window_zero (f : Filter) : window f 0 = 1 := by
  cases f <;> simp [window]

theorem hat_upper {q : ℝ} (hq : 0 ≤ q) : Real.sin q - q * Real.cos q ≤ q ^ 3 / 3 := by
  have hd : ∀ x : ℝ, HasDerivAt (fun x : ℝ => x ^ 3 / 3 - (Real.sin x - x * Real.cos x))
      (x ^ 2 - x * Real.sin x) x := by
    intro x
    refine ((((hasDerivAt_id x).pow 3).div_const 3).sub ((Real.hasDerivAt_sin x).sub
      ((hasDerivAt_id x).mul (Real.hasDerivAt_cos x)))).congr_deriv ?_
    simp only [id, Nat.cast_ofNat]
    ring
  have hm : MonotoneOn (fun x : ℝ => x ^ 3 / 3 - (Real.sin x - x * Real.cos x)) (Set.Ici 0) := by
    refine monotoneOn_of_deriv_nonneg (convex_Ici 0)
      (fun x _ => (hd x).continuousAt.continuousWithinAt)
      (fun x _ => (hd x).differentiableAt.differentiableWithinAt) fun x hx => ?_
    rw [interior_Ici] at hx
    have hx' : 0 < x := hx
    rw [(hd x).deriv]
    have := Real.sin_le hx'.le
    nlinarith
  have := hm (Set.mem_Ici.2 le_rfl) (Set.mem_Ici.2 hq) hq
  simp at this
  linarith

theorem hat_lower {q : ℝ} (hq : 0 ≤ q) : -(q ^ 3 / 3) ≤ Real.sin q - q * Real.cos q := by
  have hd : ∀ x : ℝ, HasDerivAt (fun x : ℝ => x ^ 3 / 3 + (Real.sin x - x * Real.cos x))
      (x ^ 2 + x * Real.sin x) x := by
    intro x
    refine ((((hasDerivAt_id x).pow 3).div_const 3).add ((Real.hasDerivAt_sin x).sub
      ((hasDerivAt_id x).mul (Real.hasDerivAt_cos x)))).congr_deriv ?_
    simp only [id, Nat.cast_ofNat]
    ring
  have hm : MonotoneOn (fun x : ℝ => x ^ 3 / 3 + (Real.sin x - x * Real.cos x)) (Set.Ici 0) := by
    refine monotoneOn_of_deriv_nonneg (convex_Ici 0)
      (fun x _ => (hd x).continuousAt.continuousWithinAt)
      (fun x _ => (hd x).differentiableAt.differentiableWithinAt) fun x hx => ?_
    rw [interior_Ici] at hx
    have hx' : 0 < x := hx
    rw [(hd x).deriv]
    have : -x ≤ Real.sin x := by
      have h1 := Real.abs_sin_lt_abs hx'.ne'
      rw [abs_of_pos hx'] at h1
      exact (abs_lt.1 h1).1.le
    nlinarith
  have := hm (Set.mem_Ici.2 le_rfl) (Set.mem_Ici.2 hq) hq
  simp at this
  linarith

/-- No window raises an amplitude. -/
theorem window_le (f : Filter) {q : ℝ} (hq : 0 ≤ q) : |window f q| ≤ 1 := by
  cases f with
  | gauss =>
    unfold window
    dsimp only
    rw [abs_of_pos (Real.exp_pos _), Real.exp_le_one_iff]
    have := sq_nonneg q
    linarith
  | tophat =>
    unfold window
    dsimp only
    by_cases h : q = 0
    · rw [if_pos h, abs_one]
    · rw [if_neg h]
      have hpos : 0 < q ^ 3 := pow_pos (lt_of_le_of_ne hq (Ne.symm h)) 3
      have h1 := hat_upper hq
      have h2 := hat_lower hq
      rw [abs_le]
      constructor
      · rw [le_div_iff₀ hpos]; linarith
      · rw [div_le_iff₀ hpos]; linarith
  | sharpk =>
    unfold window
    dsimp only
    split <;> simp

section
variable {L T : ℕ} [NeZero L] [NeZero T]

theorem sites_ne : (L * L * T : ℂ) ≠ 0 :=
  mul_ne_zero (mul_ne_zero (Nat.cast_ne_zero.2 (NeZero.ne L)) (Nat.cast_ne_zero.2 (NeZero.ne L)))
    (Nat.cast_ne_zero.2 (NeZero.ne T))

/-- C85.  The transform of the smoothed density is that of the density times the window. -/
theorem C85_transform (k0 : ℝ) (f : Filter) (R : ℝ) (ρ : Torus L T → ℝ) (k : Torus L T) :
    dft (fun x => (smoothed k0 f R ρ x : ℂ)) k =
      (window f (k0 * Real.sqrt (ksq k) * R) : ℂ) * dft (fun x => (ρ x : ℂ)) k := by
  have e : (fun x => (smoothed k0 f R ρ x : ℂ)) = synth (amp k0 f R ρ) := funext fun x => synth_amp k0 f R ρ x
  rw [e, dft_synth]
  unfold amp
  have := sites_ne (L := L) (T := T)
  push_cast
  generalize (L * L * T : ℂ) = N at this
  field_simp

/-- Densities with the same transform are the same. -/
theorem dft_inj {ρ σ : Torus L T → ℝ}
    (h : ∀ k, dft (fun x => (ρ x : ℂ)) k = dft (fun x => (σ x : ℂ)) k) : ρ = σ := by
  funext x
  have h1 := synth_dft (fun y => (ρ y : ℂ)) x
  have h2 := synth_dft (fun y => (σ y : ℂ)) x
  rw [show dft (fun y => (ρ y : ℂ)) = dft fun y => (σ y : ℂ) from funext h, h2] at h1
  exact_mod_cast (mul_left_cancel₀ sites_ne h1).symm

/-- C85.  The mean of the density is kept. -/
theorem C85_mean (k0 : ℝ) (f : Filter) (R : ℝ) (ρ : Torus L T → ℝ) :
    ∑ x, smoothed k0 f R ρ x = ∑ x, ρ x := by
  have h := C85_transform k0 f R ρ 0
  have e : ksq (0 : Torus L T) = 0 := by simp [ksq, signed]
  rw [e] at h
  simp only [Int.cast_zero, Real.sqrt_zero, mul_zero, zero_mul, window_zero, Complex.ofReal_one, one_mul] at h
  simp only [dft, neg_zero, wave_zero, mul_one] at h
  exact_mod_cast h

/-- C85.  A length of zero changes nothing. -/
theorem C85_zero (k0 : ℝ) (f : Filter) (ρ : Torus L T → ℝ) : smoothed k0 f 0 ρ = ρ :=
  dft_inj fun k => by rw [C85_transform, mul_zero, window_zero, Complex.ofReal_one, one_mul]

/-- C85.  A uniform density stays as it is. -/
theorem C85_uniform (k0 : ℝ) (f : Filter) (R c : ℝ) : smoothed k0 f R (fun _ : Torus L T => c) = fun _ => c := by
  refine dft_inj fun k => ?_
  rw [C85_transform]
  by_cases hk : k = 0
  · have e : ksq (0 : Torus L T) = 0 := by simp [ksq, signed]
    rw [hk, e]
    simp [window_zero]
  · have e : dft (fun _ : Torus L T => (c : ℂ)) k = 0 := by
      unfold dft
      rw [← mul_sum, wave_sum, if_neg (by simpa using hk), mul_zero]
    rw [e, mul_zero]

/-- C85.  Smoothing never raises the sum of the squares. -/
theorem C85_squares {k0 R : ℝ} (hk0 : 0 ≤ k0) (hR : 0 ≤ R) (f : Filter) (ρ : Torus L T → ℝ) :
    ∑ x, smoothed k0 f R ρ x ^ 2 ≤ ∑ x, ρ x ^ 2 := by
  have h1 := Spectrum.parseval (smoothed k0 f R ρ)
  have h2 := Spectrum.parseval ρ
  have hN : (0 : ℝ) < L * L * T := by
    have := Nat.pos_of_ne_zero (NeZero.ne L)
    have := Nat.pos_of_ne_zero (NeZero.ne T)
    positivity
  refine le_of_mul_le_mul_left ?_ hN
  rw [← h1, ← h2]
  refine sum_le_sum fun k _ => ?_
  rw [C85_transform, norm_mul, Complex.norm_real, Real.norm_eq_abs]
  have hw := window_le f (mul_nonneg (mul_nonneg hk0 (Real.sqrt_nonneg (ksq k))) hR)
  refine pow_le_pow_left₀ (by positivity) ?_ 2
  exact mul_le_of_le_one_left (norm_nonneg _) hw

/-- C85.  Nor the variance. -/
theorem C85_variance {k0 R : ℝ} (hk0 : 0 ≤ k0) (hR : 0 ≤ R) (f : Filter) (ρ : Torus L T → ℝ) (m : ℝ) :
    ∑ x, (smoothed k0 f R ρ x - m) ^ 2 ≤ ∑ x, (ρ x - m) ^ 2 := by
  have h1 := C85_squares hk0 hR f ρ
  have h2 := C85_mean k0 f R ρ
  have e : ∀ σ : Torus L T → ℝ, ∑ x, (σ x - m) ^ 2 = ∑ x, σ x ^ 2 - 2 * m * ∑ x, σ x + ∑ _x : Torus L T, m ^ 2 := by
    intro σ
    rw [mul_sum, ← sum_sub_distrib, ← sum_add_distrib]
    exact sum_congr rfl fun x _ => by ring
  rw [e, e, h2]
  linarith

/-- C85.  Filters one after the other, in either order. -/
theorem C85_commute (k0 : ℝ) (f f' : Filter) (R R' : ℝ) (ρ : Torus L T → ℝ) :
    smoothed k0 f R (smoothed k0 f' R' ρ) = smoothed k0 f' R' (smoothed k0 f R ρ) :=
  dft_inj fun k => by simp only [C85_transform]; ring

/-- C85.  Two Gaussians are one: the squares of the lengths add. -/
theorem C85_gauss (k0 a b : ℝ) (ρ : Torus L T → ℝ) :
    smoothed k0 .gauss b (smoothed k0 .gauss a ρ) = smoothed k0 .gauss (Real.sqrt (a ^ 2 + b ^ 2)) ρ := by
  refine dft_inj fun k => ?_
  simp only [C85_transform]
  rw [← mul_assoc, ← Complex.ofReal_mul]
  congr 2
  unfold window
  dsimp only
  rw [← Real.exp_add]
  congr 1
  have := Real.sq_sqrt (show 0 ≤ a ^ 2 + b ^ 2 by positivity)
  rw [mul_pow _ (Real.sqrt (a ^ 2 + b ^ 2)), this]
  ring

/-- C85.  Of two sharp cuts the longer length counts. -/
theorem C85_sharp {k0 : ℝ} (hk0 : 0 ≤ k0) (a b : ℝ) (ρ : Torus L T → ℝ) :
    smoothed k0 .sharpk b (smoothed k0 .sharpk a ρ) = smoothed k0 .sharpk (max a b) ρ := by
  refine dft_inj fun k => ?_
  simp only [C85_transform]
  rw [← mul_assoc, ← Complex.ofReal_mul]
  congr 2
  have hq : 0 ≤ k0 * Real.sqrt (ksq k) := mul_nonneg hk0 (Real.sqrt_nonneg _)
  unfold window
  dsimp only
  generalize k0 * Real.sqrt (ksq k) = q at hq
  rw [mul_max_of_nonneg _ _ hq]
  by_cases h1 : 1 < q * a <;> by_cases h2 : 1 < q * b <;> simp [h1, h2]

/-- C85.  The smoothed density is an average of the density with weights that depend on the distance:
the weights are the smoothed density of a single site. -/
theorem C85_average (k0 : ℝ) (f : Filter) (R : ℝ) (ρ : Torus L T → ℝ) (x : Torus L T) :
    smoothed k0 f R ρ x =
      ∑ y, ρ y * smoothed k0 f R (fun z : Torus L T => if z = 0 then 1 else 0) (x - y) := by
  have e : ((smoothed k0 f R ρ x : ℝ) : ℂ) = ((∑ y, ρ y *
      smoothed k0 f R (fun z : Torus L T => if z = 0 then 1 else 0) (x - y) : ℝ) : ℂ) := by
    push_cast
    simp only [synth_amp]
    have hδ : ∀ k : Torus L T, dft (fun z : Torus L T => (((if z = 0 then 1 else 0 : ℝ)) : ℂ)) k = 1 := by
      intro k
      unfold dft
      rw [sum_eq_single 0]
      · rw [wave_comm, wave_zero]; simp
      · intro y _ hy
        simp [hy]
      · simp
    unfold synth amp
    simp only [hδ, mul_one]
    simp only [mul_sum]
    rw [sum_comm]
    refine sum_congr rfl fun k _ => ?_
    unfold dft
    rw [mul_sum, sum_mul]
    refine sum_congr rfl fun y _ => ?_
    rw [wave_comm k (x - y), sub_eq_add_neg, wave_add, wave_comm x k, wave_comm (-y) k, wave_neg_right]
    ring
  exact_mod_cast e

/-- C85.  The weights add up to one. -/
theorem C85_weights (k0 : ℝ) (f : Filter) (R : ℝ) :
    ∑ x, smoothed k0 f R (fun z : Torus L T => if z = 0 then 1 else 0) x = 1 := by
  rw [C85_mean]
  simp

end

/-! ### Negative densities -/

/-- A wall: one layer of a hundred times the density of the rest. -/
noncomputable def wall (T : ℕ) (x : Torus 4 T) : ℝ := if x.1 = 0 then 101 else 1

theorem wall_pos (T : ℕ) (x : Torus 4 T) : 1 ≤ wall T x := by
  unfold wall
  split <;> norm_num

/-- Amplitudes of the wall. -/
noncomputable def wallAmp (T : ℕ) (k : Torus 4 T) : ℂ := if k.2 = 0 then (if k.1 = 0 then 26 else 25) else 0

theorem sum_line {T : ℕ} [NeZero T] (F : Torus 4 T → ℂ) (hF : ∀ k, k.2 ≠ 0 → F k = 0) :
    ∑ k, F k = F (0, 0) + F (1, 0) + F (2, 0) + F (3, 0) := by
  rw [Fintype.sum_prod_type]
  have e : ∀ a : ZMod 4, ∑ q : ZMod 4 × ZMod T, F (a, q) = F (a, 0) := by
    intro a
    rw [sum_eq_single 0]
    · intro q _ hq; exact hF _ hq
    · simp
  simp only [e]
  exact Fin.sum_univ_four (fun a : ZMod 4 => F (a, 0))

theorem wave_line {T : ℕ} [NeZero T] (a : ZMod 4) (x : Torus 4 T) :
    wave ((a, 0) : Torus 4 T) x = ZMod.stdAddChar (a * x.1) := by
  simp [wave]

theorem wall_synth {T : ℕ} [NeZero T] (x : Torus 4 T) : (wall T x : ℂ) = synth (wallAmp T) x := by
  unfold synth
  rw [sum_line _ fun k hk => by rw [wallAmp, if_neg hk, zero_mul]]
  simp only [wave_line]
  have h := std_sum x.1
  have hs : (∑ y : ZMod 4, (ZMod.stdAddChar (x.1 * y) : ℂ)) = ZMod.stdAddChar (x.1 * 0) +
      ZMod.stdAddChar (x.1 * 1) + ZMod.stdAddChar (x.1 * 2) + ZMod.stdAddChar (x.1 * 3) :=
    Fin.sum_univ_four (fun y : ZMod 4 => (ZMod.stdAddChar (x.1 * y) : ℂ))
  rw [hs] at h
  have n1 : (1 : ZMod 4) ≠ 0 := by decide
  have n2 : (2 : ZMod 4) ≠ 0 := by decide
  have n3 : (3 : ZMod 4) ≠ 0 := by decide
  simp only [wallAmp, if_true, if_neg n1, if_neg n2, if_neg n3]
  simp only [mul_comm x.1] at h
  have h0 : (ZMod.stdAddChar ((0 : ZMod 4) * x.1) : ℂ) = 1 := by simp
  rw [h0] at h ⊢
  unfold wall
  by_cases hx : x.1 = 0
  · rw [if_pos hx] at h ⊢
    push_cast at h ⊢
    linear_combination (-25 : ℂ) * h
  · rw [if_neg hx] at h ⊢
    push_cast
    linear_combination (-25 : ℂ) * h

theorem std_two : (ZMod.stdAddChar (2 : ZMod 4) : ℂ) = -1 := by
  have := ZMod.stdAddChar_coe (N := 4) 2
  rw [show ((2 : ℤ) : ZMod 4) = 2 by decide] at this
  rw [this]
  have e : (2 * Real.pi * Complex.I * ((2 : ℤ) : ℂ) / ((4 : ℕ) : ℂ)) = Real.pi * Complex.I := by
    push_cast; ring
  rw [e, Complex.exp_pi_mul_I]

/-- C85.  Smoothing with the top hat of the measurement over the distance of two sites can make a
positive density negative.  The measurement takes the logarithm of the result
(/repo/lib/meas/measa.cpp:352-353). -/
theorem C85_not_positive {T : ℕ} [NeZero T] {ℓ : ℝ} (hℓ : 0 < ℓ) :
    (∀ x, 1 ≤ wall T x) ∧ smoothed (2 * Real.pi / ℓ) .tophat (ℓ / 4) (wall T) ((2, 0) : Torus 4 T) < 0 := by
  refine ⟨wall_pos T, ?_⟩
  have hN := sites_ne (L := 4) (T := T)
  have hA : ∀ k, amp (2 * Real.pi / ℓ) .tophat (ℓ / 4) (wall T) k =
      (window .tophat (Real.pi / 2 * Real.sqrt (ksq k)) : ℂ) * wallAmp T k := by
    intro k
    have e : (fun y : Torus 4 T => (wall T y : ℂ)) = synth (wallAmp T) := funext wall_synth
    have e2 : 2 * Real.pi / ℓ * Real.sqrt (ksq k) * (ℓ / 4) = Real.pi / 2 * Real.sqrt (ksq k) := by
      field_simp; ring
    unfold amp
    rw [e, dft_synth, e2]
    have hc : ((1 / ((4 * 4 * T : ℕ) : ℝ) : ℝ) : ℂ) * ((4 : ℕ) * (4 : ℕ) * T : ℂ) = 1 := by
      rw [show ((1 / ((4 * 4 * T : ℕ) : ℝ) : ℝ) : ℂ) = ((4 : ℕ) * (4 : ℕ) * T : ℂ)⁻¹ by push_cast; rw [one_div]; norm_num]
      exact inv_mul_cancel₀ hN
    rw [Complex.ofReal_mul]
    linear_combination ((window .tophat (Real.pi / 2 * Real.sqrt (ksq k)) : ℂ) * wallAmp T k) * hc
  have h := synth_amp (2 * Real.pi / ℓ) .tophat (ℓ / 4) (wall T) ((2, 0) : Torus 4 T)
  unfold synth at h
  rw [sum_line _ fun k hk => by rw [hA, wallAmp, if_neg hk, mul_zero, zero_mul]] at h
  simp only [hA, wave_line] at h
  have z : (0 : ZMod T).val = 0 := ZMod.val_zero
  have k0 : ksq ((0, 0) : Torus 4 T) = 0 := by simp [ksq, signed]
  have k1 : ksq ((1, 0) : Torus 4 T) = 1 := by
    have : signed (1 : ZMod 4) = 1 := by decide
    unfold ksq
    rw [this]
    simp [signed]
  have k2 : ksq ((2, 0) : Torus 4 T) = 4 := by
    have : signed (2 : ZMod 4) = 2 := by decide
    unfold ksq
    rw [this]
    simp [signed]
  have k3 : ksq ((3, 0) : Torus 4 T) = 1 := by
    have : signed (3 : ZMod 4) = -1 := by decide
    unfold ksq
    rw [this]
    simp [signed]
  have n1 : (1 : ZMod 4) ≠ 0 := by decide
  have n2 : (2 : ZMod 4) ≠ 0 := by decide
  have n3 : (3 : ZMod 4) ≠ 0 := by decide
  have hpi := Real.pi_pos
  have s1 : Real.sqrt 1 = 1 := Real.sqrt_one
  have s4 : Real.sqrt 4 = 2 := by rw [show (4 : ℝ) = 2 ^ 2 by norm_num]; exact Real.sqrt_sq zero_le_two
  have w1 : window .tophat (Real.pi / 2) = 24 / Real.pi ^ 3 := by
    unfold window
    dsimp only
    rw [if_neg (by positivity), Real.sin_pi_div_two, Real.cos_pi_div_two]
    field_simp; norm_num
  have w2 : window .tophat Real.pi = 3 / Real.pi ^ 2 := by
    unfold window
    dsimp only
    rw [if_neg (by positivity), Real.sin_pi, Real.cos_pi]
    field_simp; ring
  rw [k0, k1, k2, k3] at h
  simp only [Int.cast_zero, Int.cast_one, Int.cast_ofNat, Real.sqrt_zero, s1, s4, mul_zero, mul_one,
    window_zero] at h
  rw [show Real.pi / 2 * 2 = Real.pi by ring, w1, w2] at h
  simp only [wallAmp, if_true, if_neg n1, if_neg n2, if_neg n3] at h
  rw [show (0 : ZMod 4) * 2 = 0 by decide, show (1 : ZMod 4) * 2 = 2 by decide,
    show (2 : ZMod 4) * 2 = 0 by decide, show (3 : ZMod 4) * 2 = 2 by decide, std_two] at h
  have e0 : (ZMod.stdAddChar (0 : ZMod 4) : ℂ) = 1 := by simp
  rw [e0] at h
  have hr : smoothed (2 * Real.pi / ℓ) .tophat (ℓ / 4) (wall T) ((2, 0) : Torus 4 T) =
      26 - 50 * (24 / Real.pi ^ 3) + 25 * (3 / Real.pi ^ 2) := by
    have : ((smoothed (2 * Real.pi / ℓ) .tophat (ℓ / 4) (wall T) ((2, 0) : Torus 4 T) : ℝ) : ℂ) =
        ((26 - 50 * (24 / Real.pi ^ 3) + 25 * (3 / Real.pi ^ 2) : ℝ) : ℂ) := by
      rw [h]; push_cast; ring
    exact_mod_cast this
  rw [hr]
  have h3 : Real.pi < 3.15 := Real.pi_lt_d2
  have hp : 26 * Real.pi ^ 3 + 75 * Real.pi < 1200 := by
    have : Real.pi ^ 3 ≤ 3.15 ^ 3 := pow_le_pow_left₀ hpi.le h3.le 3
    nlinarith
  have e : 26 - 50 * (24 / Real.pi ^ 3) + 25 * (3 / Real.pi ^ 2) =
      (26 * Real.pi ^ 3 + 75 * Real.pi - 1200) / Real.pi ^ 3 := by
    field_simp; ring
  rw [e]
  exact div_neg_of_neg_of_pos (by linarith) (by positivity)

/-! ### Cases -/

example : ∑ x, smoothed 1 .tophat 2 (wall 4) x = ∑ x, wall 4 x ∧ wall 4 (0, 0) ≠ wall 4 (1, 0) := by
  refine ⟨C85_mean 1 .tophat 2 (wall 4), ?_⟩
  unfold wall
  rw [if_pos rfl, if_neg (by decide)]
  norm_num

example : ∑ x, (smoothed 1 .gauss 2 (wall 4) x - 26) ^ 2 ≤ ∑ x, (wall 4 x - 26) ^ 2 :=
  C85_variance zero_le_one zero_le_two .gauss (wall 4) 26

example : smoothed 1 .gauss 4 (smoothed 1 .gauss 3 (wall 4)) = smoothed 1 .gauss 5 (wall 4) := by
  rw [C85_gauss, show (3 : ℝ) ^ 2 + 4 ^ 2 = 5 ^ 2 by norm_num, Real.sqrt_sq (by norm_num)]

example : smoothed 1 .sharpk 4 (smoothed 1 .sharpk 3 (wall 4)) = smoothed 1 .sharpk 4 (wall 4) := by
  rw [C85_sharp zero_le_one, max_eq_right (by norm_num)]

end Jaxions.SmoothF
