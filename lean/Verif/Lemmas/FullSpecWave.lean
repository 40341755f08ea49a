import Verif.Spec.FullSpec
import Verif.Lemmas.Gravity
import Mathlib.Analysis.SpecialFunctions.Trigonometric.Deriv
import Mathlib.Analysis.SpecialFunctions.Sqrt
import Mathlib.Analysis.Calculus.MeanValue
/-
Helper lemmas for C83: the solution of the wave equation by modes, and its uniqueness.
-/
namespace Jaxions.FullSpec

open Gravity Finset

variable {L T : ℕ} [NeZero L] [NeZero T]

/-- A mode with frequency `p` after a time `t`, and its velocity; `I` and `J` are the integrals of the
source, which acts if `p = 0`. -/
noncomputable def osc (p : ℝ) (I J : ℝ → ℝ) (a b : ℂ) (t : ℝ) : ℂ × ℂ :=
  if p = 0 then (a + b * (t : ℂ) + (J t : ℂ), b + (I t : ℂ)) else
    (a * (Real.cos (p * t) : ℂ) + b / (p : ℂ) * (Real.sin (p * t) : ℂ),
      (b / (p : ℂ) * (Real.cos (p * t) : ℂ) - a * (Real.sin (p * t) : ℂ)) * (p : ℂ))

theorem deriv_cos (p t : ℝ) :
    HasDerivAt (fun t : ℝ => (Real.cos (p * t) : ℂ)) ((-(Real.sin (p * t)) * p : ℝ) : ℂ) t := by
  have h := ((Real.hasDerivAt_cos (p * t)).comp t ((hasDerivAt_id t).const_mul p)).ofReal_comp
  simpa using h

theorem deriv_sin (p t : ℝ) :
    HasDerivAt (fun t : ℝ => (Real.sin (p * t) : ℂ)) ((Real.cos (p * t) * p : ℝ) : ℂ) t := by
  have h := ((Real.hasDerivAt_sin (p * t)).comp t ((hasDerivAt_id t).const_mul p)).ofReal_comp
  simpa using h

theorem osc_fst {p : ℝ} {I J : ℝ → ℝ} (hJ : ∀ t, HasDerivAt J (I t) t) (a b : ℂ) (t : ℝ) :
    HasDerivAt (fun t => (osc p I J a b t).1) (osc p I J a b t).2 t := by
  unfold osc
  by_cases hp : p = 0
  · simp only [if_pos hp]
    have h1 : HasDerivAt (fun t : ℝ => (t : ℂ)) ((1 : ℝ) : ℂ) t := (hasDerivAt_id t).ofReal_comp
    refine (((h1.const_mul b).const_add a).add (hJ t).ofReal_comp).congr_deriv ?_
    simp
  · simp only [if_neg hp]
    have hc : (p : ℂ) ≠ 0 := Complex.ofReal_ne_zero.2 hp
    refine (((deriv_cos p t).const_mul a).add ((deriv_sin p t).const_mul (b / (p : ℂ)))).congr_deriv ?_
    push_cast
    ring

theorem osc_snd {p : ℝ} {q I J : ℝ → ℝ} (hI : ∀ t, HasDerivAt I (q t) t) (a b : ℂ) (t : ℝ) :
    HasDerivAt (fun t => (osc p I J a b t).2)
      (-(p : ℂ) ^ 2 * (osc p I J a b t).1 + if p = 0 then (q t : ℂ) else 0) t := by
  unfold osc
  by_cases hp : p = 0
  · simp only [if_pos hp]
    refine ((hI t).ofReal_comp.const_add b).congr_deriv ?_
    rw [hp]
    simp
  · simp only [if_neg hp]
    have hc : (p : ℂ) ≠ 0 := Complex.ofReal_ne_zero.2 hp
    refine ((((deriv_cos p t).const_mul (b / (p : ℂ))).sub ((deriv_sin p t).const_mul a)).mul_const
      (p : ℂ)).congr_deriv ?_
    push_cast
    ring

theorem osc_zero {p : ℝ} {I J : ℝ → ℝ} (hI : I 0 = 0) (hJ : J 0 = 0) (a b : ℂ) :
    osc p I J a b 0 = (a, b) := by
  unfold osc
  by_cases hp : p = 0
  · rw [if_pos hp, hI, hJ]; simp
  · have hc : (p : ℂ) ≠ 0 := Complex.ofReal_ne_zero.2 hp
    rw [if_neg hp]
    simp [hc]

theorem osc_conj (p : ℝ) (I J : ℝ → ℝ) (a b : ℂ) (t : ℝ) :
    osc p I J (starRingEnd ℂ a) (starRingEnd ℂ b) t =
      (starRingEnd ℂ (osc p I J a b t).1, starRingEnd ℂ (osc p I J a b t).2) := by
  unfold osc
  by_cases hp : p = 0
  · simp only [if_pos hp, map_add, map_mul, Complex.conj_ofReal]
  · simp only [if_neg hp, map_add, map_sub, map_mul, map_div₀, Complex.conj_ofReal]

/-- The frequency of a mode. -/
noncomputable def freq (k₀ : ℝ) (k : Torus L T) : ℝ := k₀ * Real.sqrt (ksq k : ℝ)

omit [NeZero L] [NeZero T] in
theorem ksq_nonneg (k : Torus L T) : (0 : ℝ) ≤ (ksq k : ℝ) := by
  have : 0 ≤ ksq k := by unfold ksq; positivity
  exact_mod_cast this

omit [NeZero L] [NeZero T] in
theorem freq_sq (k₀ : ℝ) (k : Torus L T) : freq k₀ k ^ 2 = k₀ ^ 2 * ksq k := by
  unfold freq
  rw [mul_pow, Real.sq_sqrt (ksq_nonneg k)]

theorem freq_eq_zero {k₀ : ℝ} (hk : k₀ ≠ 0) (k : Torus L T) : freq k₀ k = 0 ↔ k = 0 := by
  unfold freq
  rw [mul_eq_zero, or_iff_right hk, Real.sqrt_eq_zero (ksq_nonneg k), Int.cast_eq_zero, ksq_eq_zero]

theorem lapS_synth (k₀ : ℝ) (A : Torus L T → ℂ) (x : Torus L T) :
    lapS k₀ (synth A) x = synth (fun k => -((freq k₀ k : ℝ) : ℂ) ^ 2 * A k) x := by
  have hN := card_ne (L := L) (T := T)
  unfold lapS
  simp only [dft_synth]
  rw [mul_sum]
  unfold synth
  refine sum_congr rfl fun k _ => ?_
  have h : ((freq k₀ k : ℝ) : ℂ) ^ 2 = (k₀ : ℂ) ^ 2 * (ksq k : ℂ) := by exact_mod_cast freq_sq k₀ k
  dsimp only
  rw [h]
  generalize (L * L * T : ℂ) = N at hN ⊢
  field_simp

theorem synth_add (A B : Torus L T → ℂ) (x : Torus L T) :
    synth (fun k => A k + B k) x = synth A x + synth B x := by
  unfold synth
  rw [← sum_add_distrib]
  exact sum_congr rfl fun k _ => by ring

theorem synth_delta (c : ℂ) (x : Torus L T) : synth (fun k => if k = 0 then c else 0) x = c := by
  unfold synth
  rw [sum_eq_single 0]
  · dsimp only; rw [if_pos rfl, wave_zero, mul_one]
  · intro k _ hk; dsimp only; rw [if_neg hk, zero_mul]
  · intro h; exact absurd (mem_univ _) h

theorem synth_deriv {A A' : ℝ → Torus L T → ℂ} {t : ℝ}
    (h : ∀ k, HasDerivAt (fun t => A t k) (A' t k) t) (x : Torus L T) :
    HasDerivAt (fun t => synth (A t) x) (synth (A' t) x) t := by
  unfold synth
  exact HasDerivAt.fun_sum fun k _ => (h k).mul_const _

/-- The field at the time `t` of the solution that starts with the amplitudes `A` and `B`. -/
noncomputable def sol (k₀ : ℝ) (I J : ℝ → ℝ) (A B : Torus L T → ℂ) (t : ℝ) (k : Torus L T) : ℂ × ℂ :=
  osc (freq k₀ k) I J (A k) (B k) t

section
variable {k₀ : ℝ} {q I J : ℝ → ℝ} (A B : Torus L T → ℂ)

theorem sol_fst (hJ : ∀ t, HasDerivAt J (I t) t) (t : ℝ) (x : Torus L T) :
    HasDerivAt (fun t => synth (fun k => (sol k₀ I J A B t k).1) x)
      (synth (fun k => (sol k₀ I J A B t k).2) x) t :=
  synth_deriv (A := fun t k => (sol k₀ I J A B t k).1) (A' := fun t k => (sol k₀ I J A B t k).2)
    (fun k => osc_fst hJ (A k) (B k) t) x

theorem sol_snd (hk : k₀ ≠ 0) (hI : ∀ t, HasDerivAt I (q t) t) (t : ℝ) (x : Torus L T) :
    HasDerivAt (fun t => synth (fun k => (sol k₀ I J A B t k).2) x)
      (lapS k₀ (synth fun k => (sol k₀ I J A B t k).1) x + (q t : ℂ)) t := by
  refine (synth_deriv (A := fun t k => (sol k₀ I J A B t k).2)
    (A' := fun t k => -((freq k₀ k : ℝ) : ℂ) ^ 2 * (sol k₀ I J A B t k).1 +
      if k = 0 then (q t : ℂ) else 0) (fun k => ?_) x).congr_deriv ?_
  · have h := osc_snd (p := freq k₀ k) (J := J) hI (A k) (B k) t
    simp only [freq_eq_zero hk] at h
    exact h
  · rw [synth_add, synth_delta, lapS_synth]

theorem wave_modes (hk : k₀ ≠ 0) (hI : ∀ t, HasDerivAt I (q t) t) (hJ : ∀ t, HasDerivAt J (I t) t)
    (hI0 : I 0 = 0) (hJ0 : J 0 = 0) (σ : ℝ) :
    Wave (lapS k₀) (fun t => (q t : ℂ)) σ (synth A, synth B)
      (synth fun k => (sol k₀ I J A B σ k).1, synth fun k => (sol k₀ I J A B σ k).2) := by
  refine ⟨fun t => synth fun k => (sol k₀ I J A B t k).1, fun t => synth fun k => (sol k₀ I J A B t k).2,
    sol_fst A B hJ, sol_snd A B hk hI, ?_, rfl⟩
  unfold sol
  simp only [osc_zero hI0 hJ0]

variable {A B}

theorem sol_neg (hA : ∀ k, A (-k) = starRingEnd ℂ (A k)) (hB : ∀ k, B (-k) = starRingEnd ℂ (B k))
    (t : ℝ) (k : Torus L T) : sol k₀ I J A B t (-k) =
      (starRingEnd ℂ (sol k₀ I J A B t k).1, starRingEnd ℂ (sol k₀ I J A B t k).2) := by
  unfold sol freq
  rw [ksq_neg, hA, hB]
  exact osc_conj _ _ _ _ _ _

theorem synth_re {H : Torus L T → ℂ} (hH : ∀ k, H (-k) = starRingEnd ℂ (H k)) (x : Torus L T) :
    (((synth H x).re : ℝ) : ℂ) = synth H x := Complex.conj_eq_iff_re.1 (synth_real hH x)

theorem wave_modes_real {ℓ : ℝ} (hℓ : ℓ ≠ 0) (hA : ∀ k, A (-k) = starRingEnd ℂ (A k))
    (hB : ∀ k, B (-k) = starRingEnd ℂ (B k)) (σ : ℝ) :
    Wave (lapR ℓ) (fun _ => (0 : ℝ)) σ (fun x => (synth A x).re, fun x => (synth B x).re)
      (fun x => (synth (fun k => (sol (2 * Real.pi / ℓ) 0 0 A B σ k).1) x).re,
        fun x => (synth (fun k => (sol (2 * Real.pi / ℓ) 0 0 A B σ k).2) x).re) := by
  have hk : 2 * Real.pi / ℓ ≠ 0 := div_ne_zero (by positivity) hℓ
  have hd : ∀ t : ℝ, HasDerivAt (0 : ℝ → ℝ) ((0 : ℝ → ℝ) t) t := fun t => hasDerivAt_const t 0
  refine ⟨fun t x => (synth (fun k => (sol (2 * Real.pi / ℓ) 0 0 A B t k).1) x).re,
    fun t x => (synth (fun k => (sol (2 * Real.pi / ℓ) 0 0 A B t k).2) x).re, ?_, ?_, ?_, rfl⟩
  · intro t x
    exact Complex.reCLM.hasFDerivAt.comp_hasDerivAt t (sol_fst A B hd t x)
  · intro t x
    have h := Complex.reCLM.hasFDerivAt.comp_hasDerivAt t (sol_snd A B (J := 0) hk hd t x)
    refine h.congr_deriv ?_
    unfold lapR
    have e : (fun y => (((synth (fun k => (sol (2 * Real.pi / ℓ) 0 0 A B t k).1) y).re : ℝ) : ℂ)) =
        synth (fun k => (sol (2 * Real.pi / ℓ) 0 0 A B t k).1) :=
      funext fun y => synth_re (fun k => by rw [sol_neg hA hB]) y
    rw [e]
    simp
  · unfold sol
    simp only [osc_zero (I := 0) (J := 0) rfl rfl]

end

/-! ### Uniqueness -/

theorem oscillator_zero {p : ℝ} {x y : ℝ → ℝ} (hx : ∀ t, HasDerivAt x (y t) t)
    (hy : ∀ t, HasDerivAt y (-p ^ 2 * x t) t) (x0 : x 0 = 0) (y0 : y 0 = 0) (t : ℝ) :
    x t = 0 ∧ y t = 0 := by
  have hE : ∀ t, HasDerivAt (fun t => y t ^ 2 + p ^ 2 * x t ^ 2) 0 t := by
    intro t
    refine (((hy t).pow 2).add (((hx t).pow 2).const_mul (p ^ 2))).congr_deriv ?_
    push_cast
    ring
  have hc : ∀ t, y t ^ 2 + p ^ 2 * x t ^ 2 = 0 := by
    intro t
    have := is_const_of_deriv_eq_zero (fun t => (hE t).differentiableAt) (fun t => (hE t).deriv) t 0
    rw [this, x0, y0]; ring
  have hy' : ∀ t, y t = 0 := by
    intro t
    have h1 := hc t
    have h2 : 0 ≤ p ^ 2 * x t ^ 2 := by positivity
    have h3 : 0 ≤ y t ^ 2 := sq_nonneg _
    exact pow_eq_zero_iff (two_ne_zero) |>.1 (le_antisymm (by linarith) h3)
  have hx' : ∀ t, x t = x 0 := by
    intro t
    refine is_const_of_deriv_eq_zero (fun t => (hx t).differentiableAt) (fun t => ?_) t 0
    rw [(hx t).deriv, hy']
  exact ⟨by rw [hx' t, x0], hy' t⟩

theorem dft_lapS (k₀ : ℝ) (f : Torus L T → ℂ) (k : Torus L T) :
    dft (lapS k₀ f) k = -((freq k₀ k : ℝ) : ℂ) ^ 2 * dft f k := by
  have hN := card_ne (L := L) (T := T)
  have e : f = synth (fun k => (1 / (L * L * T : ℂ)) * dft f k) := by
    funext x
    have h := synth_dft f x
    generalize (L * L * T : ℂ) = N at hN h ⊢
    have h2 : synth (fun k => (1 / N) * dft f k) x = (1 / N) * synth (dft f) x := by
      unfold synth
      rw [mul_sum]
      exact sum_congr rfl fun k _ => by ring
    rw [h2, h]
    field_simp
  have e2 : lapS k₀ f = synth (fun k => -((freq k₀ k : ℝ) : ℂ) ^ 2 * ((1 / (L * L * T : ℂ)) * dft f k)) := by
    funext x
    conv_lhs => rw [e]
    exact lapS_synth k₀ _ x
  rw [e2, dft_synth]
  generalize (L * L * T : ℂ) = N at hN ⊢
  field_simp

theorem dft_sub (f h : Torus L T → ℂ) (k : Torus L T) : dft (fun x => f x - h x) k = dft f k - dft h k := by
  unfold dft
  rw [← sum_sub_distrib]
  exact sum_congr rfl fun x _ => by ring

theorem lapS_sub (k₀ : ℝ) (f h : Torus L T → ℂ) (x : Torus L T) :
    lapS k₀ (fun x => f x - h x) x = lapS k₀ f x - lapS k₀ h x := by
  unfold lapS
  rw [← mul_sub, ← sum_sub_distrib]
  congr 1
  refine sum_congr rfl fun k _ => ?_
  rw [dft_sub]
  ring

theorem dft_inj {f : Torus L T → ℂ} (h : ∀ k, dft f k = 0) (x : Torus L T) : f x = 0 := by
  have e := synth_dft f x
  have : synth (dft f) x = 0 := by
    unfold synth
    exact sum_eq_zero fun k _ => by rw [h k, zero_mul]
  rw [this] at e
  exact (mul_eq_zero.1 e.symm).resolve_left card_ne

theorem dft_deriv {f f' : ℝ → Torus L T → ℂ} {t : ℝ} (h : ∀ x, HasDerivAt (fun t => f t x) (f' t x) t)
    (k : Torus L T) : HasDerivAt (fun t => dft (f t) k) (dft (f' t) k) t := by
  unfold dft
  exact HasDerivAt.fun_sum fun x _ => (h x).mul_const _

/-- A solution without source that starts from nothing stays nothing. -/
theorem wave_zero_unique {k₀ : ℝ} {U W : ℝ → Torus L T → ℂ}
    (hU : ∀ t x, HasDerivAt (fun t => U t x) (W t x) t)
    (hW : ∀ t x, HasDerivAt (fun t => W t x) (lapS k₀ (U t) x) t)
    (h0 : ∀ x, U 0 x = 0) (h1 : ∀ x, W 0 x = 0) (t : ℝ) (x : Torus L T) : U t x = 0 ∧ W t x = 0 := by
  have d0 : ∀ k, dft (U 0) k = 0 := fun k => sum_eq_zero fun x _ => by rw [h0, zero_mul]
  have d1 : ∀ k, dft (W 0) k = 0 := fun k => sum_eq_zero fun x _ => by rw [h1, zero_mul]
  have key : ∀ k, dft (U t) k = 0 ∧ dft (W t) k = 0 := by
    intro k
    have hu : ∀ t, HasDerivAt (fun t => dft (U t) k) (dft (W t) k) t := fun t => dft_deriv (hU t) k
    have hw : ∀ t, HasDerivAt (fun t => dft (W t) k) (-((freq k₀ k : ℝ) : ℂ) ^ 2 * dft (U t) k) t := by
      intro t
      rw [← dft_lapS]
      exact dft_deriv (f' := fun t => lapS k₀ (U t)) (hW t) k
    have hre := oscillator_zero (p := freq k₀ k) (x := fun t => (dft (U t) k).re)
      (y := fun t => (dft (W t) k).re)
      (fun t => Complex.reCLM.hasFDerivAt.comp_hasDerivAt t (hu t))
      (fun t => (Complex.reCLM.hasFDerivAt.comp_hasDerivAt t (hw t)).congr_deriv (by
        rw [← Complex.ofReal_pow, ← Complex.ofReal_neg]; exact Complex.re_ofReal_mul _ _))
      (by simp [d0]) (by simp [d1]) t
    have him := oscillator_zero (p := freq k₀ k) (x := fun t => (dft (U t) k).im)
      (y := fun t => (dft (W t) k).im)
      (fun t => Complex.imCLM.hasFDerivAt.comp_hasDerivAt t (hu t))
      (fun t => (Complex.imCLM.hasFDerivAt.comp_hasDerivAt t (hw t)).congr_deriv (by
        rw [← Complex.ofReal_pow, ← Complex.ofReal_neg]; exact Complex.im_ofReal_mul _ _))
      (by simp [d0]) (by simp [d1]) t
    exact ⟨Complex.ext hre.1 him.1, Complex.ext hre.2 him.2⟩
  exact ⟨dft_inj (fun k => (key k).1) x, dft_inj (fun k => (key k).2) x⟩

theorem wave_unique {k₀ : ℝ} {q : ℝ → ℂ} {σ : ℝ} {s s' s'' : (Torus L T → ℂ) × (Torus L T → ℂ)}
    (h : Wave (lapS k₀) q σ s s') (h' : Wave (lapS k₀) q σ s s'') : s' = s'' := by
  obtain ⟨U, W, u1, u2, u3, rfl⟩ := h
  obtain ⟨U', W', v1, v2, v3, rfl⟩ := h'
  obtain ⟨e1, e2⟩ := Prod.mk.inj (u3.trans v3.symm)
  have := wave_zero_unique (k₀ := k₀) (U := fun t x => U t x - U' t x) (W := fun t x => W t x - W' t x)
    (fun t x => (u1 t x).sub (v1 t x))
    (fun t x => ((u2 t x).sub (v2 t x)).congr_deriv (by rw [lapS_sub]; ring))
    (fun x => by rw [e1]; simp) (fun x => by rw [e2]; simp) σ
  refine Prod.ext (funext fun x => sub_eq_zero.1 (this x).1) (funext fun x => sub_eq_zero.1 (this x).2)

theorem lapS_real (k₀ : ℝ) (φ : Torus L T → ℝ) (x : Torus L T) :
    (((lapS k₀ (fun y => (φ y : ℂ)) x).re : ℝ) : ℂ) = lapS k₀ (fun y => (φ y : ℂ)) x := by
  have e : lapS k₀ (fun y => (φ y : ℂ)) x =
      synth (fun k => (1 / (L * L * T : ℂ)) * (-(k₀ ^ 2 * ksq k)) * dft (fun y => (φ y : ℂ)) k) x := by
    unfold lapS synth
    rw [mul_sum]
    exact sum_congr rfl fun k _ => by ring
  rw [e]
  refine synth_re (fun k => ?_) x
  rw [dft_real, ksq_neg]
  simp

theorem wave_unique_real {ℓ : ℝ} {q : ℝ → ℝ} {σ : ℝ} {s s' s'' : (Torus L T → ℝ) × (Torus L T → ℝ)}
    (h : Wave (lapR ℓ) q σ s s') (h' : Wave (lapR ℓ) q σ s s'') : s' = s'' := by
  have lift : ∀ {a b : (Torus L T → ℝ) × (Torus L T → ℝ)}, Wave (lapR ℓ) q σ a b →
      Wave (lapS (2 * Real.pi / ℓ)) (fun t => (q t : ℂ)) σ (fun x => (a.1 x : ℂ), fun x => (a.2 x : ℂ))
        (fun x => (b.1 x : ℂ), fun x => (b.2 x : ℂ)) := by
    rintro a b ⟨U, W, u1, u2, rfl, rfl⟩
    refine ⟨fun t x => (U t x : ℂ), fun t x => (W t x : ℂ), fun t x => (u1 t x).ofReal_comp, ?_, rfl, rfl⟩
    intro t x
    refine (u2 t x).ofReal_comp.congr_deriv ?_
    unfold lapR
    rw [Complex.ofReal_add, lapS_real]
  have e := wave_unique (lift h) (lift h')
  obtain ⟨e1, e2⟩ := Prod.mk.inj e
  exact Prod.ext (funext fun x => Complex.ofReal_injective (congrFun e1 x))
    (funext fun x => Complex.ofReal_injective (congrFun e2 x))

end Jaxions.FullSpec
