import Verif.Spec.SpecLap
import Verif.Props.Gravity
import Mathlib.Analysis.Calculus.Deriv.Add
import Mathlib.Analysis.SpecialFunctions.ExpDeriv
import Mathlib.Analysis.Complex.RealDeriv
/-
Helper lemmas for C82: a field that the lattice resolves and its Laplacian.
-/
namespace Jaxions.SpecLap

open Gravity Finset

variable {L T : ℕ} [NeZero L] [NeZero T]

/-- The mode of a wave. -/
def cast3 (L T : ℕ) (n : ℤ × ℤ × ℤ) : Torus L T := (n.1, n.2.1, n.2.2)

theorem signed_cast_sq {N : ℕ} [NeZero N] {n : ℤ} (hn : 2 * |n| ≤ N) :
    signed (n : ZMod N) ^ 2 = n ^ 2 := by
  have hN := NeZero.pos N
  have key : ∀ m : ℕ, 2 * m ≤ N → signed ((m : ℕ) : ZMod N) = m := by
    intro m hm
    rw [signed_natCast (by omega), if_neg (by omega)]
  rcases le_total 0 n with h | h
  · obtain ⟨m, rfl⟩ := Int.eq_ofNat_of_zero_le h
    have : 2 * m ≤ N := by rw [abs_of_nonneg h] at hn; omega
    rw [Int.cast_natCast, key m this]
  · obtain ⟨m, hm⟩ := Int.eq_ofNat_of_zero_le (neg_nonneg.2 h)
    have hn' : n = -(m : ℤ) := by omega
    have : 2 * m ≤ N := by rw [abs_of_nonpos h] at hn; omega
    rw [hn', Int.cast_neg, Int.cast_natCast, signed_neg_sq, key m this, neg_sq]

theorem ksq_cast {n : ℤ × ℤ × ℤ} (hn : 2 * |n.1| ≤ L ∧ 2 * |n.2.1| ≤ L ∧ 2 * |n.2.2| ≤ T) :
    ksq (cast3 L T n) = n.1 ^ 2 + n.2.1 ^ 2 + n.2.2 ^ 2 := by
  unfold ksq cast3
  dsimp only
  rw [signed_cast_sq hn.1, signed_cast_sq hn.2.1, signed_cast_sq hn.2.2]

theorem dft_waves {A : Finset (ℤ × ℤ × ℤ)} {c : ℤ × ℤ × ℤ → ℂ} (k : Torus L T) :
    dft (fun x => ∑ n ∈ A, c n * wave (cast3 L T n) x) k =
      ∑ n ∈ A, c n * if cast3 L T n - k = 0 then (L * L * T : ℂ) else 0 := by
  unfold dft
  simp only [sum_mul]
  rw [sum_comm]
  refine sum_congr rfl fun n _ => ?_
  rw [← wave_sum, mul_sum]
  refine sum_congr rfl fun x _ => ?_
  rw [mul_assoc, sub_eq_add_neg, wave_add]

/-- A factor on every mode multiplies every wave by the factor of its mode. -/
theorem synth_waves {A : Finset (ℤ × ℤ × ℤ)} {c : ℤ × ℤ × ℤ → ℂ} (w : Torus L T → ℂ) (x : Torus L T) :
    synth (fun k => dft (fun x => ∑ n ∈ A, c n * wave (cast3 L T n) x) k * w k) x =
      (L * L * T : ℂ) * ∑ n ∈ A, c n * w (cast3 L T n) * wave (cast3 L T n) x := by
  unfold synth
  simp only [dft_waves, sum_mul]
  rw [sum_comm, mul_sum]
  refine sum_congr rfl fun n _ => ?_
  rw [sum_eq_single (cast3 L T n)]
  · rw [sub_self, if_pos rfl]; ring
  · intro k _ hk
    rw [if_neg (fun h => hk (sub_eq_zero.1 h).symm)]; ring
  · simp

/-! ### Sites -/

theorem std_int {N : ℕ} [NeZero N] (n : ℤ) (x : ℕ) :
    (ZMod.stdAddChar ((n : ZMod N) * ((x : ℕ) : ZMod N)) : ℂ) =
      Complex.exp (2 * Real.pi * Complex.I * ((n * x / N : ℝ) : ℂ)) := by
  have : ((n : ZMod N) * ((x : ℕ) : ZMod N)) = ((n * x : ℤ) : ZMod N) := by push_cast; ring
  rw [this, ZMod.stdAddChar_coe]
  congr 1
  push_cast
  ring

theorem wave_ripple {ℓ : ℝ} (hℓ : ℓ ≠ 0) (n : ℤ × ℤ × ℤ) (x y z : ℕ) :
    wave (cast3 L T n) ((x : ℕ), (y : ℕ), (z : ℕ)) =
      ripple ℓ (ℓ * T / L) n (x * (ℓ / L)) (y * (ℓ / L)) (z * (ℓ / L)) := by
  have hL : (L : ℝ) ≠ 0 := Nat.cast_ne_zero.2 (NeZero.ne L)
  have hT : (T : ℝ) ≠ 0 := Nat.cast_ne_zero.2 (NeZero.ne T)
  unfold wave cast3 ripple
  dsimp only
  rw [std_int, std_int, std_int, ← Complex.exp_add, ← Complex.exp_add]
  congr 1
  rw [← mul_add, ← mul_add, ← Complex.ofReal_add, ← Complex.ofReal_add]
  congr 2
  field_simp

/-! ### Derivatives -/

theorem deriv_line {ι : Type} (A : Finset ι) (C a : ι → ℂ) :
    deriv (fun t : ℝ => ∑ n ∈ A, C n * Complex.exp (a n * (t : ℂ))) =
      fun t : ℝ => ∑ n ∈ A, (C n * a n) * Complex.exp (a n * (t : ℂ)) := by
  funext t
  refine HasDerivAt.deriv ?_
  refine HasDerivAt.fun_sum fun n _ => ?_
  have h1 : HasDerivAt (fun t : ℝ => a n * (t : ℂ)) (a n) t := by
    simpa using (HasDerivAt.ofReal_comp (hasDerivAt_id t)).const_mul (a n)
  have h2 := (h1.cexp).const_mul (C n)
  refine h2.congr_deriv ?_
  ring

theorem second_line {ι : Type} (A : Finset ι) (C a : ι → ℂ) (t : ℝ) :
    iteratedDeriv 2 (fun t : ℝ => ∑ n ∈ A, C n * Complex.exp (a n * (t : ℂ))) t =
      ∑ n ∈ A, (C n * a n * a n) * Complex.exp (a n * (t : ℂ)) := by
  rw [iteratedDeriv_succ, iteratedDeriv_one, deriv_line, deriv_line]

/-- The second derivative of a sum of waves along a line, each wave `e^{at}` times a constant. -/
theorem second_of {ι : Type} {A : Finset ι} {c : ι → ℂ} {f : ℝ → ℂ} {w : ι → ℝ → ℂ} (b a : ι → ℂ)
    (hf : ∀ t, f t = ∑ n ∈ A, c n * w n t)
    (hw : ∀ n t, w n t = b n * Complex.exp (a n * (t : ℂ))) (t : ℝ) :
    iteratedDeriv 2 f t = ∑ n ∈ A, c n * (a n * a n) * w n t := by
  have e : f = fun t : ℝ => ∑ n ∈ A, (c n * b n) * Complex.exp (a n * (t : ℂ)) := by
    funext t
    rw [hf]
    refine sum_congr rfl fun n _ => ?_
    rw [hw]; ring
  rw [e, second_line]
  refine sum_congr rfl fun n _ => ?_
  rw [hw]; ring

theorem laplacianZ_waves {ℓ h q : ℝ} {A : Finset (ℤ × ℤ × ℤ)} {c : ℤ × ℤ × ℤ → ℂ}
    {f : ℝ → ℝ → ℝ → ℂ} (hf : ∀ x y z, f x y z = ∑ n ∈ A, c n * ripple ℓ h n x y z) (x y z : ℝ) :
    laplacianZ q f x y z = ∑ n ∈ A, c n *
      ((-(2 * Real.pi) ^ 2 * (n.1 ^ 2 / ℓ ^ 2 + n.2.1 ^ 2 / ℓ ^ 2 + q * (n.2.2 ^ 2 / h ^ 2)) : ℝ) : ℂ) *
        ripple ℓ h n x y z := by
  have hx := second_of (f := fun t => f t y z) (w := fun n t => ripple ℓ h n t y z)
    (fun n => Complex.exp (2 * Real.pi * Complex.I * ((n.2.1 * y / ℓ + n.2.2 * z / h : ℝ) : ℂ)))
    (fun n => 2 * Real.pi * Complex.I * ((n.1 / ℓ : ℝ) : ℂ)) (fun t => hf t y z)
    (fun n t => by
      unfold ripple
      rw [← Complex.exp_add]
      congr 1
      push_cast
      ring) x
  have hy := second_of (f := fun t => f x t z) (w := fun n t => ripple ℓ h n x t z)
    (fun n => Complex.exp (2 * Real.pi * Complex.I * ((n.1 * x / ℓ + n.2.2 * z / h : ℝ) : ℂ)))
    (fun n => 2 * Real.pi * Complex.I * ((n.2.1 / ℓ : ℝ) : ℂ)) (fun t => hf x t z)
    (fun n t => by
      unfold ripple
      rw [← Complex.exp_add]
      congr 1
      push_cast
      ring) y
  have hz := second_of (f := fun t => f x y t) (w := fun n t => ripple ℓ h n x y t)
    (fun n => Complex.exp (2 * Real.pi * Complex.I * ((n.1 * x / ℓ + n.2.1 * y / ℓ : ℝ) : ℂ)))
    (fun n => 2 * Real.pi * Complex.I * ((n.2.2 / h : ℝ) : ℂ)) (fun t => hf x y t)
    (fun n t => by
      unfold ripple
      rw [← Complex.exp_add]
      congr 1
      push_cast
      ring) z
  unfold laplacianZ
  rw [hx, hy, hz, smul_sum, ← sum_add_distrib, ← sum_add_distrib]
  refine sum_congr rfl fun n _ => ?_
  have hI := Complex.I_mul_I
  have e : ∀ u : ℂ, (2 * Real.pi * Complex.I * u) * (2 * Real.pi * Complex.I * u) =
      -((2 * Real.pi) ^ 2 * u ^ 2) := by
    intro u
    calc _ = (2 * Real.pi) ^ 2 * u ^ 2 * (Complex.I * Complex.I) := by ring
      _ = _ := by rw [hI]; ring
  rw [e, e, e, Complex.real_smul]
  push_cast
  ring

/-- On a field that the lattice resolves the lattice Laplacian is the true one, up to the shape of
the box. -/
theorem lapS_resolved {ℓ : ℝ} (hℓ : ℓ ≠ 0) {f : ℝ → ℝ → ℝ → ℂ}
    (hf : Resolved L T ℓ (ℓ * T / L) f) (x : Torus L T) :
    lapS (2 * Real.pi / ℓ) (sample L T (ℓ / L) f) x =
      laplacianZ ((T / L) ^ 2) f (x.1.val * (ℓ / L)) (x.2.1.val * (ℓ / L)) (x.2.2.val * (ℓ / L)) := by
  obtain ⟨A, c, hA, hf⟩ := hf
  have hL : (L : ℝ) ≠ 0 := Nat.cast_ne_zero.2 (NeZero.ne L)
  have hT : (T : ℝ) ≠ 0 := Nat.cast_ne_zero.2 (NeZero.ne T)
  have hw : ∀ (n : ℤ × ℤ × ℤ) (x : Torus L T), wave (cast3 L T n) x = ripple ℓ (ℓ * T / L) n
      (x.1.val * (ℓ / L)) (x.2.1.val * (ℓ / L)) (x.2.2.val * (ℓ / L)) := by
    intro n x
    rw [← wave_ripple hℓ]
    simp
  have hs : sample L T (ℓ / L) f = fun x => ∑ n ∈ A, c n * wave (cast3 L T n) x := by
    funext x
    unfold sample
    rw [hf]
    exact sum_congr rfl fun n _ => by rw [hw]
  rw [laplacianZ_waves hf, hs]
  have h1 := synth_waves (A := A) (c := c)
    (fun k : Torus L T => -(((2 * Real.pi / ℓ : ℝ) : ℂ) ^ 2 * (ksq k : ℂ))) x
  unfold synth at h1
  unfold lapS
  have h2 : ∀ k : Torus L T, -(((2 * Real.pi / ℓ : ℝ) : ℂ) ^ 2 * (ksq k : ℂ)) *
      dft (fun x => ∑ n ∈ A, c n * wave (cast3 L T n) x) k * wave k x =
      dft (fun x => ∑ n ∈ A, c n * wave (cast3 L T n) x) k *
        -(((2 * Real.pi / ℓ : ℝ) : ℂ) ^ 2 * (ksq k : ℂ)) * wave k x := fun k => by ring
  simp only [h2]
  rw [h1, one_div, ← mul_assoc, inv_mul_cancel₀ card_ne, one_mul]
  refine sum_congr rfl fun n hn => ?_
  rw [ksq_cast (hA n hn), hw]
  congr 2
  have hLc : (L : ℂ) ≠ 0 := Nat.cast_ne_zero.2 (NeZero.ne L)
  have hTc : (T : ℂ) ≠ 0 := Nat.cast_ne_zero.2 (NeZero.ne T)
  have hℓc : (ℓ : ℂ) ≠ 0 := by exact_mod_cast hℓ
  push_cast
  field_simp

/-! ### Real fields -/

theorem deriv_ofReal (g : ℝ → ℝ) : deriv (fun t => (g t : ℂ)) = fun t => ((deriv g t : ℝ) : ℂ) := by
  funext t
  by_cases hg : DifferentiableAt ℝ g t
  · exact (hg.hasDerivAt.ofReal_comp).deriv
  · rw [deriv_zero_of_not_differentiableAt hg, deriv_zero_of_not_differentiableAt]
    · simp
    · intro hc
      refine hg ?_
      have := (Complex.reCLM.differentiableAt (x := (g t : ℂ))).comp t hc
      simpa [Function.comp_def] using this

theorem second_ofReal (g : ℝ → ℝ) (t : ℝ) :
    iteratedDeriv 2 (fun t => (g t : ℂ)) t = ((iteratedDeriv 2 g t : ℝ) : ℂ) := by
  rw [iteratedDeriv_succ, iteratedDeriv_one, iteratedDeriv_succ, iteratedDeriv_one, deriv_ofReal,
    deriv_ofReal]

theorem laplacianZ_ofReal (q : ℝ) (f : ℝ → ℝ → ℝ → ℝ) (x y z : ℝ) :
    laplacianZ q (fun x y z => (f x y z : ℂ)) x y z = ((laplacianZ q f x y z : ℝ) : ℂ) := by
  unfold laplacianZ
  rw [second_ofReal (fun t => f t y z), second_ofReal (fun t => f x t z),
    second_ofReal (fun t => f x y t)]
  rw [Complex.real_smul, smul_eq_mul]
  push_cast
  ring

theorem laplacianZ_one {E : Type} [NormedAddCommGroup E] [NormedSpace ℝ E]
    (f : ℝ → ℝ → ℝ → E) (x y z : ℝ) : laplacianZ 1 f x y z = laplacian f x y z := by
  unfold laplacianZ laplacian; rw [one_smul]

end Jaxions.SpecLap
