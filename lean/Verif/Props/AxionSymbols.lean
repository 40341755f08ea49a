import Verif.Props.AxionSpectrum
import Mathlib.Algebra.BigOperators.Intervals
import Mathlib.Algebra.BigOperators.Ring.Finset
import Mathlib.Analysis.SpecialFunctions.Trigonometric.Deriv
import Mathlib.Analysis.SpecialFunctions.Trigonometric.ArctanDeriv

/-
**C72** Gradients of waves, and the table that is to turn differences into derivatives.
-/

namespace Jaxions.AxSpec

open Complex Finset

/-! ### Transforms -/

/-- Transform of one coordinate of a lattice of `N` points. -/
noncomputable def dft (N : ℕ) (f : ℕ → ℂ) (k : ℕ) : ℂ :=
  ∑ x ∈ range N, f x * exp (-(2 * Real.pi * k * x / N * I))

/-- Transform of all three. -/
noncomputable def dft3 (L T : ℕ) (f : ℕ → ℕ → ℕ → ℂ) (a b c : ℕ) : ℂ :=
  dft L (fun x => dft L (fun y => dft T (fun z => f x y z) c) b) a

theorem sum_shift (N : ℕ) (hN : 0 < N) (F : ℕ → ℂ) :
    ∑ x ∈ range N, F ((x + 1) % N) = ∑ x ∈ range N, F x := by
  obtain ⟨n, rfl⟩ : ∃ n, N = n + 1 := ⟨N - 1, by omega⟩
  rw [sum_range_succ, sum_range_succ', Nat.mod_self]
  congr 1
  refine sum_congr rfl fun x hx => ?_
  rw [Nat.mod_eq_of_lt (by have := mem_range.1 hx; omega)]

/-- The factor a shift by one point brings. -/
noncomputable def turn (N k : ℕ) : ℂ := exp (2 * Real.pi * k / N * I)

theorem kernel_mod (N : ℕ) (hN : 0 < N) (k x : ℕ) :
    exp (-(2 * Real.pi * k * ((x % N : ℕ) : ℂ) / N * I)) = exp (-(2 * Real.pi * k * x / N * I)) := by
  have h := Nat.div_add_mod x N
  have hN' : (N : ℂ) ≠ 0 := by exact_mod_cast hN.ne'
  rw [Complex.exp_eq_exp_iff_exists_int]
  refine ⟨((k * (x / N) : ℕ) : ℤ), ?_⟩
  have hx : (x : ℂ) = N * (x / N : ℕ) + (x % N : ℕ) := by exact_mod_cast h.symm
  rw [hx]
  rw [Int.cast_natCast, Nat.cast_mul]
  generalize ((x / N : ℕ) : ℂ) = d
  field_simp
  ring

theorem dft_next (N : ℕ) (hN : 0 < N) (f : ℕ → ℂ) (k : ℕ) :
    dft N (fun x => f ((x + 1) % N)) k = turn N k * dft N f k := by
  unfold dft turn
  rw [← sum_shift N hN fun x => f x * exp (-(2 * Real.pi * k * x / N * I)), mul_sum]
  refine sum_congr rfl fun x _ => ?_
  rw [kernel_mod N hN, mul_left_comm, ← exp_add]
  congr 2
  push_cast
  ring

theorem dft_prev (N : ℕ) (hN : 0 < N) (f : ℕ → ℂ) (k : ℕ) :
    dft N (fun x => f ((x + N - 1) % N)) k = (turn N k)⁻¹ * dft N f k := by
  have h := dft_next N hN (fun x => f ((x + N - 1) % N)) k
  have e : dft N (fun x => f (((x + 1) % N + N - 1) % N)) k = dft N f k := by
    unfold dft
    refine sum_congr rfl fun x hx => ?_
    have hx' := mem_range.1 hx
    congr 1
    dsimp only
    congr 1
    by_cases hc : x + 1 = N
    · rw [hc, Nat.mod_self, Nat.zero_add, Nat.mod_eq_of_lt (by omega)]; omega
    · rw [Nat.mod_eq_of_lt (show x + 1 < N by omega), show x + 1 + N - 1 = x + N by omega,
        Nat.add_mod_right, Nat.mod_eq_of_lt hx']
  rw [e] at h
  rw [h, ← mul_assoc, inv_mul_cancel₀ (show turn N k ≠ 0 from exp_ne_zero _), one_mul]

theorem dft_sub (N : ℕ) (f h : ℕ → ℂ) (k : ℕ) :
    dft N (fun x => f x - h x) k = dft N f k - dft N h k := by
  unfold dft
  rw [← sum_sub_distrib]
  exact sum_congr rfl fun x _ => by ring

theorem dft_mul (N : ℕ) (c : ℂ) (f : ℕ → ℂ) (k : ℕ) :
    dft N (fun x => c * f x) k = c * dft N f k := by
  unfold dft
  rw [mul_sum]
  exact sum_congr rfl fun x _ => by ring

theorem dft3_sub (L : ℕ) (f h : ℕ → ℕ → ℕ → ℂ) (a b c : ℕ) :
    dft3 L L (fun x y z => f x y z - h x y z) a b c = dft3 L L f a b c - dft3 L L h a b c := by
  unfold dft3
  simp only [dft_sub]

theorem dft3_mul (L : ℕ) (u : ℂ) (f : ℕ → ℕ → ℕ → ℂ) (a b c : ℕ) :
    dft3 L L (fun x y z => u * f x y z) a b c = u * dft3 L L f a b c := by
  unfold dft3
  simp only [dft_mul]

theorem dft3_next_x (L : ℕ) (hL : 0 < L) (f : ℕ → ℕ → ℕ → ℂ) (a b c : ℕ) :
    dft3 L L (fun x y z => f ((x + 1) % L) y z) a b c = turn L a * dft3 L L f a b c :=
  dft_next L hL (fun x => dft L (fun y => dft L (fun z => f x y z) c) b) a

theorem dft3_prev_x (L : ℕ) (hL : 0 < L) (f : ℕ → ℕ → ℕ → ℂ) (a b c : ℕ) :
    dft3 L L (fun x y z => f ((x + L - 1) % L) y z) a b c = (turn L a)⁻¹ * dft3 L L f a b c :=
  dft_prev L hL (fun x => dft L (fun y => dft L (fun z => f x y z) c) b) a

theorem dft3_next_y (L : ℕ) (hL : 0 < L) (f : ℕ → ℕ → ℕ → ℂ) (a b c : ℕ) :
    dft3 L L (fun x y z => f x ((y + 1) % L) z) a b c = turn L b * dft3 L L f a b c := by
  unfold dft3
  rw [← dft_mul]
  congr 1
  exact funext fun x => dft_next L hL (fun y => dft L (fun z => f x y z) c) b

theorem dft3_prev_y (L : ℕ) (hL : 0 < L) (f : ℕ → ℕ → ℕ → ℂ) (a b c : ℕ) :
    dft3 L L (fun x y z => f x ((y + L - 1) % L) z) a b c = (turn L b)⁻¹ * dft3 L L f a b c := by
  unfold dft3
  rw [← dft_mul]
  congr 1
  exact funext fun x => dft_prev L hL (fun y => dft L (fun z => f x y z) c) b

theorem dft3_next_z (L : ℕ) (hL : 0 < L) (f : ℕ → ℕ → ℕ → ℂ) (a b c : ℕ) :
    dft3 L L (fun x y z => f x y ((z + 1) % L)) a b c = turn L c * dft3 L L f a b c := by
  unfold dft3
  rw [← dft_mul]
  congr 1
  refine funext fun x => ?_
  rw [← dft_mul]
  congr 1
  exact funext fun y => dft_next L hL (fun z => f x y z) c

theorem dft3_prev_z (L : ℕ) (hL : 0 < L) (f : ℕ → ℕ → ℕ → ℂ) (a b c : ℕ) :
    dft3 L L (fun x y z => f x y ((z + L - 1) % L)) a b c = (turn L c)⁻¹ * dft3 L L f a b c := by
  unfold dft3
  rw [← dft_mul]
  congr 1
  refine funext fun x => ?_
  rw [← dft_mul]
  congr 1
  exact funext fun y => dft_prev L hL (fun z => f x y z) c

/-- Power of the forward difference of a wave. -/
theorem forward_sq (N k : ℕ) : ‖turn N k - 1‖ ^ 2 = 2 * (1 - Real.cos (2 * Real.pi * k / N)) := by
  have : turn N k = exp ((2 * Real.pi * k / N : ℝ) * I) := by
    unfold turn; push_cast; rfl
  rw [this, ← normSq_eq_norm_sq, normSq_apply, sub_re, sub_im, exp_ofReal_mul_I_re,
    exp_ofReal_mul_I_im, one_re, one_im]
  have := Real.sin_sq_add_cos_sq (2 * Real.pi * k / N)
  nlinarith

/-- Power of the central difference. -/
theorem central_sq (N k : ℕ) :
    ‖turn N k - (turn N k)⁻¹‖ ^ 2 = 4 * Real.sin (2 * Real.pi * k / N) ^ 2 := by
  have h1 : turn N k = exp ((2 * Real.pi * k / N : ℝ) * I) := by
    unfold turn; push_cast; rfl
  have h2 : (turn N k)⁻¹ = exp ((-(2 * Real.pi * k / N) : ℝ) * I) := by
    rw [h1, ← exp_neg]; push_cast; ring_nf
  rw [h2, h1, ← normSq_eq_norm_sq, normSq_apply, sub_re, sub_im, exp_ofReal_mul_I_re,
    exp_ofReal_mul_I_im, exp_ofReal_mul_I_re, exp_ofReal_mul_I_im, Real.cos_neg, Real.sin_neg]
  ring

/-! ### The table -/

/-- Wave number in units of the inverse spacing. -/
noncomputable def waveNo (N k : ℕ) : ℝ := 2 * Real.pi * k / N

theorem cosTable2_eq (L k : ℕ) (hk : k ≠ 0) :
    cosTable2 L k = 2 * (1 - Real.cos (waveNo L k)) / waveNo L k ^ 2 := by
  unfold cosTable2 waveNo
  rw [if_neg hk, show Real.pi * (2 * (k : ℝ)) * (1 / L) = 2 * Real.pi * k / L by ring]

theorem half_angle (a : ℝ) : 2 * (1 - Real.cos a) = 4 * Real.sin (a / 2) ^ 2 := by
  have h := Real.cos_sq (a / 2)
  have h2 := Real.sin_sq (a / 2)
  rw [show 2 * (a / 2) = a by ring] at h
  rw [h2, h]; ring

/-- The table entry does not vanish below the number of points. -/
theorem cosTable2_ne (L k : ℕ) (hk : k ≠ 0) (hL : k < L) : cosTable2 L k ≠ 0 := by
  have hL0 : (0 : ℝ) < L := by exact_mod_cast (show 0 < L by omega)
  have hk0 : (0 : ℝ) < k := by exact_mod_cast Nat.pos_of_ne_zero hk
  have hkL : (k : ℝ) < L := by exact_mod_cast hL
  have hpi := Real.pi_pos
  rw [cosTable2_eq L k hk, half_angle]
  refine div_ne_zero (mul_ne_zero (by norm_num) (pow_ne_zero 2 ?_)) (pow_ne_zero 2 ?_)
  · refine (Real.sin_pos_of_pos_of_lt_pi ?_ ?_).ne'
    · unfold waveNo; positivity
    · unfold waveNo
      rw [show 2 * Real.pi * k / L / 2 = Real.pi * (k / L) by ring]
      have : (k : ℝ) / L < 1 := (div_lt_one hL0).2 hkL
      nlinarith
  · unfold waveNo; positivity

theorem forward_div (L a : ℕ) (ha : a < L) (F : ℂ) :
    ‖(turn L a - 1) * F‖ ^ 2 / cosTable2 L a = waveNo L a ^ 2 * ‖F‖ ^ 2 := by
  rw [norm_mul, mul_pow, forward_sq]
  by_cases h0 : a = 0
  · subst h0; simp [waveNo]
  · have hne := cosTable2_ne L a h0 ha
    rw [cosTable2_eq L a h0] at hne ⊢
    have h1 : waveNo L a ^ 2 ≠ 0 := fun h => hne (by rw [h, div_zero])
    have h2 : 2 * (1 - Real.cos (waveNo L a)) ≠ 0 := fun h => hne (by rw [h, zero_div])
    have h3 : 2 * Real.pi * a / L = waveNo L a := rfl
    rw [h3]
    generalize 2 * (1 - Real.cos (waveNo L a)) = u at h2 ⊢
    field_simp

theorem central_div (L a : ℕ) (ha : a < L) (F : ℂ) :
    ‖(2 : ℂ)⁻¹ * ((turn L a - (turn L a)⁻¹) * F)‖ ^ 2 / cosTable2 L a =
      Real.cos (waveNo L a / 2) ^ 2 * (waveNo L a ^ 2 * ‖F‖ ^ 2) := by
  rw [norm_mul, norm_mul, mul_pow, mul_pow, central_sq]
  have h3 : 2 * Real.pi * a / L = waveNo L a := rfl
  rw [h3]
  by_cases h0 : a = 0
  · subst h0; simp [waveNo]
  · have hne := cosTable2_ne L a h0 ha
    have hs : Real.sin (waveNo L a) = 2 * Real.sin (waveNo L a / 2) * Real.cos (waveNo L a / 2) := by
      rw [← Real.sin_two_mul]; congr 1; ring
    rw [cosTable2_eq L a h0, half_angle] at hne ⊢
    have h1 : waveNo L a ^ 2 ≠ 0 := fun h => hne (by rw [h, div_zero])
    have h2 : Real.sin (waveNo L a / 2) ^ 2 ≠ 0 := fun h => hne (by rw [h, mul_zero, zero_div])
    rw [hs]
    have h4 : ‖(2 : ℂ)⁻¹‖ = 1 / 2 := by simp
    rw [h4, mul_pow, mul_pow]
    generalize Real.sin (waveNo L a / 2) ^ 2 = u at h2 ⊢
    generalize waveNo L a ^ 2 = v at h1 ⊢
    field_simp

/-- **C72** Divided by the table, the power of the older, forward difference of any field in a cube
is the power of its derivative: the square of the wave number times the power of the field, in
every mode and in each of the three directions. -/
theorem C72_forward_wave (L : ℕ) (f : ℕ → ℕ → ℕ → ℂ) (a b c : ℕ) (ha : a < L) (hb : b < L)
    (hc : c < L) :
    ‖dft3 L L (fun x y z => f ((x + 1) % L) y z - f x y z) a b c‖ ^ 2 / cosTable2 L a =
      waveNo L a ^ 2 * ‖dft3 L L f a b c‖ ^ 2 ∧
    ‖dft3 L L (fun x y z => f x ((y + 1) % L) z - f x y z) a b c‖ ^ 2 / cosTable2 L b =
      waveNo L b ^ 2 * ‖dft3 L L f a b c‖ ^ 2 ∧
    ‖dft3 L L (fun x y z => f x y ((z + 1) % L) - f x y z) a b c‖ ^ 2 / cosTable2 L c =
      waveNo L c ^ 2 * ‖dft3 L L f a b c‖ ^ 2 := by
  have hL : 0 < L := by omega
  refine ⟨?_, ?_, ?_⟩
  · rw [← forward_div L a ha, dft3_sub L (fun x y z => f ((x + 1) % L) y z), dft3_next_x L hL, sub_mul,
      one_mul]
  · rw [← forward_div L b hb, dft3_sub L (fun x y z => f x ((y + 1) % L) z), dft3_next_y L hL, sub_mul,
      one_mul]
  · rw [← forward_div L c hc, dft3_sub L (fun x y z => f x y ((z + 1) % L)), dft3_next_z L hL, sub_mul,
      one_mul]

/-- **C72** (negative) The gradients with tables are central differences, and the table is still
that of forward ones: the power of each mode comes out too small by the square of the cosine of
half the wave number. -/
theorem C72_central_wave (L : ℕ) (f : ℕ → ℕ → ℕ → ℂ) (a b c : ℕ) (ha : a < L) (hb : b < L)
    (hc : c < L) :
    ‖dft3 L L (fun x y z => (f ((x + 1) % L) y z - f ((x + L - 1) % L) y z) / 2) a b c‖ ^ 2 /
        cosTable2 L a =
      Real.cos (waveNo L a / 2) ^ 2 * (waveNo L a ^ 2 * ‖dft3 L L f a b c‖ ^ 2) ∧
    ‖dft3 L L (fun x y z => (f x ((y + 1) % L) z - f x ((y + L - 1) % L) z) / 2) a b c‖ ^ 2 /
        cosTable2 L b =
      Real.cos (waveNo L b / 2) ^ 2 * (waveNo L b ^ 2 * ‖dft3 L L f a b c‖ ^ 2) ∧
    ‖dft3 L L (fun x y z => (f x y ((z + 1) % L) - f x y ((z + L - 1) % L)) / 2) a b c‖ ^ 2 /
        cosTable2 L c =
      Real.cos (waveNo L c / 2) ^ 2 * (waveNo L c ^ 2 * ‖dft3 L L f a b c‖ ^ 2) := by
  have hL : 0 < L := by omega
  refine ⟨?_, ?_, ?_⟩
  · simp only [div_eq_inv_mul _ (2 : ℂ)]
    rw [← central_div L a ha, dft3_mul, dft3_sub L (fun x y z => f ((x + 1) % L) y z),
      dft3_next_x L hL, dft3_prev_x L hL, sub_mul]
  · simp only [div_eq_inv_mul _ (2 : ℂ)]
    rw [← central_div L b hb, dft3_mul, dft3_sub L (fun x y z => f x ((y + 1) % L) z),
      dft3_next_y L hL, dft3_prev_y L hL, sub_mul]
  · simp only [div_eq_inv_mul _ (2 : ℂ)]
    rw [← central_div L c hc, dft3_mul, dft3_sub L (fun x y z => f x y ((z + 1) % L)),
      dft3_next_z L hL, dft3_prev_z L hL, sub_mul]

/-- **C72** (negative) The shortest wave is lost altogether. -/
theorem C72_central_shortest (n : ℕ) (hn : 0 < n) (f : ℕ → ℕ → ℕ → ℂ) (b c : ℕ) (hb : b < 2 * n)
    (hc : c < 2 * n) :
    ‖dft3 (2 * n) (2 * n) (fun x y z => (f ((x + 1) % (2 * n)) y z - f ((x + 2 * n - 1) % (2 * n)) y z) / 2)
      n b c‖ ^ 2 / cosTable2 (2 * n) n = 0 := by
  rw [(C72_central_wave (2 * n) f n b c (by omega) hb hc).1]
  have : waveNo (2 * n) n / 2 = Real.pi / 2 := by
    unfold waveNo
    have : (n : ℝ) ≠ 0 := by exact_mod_cast hn.ne'
    push_cast
    field_simp
  rw [this, Real.cos_pi_div_two]
  simp

/-- **C72** (negative) The table is built with the side of the box in the x and y directions.  In a
box at least twice as long in the z direction, the mode with that wave number along z is divided by
zero. -/
theorem C72_table_zero (L : ℕ) (hL : 0 < L) : cosTable2 L L = 0 := by
  have : (L : ℝ) ≠ 0 := by exact_mod_cast hL.ne'
  rw [cosTable2_eq L L hL.ne']
  have : waveNo L L = 2 * Real.pi := by unfold waveNo; field_simp
  rw [this, Real.cos_two_pi]
  simp

/-! ### Small amplitudes -/

/-- **C72** To first order in the amplitude `ε` of the phase, the stored central difference is that
of the phase. -/
theorem C72_central_small (r α β γ : ℝ) (hr : r ≠ 0) :
    HasDerivAt (fun ε : ℝ => phaseRate (r * exp ((ε * γ : ℝ) * I))
      (r * exp ((ε * α : ℝ) * I) - r * exp ((ε * β : ℝ) * I))) (α - β) 0 := by
  have e : (fun ε : ℝ => phaseRate (r * exp ((ε * γ : ℝ) * I))
      (r * exp ((ε * α : ℝ) * I) - r * exp ((ε * β : ℝ) * I))) =
      fun ε : ℝ => Real.sin (ε * (α - γ)) + Real.sin (ε * (γ - β)) := by
    funext ε
    rw [C72_central r _ _ _ hr, mul_sub, mul_sub]
  rw [e]
  have h1 : HasDerivAt (fun ε : ℝ => ε * (α - γ)) (α - γ) 0 := by
    simpa using (hasDerivAt_id (0 : ℝ)).mul_const (α - γ)
  have h2 : HasDerivAt (fun ε : ℝ => ε * (γ - β)) (γ - β) 0 := by
    simpa using (hasDerivAt_id (0 : ℝ)).mul_const (γ - β)
  refine (h1.sin.add h2.sin).congr_deriv ?_
  simp

/-- **C72** And the older forward difference is that of the phase. -/
theorem C72_forward_small (α γ : ℝ) :
    HasDerivAt (fun ε : ℝ => 2 * Real.tan ((ε * α - ε * γ) / 2)) (α - γ) 0 := by
  have h1 : HasDerivAt (fun ε : ℝ => (ε * α - ε * γ) / 2) ((α - γ) / 2) 0 := by
    simpa using ((((hasDerivAt_id (0 : ℝ)).mul_const α).sub ((hasDerivAt_id (0 : ℝ)).mul_const γ)).div_const 2)
  have h2 : HasDerivAt Real.tan (1 / Real.cos ((0 * α - 0 * γ) / 2) ^ 2) ((0 * α - 0 * γ) / 2) :=
    Real.hasDerivAt_tan (by simp)
  refine ((h2.comp (0 : ℝ) h1).const_mul 2).congr_deriv ?_
  simp
  ring

end Jaxions.AxSpec
