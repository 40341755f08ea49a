import Verif.Spec.Gravity
import Mathlib.NumberTheory.LegendreSymbol.AddCharacter
import Mathlib.Algebra.BigOperators.Ring.Finset
import Mathlib.Tactic.Ring
import Mathlib.Tactic.FieldSimp
import Mathlib.Algebra.BigOperators.Field
/-
Lemmas for C60: discrete Fourier transform in three dimensions.
-/
namespace Jaxions.Gravity

open Finset ComplexConjugate

variable {L T : ℕ} [NeZero L] [NeZero T]

theorem std_conj {N : ℕ} [NeZero N] (a : ZMod N) :
    conj (ZMod.stdAddChar a) = ZMod.stdAddChar (-a) := by
  rw [ZMod.stdAddChar_apply, ZMod.stdAddChar_apply, AddChar.map_neg_eq_inv, Circle.coe_inv_eq_conj]

theorem wave_conj (k x : Torus L T) : conj (wave k x) = wave (-k) x := by
  simp only [wave, map_mul, std_conj, Prod.fst_neg, Prod.snd_neg, neg_mul]

theorem wave_add (k k' x : Torus L T) : wave (k + k') x = wave k x * wave k' x := by
  simp only [wave, Prod.fst_add, Prod.snd_add, add_mul, AddChar.map_add_eq_mul]
  ring

theorem wave_comm (k x : Torus L T) : wave k x = wave x k := by
  simp only [wave, mul_comm]

theorem wave_neg_neg (k x : Torus L T) : wave (-k) (-x) = wave k x := by
  simp [wave]

theorem wave_neg_right (k x : Torus L T) : wave k (-x) = wave (-k) x := by
  simp [wave]

theorem wave_zero (x : Torus L T) : wave 0 x = 1 := by simp [wave]

theorem std_sum {N : ℕ} [NeZero N] (b : ZMod N) :
    ∑ x : ZMod N, (ZMod.stdAddChar (b * x) : ℂ) = if b = 0 then (N : ℂ) else 0 := by
  have := AddChar.sum_mulShift b (ZMod.isPrimitive_stdAddChar N)
  rw [ZMod.card] at this
  simp only [mul_comm b]
  rw [this]
  split <;> simp

/-- Orthogonality of the plane waves. -/
theorem wave_sum (k : Torus L T) :
    ∑ x, wave k x = if k = 0 then (L * L * T : ℂ) else 0 := by
  have h : ∑ x : Torus L T, wave k x =
      (∑ a : ZMod L, ZMod.stdAddChar (k.1 * a)) * ((∑ b : ZMod L, ZMod.stdAddChar (k.2.1 * b)) *
        (∑ c : ZMod T, ZMod.stdAddChar (k.2.2 * c))) := by
    rw [Fintype.sum_prod_type, sum_mul]
    refine sum_congr rfl fun a _ => ?_
    rw [Fintype.sum_prod_type, sum_mul, mul_sum]
    refine sum_congr rfl fun b _ => ?_
    rw [mul_sum, mul_sum]
    refine sum_congr rfl fun c _ => ?_
    simp only [wave]
    ring
  rw [h, std_sum, std_sum, std_sum]
  obtain ⟨a, b, c⟩ := k
  simp only [Prod.mk_eq_zero]
  by_cases ha : a = 0 <;> by_cases hb : b = 0 <;> by_cases hc : c = 0 <;> simp [ha, hb, hc]
  ring

theorem wave_sum' (x : Torus L T) :
    ∑ k, wave k x = if x = 0 then (L * L * T : ℂ) else 0 := by
  rw [← wave_sum x]
  exact sum_congr rfl fun k _ => wave_comm k x

theorem synth_dft (f : Torus L T → ℂ) (x : Torus L T) :
    synth (dft f) x = (L * L * T : ℂ) * f x := by
  unfold synth dft
  simp only [sum_mul]
  rw [sum_comm]
  have : ∀ y, ∑ k, f y * wave (-k) y * wave k x = f y * if x - y = 0 then (L * L * T : ℂ) else 0 := by
    intro y
    rw [← wave_sum', mul_sum]
    refine sum_congr rfl fun k _ => ?_
    rw [mul_assoc]
    congr 1
    rw [wave_comm k (x - y), sub_eq_add_neg, wave_add, wave_comm x k, mul_comm, wave_comm (-y) k,
      wave_neg_right]
  simp only [this, sub_eq_zero]
  rw [sum_eq_single x]
  · simp [mul_comm]
  · intro y _ hy
    rw [if_neg (Ne.symm hy), mul_zero]
  · simp

theorem dft_synth (H : Torus L T → ℂ) (k : Torus L T) :
    dft (synth H) k = (L * L * T : ℂ) * H k := by
  unfold synth dft
  simp only [sum_mul]
  rw [sum_comm]
  have : ∀ q, ∑ x, H q * wave q x * wave (-k) x = H q * if q - k = 0 then (L * L * T : ℂ) else 0 := by
    intro q
    rw [← wave_sum, mul_sum]
    refine sum_congr rfl fun x _ => ?_
    rw [mul_assoc, sub_eq_add_neg, wave_add]
  simp only [this, sub_eq_zero]
  rw [sum_eq_single k]
  · simp [mul_comm]
  · intro y _ hy
    rw [if_neg hy, mul_zero]
  · simp

theorem dft_real (ρ : Torus L T → ℝ) (k : Torus L T) :
    dft (fun x => (ρ x : ℂ)) (-k) = conj (dft (fun x => (ρ x : ℂ)) k) := by
  unfold dft
  rw [map_sum]
  refine sum_congr rfl fun x _ => ?_
  rw [map_mul, Complex.conj_ofReal, wave_conj]

/-- A Hermitian spectrum belongs to a real field. -/
theorem synth_real {H : Torus L T → ℂ} (hH : ∀ k, H (-k) = conj (H k)) (x : Torus L T) :
    conj (synth H x) = synth H x := by
  unfold synth
  rw [map_sum]
  refine Fintype.sum_equiv (Equiv.neg _) _ _ fun k => ?_
  rw [Equiv.neg_apply, map_mul, wave_conj, hH]

/-! ### Wave numbers -/

theorem signed_neg_sq {N : ℕ} [NeZero N] (k : ZMod N) : signed (-k) ^ 2 = signed k ^ 2 := by
  unfold signed
  rw [ZMod.neg_val]
  have hlt := ZMod.val_lt k
  by_cases hk : k = 0
  · subst hk; simp
  · rw [if_neg hk]
    have hpos : 0 < k.val := by
      rcases Nat.eq_zero_or_pos k.val with h | h
      · exact absurd ((ZMod.val_eq_zero k).1 h) hk
      · exact h
    rcases lt_or_ge (N / 2) k.val with h | h
    · rw [if_pos (by omega), if_neg (by omega)]
      rw [Nat.cast_sub hlt.le]; ring
    · rw [if_pos (show k.val ≤ N / 2 from h)]
      split
      · have : N - k.val = k.val := by omega
        rw [this]
      · rw [Nat.cast_sub hlt.le]; ring

theorem ksq_neg (k : Torus L T) : ksq (-k) = ksq k := by
  simp only [ksq, Prod.fst_neg, Prod.snd_neg, signed_neg_sq]

theorem signed_eq_zero {N : ℕ} [NeZero N] (k : ZMod N) : signed k = 0 ↔ k = 0 := by
  constructor
  · intro h
    unfold signed at h
    have hlt := ZMod.val_lt k
    refine (ZMod.val_eq_zero k).1 ?_
    split at h <;> omega
  · rintro rfl; simp [signed]

theorem ksq_eq_zero (k : Torus L T) : ksq k = 0 ↔ k = 0 := by
  constructor
  · intro h
    unfold ksq at h
    have h1 := sq_nonneg (signed k.1)
    have h2 := sq_nonneg (signed k.2.1)
    have h3 := sq_nonneg (signed k.2.2)
    have e1 : signed k.1 = 0 := by rw [← sq_eq_zero_iff]; omega
    have e2 : signed k.2.1 = 0 := by rw [← sq_eq_zero_iff]; omega
    have e3 : signed k.2.2 = 0 := by rw [← sq_eq_zero_iff]; omega
    rw [signed_eq_zero] at e1 e2 e3
    exact Prod.ext e1 (Prod.ext e2 e3)
  · rintro rfl; simp [ksq, signed]

/-! ### The solution -/

/-- Spectrum of the potential. -/
noncomputable def solved (k₀ : ℝ) (ρ : Torus L T → ℝ) (k : Torus L T) : ℂ :=
  if k = 0 then 0 else dft (fun x => (ρ x : ℂ)) k * ((-1 / (k₀ * k₀ * (L * L * T)) : ℝ) / (ksq k : ℝ) : ℂ)

theorem solved_neg (k₀ : ℝ) (ρ : Torus L T → ℝ) (k : Torus L T) :
    solved k₀ ρ (-k) = conj (solved k₀ ρ k) := by
  unfold solved
  simp only [neg_eq_zero]
  split
  · simp
  · rw [map_mul, dft_real, ksq_neg, map_div₀, Complex.conj_ofReal, Complex.conj_ofReal]

theorem card_ne : (L * L * T : ℂ) ≠ 0 := by
  have h1 : (L : ℂ) ≠ 0 := Nat.cast_ne_zero.2 (NeZero.ne L)
  have h2 : (T : ℂ) ≠ 0 := Nat.cast_ne_zero.2 (NeZero.ne T)
  exact mul_ne_zero (mul_ne_zero h1 h1) h2

theorem dft_zero (f : Torus L T → ℂ) : dft f 0 = ∑ x, f x := by
  unfold dft
  refine sum_congr rfl fun x _ => ?_
  rw [neg_zero, wave_zero, mul_one]

theorem solved_poisson {k₀ : ℝ} (hk : k₀ ≠ 0) (ρ Φ : Torus L T → ℝ)
    (hΦ : ∀ x, (Φ x : ℂ) = synth (solved k₀ ρ) x) : Poisson k₀ ρ Φ := by
  have hfun : (fun y => (Φ y : ℂ)) = synth (solved k₀ ρ) := funext hΦ
  have hN := card_ne (L := L) (T := T)
  refine ⟨fun x => ?_, ?_⟩
  · unfold lapS
    rw [hfun]
    have e1 : ∀ k : Torus L T, -((k₀ : ℂ) ^ 2 * ksq k) * dft (synth (solved k₀ ρ)) k * wave k x =
        dft (fun x => (ρ x : ℂ)) k * wave k x - if k = 0 then ((∑ y, ρ y : ℝ) : ℂ) else 0 := by
      intro k
      rw [dft_synth]
      unfold solved
      by_cases h0 : k = 0
      · subst h0
        rw [if_pos rfl, if_pos rfl, dft_zero, wave_zero]
        push_cast
        ring
      · rw [if_neg h0, if_neg h0]
        have hks : (ksq k : ℂ) ≠ 0 := by
          intro h
          exact h0 ((ksq_eq_zero k).1 (by exact_mod_cast h))
        have hk' : (k₀ : ℂ) ≠ 0 := by exact_mod_cast hk
        have hL : (L : ℂ) ≠ 0 := Nat.cast_ne_zero.2 (NeZero.ne L)
        have hT : (T : ℂ) ≠ 0 := Nat.cast_ne_zero.2 (NeZero.ne T)
        push_cast
        field_simp
        ring
    simp only [e1]
    rw [sum_sub_distrib, sum_ite_eq' univ (0 : Torus L T)]
    have e2 := synth_dft (fun x => (ρ x : ℂ)) x
    unfold synth at e2
    rw [e2, if_pos (mem_univ _), one_div, mul_sub, ← mul_assoc, inv_mul_cancel₀ hN, one_mul,
      inv_mul_eq_div]
  · have h := dft_synth (solved k₀ ρ) 0
    rw [← hfun, dft_zero] at h
    unfold solved at h
    rw [if_pos rfl, mul_zero] at h
    exact_mod_cast h

end Jaxions.Gravity
