import Verif.Props.MassRate
/-
C62: the time integrals of the axion mass used by the spectral saxion propagator.
-/
namespace Jaxions.Cosmo
open Set Filter Topology MeasureTheory

theorem R_pow (c : Cosmos) (hu : c.ueCosm = false) (hg : ¬ (c.frw = 1 ∧ c.grav > 0)) (t : ℝ) :
    c.R t = t ^ c.frw := by
  unfold Cosmos.R
  simp only [hu, Bool.false_eq_true, if_false, hg]

theorem piece_val (c : Cosmos) (e a b : ℝ) (he : e ≠ 0) :
    piece c e a b = some ((b ^ e - a ^ e) * c.indi3 * c.indi3 / e) := by
  unfold piece quot
  simp only [he, if_false]

theorem piece2_val (c : Cosmos) (e a b : ℝ) (he : e ≠ 0) (he' : e + 1 ≠ 0) :
    piece2 c e a b = some ((b ^ (e + 1) - a ^ (e + 1)) * c.indi3 * c.indi3 / (e * (e + 1)) -
      a ^ e * (b - a) * c.indi3 * c.indi3 / e) := by
  unfold piece2 quot
  simp only [he, mul_ne_zero he he', if_false]
  rfl

/-- The integrand of the code's integrals. -/
noncomputable def dens (c : Cosmos) (m : ℝ → ℝ) (nn : ℤ) (t : ℝ) : ℝ := m t * c.R t ^ nn

/-- **C62** While the mass still grows the first integral is `∫ m_A² Rⁿ`, in either direction of
time and for any expansion law `R = ctᶠʳʷ`. -/
theorem C62_integral_growing (c : Cosmos) (hu : c.ueCosm = false)
    (hg : ¬ (c.frw = 1 ∧ c.grav > 0)) (hf : 0 < c.frw) (m : ℝ → ℝ) (hm : IsMass c m) (nn : ℤ)
    (z0 z : ℝ) (h0 : 0 < z0) (h1 : 0 < z)
    (hz0 : z0 ≤ c.zThRes) (hz : z ≤ c.zThRes) (hR0 : c.R z0 ≤ c.zThRes) (hR : c.R z ≤ c.zThRes)
    (he : c.frw * (c.nQcd + nn) + 1 ≠ 0) :
    c.iMass z0 z nn = some (∫ t in z0..z, dens c m nn t) := by
  have hT : 0 < c.zThRes := h0.trans_le hz0
  have hval : c.iMass z0 z nn = piece c (c.frw * (c.nQcd + nn) + 1) z0 z := by
    unfold Cosmos.iMass
    simp only [hz, hz0, if_true, ite_self]
  rw [hval, piece_val c _ _ _ he]
  congr 1
  rw [R_pow c hu hg] at hR hR0
  rw [← low_integral c.indi3 c.nQcd c.nQcdr c.zThRes c.zRestore nn c.frw z0 z h0 h1 hR0 hR he hf]
  apply intervalIntegral.integral_congr
  intro t ht
  have ht0 : 0 < t := lt_of_lt_of_le (lt_min h0 h1) ht.1
  simp only [dens]
  rw [hm.eq hu hT t ht0, R_pow c hu hg]

section
variable (c : Cosmos) (hu : c.ueCosm = false) (hf : c.frw = 1) (hg : c.grav ≤ 0)
include hu hf hg

theorem R_id (t : ℝ) : c.R t = t := by
  rw [R_pow c hu (fun h => absurd h.2 (not_lt.2 hg)), hf, Real.rpow_one]

theorem dens_eq (hT : 0 < c.zThRes) (m : ℝ → ℝ) (hm : IsMass c m) (nn : ℤ) (t : ℝ) (ht : 0 < t) :
    dens c m nn t = law c.indi3 c.nQcd c.nQcdr c.zThRes c.zRestore t * t ^ nn := by
  simp only [dens]
  rw [hm.eq hu hT t ht, R_id c hu hf hg]

theorem dens_cont (hT : 0 < c.zThRes) (m : ℝ → ℝ) (hm : IsMass c m) (nn : ℤ) :
    ContinuousOn (dens c m nn) (Ioi 0) := by
  have h1 := C19_continuous c.indi3 c.nQcd c.nQcdr c.zThRes c.zRestore hT
  have h2 : ContinuousOn (fun t : ℝ => t ^ nn) (Ioi 0) :=
    (continuousOn_zpow₀ nn).mono fun t (ht : 0 < t) => (ht.ne' : t ≠ 0)
  exact (h1.mul h2).congr fun t ht => dens_eq c hu hf hg hT m hm nn t ht

theorem dens_int (hT : 0 < c.zThRes) (m : ℝ → ℝ) (hm : IsMass c m) (nn : ℤ) (a b : ℝ) (ha : 0 < a)
    (hb : 0 < b) : IntervalIntegrable (dens c m nn) volume a b := by
  apply ContinuousOn.intervalIntegrable
  exact (dens_cont c hu hf hg hT m hm nn).mono fun t ht => lt_of_lt_of_le (lt_min ha hb) ht.1

/-- Below the threshold. -/
theorem dens_low (m : ℝ → ℝ) (hm : IsMass c m) (nn : ℤ) (a b : ℝ)
    (ha : 0 < a) (hb : 0 < b) (haT : a ≤ c.zThRes) (hbT : b ≤ c.zThRes)
    (he : c.nQcd + nn + 1 ≠ 0) :
    ∫ t in a..b, dens c m nn t =
      (b ^ (c.nQcd + nn + 1) - a ^ (c.nQcd + nn + 1)) * c.indi3 * c.indi3 / (c.nQcd + nn + 1) := by
  have hT : 0 < c.zThRes := ha.trans_le haT
  have := low_integral c.indi3 c.nQcd c.nQcdr c.zThRes c.zRestore nn 1 a b ha hb
    (by rwa [Real.rpow_one]) (by rwa [Real.rpow_one]) (by rwa [one_mul]) one_pos
  rw [one_mul] at this
  rw [← this]
  apply intervalIntegral.integral_congr
  intro t ht
  have ht0 : 0 < t := lt_of_lt_of_le (lt_min ha hb) ht.1
  simp only
  rw [dens_eq c hu hf hg hT m hm nn t ht0, Real.rpow_one]

/-- Above it. -/
theorem dens_high (hT : 0 < c.zThRes) (m : ℝ → ℝ) (hm : IsMass c m) (nn : ℤ) (a b : ℝ)
    (haT : c.zThRes ≤ a) (hbT : c.zThRes ≤ b) (haR : c.zThRes ≤ c.zRestore → a ≤ c.zRestore)
    (hbR : c.zThRes ≤ c.zRestore → b ≤ c.zRestore) (he : (nn : ℝ) + 1 ≠ 0) :
    ∫ t in a..b, dens c m nn t = c.zThRes ^ c.nQcd *
      ((b ^ ((nn : ℝ) + 1) - a ^ ((nn : ℝ) + 1)) * c.indi3 * c.indi3 / ((nn : ℝ) + 1)) := by
  rw [← high_integral c.indi3 c.nQcd c.nQcdr c.zThRes c.zRestore nn a b hT haT hbT haR hbR he]
  apply intervalIntegral.integral_congr
  intro t ht
  have ht0 : 0 < t := hT.trans_le ((le_min haT hbT).trans ht.1)
  exact dens_eq c hu hf hg hT m hm nn t ht0

/-- **C62** In radiation domination and before the mass starts again, the first integral is right
exactly when the whole range lies before the mass saturates, or the saturated law is 1
(`zThRes^nQcd = 1`), or trivially (no mass, no time): the factor `zThRes^nQcd` is missing in the
saturated part. -/
theorem C62_integral_iff (hT : 0 < c.zThRes) (hn : 0 ≤ c.nQcd) (m : ℝ → ℝ) (hm : IsMass c m)
    (nn : ℕ) (z0 z : ℝ) (h0 : 0 < z0) (h1 : 0 < z)
    (hr0 : c.zThRes ≤ c.zRestore → z0 ≤ c.zRestore)
    (hr : c.zThRes ≤ c.zRestore → z ≤ c.zRestore) :
    c.iMass z0 z nn = some (∫ t in z0..z, dens c m nn t) ↔
      (z0 ≤ c.zThRes ∧ z ≤ c.zThRes) ∨ c.zThRes ^ c.nQcd = 1 ∨ c.indi3 = 0 ∨ z0 = z := by
  have hnn : (0 : ℝ) ≤ ((nn : ℤ) : ℝ) := by exact_mod_cast Nat.zero_le nn
  have he1 : c.nQcd + ((nn : ℤ) : ℝ) + 1 ≠ 0 := by positivity
  have he2 : ((nn : ℤ) : ℝ) + 1 ≠ 0 := by positivity
  have hstep : ∀ a b, a ≠ b → 0 < a → 0 < b → c.indi3 ≠ 0 →
      (b ^ (((nn : ℤ) : ℝ) + 1) - a ^ (((nn : ℤ) : ℝ) + 1)) * c.indi3 * c.indi3 /
        (((nn : ℤ) : ℝ) + 1) ≠ 0 := by
    intro a b hab ha hb hi
    have hx : b ^ (((nn : ℤ) : ℝ) + 1) - a ^ (((nn : ℤ) : ℝ) + 1) ≠ 0 := by
      rw [sub_ne_zero]
      intro h
      exact hab ((Real.rpow_left_inj ha.le hb.le he2).1 h.symm)
    exact div_ne_zero (mul_ne_zero (mul_ne_zero hx hi) hi) he2
  have hfin : ∀ x q : ℝ, x = q * x ↔ q = 1 ∨ x = 0 := by
    intro x q
    constructor
    · intro h
      have : (q - 1) * x = 0 := by linarith
      rcases mul_eq_zero.1 this with h | h
      · left; linarith
      · right; exact h
    · rintro (h | h) <;> rw [h] <;> ring
  unfold Cosmos.iMass
  simp only [hf, one_mul]
  by_cases hA : z0 ≤ c.zThRes ∧ z ≤ c.zThRes
  · rw [dens_low c hu hf hg m hm nn z0 z h0 h1 hA.1 hA.2 he1]
    simp only [hA.1, hA.2, if_true, ite_self, piece_val c _ _ _ he1, true_or, and_self]
  · by_cases hB : c.zThRes ≤ z0 ∧ c.zThRes ≤ z
    · -- all above
      rw [dens_high c hu hf hg hT m hm nn z0 z hB.1 hB.2 hr0 hr he2]
      have hz : ∃ x, x = (z ^ (((nn : ℤ) : ℝ) + 1) - z0 ^ (((nn : ℤ) : ℝ) + 1)) * c.indi3 *
        c.indi3 / (((nn : ℤ) : ℝ) + 1) := ⟨_, rfl⟩
      obtain ⟨x, hx⟩ := hz
      have hval : (if z > z0 then
          if z ≤ c.zThRes then piece c (c.nQcd + ((nn : ℤ) : ℝ) + 1) z0 z
          else if z > c.zThRes ∧ z0 < c.zThRes then
            (do
              let a ← piece c (c.nQcd + ((nn : ℤ) : ℝ) + 1) z0 c.zThRes
              let b ← piece c (((nn : ℤ) : ℝ) + 1) c.zThRes z
              return a + b)
          else if z > c.zThRes ∧ z0 ≥ c.zThRes then piece c (((nn : ℤ) : ℝ) + 1) z0 z
          else none
        else
          if z0 ≤ c.zThRes then piece c (c.nQcd + ((nn : ℤ) : ℝ) + 1) z0 z
          else if z0 > c.zThRes ∧ z < c.zThRes then
            (do
              let a ← piece c (((nn : ℤ) : ℝ) + 1) z0 c.zThRes
              let b ← piece c (c.nQcd + ((nn : ℤ) : ℝ) + 1) c.zThRes z
              return a + b)
          else if z0 > c.zThRes ∧ z ≥ c.zThRes then piece c (((nn : ℤ) : ℝ) + 1) z0 z
          else none : Option ℝ) = some x := by
        rw [hx, ← piece_val c _ _ _ he2]
        by_cases hlt : z > z0
        · have k1 : ¬ z ≤ c.zThRes := by linarith [hB.1]
          have k2 : ¬ (z > c.zThRes ∧ z0 < c.zThRes) := fun h => by linarith [hB.1, h.2]
          have k3 : z > c.zThRes ∧ z0 ≥ c.zThRes := ⟨not_le.1 k1, hB.1⟩
          rw [if_pos hlt, if_neg k1, if_neg k2, if_pos k3]
        · have k1 : ¬ z0 ≤ c.zThRes := fun h => hA ⟨h, by linarith⟩
          have k2 : ¬ (z0 > c.zThRes ∧ z < c.zThRes) := fun h => by linarith [hB.2, h.2]
          have k3 : z0 > c.zThRes ∧ z ≥ c.zThRes := ⟨not_le.1 k1, hB.2⟩
          rw [if_neg hlt, if_neg k1, if_neg k2, if_pos k3]
      refine (Eq.congr_left hval).trans ?_
      rw [← hx, Option.some.injEq, hfin]
      constructor
      · rintro (h | h)
        · exact Or.inr (Or.inl h)
        · by_contra hc
          push Not at hc
          exact hstep z0 z hc.2.2.2 h0 h1 hc.2.2.1 (hx ▸ h)
      · rintro (h | h | h | h)
        · exact absurd h hA
        · exact Or.inl h
        · right; rw [hx, h]; simp
        · right; rw [hx, h]; simp
    · -- crossing
      have hsplit : ∫ t in z0..z, dens c m nn t =
          (∫ t in z0..c.zThRes, dens c m nn t) + ∫ t in c.zThRes..z, dens c m nn t :=
        (intervalIntegral.integral_add_adjacent_intervals
          (dens_int c hu hf hg hT m hm nn _ _ h0 hT) (dens_int c hu hf hg hT m hm nn _ _ hT h1)).symm
      have hTR : c.zThRes ≤ c.zRestore → c.zThRes ≤ c.zRestore := id
      rw [hsplit]
      by_cases hlt : z > z0
      · have k0 : z0 < c.zThRes := by
          by_contra h
          exact hB ⟨not_lt.1 h, by linarith [not_lt.1 h]⟩
        have k1 : ¬ z ≤ c.zThRes := fun h => hA ⟨k0.le, h⟩
        have k2 : z > c.zThRes ∧ z0 < c.zThRes := ⟨not_le.1 k1, k0⟩
        rw [if_pos hlt, if_neg k1, if_pos k2, piece_val c _ _ _ he1, piece_val c _ _ _ he2,
          dens_low c hu hf hg m hm nn z0 c.zThRes h0 hT k0.le le_rfl he1,
          dens_high c hu hf hg hT m hm nn c.zThRes z le_rfl k2.1.le hTR hr he2]
        simp only [Option.bind_eq_bind, Option.bind_some, Option.pure_def, Option.some.injEq,
          add_right_inj]
        rw [hfin]
        constructor
        · rintro (h | h)
          · exact Or.inr (Or.inl h)
          · by_contra hc
            push Not at hc
            exact hstep c.zThRes z k2.1.ne hT h1 hc.2.2.1 h
        · rintro (h | h | h | h)
          · exact absurd h hA
          · exact Or.inl h
          · right; rw [h]; simp
          · exact absurd h hlt.ne
      · have k0 : z < c.zThRes := by
          by_contra h
          exact hB ⟨by linarith [not_lt.1 h], not_lt.1 h⟩
        have k1 : ¬ z0 ≤ c.zThRes := fun h => hA ⟨h, k0.le⟩
        have k2 : z0 > c.zThRes ∧ z < c.zThRes := ⟨not_le.1 k1, k0⟩
        rw [if_neg hlt, if_neg k1, if_pos k2, piece_val c _ _ _ he1, piece_val c _ _ _ he2,
          dens_low c hu hf hg m hm nn c.zThRes z hT h1 le_rfl k0.le he1,
          dens_high c hu hf hg hT m hm nn z0 c.zThRes k2.1.le le_rfl hr0 hTR he2]
        simp only [Option.bind_eq_bind, Option.bind_some, Option.pure_def, Option.some.injEq,
          add_left_inj]
        rw [hfin]
        constructor
        · rintro (h | h)
          · exact Or.inr (Or.inl h)
          · by_contra hc
            push Not at hc
            exact hstep z0 c.zThRes k2.1.ne' h0 hT hc.2.2.1 h
        · rintro (h | h | h | h)
          · exact absurd h hA
          · exact Or.inl h
          · right; rw [h]; simp
          · have := k2.1; have := k2.2; linarith

end

end Jaxions.Cosmo
