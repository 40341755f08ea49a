import Verif.Spec.Winding
import Mathlib.Tactic.Ring
import Mathlib.Tactic.Linarith
import Mathlib.Tactic.FieldSimp
import Mathlib.Tactic.NormNum
import Mathlib.Tactic.Positivity

/-!
# C22: the number computed for a plaquette is its winding number
-/

namespace Jaxions
namespace Winding

section generic
variable {K : Type} [Field K] [LinearOrder K] [IsStrictOrderedRing K]

omit [LinearOrder K] [IsStrictOrderedRing K] in
theorem imMulConj_eq (a b : Cx K) : imMulConj a b = a.im * b.re - a.re * b.im := by
  simp only [imMulConj]; ring

omit [LinearOrder K] [IsStrictOrderedRing K] in
theorem imMulConj_swap (a b : Cx K) : imMulConj b a = -imMulConj a b := by
  simp only [imMulConj]; ring

omit [IsStrictOrderedRing K] in
theorem side_cases (a b : Cx K) :
    (side a b = 0 ∧ (0 < a.im ↔ 0 < b.im)) ∨
    (side a b = 1 ∧ ¬(0 < a.im ↔ 0 < b.im) ∧ 0 < imMulConj a b) ∨
    (side a b = -1 ∧ ¬(0 < a.im ↔ 0 < b.im) ∧ imMulConj a b ≤ 0) := by
  unfold side
  by_cases ha : 0 < a.im <;> by_cases hb : 0 < b.im <;> by_cases hc : 0 < imMulConj a b <;>
    simp [ha, hb, hc, not_lt.mp]

/-- A side that crosses the axis and avoids the origin has a non-zero `imMulConj`. -/
theorem cross_ne_zero {a b : Cx K} (h : Avoids a b) (hx : ¬(0 < a.im ↔ 0 < b.im)) :
    imMulConj a b ≠ 0 := by
  intro h0
  rw [imMulConj_eq] at h0
  have key : ∀ p q : Cx K, 0 < p.im → ¬ 0 < q.im → p.im * q.re - p.re * q.im = 0 →
      (p.im / (p.im - q.im) : K) ∈ Set.Icc (0 : K) 1 ∧
      (1 - p.im / (p.im - q.im)) * p.re + p.im / (p.im - q.im) * q.re = 0 ∧
      (1 - p.im / (p.im - q.im)) * p.im + p.im / (p.im - q.im) * q.im = 0 := by
    intro p q hp hq h0
    have hq' := not_lt.mp hq
    have hd : 0 < p.im - q.im := by linarith
    refine ⟨⟨div_nonneg hp.le hd.le, (div_le_one hd).mpr (by linarith)⟩, ?_, ?_⟩
    · field_simp; linear_combination h0
    · field_simp; ring
  by_cases ha : 0 < a.im
  · have hb : ¬ 0 < b.im := fun hb => hx ⟨fun _ => hb, fun _ => ha⟩
    obtain ⟨⟨h1, h2⟩, h3, h4⟩ := key a b ha hb h0
    exact h _ h1 h2 ⟨h3, h4⟩
  · have hb : 0 < b.im := by
      by_contra hb; exact hx ⟨fun h => absurd h ha, fun h => absurd h hb⟩
    obtain ⟨⟨h1, h2⟩, h3, h4⟩ := key b a hb ha (by linarith)
    refine h (1 - b.im / (b.im - a.im)) (by linarith) (by linarith) ⟨?_, ?_⟩
    · linear_combination h3
    · linear_combination h4

/-- The sides taken backwards count with the opposite sign. -/
theorem side_swap {a b : Cx K} (h : Avoids a b) : side b a = -side a b := by
  have hs := imMulConj_swap a b
  rcases side_cases a b with ⟨h1, h2⟩ | ⟨h1, h2, h3⟩ | ⟨h1, h2, h3⟩ <;>
  rcases side_cases b a with ⟨g1, g2⟩ | ⟨g1, g2, g3⟩ | ⟨g1, g2, g3⟩ <;>
  rw [h1, g1] <;> try rfl
  · exact absurd h2.symm g2
  · exact absurd h2.symm g2
  · exact absurd g2.symm h2
  · linarith
  · exact absurd g2.symm h2
  · exact absurd (le_antisymm h3 (by linarith)) (cross_ne_zero h h2)

/-- Which half plane a corner is in, as `stringHand` sees it. -/
def up (a : Cx K) : Int := if 0 < a.im then 1 else 0

omit [IsStrictOrderedRing K] in
/-- A side counts an odd number exactly when the half plane changes. -/
theorem side_parity (a b : Cx K) : ∃ k : Int, side a b = up a - up b + 2 * k := by
  unfold up
  rcases side_cases a b with ⟨h, g⟩ | ⟨h, g, _⟩ | ⟨h, g, _⟩ <;> rw [h] <;>
  by_cases ha : 0 < a.im <;> by_cases hb : 0 < b.im <;> simp only [ha, hb, if_true, if_false] <;>
  first
    | exact ⟨0, rfl⟩ | exact ⟨1, rfl⟩ | exact ⟨-1, rfl⟩
    | (exfalso; simp [ha, hb] at g)

omit [IsStrictOrderedRing K] in
/-- **C22, parity.**  Whatever the four corners are, `stringHand` returns an even number. -/
theorem C22_even (s1 s2 s3 s4 : Cx K) : 2 ∣ stringHand s1 s2 s3 s4 := by
  unfold stringHand
  obtain ⟨a, ha⟩ := side_parity s1 s2
  obtain ⟨b, hb⟩ := side_parity s2 s3
  obtain ⟨c, hc⟩ := side_parity s3 s4
  obtain ⟨d, hd⟩ := side_parity s4 s1
  omega

omit [IsStrictOrderedRing K] in
/-- **C22, starting corner.**  The result does not depend on the corner at which the trip starts. -/
theorem C22_cyclic (s1 s2 s3 s4 : Cx K) : stringHand s2 s3 s4 s1 = stringHand s1 s2 s3 s4 := by
  unfold stringHand; omega

/-- **C22, direction.**  Going around the other way changes the sign. -/
theorem C22_reverse {s1 s2 s3 s4 : Cx K} (h : AvoidsAll s1 s2 s3 s4) :
    stringHand s1 s4 s3 s2 = -stringHand s1 s2 s3 s4 := by
  obtain ⟨h1, h2, h3, h4⟩ := h
  unfold stringHand
  rw [side_swap h1, side_swap h2, side_swap h3, side_swap h4]; ring

theorem no_double_up {s1 s2 s3 s4 : Cx K} {e : K}
    (h1 : 0 < e * imMulConj s1 s2) (h2 : 0 < e * imMulConj s2 s3) (h3 : 0 < e * imMulConj s3 s4)
    (h4 : 0 < e * imMulConj s4 s1) (g1 : 0 < s1.im) (g2 : s2.im ≤ 0) (g3 : 0 < s3.im)
    (g4 : s4.im ≤ 0) : False := by
  have id : e * imMulConj s1 s2 * (s3.im * s4.im) + e * imMulConj s2 s3 * (s4.im * s1.im) +
      e * imMulConj s3 s4 * (s1.im * s2.im) + e * imMulConj s4 s1 * (s2.im * s3.im) = 0 := by
    simp only [imMulConj]; ring
  have n1 := mul_nonpos_of_nonneg_of_nonpos h1.le (mul_nonpos_of_nonneg_of_nonpos g3.le g4)
  have n2 := mul_nonpos_of_nonneg_of_nonpos h2.le (mul_nonpos_of_nonpos_of_nonneg g4 g1.le)
  have n3 := mul_nonpos_of_nonneg_of_nonpos h3.le (mul_nonpos_of_nonneg_of_nonpos g1.le g2)
  have n4 := mul_nonpos_of_nonneg_of_nonpos h4.le (mul_nonpos_of_nonpos_of_nonneg g2 g3.le)
  have z3 : e * imMulConj s3 s4 * (s1.im * s2.im) = 0 := by linarith
  have y2 : s2.im = 0 := by
    rcases mul_eq_zero.mp z3 with h | h
    · exact absurd h h3.ne'
    · rcases mul_eq_zero.mp h with h | h
      · exact absurd h g1.ne'
      · exact h
  rw [imMulConj_eq, y2, mul_zero, sub_zero] at h1
  rw [imMulConj_eq, y2, zero_mul, zero_sub] at h2
  have a : 0 < e * s2.re := by
    have : 0 < s1.im * (e * s2.re) := by linarith
    exact (mul_pos_iff_of_pos_left g1).mp this
  have b : 0 < s3.im * (-(e * s2.re)) := by linarith
  have := (mul_pos_iff_of_pos_left g3).mp b
  linarith

/-- The four sides cannot all cross the axis and all turn the same way. -/
theorem no_double {s1 s2 s3 s4 : Cx K} {e : K}
    (h1 : 0 < e * imMulConj s1 s2) (h2 : 0 < e * imMulConj s2 s3) (h3 : 0 < e * imMulConj s3 s4)
    (h4 : 0 < e * imMulConj s4 s1) (g1 : ¬(0 < s1.im ↔ 0 < s2.im)) (g2 : ¬(0 < s2.im ↔ 0 < s3.im))
    (g3 : ¬(0 < s3.im ↔ 0 < s4.im)) : False := by
  by_cases k1 : 0 < s1.im
  · have k2 : ¬ 0 < s2.im := by tauto
    have k3 : 0 < s3.im := by tauto
    have k4 : ¬ 0 < s4.im := by tauto
    exact no_double_up h1 h2 h3 h4 k1 (not_lt.mp k2) k3 (not_lt.mp k4)
  · have k2 : 0 < s2.im := by tauto
    have k3 : ¬ 0 < s3.im := by tauto
    have k4 : 0 < s4.im := by tauto
    exact no_double_up h2 h3 h4 h1 k2 (not_lt.mp k3) k4 (not_lt.mp k1)

/-- **C22, values.**  `stringHand` only ever returns `-4`, `-2`, `0` or `2`. -/
theorem C22_values (s1 s2 s3 s4 : Cx K) :
    stringHand s1 s2 s3 s4 ∈ [(-4 : Int), -2, 0, 2] := by
  obtain ⟨k, hk⟩ := C22_even s1 s2 s3 s4
  have b1 := side_cases s1 s2
  have b2 := side_cases s2 s3
  have b3 := side_cases s3 s4
  have b4 := side_cases s4 s1
  have no4 : stringHand s1 s2 s3 s4 ≠ 4 := by
    intro h
    unfold stringHand at h
    have h1 : side s1 s2 = 1 := by omega
    have h2 : side s2 s3 = 1 := by omega
    have h3 : side s3 s4 = 1 := by omega
    have h4 : side s4 s1 = 1 := by omega
    obtain ⟨-, c1, d1⟩ : side s1 s2 = 1 ∧ _ := by rcases b1 with h | h | h <;> first | exact h | omega
    obtain ⟨-, c2, d2⟩ : side s2 s3 = 1 ∧ _ := by rcases b2 with h | h | h <;> first | exact h | omega
    obtain ⟨-, c3, d3⟩ : side s3 s4 = 1 ∧ _ := by rcases b3 with h | h | h <;> first | exact h | omega
    obtain ⟨-, c4, d4⟩ : side s4 s1 = 1 ∧ _ := by rcases b4 with h | h | h <;> first | exact h | omega
    exact no_double (e := 1) (by linarith) (by linarith) (by linarith) (by linarith) c1 c2 c3
  have e1 : -1 ≤ side s1 s2 ∧ side s1 s2 ≤ 1 := by omega
  have e2 : -1 ≤ side s2 s3 ∧ side s2 s3 ≤ 1 := by omega
  have e3 : -1 ≤ side s3 s4 ∧ side s3 s4 ≤ 1 := by omega
  have e4 : -1 ≤ side s4 s1 ∧ side s4 s1 ≤ 1 := by omega
  have : stringHand s1 s2 s3 s4 = -4 ∨ stringHand s1 s2 s3 s4 = -2 ∨ stringHand s1 s2 s3 s4 = 0 ∨
      stringHand s1 s2 s3 s4 = 2 := by
    unfold stringHand at *; omega
  simpa using this

/-- **C22, values with a phase on every side.**  Then only `-2`, `0` and `2` occur, so every string
the plaquette carries is recorded by the `switch (hand)` of the kernels. -/
theorem C22_values_clear {s1 s2 s3 s4 : Cx K} (h : AvoidsAll s1 s2 s3 s4) :
    stringHand s1 s2 s3 s4 ∈ [(-2 : Int), 0, 2] := by
  have hv := C22_values s1 s2 s3 s4
  have hw := C22_values s1 s4 s3 s2
  rw [C22_reverse h] at hw
  simp only [List.mem_cons, List.not_mem_nil, or_false] at *
  omega

/-! ## The vector version -/

omit [LinearOrder K] [IsStrictOrderedRing K] in
theorem crossL_im (a b : Cx K) : (crossL a b).im = imMulConj a b := by
  simp only [crossL, lmul, lswap, lconj, ladd, imMulConj]; ring

omit [IsStrictOrderedRing K] in
/-- **C22, all vector builds agree.**  The bit masks of AVX-512, the integer subtraction of AVX2 and
SSE and the or-and trick of AVX add the same number for every pair of corners: `+1` or `-1` by the
sign of `Im(s1 conj s2)` when the imaginary parts have strictly opposite signs, `0` otherwise. -/
theorem C22_builds_agree (isa : Isa) (a b : Cx K) :
    sideV isa a b =
      if a.im * b.im < 0 then if 0 < a.im * b.re - a.re * b.im then 1 else -1 else 0 := by
  have e : (crossL a b).im = a.im * b.re - a.re * b.im := by rw [crossL_im, imMulConj_eq]
  simp only [sideV, e, lmul]
  by_cases h : a.im * b.im < 0 <;> by_cases g : 0 < a.im * b.re - a.re * b.im <;>
    cases isa <;> simp [h, g, not_le.mpr, not_lt.mp]

/-- **C22, vector and scalar.**  With no imaginary part exactly zero, every vector build computes
what `stringHand` computes. -/
theorem C22_vector {s1 s2 s3 s4 : Cx K} (isa : Isa) (h1 : s1.im ≠ 0) (h2 : s2.im ≠ 0)
    (h3 : s3.im ≠ 0) (h4 : s4.im ≠ 0) : handV isa s1 s2 s3 s4 = stringHand s1 s2 s3 s4 := by
  have key : ∀ a b : Cx K, a.im ≠ 0 → b.im ≠ 0 → sideV isa a b = side a b := by
    intro a b ha hb
    rw [C22_builds_agree, side, imMulConj_eq]
    by_cases pa : 0 < a.im <;> by_cases pb : 0 < b.im
    · have : ¬ a.im * b.im < 0 := not_lt.mpr (mul_pos pa pb).le
      simp [pa, pb, this]
    · have : a.im * b.im < 0 := mul_neg_of_pos_of_neg pa (lt_of_le_of_ne (not_lt.mp pb) hb)
      simp [pa, pb, this]
    · have : a.im * b.im < 0 := mul_neg_of_neg_of_pos (lt_of_le_of_ne (not_lt.mp pa) ha) pb
      simp [pa, pb, this]
    · have : ¬ a.im * b.im < 0 := not_lt.mpr (mul_nonneg_of_nonpos_of_nonpos (not_lt.mp pa) (not_lt.mp pb))
      simp [pa, pb, this]
  simp only [handV, stringHand, key _ _ h1 h2, key _ _ h2 h3, key _ _ h3 h4, key _ _ h4 h1]

/-- **C22, what the wall bit says.**  It is set exactly when the imaginary parts of the two corners
have strictly opposite signs and the segment between them meets the real axis left of the origin,
that is, the phase passes `π` on the way. -/
theorem C22_wall {a b : Cx K} :
    wallV a b = true ↔ a.im * b.im < 0 ∧
      ∃ u : K, 0 ≤ u ∧ u ≤ 1 ∧ (1 - u) * a.im + u * b.im = 0 ∧ (1 - u) * a.re + u * b.re < 0 := by
  have e : (lmul (crossL a b) (lsub a b)).im = (a.im * b.re - a.re * b.im) * (a.im - b.im) := by
    simp only [lmul, lsub, crossL_im, imMulConj_eq]
  simp only [wallV, e, Bool.and_eq_true, decide_eq_true_eq]
  have e2 : (lmul a b).im = a.im * b.im := rfl
  rw [e2, and_comm]
  refine and_congr_right fun hneg => ?_
  have hd : a.im - b.im ≠ 0 := by
    intro h0
    have : a.im = b.im := sub_eq_zero.mp h0
    rw [this] at hneg
    exact absurd hneg (not_lt.mpr (mul_self_nonneg _))
  have sq : 0 < (a.im - b.im) ^ 2 := by positivity
  constructor
  · intro h
    have w : (1 - a.im / (a.im - b.im)) * a.re + a.im / (a.im - b.im) * b.re =
        ((a.im * b.re - a.re * b.im) * (a.im - b.im)) / (a.im - b.im) ^ 2 := by
      field_simp; ring
    refine ⟨a.im / (a.im - b.im), ?_, ?_, ?_, ?_⟩
    · have : a.im / (a.im - b.im) = a.im * (a.im - b.im) / (a.im - b.im) ^ 2 := by field_simp
      rw [this]
      exact div_nonneg (by nlinarith [mul_self_nonneg a.im]) sq.le
    · have : a.im / (a.im - b.im) = a.im * (a.im - b.im) / (a.im - b.im) ^ 2 := by field_simp
      rw [this, div_le_one sq]
      nlinarith [mul_self_nonneg b.im]
    · field_simp; ring
    · rw [w]; exact div_neg_of_neg_of_pos h sq
  · rintro ⟨u, -, -, h1, h2⟩
    have hu : u * (a.im - b.im) = a.im := by linear_combination -h1
    have : (a.im * b.re - a.re * b.im) * (a.im - b.im) =
        ((1 - u) * a.re + u * b.re) * (a.im - b.im) ^ 2 := by
      linear_combination (-(a.im - b.im) * b.re + (a.im - b.im) * a.re) * hu
    rw [this]
    exact mul_neg_of_neg_of_pos h2 sq

end generic

/-! Examples: a plaquette with one string, the same plaquette the other way round, and the value `-4`,
which needs sides through the origin. -/

example : stringHand (⟨1, 1⟩ : Cx ℚ) ⟨1, -1⟩ ⟨-1, -1⟩ ⟨-1, 1⟩ = 2 := by decide +kernel
example : stringHand (⟨1, 1⟩ : Cx ℚ) ⟨-1, 1⟩ ⟨-1, -1⟩ ⟨1, -1⟩ = -2 := by decide +kernel
example : stringHand (⟨0, 1⟩ : Cx ℚ) ⟨0, -1⟩ ⟨0, 2⟩ ⟨0, -3⟩ = -4 := by decide +kernel

/-- **C22, finding.**  A corner whose imaginary part is exactly zero: the plaquette carries a
string, `stringHand` says `2`, and every vector build says `1`, which the `switch (hand)` of the
kernels (`stringXeon.cpp:634-650`) ignores. -/
theorem C22_vector_misses (isa : Isa) :
    AvoidsAll (⟨1, 1⟩ : Cx ℚ) ⟨1, -1⟩ ⟨-1, 0⟩ ⟨-1, 1⟩ ∧
    stringHand (⟨1, 1⟩ : Cx ℚ) ⟨1, -1⟩ ⟨-1, 0⟩ ⟨-1, 1⟩ = 2 ∧
    handV isa (⟨1, 1⟩ : Cx ℚ) ⟨1, -1⟩ ⟨-1, 0⟩ ⟨-1, 1⟩ = 1 := by
  refine ⟨⟨?_, ?_, ?_, ?_⟩, by decide +kernel, by cases isa <;> decide +kernel⟩ <;>
    rintro u h0 h1 ⟨h2, h3⟩ <;> simp only at h2 h3 <;> linarith

/-! ## The winding number -/

/-- Polar form with the angle in `(0, π)` above the axis and in `[-π, 0]` on it and below. -/
theorem polar (s : Cx ℝ) (h : toC s ≠ 0) :
    ∃ r θ : ℝ, 0 < r ∧ s.re = r * Real.cos θ ∧ s.im = r * Real.sin θ ∧
      ((0 < s.im ∧ 0 < θ ∧ θ < Real.pi) ∨ (s.im ≤ 0 ∧ -Real.pi ≤ θ ∧ θ ≤ 0)) := by
  have hr : 0 < ‖toC s‖ := norm_pos_iff.mpr h
  have hc := Complex.norm_mul_cos_arg (toC s)
  have hs := Complex.norm_mul_sin_arg (toC s)
  have re : (toC s).re = s.re := rfl
  have im : (toC s).im = s.im := rfl
  rw [re] at hc
  rw [im] at hs
  have hle := Complex.arg_le_pi (toC s)
  have hgt := Complex.neg_pi_lt_arg (toC s)
  by_cases hp : 0 < s.im
  · refine ⟨‖toC s‖, (toC s).arg, hr, hc.symm, hs.symm, Or.inl ⟨hp, ?_, ?_⟩⟩
    · have h0 : 0 ≤ (toC s).arg := Complex.arg_nonneg_iff.mpr (by rw [im]; exact hp.le)
      rcases h0.lt_or_eq with h | h
      · exact h
      · rw [← h] at hs; simp at hs; linarith
    · rcases hle.lt_or_eq with h | h
      · exact h
      · rw [h] at hs; simp at hs; linarith
  · have hp' := not_lt.mp hp
    by_cases hpi : (toC s).arg = Real.pi
    · refine ⟨‖toC s‖, -Real.pi, hr, ?_, ?_, Or.inr ⟨hp', le_refl _, by linarith [Real.pi_pos]⟩⟩
      · rw [Real.cos_neg, ← hpi]; exact hc.symm
      · rw [← hs, hpi]; simp
    · refine ⟨‖toC s‖, (toC s).arg, hr, hc.symm, hs.symm, Or.inr ⟨hp', hgt.le, ?_⟩⟩
      by_contra hcon
      have hcon := not_le.mp hcon
      have : 0 < Real.sin (toC s).arg :=
        Real.sin_pos_of_pos_of_lt_pi hcon (lt_of_le_of_ne hle hpi)
      have := mul_pos hr this
      linarith

/-- The angle of a side from the angles of its ends. -/
theorem angle_eq {a b : Cx ℝ} {r t : ℝ} {α β : ℝ} (hr : 0 < r) (ht : 0 < t)
    (ha : a.re = r * Real.cos α ∧ a.im = r * Real.sin α)
    (hb : b.re = t * Real.cos β ∧ b.im = t * Real.sin β) (n : ℤ)
    (h1 : -Real.pi < α - β + n * (2 * Real.pi)) (h2 : α - β + n * (2 * Real.pi) ≤ Real.pi) :
    angle a b = α - β + n * (2 * Real.pi) := by
  have key : toC a * (starRingEnd ℂ) (toC b) =
      ((r * t : ℝ) : ℂ) * (Complex.cos ((α - β + n * (2 * Real.pi) : ℝ) : ℂ) +
        Complex.sin ((α - β + n * (2 * Real.pi) : ℝ) : ℂ) * Complex.I) := by
    rw [← Complex.ofReal_cos, ← Complex.ofReal_sin, Real.cos_add_int_mul_two_pi,
      Real.sin_add_int_mul_two_pi, Real.cos_sub, Real.sin_sub]
    apply Complex.ext <;> simp [toC, ha.1, ha.2, hb.1, hb.2, Complex.cos_ofReal_re,
      Complex.sin_ofReal_re] <;> ring
  rw [angle, key]
  exact Complex.arg_mul_cos_add_sin_mul_I (mul_pos hr ht) ⟨h1, h2⟩

/-- The side with angles `α`, `β` at its ends: `Im(a conj b)`. -/
theorem imMulConj_polar {a b : Cx ℝ} {r t : ℝ} {α β : ℝ}
    (ha : a.re = r * Real.cos α ∧ a.im = r * Real.sin α)
    (hb : b.re = t * Real.cos β ∧ b.im = t * Real.sin β) :
    imMulConj a b = r * t * Real.sin (α - β) := by
  rw [imMulConj_eq, ha.1, ha.2, hb.1, hb.2, Real.sin_sub]; ring

theorem toC_ne_zero_of_avoids {a b : Cx ℝ} (h : Avoids a b) : toC a ≠ 0 ∧ toC b ≠ 0 := by
  constructor
  · intro h0
    have := Complex.ext_iff.mp h0
    exact h 0 le_rfl zero_le_one ⟨by simpa [toC] using this.1, by simpa [toC] using this.2⟩
  · intro h0
    have := Complex.ext_iff.mp h0
    exact h 1 zero_le_one le_rfl ⟨by simpa [toC] using this.1, by simpa [toC] using this.2⟩

theorem sin_neg_of_pi {x : ℝ} (h1 : Real.pi < x) (h2 : x < 2 * Real.pi) : Real.sin x < 0 := by
  have := Real.sin_pos_of_pos_of_lt_pi (x := x - Real.pi) (by linarith) (by linarith)
  rw [Real.sin_sub_pi] at this
  linarith

/-- The angle of a side is the difference of the polar angles of its ends, corrected by what the
side adds to `hand`. -/
theorem angle_side {a b : Cx ℝ} (h : Avoids a b) {r t α β : ℝ} (hr : 0 < r) (ht : 0 < t)
    (ha : a.re = r * Real.cos α ∧ a.im = r * Real.sin α)
    (hb : b.re = t * Real.cos β ∧ b.im = t * Real.sin β)
    (ra : (0 < a.im ∧ 0 < α ∧ α < Real.pi) ∨ (a.im ≤ 0 ∧ -Real.pi ≤ α ∧ α ≤ 0))
    (rb : (0 < b.im ∧ 0 < β ∧ β < Real.pi) ∨ (b.im ≤ 0 ∧ -Real.pi ≤ β ∧ β ≤ 0)) :
    angle a b = α - β + Real.pi * ((side a b : ℝ) - (up a - up b)) := by
  have hpi := Real.pi_pos
  have hx := imMulConj_polar ha hb
  have hrt := mul_pos hr ht
  have mk := fun n => angle_eq hr ht ha hb n
  -- the sign of `Im(a conj b)` is the sign of `sin (α - β)`
  have sgn_pos : 0 < imMulConj a b ↔ 0 < Real.sin (α - β) := by
    rw [hx]; exact mul_pos_iff_of_pos_left hrt
  have sgn_zero : Real.sin (α - β) = 0 → imMulConj a b = 0 := by
    intro h0; rw [hx, h0, mul_zero]
  rcases ra with ⟨a0, a1, a2⟩ | ⟨a0, a1, a2⟩ <;> rcases rb with ⟨b0, b1, b2⟩ | ⟨b0, b1, b2⟩
  · have hs : side a b = 0 := by
      rcases side_cases a b with ⟨h, -⟩ | ⟨-, g, -⟩ | ⟨-, g, -⟩
      · exact h
      · exact absurd (by tauto) g
      · exact absurd (by tauto) g
    rw [mk 0 (by push_cast; linarith) (by push_cast; linarith), hs]
    simp [up, a0, b0]
  · have b0' := not_lt.mpr b0
    have hne : ¬(0 < a.im ↔ 0 < b.im) := by tauto
    have hc := cross_ne_zero h hne
    rcases side_cases a b with ⟨-, g⟩ | ⟨hs, -, g⟩ | ⟨hs, -, g⟩
    · exact absurd g hne
    · have hsin := sgn_pos.mp g
      have : α - β < Real.pi := by
        by_contra hcon
        rcases (not_lt.mp hcon).lt_or_eq with h1 | h1
        · have := sin_neg_of_pi h1 (by linarith); linarith
        · rw [← h1, Real.sin_pi] at hsin; exact absurd hsin (lt_irrefl _)
      rw [mk 0 (by push_cast; linarith) (by push_cast; linarith), hs]
      simp [up, a0, b0']
    · have hsin : ¬ 0 < Real.sin (α - β) := fun hp => absurd (sgn_pos.mpr hp) (not_lt.mpr g)
      have h1 : Real.pi < α - β := by
        by_contra hcon
        rcases (not_lt.mp hcon).lt_or_eq with h1 | h1
        · exact hsin (Real.sin_pos_of_pos_of_lt_pi (by linarith) h1)
        · exact hc (sgn_zero (by rw [h1, Real.sin_pi]))
      rw [mk (-1) (by push_cast; linarith) (by push_cast; linarith), hs]
      simp [up, a0, b0']; ring
  · have a0' := not_lt.mpr a0
    have hne : ¬(0 < a.im ↔ 0 < b.im) := by tauto
    have hc := cross_ne_zero h hne
    have e : Real.sin (α - β) = -Real.sin (β - α) := by rw [← Real.sin_neg]; congr 1; ring
    rcases side_cases a b with ⟨-, g⟩ | ⟨hs, -, g⟩ | ⟨hs, -, g⟩
    · exact absurd g hne
    · have hsin := sgn_pos.mp g
      have h1 : Real.pi < β - α := by
        by_contra hcon
        rcases (not_lt.mp hcon).lt_or_eq with h1 | h1
        · have := Real.sin_pos_of_pos_of_lt_pi (x := β - α) (by linarith) h1; linarith
        · rw [e, h1, Real.sin_pi] at hsin; simp at hsin
      rw [mk 1 (by push_cast; linarith) (by push_cast; linarith), hs]
      simp [up, a0', b0]; ring
    · have hsin : ¬ 0 < Real.sin (α - β) := fun hp => absurd (sgn_pos.mpr hp) (not_lt.mpr g)
      have h1 : β - α < Real.pi := by
        by_contra hcon
        rcases (not_lt.mp hcon).lt_or_eq with h1 | h1
        · have := sin_neg_of_pi h1 (by linarith); exact hsin (by linarith)
        · exact hc (sgn_zero (by rw [e, ← h1, Real.sin_pi, neg_zero]))
      rw [mk 0 (by push_cast; linarith) (by push_cast; linarith), hs]
      simp [up, a0', b0]
  · have a0' := not_lt.mpr a0
    have b0' := not_lt.mpr b0
    have hs : side a b = 0 := by
      rcases side_cases a b with ⟨h, -⟩ | ⟨-, g, -⟩ | ⟨-, g, -⟩
      · exact h
      · exact absurd (by tauto) g
      · exact absurd (by tauto) g
    have h1 : -Real.pi < α - β := by
      rcases (show -Real.pi ≤ α - β by linarith).lt_or_eq with h1 | h1
      · exact h1
      · exfalso
        have e1 : α = -Real.pi := by linarith
        have e2 : β = 0 := by linarith
        rw [e1] at ha
        rw [e2] at hb
        simp at ha hb
        refine h (r / (r + t)) (by positivity) ((div_le_one (by linarith)).mpr (by linarith)) ⟨?_, ?_⟩
        · rw [ha.1, hb.1]; field_simp; ring
        · rw [ha.2, hb.2]; simp
    rw [mk 0 (by push_cast; linarith) (by push_cast; linarith), hs]
    simp [up, a0', b0']

/-- **C22.**  When the interpolated field has a phase along the four sides, the phase turns by
exactly `π * stringHand` in one trip around the plaquette: `stringHand` is twice the winding
number. -/
theorem C22_winding {s1 s2 s3 s4 : Cx ℝ} (h : AvoidsAll s1 s2 s3 s4) :
    turned s1 s2 s3 s4 = Real.pi * stringHand s1 s2 s3 s4 := by
  obtain ⟨h1, h2, h3, h4⟩ := h
  obtain ⟨r1, t1, p1, x1, y1, q1⟩ := polar s1 (toC_ne_zero_of_avoids h1).1
  obtain ⟨r2, t2, p2, x2, y2, q2⟩ := polar s2 (toC_ne_zero_of_avoids h2).1
  obtain ⟨r3, t3, p3, x3, y3, q3⟩ := polar s3 (toC_ne_zero_of_avoids h3).1
  obtain ⟨r4, t4, p4, x4, y4, q4⟩ := polar s4 (toC_ne_zero_of_avoids h4).1
  rw [turned, angle_side h1 p1 p2 ⟨x1, y1⟩ ⟨x2, y2⟩ q1 q2,
    angle_side h2 p2 p3 ⟨x2, y2⟩ ⟨x3, y3⟩ q2 q3, angle_side h3 p3 p4 ⟨x3, y3⟩ ⟨x4, y4⟩ q3 q4,
    angle_side h4 p4 p1 ⟨x4, y4⟩ ⟨x1, y1⟩ q4 q1, stringHand]
  push_cast
  ring

/-- **C22, vector.**  The same for every vector build, when no imaginary part is exactly zero. -/
theorem C22_winding_vector {s1 s2 s3 s4 : Cx ℝ} (isa : Isa) (h : AvoidsAll s1 s2 s3 s4)
    (h1 : s1.im ≠ 0) (h2 : s2.im ≠ 0) (h3 : s3.im ≠ 0) (h4 : s4.im ≠ 0) :
    turned s1 s2 s3 s4 = Real.pi * handV isa s1 s2 s3 s4 := by
  rw [C22_vector isa h1 h2 h3 h4, C22_winding h]

/-- Turn the phase of the field by `ω` and scale it by `ρ`. -/
noncomputable def rotate (ρ ω : ℝ) (s : Cx ℝ) : Cx ℝ :=
  ⟨ρ * (s.re * Real.cos ω - s.im * Real.sin ω), ρ * (s.re * Real.sin ω + s.im * Real.cos ω)⟩

theorem avoids_rotate {ρ ω : ℝ} (hρ : 0 < ρ) {a b : Cx ℝ} (h : Avoids a b) :
    Avoids (rotate ρ ω a) (rotate ρ ω b) := by
  rintro u h0 h1 ⟨e1, e2⟩
  simp only [rotate] at e1 e2
  have cs := Real.sin_sq_add_cos_sq ω
  set X := (1 - u) * a.re + u * b.re with hX
  set Y := (1 - u) * a.im + u * b.im with hY
  have f1 : ρ * (X * Real.cos ω - Y * Real.sin ω) = 0 := by rw [hX, hY]; linarith
  have f2 : ρ * (X * Real.sin ω + Y * Real.cos ω) = 0 := by rw [hX, hY]; linarith
  have g1 := (mul_eq_zero.mp f1).resolve_left hρ.ne'
  have g2 := (mul_eq_zero.mp f2).resolve_left hρ.ne'
  refine h u h0 h1 ⟨?_, ?_⟩
  · show X = 0
    linear_combination Real.cos ω * g1 + Real.sin ω * g2 - X * cs
  · show Y = 0
    linear_combination -Real.sin ω * g1 + Real.cos ω * g2 - Y * cs

theorem angle_rotate {ρ ω : ℝ} (hρ : 0 < ρ) (a b : Cx ℝ) :
    angle (rotate ρ ω a) (rotate ρ ω b) = angle a b := by
  have cs := Real.sin_sq_add_cos_sq ω
  have : toC (rotate ρ ω a) * (starRingEnd ℂ) (toC (rotate ρ ω b)) =
      ((ρ ^ 2 : ℝ) : ℂ) * (toC a * (starRingEnd ℂ) (toC b)) := by
    apply Complex.ext
    · simp [toC, rotate, pow_two]
      linear_combination (ρ ^ 2 * (a.re * b.re + a.im * b.im)) * cs
    · simp [toC, rotate, pow_two]
      linear_combination (ρ ^ 2 * (a.im * b.re - a.re * b.im)) * cs
  rw [angle, angle, this, Complex.arg_real_mul _ (by positivity)]

/-- **C22, symmetry.**  A change of the global phase or size of the field does not change which
plaquettes carry a string, although the test looks at the imaginary axis only. -/
theorem C22_rotation {s1 s2 s3 s4 : Cx ℝ} (h : AvoidsAll s1 s2 s3 s4) {ρ ω : ℝ} (hρ : 0 < ρ) :
    stringHand (rotate ρ ω s1) (rotate ρ ω s2) (rotate ρ ω s3) (rotate ρ ω s4) =
      stringHand s1 s2 s3 s4 := by
  have h' : AvoidsAll (rotate ρ ω s1) (rotate ρ ω s2) (rotate ρ ω s3) (rotate ρ ω s4) :=
    ⟨avoids_rotate hρ h.1, avoids_rotate hρ h.2.1, avoids_rotate hρ h.2.2.1,
      avoids_rotate hρ h.2.2.2⟩
  have e1 := C22_winding h
  have e2 := C22_winding h'
  rw [turned, angle_rotate hρ, angle_rotate hρ, angle_rotate hρ, angle_rotate hρ] at e2
  rw [turned, e2] at e1
  have := mul_left_cancel₀ Real.pi_ne_zero e1
  exact_mod_cast this

/-- The hypotheses hold for a plaquette around a string, and the phase turns by `2π`. -/
example : AvoidsAll (⟨1, 1⟩ : Cx ℝ) ⟨1, -1⟩ ⟨-1, -1⟩ ⟨-1, 1⟩ := by
  refine ⟨?_, ?_, ?_, ?_⟩ <;> rintro u h0 h1 ⟨h2, h3⟩ <;> simp only at h2 h3 <;> linarith

end Winding
end Jaxions
