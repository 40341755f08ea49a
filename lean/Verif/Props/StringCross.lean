import Verif.Lemmas.StringCross

/-!
# C75: where `setCross` puts a string
-/

namespace Jaxions
namespace StrLen

open Winding

variable {K : Type} [Field K] [LinearOrder K] [IsStrictOrderedRing K]

/-- **C75, inside.**  For every plaquette with a winding whose sides avoid the origin, `setCross`
returns a point, and the point is in the plaquette. -/
theorem C75_inside {m mu mv muv : Cx K} (ha : AvoidsAll m mu muv mv)
    (hh : stringHand m mu muv mv ≠ 0) :
    ∃ u v, setCross m mu mv muv = some (u, v) ∧ 0 ≤ u ∧ u ≤ 1 ∧ 0 ≤ v ∧ v ≤ 1 := by
  have half : (0 : K) ≤ 1 / 2 ∧ (1 / 2 : K) ≤ 1 := ⟨by positivity, by linarith⟩
  by_cases hr : ∃ r0 r1, nodes m.re mu.re mv.re muv.re = [r0, r1]
  · obtain ⟨r0, r1, hr⟩ := hr
    by_cases hi : ∃ i0 i1, nodes m.im mu.im mv.im muv.im = [i0, i1]
    · obtain ⟨i0, i1, hi⟩ := hi
      obtain ⟨P, Q, P', Q', t, u, v, -, h', t0, t1, eu, ev, -, -, -, e⟩ := setCross_two hr hi ha hh
      obtain ⟨⟨a1, a2, a3, a4, -⟩, ⟨b1, b2, b3, b4, -⟩⟩ := h'.bd
      have k1 := mix_range ⟨a1, a2⟩ ⟨b1, b2⟩ t0 t1
      have k2 := mix_range ⟨a3, a4⟩ ⟨b3, b4⟩ t0 t1
      rw [← eu] at k1
      rw [← ev] at k2
      exact ⟨u, v, e, k1.1, k1.2, k2.1, k2.2⟩
    · refine ⟨1 / 2, 1 / 2, ?_, half.1, half.2, half.1, half.2⟩
      unfold setCross
      split
      · next i0 i1 h1 h2 => exact absurd ⟨_, _, h2⟩ hi
      · rfl
  · refine ⟨1 / 2, 1 / 2, ?_, half.1, half.2, half.1, half.2⟩
    unfold setCross
    split
    · next i0 i1 h1 h2 => exact absurd ⟨_, _, h1⟩ hr
    · rfl

/-- The field between the corners when it is the same linear function everywhere. -/
def linear (m mu mv u v : K) : K := m + u * (mu - m) + v * (mv - m)

theorem Two.linear {a b c d : K} {P Q : K × K} (h : Two a b c d P Q) (hl : a + c = b + d) :
    StrLen.linear a b d P.1 P.2 = 0 ∧ StrLen.linear a b d Q.1 Q.2 = 0 := by
  have key : ∀ x y, Bd a b c d x y 0 → StrLen.linear a b d x y = 0 := by
    rintro x y ⟨-, -, -, -, h⟩
    unfold StrLen.linear
    rcases h with ⟨h, e⟩ | ⟨h, e⟩ | ⟨h, e⟩ | ⟨h, e⟩
    · rw [h]; linear_combination -e
    · rw [h]; linear_combination -e - y * hl
    · rw [h]; linear_combination -e - x * hl
    · rw [h]; linear_combination -e
  exact ⟨key _ _ h.bd.1, key _ _ h.bd.2⟩

omit [LinearOrder K] [IsStrictOrderedRing K] in
/-- A linear function that vanishes at two points vanishes on their line. -/
theorem linear_line {m mu mv u v : K} {P Q : K × K} (hP : linear m mu mv P.1 P.2 = 0)
    (hQ : linear m mu mv Q.1 Q.2 = 0) (hne : P ≠ Q) (h : ell P Q u v = 0) :
    linear m mu mv u v = 0 := by
  unfold linear at *
  unfold ell at h
  have k1 : (P.1 - Q.1) * (m + u * (mu - m) + v * (mv - m)) = 0 := by
    linear_combination (mv - m) * h + (u - Q.1) * hP - (u - P.1) * hQ
  have k2 : (P.2 - Q.2) * (m + u * (mu - m) + v * (mv - m)) = 0 := by
    linear_combination -(mu - m) * h + (v - Q.2) * hP - (v - P.2) * hQ
  rcases mul_eq_zero.mp k1 with e1 | e1
  · rcases mul_eq_zero.mp k2 with e2 | e2
    · exact absurd (Prod.ext (sub_eq_zero.mp e1) (sub_eq_zero.mp e2)) hne
    · exact e2
  · exact e1

/-- Four numbers that are not zero and of which the opposite ones have the same sum change sign on no
side or on two. -/
theorem nodes_linear {a b c d : K} (ha : a ≠ 0) (hb : b ≠ 0) (hc : c ≠ 0) (hd : d ≠ 0)
    (hl : a + c = b + d) : (∃ n0 n1, nodes a b d c = [n0, n1]) ∨
      ((0 < a ↔ 0 < b) ∧ (0 < b ↔ 0 < c) ∧ (0 < c ↔ 0 < d) ∧ (0 < d ↔ 0 < a)) := by
  have pn : ∀ {p q : K}, 0 < p → q < 0 → p * q ≤ 0 := fun hp hq => (mul_neg_of_pos_of_neg hp hq).le
  have np : ∀ {p q : K}, p < 0 → 0 < q → p * q ≤ 0 := fun hp hq => (mul_neg_of_neg_of_pos hp hq).le
  have pp : ∀ {p q : K}, 0 < p → 0 < q → ¬ p * q ≤ 0 := fun hp hq => not_le.mpr (mul_pos hp hq)
  have nn : ∀ {p q : K}, p < 0 → q < 0 → ¬ p * q ≤ 0 := fun hp hq =>
    not_le.mpr (mul_pos_of_neg_of_neg hp hq)
  unfold nodes
  rcases lt_or_gt_of_ne ha with a0 | a0 <;> rcases lt_or_gt_of_ne hb with b0 | b0 <;>
    rcases lt_or_gt_of_ne hc with c0 | c0 <;> rcases lt_or_gt_of_ne hd with d0 | d0
  · exact .inr ⟨by simp [a0.le, b0.le, not_lt.mpr], by simp [b0.le, c0.le, not_lt.mpr],
      by simp [c0.le, d0.le, not_lt.mpr], by simp [d0.le, a0.le, not_lt.mpr]⟩
  · left; simp only [nn a0 b0, nn b0 c0, np c0 d0, pn d0 a0, if_true, if_false]; exact ⟨_, _, rfl⟩
  · left; simp only [nn a0 b0, np b0 c0, pn c0 d0, nn d0 a0, if_true, if_false]; exact ⟨_, _, rfl⟩
  · left; simp only [nn a0 b0, np b0 c0, pp c0 d0, pn d0 a0, if_true, if_false]; exact ⟨_, _, rfl⟩
  · left; simp only [np a0 b0, pn b0 c0, nn c0 d0, nn d0 a0, if_true, if_false]; exact ⟨_, _, rfl⟩
  · exfalso; linarith
  · left; simp only [np a0 b0, pp b0 c0, pn c0 d0, nn d0 a0, if_true, if_false]; exact ⟨_, _, rfl⟩
  · left; simp only [np a0 b0, pp b0 c0, pp c0 d0, pn d0 a0, if_true, if_false]; exact ⟨_, _, rfl⟩
  · left; simp only [pn a0 b0, nn b0 c0, nn c0 d0, np d0 a0, if_true, if_false]; exact ⟨_, _, rfl⟩
  · left; simp only [pn a0 b0, nn b0 c0, np c0 d0, pp d0 a0, if_true, if_false]; exact ⟨_, _, rfl⟩
  · exfalso; linarith
  · left; simp only [pn a0 b0, np b0 c0, pp c0 d0, pp d0 a0, if_true, if_false]; exact ⟨_, _, rfl⟩
  · left; simp only [pp a0 b0, pn b0 c0, nn c0 d0, np d0 a0, if_true, if_false]; exact ⟨_, _, rfl⟩
  · left; simp only [pp a0 b0, pn b0 c0, np c0 d0, pp d0 a0, if_true, if_false]; exact ⟨_, _, rfl⟩
  · left; simp only [pp a0 b0, pp b0 c0, pn c0 d0, np d0 a0, if_true, if_false]; exact ⟨_, _, rfl⟩
  · exact .inr ⟨by simp [a0, b0], by simp [b0, c0], by simp [c0, d0], by simp [d0, a0]⟩

/-- **C75, exact on linear fields.**  If the field is linear over the plaquette (and neither of its
components is exactly zero at a corner), the point returned is where the field vanishes. -/
theorem C75_linear {m mu mv muv : Cx K} (ha : AvoidsAll m mu muv mv)
    (hh : stringHand m mu muv mv ≠ 0) (hr : m.re + muv.re = mu.re + mv.re)
    (hi : m.im + muv.im = mu.im + mv.im) (h0 : ∀ s ∈ [m, mu, mv, muv], s.re ≠ 0 ∧ s.im ≠ 0) :
    ∃ u v, setCross m mu mv muv = some (u, v) ∧
      linear m.re mu.re mv.re u v = 0 ∧ linear m.im mu.im mv.im u v = 0 := by
  simp only [List.mem_cons, List.not_mem_nil, or_false, forall_eq_or_imp, forall_eq] at h0
  obtain ⟨⟨r1, i1⟩, ⟨r2, i2⟩, ⟨r4, i4⟩, ⟨r3, i3⟩⟩ := h0
  rcases nodes_linear i1 i2 i3 i4 hi with ⟨n0, n1, hni⟩ | ⟨s1, s2, s3, s4⟩
  · rcases nodes_linear r1 r2 r3 r4 hr with ⟨k0, k1, hnr⟩ | hs
    · obtain ⟨P, Q, P', Q', t, u, v, h, h', t0, t1, eu, ev, ne', ne, el, e⟩ :=
        setCross_two hnr hni ha hh
      obtain ⟨l1, l2⟩ := h.linear hr
      obtain ⟨l1', l2'⟩ := h'.linear hi
      refine ⟨u, v, e, linear_line l1 l2 ne el, linear_line l1' l2' ne' ?_⟩
      rw [eu, ev, ell]; ring
    · -- the real part has one sign only: no winding
      exfalso
      obtain ⟨P, Q, -, -, h⟩ := nodes_two hni
      obtain ⟨f, g, hf, hg, hfg⟩ := h.opposite ha hh
      obtain ⟨s1, s2, s3, s4⟩ := hs
      by_cases hp : 0 < m.re
      · have h2 := s1.mp hp
        have h3 := s2.mp h2
        have h4 := s3.mp h3
        have := mul_nonneg (hf.nonneg hp.le h2.le h3.le h4.le) (hg.nonneg hp.le h2.le h3.le h4.le)
        linarith
      · have n2 : ¬ 0 < mu.re := fun h => hp (s1.mpr h)
        have n3 : ¬ 0 < muv.re := fun h => n2 (s2.mpr h)
        have n4 : ¬ 0 < mv.re := fun h => n3 (s3.mpr h)
        have := mul_nonneg
          (hf.neg.nonneg (neg_nonneg.mpr (not_lt.mp hp)) (neg_nonneg.mpr (not_lt.mp n2))
            (neg_nonneg.mpr (not_lt.mp n3)) (neg_nonneg.mpr (not_lt.mp n4)))
          (hg.neg.nonneg (neg_nonneg.mpr (not_lt.mp hp)) (neg_nonneg.mpr (not_lt.mp n2))
            (neg_nonneg.mpr (not_lt.mp n3)) (neg_nonneg.mpr (not_lt.mp n4)))
        rw [neg_mul_neg] at this
        linarith
  · exfalso
    apply hh
    rw [stringHand, side_zero s1, side_zero s2, side_zero s3, side_zero s4]; rfl

/-- The point where a linear field with a winding vanishes is unique, so that `C75_linear` says which
point is returned: here `(1/4, 1/3)`. -/
example : setCross (⟨-3, -1⟩ : Cx ℚ) ⟨9, -1⟩ ⟨-3, 2⟩ ⟨9, 2⟩ = some (1 / 4, 1 / 3) ∧
    AvoidsAll (⟨-3, -1⟩ : Cx ℚ) ⟨9, -1⟩ ⟨9, 2⟩ ⟨-3, 2⟩ ∧
    stringHand (⟨-3, -1⟩ : Cx ℚ) ⟨9, -1⟩ ⟨9, 2⟩ ⟨-3, 2⟩ ≠ 0 := by
  refine ⟨by decide +kernel, ⟨?_, ?_, ?_, ?_⟩, by decide +kernel⟩ <;>
    rintro u h0 h1 ⟨h2, h3⟩ <;> simp only at h2 h3 <;> linarith

/-- **C75, a component that is exactly zero at corners.**  Then a node is counted on two sides and
the middle of the plaquette is returned instead: for the linear field with real part `u - v` and
imaginary part `10 u + 5 v - 4`, which vanishes at `u = v = 4/15`. -/
theorem C75_zero_corner :
    setCross (⟨0, -4⟩ : Cx ℚ) ⟨1, 6⟩ ⟨-1, 1⟩ ⟨0, 11⟩ = some (1 / 2, 1 / 2) ∧
    linear (0 : ℚ) 1 (-1) (4 / 15) (4 / 15) = 0 ∧ linear (-4 : ℚ) 6 1 (4 / 15) (4 / 15) = 0 ∧
    stringHand (⟨0, -4⟩ : Cx ℚ) ⟨1, 6⟩ ⟨0, 11⟩ ⟨-1, 1⟩ ≠ 0 ∧
    AvoidsAll (⟨0, -4⟩ : Cx ℚ) ⟨1, 6⟩ ⟨0, 11⟩ ⟨-1, 1⟩ := by
  refine ⟨by decide +kernel, by norm_num [linear], by norm_num [linear], by decide +kernel,
    ?_, ?_, ?_, ?_⟩ <;> rintro u h0 h1 ⟨h2, h3⟩ <;> simp only at h2 h3 <;> linarith

end StrLen
end Jaxions
