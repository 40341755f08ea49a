import Verif.Lemmas.SplinePieces
import Mathlib.Analysis.Calculus.Deriv.Basic
import Mathlib.Analysis.Calculus.Deriv.Pow
import Mathlib.Analysis.Calculus.Deriv.Add
import Mathlib.Analysis.Calculus.Deriv.Mul

/-!
# Splines of real functions
-/

namespace Jaxions
namespace Spline

open Filter Topology Set

/-- A property of a function at a point from the left and from the right. -/
theorem glue {S : Spl ℝ} (F : Meets S) {f g : ℝ → ℝ}
    (hL : ∃ p q : ℝ → ℝ, (∀ t, HasDerivAt p (q t) t) ∧ ∀ t ≤ S.x 0, f t = p t ∧ g t = q t)
    (hI : ∀ i, i + 1 < S.n → ∃ p q : ℝ → ℝ, (∀ t, HasDerivAt p (q t) t) ∧
      ∀ t, S.x i ≤ t → t ≤ S.x (i + 1) → f t = p t ∧ g t = q t)
    (hR : ∃ p q : ℝ → ℝ, (∀ t, HasDerivAt p (q t) t) ∧ ∀ t, S.x (S.n - 1) ≤ t → f t = p t ∧ g t = q t) (t : ℝ) :
    HasDerivAt f (g t) t := by
  have h1 : HasDerivWithinAt f (g t) (Iic t) t := by
    rcases F.where_ t with k | ⟨i, hi, k, k'⟩ | k
    · obtain ⟨p, q, hp, e⟩ := hL
      rw [(e t k).2]
      exact (hp t).hasDerivWithinAt.congr (fun s hs => (e s (le_trans hs k)).1) (e t k).1
    · obtain ⟨p, q, hp, e⟩ := hI i hi
      rw [(e t k.le k').2]
      refine (hp t).hasDerivWithinAt.congr_of_eventuallyEq ?_ (e t k.le k').1
      filter_upwards [Icc_mem_nhdsLE k] with s hs
      exact (e s hs.1 (hs.2.trans k')).1
    · obtain ⟨p, q, hp, e⟩ := hR
      rw [(e t k.le).2]
      refine (hp t).hasDerivWithinAt.congr_of_eventuallyEq ?_ (e t k.le).1
      filter_upwards [Icc_mem_nhdsLE k] with s hs
      exact (e s hs.1).1
  have h2 : HasDerivWithinAt f (g t) (Ici t) t := by
    rcases F.where' t with k | ⟨i, hi, k, k'⟩ | k
    · obtain ⟨p, q, hp, e⟩ := hL
      rw [(e t k.le).2]
      refine (hp t).hasDerivWithinAt.congr_of_eventuallyEq ?_ (e t k.le).1
      filter_upwards [Icc_mem_nhdsGE k] with s hs
      exact (e s hs.2).1
    · obtain ⟨p, q, hp, e⟩ := hI i hi
      rw [(e t k k'.le).2]
      refine (hp t).hasDerivWithinAt.congr_of_eventuallyEq ?_ (e t k k'.le).1
      filter_upwards [Icc_mem_nhdsGE k'] with s hs
      exact (e s (k.trans hs.1) hs.2).1
    · obtain ⟨p, q, hp, e⟩ := hR
      rw [(e t k).2]
      exact (hp t).hasDerivWithinAt.congr (fun s hs => (e s (le_trans k hs)).1) (e t k).1
  have := h1.union h2
  rwa [Iic_union_Ici, hasDerivWithinAt_univ] at this

/-- Continuity in the same way. -/
theorem glueC {S : Spl ℝ} (F : Meets S) {f : ℝ → ℝ}
    (hL : ∃ p : ℝ → ℝ, Continuous p ∧ ∀ t ≤ S.x 0, f t = p t)
    (hI : ∀ i, i + 1 < S.n → ∃ p : ℝ → ℝ, Continuous p ∧ ∀ t, S.x i ≤ t → t ≤ S.x (i + 1) → f t = p t)
    (hR : ∃ p : ℝ → ℝ, Continuous p ∧ ∀ t, S.x (S.n - 1) ≤ t → f t = p t) : Continuous f := by
  rw [continuous_iff_continuousAt]
  intro t
  have h1 : ContinuousWithinAt f (Iic t) t := by
    rcases F.where_ t with k | ⟨i, hi, k, k'⟩ | k
    · obtain ⟨p, hp, e⟩ := hL
      exact hp.continuousAt.continuousWithinAt.congr (fun s hs => e s (le_trans hs k)) (e t k)
    · obtain ⟨p, hp, e⟩ := hI i hi
      refine hp.continuousAt.continuousWithinAt.congr_of_eventuallyEq ?_ (e t k.le k')
      filter_upwards [Icc_mem_nhdsLE k] with s hs
      exact e s hs.1 (hs.2.trans k')
    · obtain ⟨p, hp, e⟩ := hR
      refine hp.continuousAt.continuousWithinAt.congr_of_eventuallyEq ?_ (e t k.le)
      filter_upwards [Icc_mem_nhdsLE k] with s hs
      exact e s hs.1
  have h2 : ContinuousWithinAt f (Ici t) t := by
    rcases F.where' t with k | ⟨i, hi, k, k'⟩ | k
    · obtain ⟨p, hp, e⟩ := hL
      refine hp.continuousAt.continuousWithinAt.congr_of_eventuallyEq ?_ (e t k.le)
      filter_upwards [Icc_mem_nhdsGE k] with s hs
      exact e s hs.2
    · obtain ⟨p, hp, e⟩ := hI i hi
      refine hp.continuousAt.continuousWithinAt.congr_of_eventuallyEq ?_ (e t k k'.le)
      filter_upwards [Icc_mem_nhdsGE k'] with s hs
      exact e s (k.trans hs.1) hs.2
    · obtain ⟨p, hp, e⟩ := hR
      exact hp.continuousAt.continuousWithinAt.congr (fun s hs => e s (le_trans k hs)) (e t k)
  exact continuousAt_iff_continuous_left_right.mpr ⟨h1, h2⟩

theorem cubic_deriv (a b c y x t : ℝ) :
    HasDerivAt (fun t => a * (t - x) ^ 3 + b * (t - x) ^ 2 + c * (t - x) + y)
      (3 * a * (t - x) ^ 2 + 2 * b * (t - x) + c) t := by
  have h := (hasDerivAt_id t).sub_const x
  have := (((h.pow 3).const_mul a).add ((h.pow 2).const_mul b)).add (h.const_mul c) |>.add_const y
  refine this.congr_deriv ?_
  simp only [id, Nat.cast_ofNat]
  ring

theorem square_deriv (a b c x t : ℝ) :
    HasDerivAt (fun t => a * (t - x) ^ 2 + b * (t - x) + c) (2 * a * (t - x) + b) t := by
  have := cubic_deriv 0 a b c x t
  simpa using this

theorem line_deriv (b c x t : ℝ) : HasDerivAt (fun t => b * (t - x) + c) b t := by
  have := cubic_deriv 0 0 b c x t
  simpa using this

theorem Fits.deriv {S : Spl ℝ} (F : Fits S) (t : ℝ) : HasDerivAt S.eval (S.deriv1 t) t :=
  glue F.toMeets
    ⟨_, _, square_deriv S.b0 S.c0 (S.y 0) (S.x 0), fun _ h => ⟨F.evalL h, F.derivL h⟩⟩
    (fun i hi => ⟨_, _, cubic_deriv (S.a i) (S.b i) (S.c i) (S.y i) (S.x i),
      fun _ h h' => ⟨F.evalI hi h h', F.derivI hi h h'⟩⟩)
    ⟨_, _, square_deriv _ _ _ _, fun _ h => ⟨F.evalR h, F.derivR h⟩⟩ t

/-- The second derivative: what `deriv` returns, except left of the first point. -/
noncomputable def second (S : Spl ℝ) (t : ℝ) : ℝ := if t < S.x 0 then 2 * S.b0 else S.deriv2 t

variable {S : Spl ℝ} (F : Fits S)
  (hc : ∀ i, i + 1 < S.n → 6 * S.a i * (S.x (i + 1) - S.x i) + 2 * S.b i = 2 * S.b (i + 1)) (h0 : S.b0 = S.b 0)
include F hc h0

theorem second_left {t : ℝ} (h : t ≤ S.x 0) : second S t = 2 * S.b0 := by
  unfold second
  rcases h.lt_or_eq with g | g
  · rw [if_pos g]
  · have hp := F.pts
    rw [if_neg (by rw [g]; exact lt_irrefl _), F.curvI (fun i hi => hc i (by omega)) (i := 0) (by omega) g.ge
      (g.le.trans (F.inc 0 (by omega)).le), g, h0]
    ring

omit h0 in
theorem second_in {t : ℝ} {i : ℕ} (hi : i + 1 < S.n) (h : S.x i ≤ t) (h' : t ≤ S.x (i + 1)) :
    second S t = 6 * S.a i * (t - S.x i) + 2 * S.b i := by
  unfold second
  rw [if_neg (not_lt.mpr ((F.inc.le (Nat.zero_le i) (by omega)).trans h)),
    F.curvI (fun i hi => hc i (by omega)) hi h h']

omit h0 in
theorem second_right {t : ℝ} (h : S.x (S.n - 1) ≤ t) : second S t = 2 * S.b (S.n - 1) := by
  have hp := F.pts
  unfold second
  rw [if_neg (not_lt.mpr ((F.inc.le (Nat.zero_le _) (by omega)).trans h)), F.curvR hc h]

theorem Fits.second_deriv (t : ℝ) : HasDerivAt S.deriv1 (second S t) t := by
  refine glue F.toMeets ⟨_, _, line_deriv (2 * S.b0) S.c0 (S.x 0), fun _ h => ⟨F.derivL h, second_left F hc h0 h⟩⟩
    (fun i hi => ⟨_, _, square_deriv (3 * S.a i) (2 * S.b i) (S.c i) (S.x i),
      fun _ h h' => ⟨F.derivI hi h h', ?_⟩⟩)
    ⟨_, _, line_deriv _ _ _, fun _ h => ⟨F.derivR h, second_right F hc h⟩⟩ t
  rw [second_in F hc hi h h']
  ring

theorem Fits.second_cont : Continuous (second S) :=
  glueC F.toMeets ⟨_, continuous_const, fun _ h => second_left F hc h0 h⟩
    (fun i hi => ⟨fun t => 6 * S.a i * (t - S.x i) + 2 * S.b i, by fun_prop, fun _ h h' => second_in F hc hi h h'⟩)
    ⟨_, continuous_const, fun _ h => second_right F hc h⟩

end Spline
end Jaxions
