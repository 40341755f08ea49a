import Mathlib.Analysis.SpecialFunctions.Trigonometric.Basic

/-!
Specification for C100.
-/

namespace Jaxions.Moore

open Real

/-- `t` is the angle `θ` brought into the first turn around zero. -/
def Wrapped (θ t : ℝ) : Prop := -π ≤ t ∧ t < π ∧ ∃ k : ℤ, t = θ - 2 * π * k

/-- There is only one. -/
theorem Wrapped.unique {θ t t' : ℝ} (h : Wrapped θ t) (h' : Wrapped θ t') : t = t' := by
  obtain ⟨a, b, k, hk⟩ := h
  obtain ⟨a', b', k', hk'⟩ := h'
  have hpi := Real.pi_pos
  have h1 : ((k - k' : ℤ) : ℝ) < 1 := by
    push_cast
    by_contra hn
    nlinarith
  have h2 : (-1 : ℝ) < ((k - k' : ℤ) : ℝ) := by
    push_cast
    by_contra hn
    nlinarith
  have h3 : k - k' < 1 := by exact_mod_cast h1
  have h4 : -1 < k - k' := by exact_mod_cast h2
  have : k = k' := by omega
  rw [hk, hk', this]

end Jaxions.Moore
