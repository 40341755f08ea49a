import Mathlib.Analysis.Real.Pi.Bounds
import Mathlib.Algebra.BigOperators.Group.Finset.Basic
import Mathlib.Algebra.BigOperators.Intervals

/-!
Specification for C99: coupling of three shells of wave numbers.
-/

namespace Jaxions.MaskMatrix

open scoped BigOperators

/-- Three shells that form triangles: none is larger than the sum of the others. -/
def Triangle (i j k : ℕ) : Prop := i ≤ j + k ∧ j ≤ i + k ∧ k ≤ i + j

instance (i j k : ℕ) : Decidable (Triangle i j k) := by unfold Triangle; infer_instance

/-- The coupling: zero unless the shells form triangles; with the mode zero among them the volume over
the number of modes of the shell (the volume if all are zero), else `vol / (8 π i j k)`. -/
noncomputable def coupling (vol : ℝ) (n : ℕ → ℝ) (i j k : ℕ) : ℝ :=
  if Triangle i j k then
    if i = 0 ∧ j = 0 ∧ k = 0 then vol
    else if i = 0 ∨ j = 0 ∨ k = 0 then vol / n (max i (max j k))
    else vol / (8 * Real.pi * i * j * k)
  else 0

/-- The matrix. -/
noncomputable def matrix (vol : ℝ) (n P : ℕ → ℝ) (nbins i j : ℕ) : ℝ :=
  ∑ k ∈ Finset.range nbins, P k * coupling vol n i j k / vol

end Jaxions.MaskMatrix
