import Mathlib.Analysis.SpecialFunctions.Log.Basic
import Mathlib.Data.Nat.Notation
/-
Specification for C94: extremes of a lattice, and a logarithmic scale of 256 grey levels.
-/

namespace Jaxions.Contrast

/-- The numbers of all ranks. -/
def Values (P n : ℕ) (data : ℕ → ℕ → ℝ) : Set ℝ := {v | ∃ r i : ℕ, r < P ∧ i < n ∧ data r i = v}

/-- What a reader of the map assigns to a grey level, given the extremes stored beside it: level 0 is the
bottom of the scale (the minimum, but at least 1/1000), 255 the maximum, logarithmic between. -/
noncomputable def grey (eMax eMin : ℝ) (b : ℕ) : ℝ :=
  Real.exp (Real.log (max eMin (1 / 1000)) +
    b * ((Real.log eMax - Real.log (max eMin (1 / 1000))) / 255))

end Jaxions.Contrast
