import Verif.Model.Winding
import Mathlib.Analysis.SpecialFunctions.Complex.Arg

/-!
# What a winding is

Specification used for the string counts, free of the code's own tests.
-/

namespace Jaxions
namespace Winding

variable {K : Type} [Field K] [LinearOrder K]

/-- The straight segment from `a` to `b` does not meet the origin: the interpolated field has a
phase all along the side. -/
def Avoids (a b : Cx K) : Prop :=
  ∀ u : K, 0 ≤ u → u ≤ 1 →
    ¬((1 - u) * a.re + u * b.re = 0 ∧ (1 - u) * a.im + u * b.im = 0)

/-- All four sides of a plaquette avoid the origin. -/
def AvoidsAll (s1 s2 s3 s4 : Cx K) : Prop :=
  Avoids s1 s2 ∧ Avoids s2 s3 ∧ Avoids s3 s4 ∧ Avoids s4 s1

/-- The complex number of a pair of reals. -/
def toC (s : Cx ℝ) : ℂ := ⟨s.re, s.im⟩

/-- Angle turned, clockwise, along the side from `a` to `b` (in `(-π, π]`). -/
noncomputable def angle (a b : Cx ℝ) : ℝ := (toC a * (starRingEnd ℂ) (toC b)).arg

/-- Angle turned in one trip around the plaquette: `2π` times the winding number. -/
noncomputable def turned (s1 s2 s3 s4 : Cx ℝ) : ℝ :=
  angle s1 s2 + angle s2 s3 + angle s3 s4 + angle s4 s1

end Winding
end Jaxions
