import Mathlib.Analysis.SpecialFunctions.Complex.Circle
import Mathlib.Algebra.BigOperators.Group.Finset.Basic
import Mathlib.Data.Int.Notation

/-!
# What the energies of a field with strings are

The field is given by its distance `ρ` from the point `σ` of the complex plane and its angle `θ`, with
their rates in physical time, on an unbounded lattice.
-/

namespace Jaxions
namespace StrEn

open Complex Finset

/-- The field and its rate at each site. -/
structure Polar where
  σ : ℝ
  ρ : ℤ → ℤ → ℤ → ℝ
  θ : ℤ → ℤ → ℤ → ℝ
  dρ : ℤ → ℤ → ℤ → ℝ
  dθ : ℤ → ℤ → ℤ → ℝ

namespace Polar
variable (P : Polar)

/-- The complex field. -/
noncomputable def field (x y z : ℤ) : ℂ := P.σ + P.ρ x y z * exp (P.θ x y z * I)

/-- Its rate. -/
noncomputable def rate (x y z : ℤ) : ℂ :=
  (P.dρ x y z + P.ρ x y z * P.dθ x y z * I) * exp (P.θ x y z * I)

/-- The potential energy. -/
noncomputable def pot (lam : ℝ) (x y z : ℤ) : ℝ := lam / 4 * (‖P.field x y z‖ ^ 2 - 1) ^ 2

/-- The energy density, `h` being the physical distance of neighbours. -/
noncomputable def total (h lam : ℝ) (x y z : ℤ) : ℝ :=
  (P.dρ x y z ^ 2 + P.ρ x y z ^ 2 * P.dθ x y z ^ 2) / 2 +
    (‖P.field (x + 1) y z - P.field x y z‖ ^ 2 + ‖P.field x (y + 1) z - P.field x y z‖ ^ 2 +
      ‖P.field x y (z + 1) - P.field x y z‖ ^ 2) / (2 * h ^ 2) + P.pot lam x y z

/-- The part of the saxion. -/
noncomputable def sax (h lam : ℝ) (x y z : ℤ) : ℝ :=
  P.dρ x y z ^ 2 / 2 +
    ((P.ρ (x + 1) y z - P.ρ x y z) ^ 2 + (P.ρ x (y + 1) z - P.ρ x y z) ^ 2 +
      (P.ρ x y (z + 1) - P.ρ x y z) ^ 2) / (2 * h ^ 2) + P.pot lam x y z

/-- The box is closed in `x` and `y`. -/
def Closed (L : ℕ) : Prop :=
  ∀ x y z, P.field (x + L) y z = P.field x y z ∧ P.field x (y + L) z = P.field x y z

end Polar

/-- The sum over a box. -/
noncomputable def box (L N : ℕ) (f : ℤ → ℤ → ℤ → ℝ) : ℝ :=
  ∑ z ∈ range N, ∑ y ∈ range L, ∑ x ∈ range L, f x y z

/-- The number of sites of a box with a property. -/
def count (L N : ℕ) (out : ℤ → ℤ → ℤ → Bool) : ℕ :=
  ∑ z ∈ range N, ∑ y ∈ range L, ∑ x ∈ range L, if out x y z then 1 else 0

/-- Zero but for the sites with a property. -/
def only (out : ℤ → ℤ → ℤ → Bool) (f : ℤ → ℤ → ℤ → ℝ) (x y z : ℤ) : ℝ :=
  if out x y z then f x y z else 0

end StrEn
end Jaxions
