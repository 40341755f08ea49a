import Verif.Model.SpecFilter

/-!
Specification for C98.
-/

namespace Jaxions.SpecFilter

variable {α : Type}

/-- Rows of `L + 2` numbers of which the first `L` are the map. -/
def PaddedMap (L Lz : ℕ) (m : ℕ → α) (ρ : ℕ → ℕ → ℕ → α) : Prop :=
  ∀ x y z, x < L → y < L → z < Lz → m (x + (L + 2) * (y + L * z)) = ρ x y z

/-- The transform of a Gaussian of width `σ` at the wave numbers `κ`. -/
noncomputable def gauss (σ κx κy κz : ℝ) : ℝ := Real.exp (-(σ ^ 2 * (κx ^ 2 + κy ^ 2 + κz ^ 2)) / 2)

/-- Wave number of `k` periods over `n` sites at distance `δ`. -/
noncomputable def wave (n : ℕ) (δ : ℝ) (k : ℤ) : ℝ := 2 * Real.pi * k / (n * δ)

end Jaxions.SpecFilter
