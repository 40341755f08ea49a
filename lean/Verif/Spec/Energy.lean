import Mathlib.Analysis.SpecialFunctions.Trigonometric.Basic
import Mathlib.Data.Nat.Notation
import Mathlib.Data.Int.Notation
/-
Specification for C51: the energy density of the axion on the lattice.
-/
noncomputable section

namespace Jaxions.Energy

/-- Coordinates of site number `n` in the unfolded order of a lattice of side `L`. -/
def xOf (L n : ℕ) : ℕ := n % L
def yOf (L n : ℕ) : ℕ := n / L % L
def zOf (L n : ℕ) : ℕ := n / L / L

/-- Mean of the squared forward and backward differences of a field along each axis; `w` is applied
to each difference. -/
def meanX (w : ℝ → ℝ) (θ : ℤ → ℤ → ℤ → ℝ) (x y z : ℤ) : ℝ :=
  (w (θ (x + 1) y z - θ x y z) ^ 2 + w (θ (x - 1) y z - θ x y z) ^ 2) / 2
def meanY (w : ℝ → ℝ) (θ : ℤ → ℤ → ℤ → ℝ) (x y z : ℤ) : ℝ :=
  (w (θ x (y + 1) z - θ x y z) ^ 2 + w (θ x (y - 1) z - θ x y z) ^ 2) / 2
def meanZ (w : ℝ → ℝ) (θ : ℤ → ℤ → ℤ → ℝ) (x y z : ℤ) : ℝ :=
  (w (θ x y (z + 1) - θ x y z) ^ 2 + w (θ x y (z - 1) - θ x y z) ^ 2) / 2

/-- Scale factor, `R'/R`, lattice spacing, squared axion mass. -/
structure Universe where
  R : ℝ
  H : ℝ
  δ : ℝ
  m2 : ℝ

/-- Physical energy density of an angle `θ` with conformal time derivative `θ'`: gradient along the
three axes, kinetic, potential.
`|∇θ|²/(2R²)`, `θ'²/(2R²)`, `m²(1 - cos θ)`. -/
def axionDensity (U : Universe) (w : ℝ → ℝ) (θ θ' : ℤ → ℤ → ℤ → ℝ) (x y z : ℤ) : ℕ → ℝ
  | 0 => meanX w θ x y z / U.δ ^ 2 / (2 * U.R ^ 2)
  | 1 => meanY w θ x y z / U.δ ^ 2 / (2 * U.R ^ 2)
  | 2 => meanZ w θ x y z / U.δ ^ 2 / (2 * U.R ^ 2)
  | 3 => θ' x y z ^ 2 / (2 * U.R ^ 2)
  | 4 => U.m2 * (1 - Real.cos (θ x y z))
  | _ => 0

end Jaxions.Energy
