import Verif.Spec.Energy
import Mathlib.Data.Complex.Basic
/-
Specification for C65: energy density of the nonrelativistic field on the lattice, as documented in
/repo/lib/energy/energyPaxionXeon.cpp:505-512.
-/
noncomputable section

namespace Jaxions.Energy

/-- Mean of the squared moduli of the forward and the backward difference along each axis. -/
def meanXc (ψ : ℤ → ℤ → ℤ → ℂ) (x y z : ℤ) : ℝ :=
  (Complex.normSq (ψ (x + 1) y z - ψ x y z) + Complex.normSq (ψ (x - 1) y z - ψ x y z)) / 2
def meanYc (ψ : ℤ → ℤ → ℤ → ℂ) (x y z : ℤ) : ℝ :=
  (Complex.normSq (ψ x (y + 1) z - ψ x y z) + Complex.normSq (ψ x (y - 1) z - ψ x y z)) / 2
def meanZc (ψ : ℤ → ℤ → ℤ → ℂ) (x y z : ℤ) : ℝ :=
  (Complex.normSq (ψ x y (z + 1) - ψ x y z) + Complex.normSq (ψ x y (z - 1) - ψ x y z)) / 2

/-- Physical gradient energy densities `|∇ψ|²/(2 m R⁵)` along the three axes, comoving number
density `|ψ|²`, self interaction `-|ψ|⁴/(16 R⁶)`; `R` scale factor, `mA` axion mass, `δ` lattice
spacing. -/
def paxDensity (R mA δ : ℝ) (ψ : ℤ → ℤ → ℤ → ℂ) (x y z : ℤ) : ℕ → ℝ
  | 0 => meanXc ψ x y z / δ ^ 2 / (2 * mA * R ^ 5)
  | 1 => meanYc ψ x y z / δ ^ 2 / (2 * mA * R ^ 5)
  | 2 => meanZc ψ x y z / δ ^ 2 / (2 * mA * R ^ 5)
  | 3 => Complex.normSq (ψ x y z)
  | 4 => -(Complex.normSq (ψ x y z) ^ 2 / (16 * R ^ 6))
  | _ => 0

end Jaxions.Energy
