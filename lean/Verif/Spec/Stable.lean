import Verif.Spec.Laplacian
import Mathlib.Data.Real.Basic
import Mathlib.Data.Int.Notation

/-!
Specification for C92: energy of a free axion field on a periodic lattice that does not expand.
-/

namespace Jaxions.Stable

/-- A field on the sites. -/
abbrev Sites := ℤ → ℤ → ℤ → ℝ

/-- Periodic with side `Lx` in x and y and depth `N` in z. -/
def Round (Lx N : ℕ) (φ : Sites) : Prop :=
  (∀ x y z, φ (x + Lx) y z = φ x y z) ∧ (∀ x y z, φ x (y + Lx) z = φ x y z) ∧ ∀ x y z, φ x y (z + N) = φ x y z

/-- Sum over the box of the product. -/
noncomputable def pair (Lx N : ℕ) (f g : Sites) : ℝ :=
  ∑ x ∈ Finset.range Lx, ∑ y ∈ Finset.range Lx, ∑ z ∈ Finset.range N, f x y z * g x y z

/-- Acceleration of the field: Laplacian with weights `w` at spacing `δ`, and squared mass `M`. -/
noncomputable def pull (w : ℕ → ℝ) (NN : ℕ) (δ M : ℝ) (φ : Sites) : Sites := fun x y z =>
  Stencil.laplacian (fun k => w k * (1 / δ ^ 2)) NN φ x y z - M * φ x y z

/-- Twice the energy of the field `φ` with velocity `ν` under the acceleration `F`. -/
noncomputable def energy (Lx N : ℕ) (F : Sites → Sites) (φ ν : Sites) : ℝ :=
  pair Lx N ν ν - pair Lx N φ (F φ)

/-- The field that changes sign from each site to the next, with amplitude `a`. -/
def zigzag (a : ℝ) : Sites := fun x y z => if (x + y + z) % 2 = 0 then a else -a

end Jaxions.Stable
