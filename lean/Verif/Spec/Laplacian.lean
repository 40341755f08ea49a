import Mathlib.Algebra.BigOperators.Group.Finset.Basic
import Mathlib.Algebra.Module.Defs
import Mathlib.Algebra.Field.Defs
/-
Specification for C04: the periodic finite difference Laplacian on integer coordinates, and where a
site of the lattice is kept in a folded array.
-/
namespace Jaxions.Stencil

variable {K α : Type} [Field K] [AddCommGroup α] [Module K α]

/-- A field on the lattice, periodic in x and y with period `Lx`. -/
def Periodic (Lx : Nat) (φ : Int → Int → Int → α) : Prop :=
  ∀ x y z, φ x y z = φ (x % Lx) (y % Lx) z

/-- `Σ_{d=1..NN} w_d (sum over the six neighbours at distance d - 6 × centre)`. -/
def laplacian (w : Nat → K) (NN : Nat) (φ : Int → Int → Int → α) (x y z : Int) : α :=
  ∑ k ∈ Finset.range NN, w k •
    (φ (x + (k + 1 : Nat)) y z + φ (x - (k + 1 : Nat)) y z + φ x (y + (k + 1 : Nat)) z +
     φ x (y - (k + 1 : Nat)) z + φ x y (z + (k + 1 : Nat)) + φ x y (z - (k + 1 : Nat)) -
     (6 : K) • φ x y z)

/-- Cell of site `(x, y)` of slice `z` in a folded array: rows `y`, `y + Lx/step`, ... share a
vector. -/
def cell (Lx step x y z : Nat) : Nat :=
  z * (Lx * Lx) + ((y % (Lx / step)) * Lx + x) * step + y / (Lx / step)

/-- Array `m` holds `φ` in slices `0 .. nz-1`, folded. -/
def Holds (Lx step nz : Nat) (m : Nat → Option α) (φ : Int → Int → Int → α) : Prop :=
  ∀ x y z : Nat, x < Lx → y < Lx → z < nz → m (cell Lx step x y z) = some (φ x y z)

end Jaxions.Stencil
