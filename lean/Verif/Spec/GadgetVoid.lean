/-
What the snapshot of the "void" kind is meant to hold, without reference to the code.
-/
import Verif.Model.GadgetVoid
import Verif.Props.Index
import Mathlib.Algebra.Order.ToIntervalMod
import Mathlib.Algebra.BigOperators.Group.Finset.Basic

namespace Jaxions
namespace Gadget

/-- The angle brought to the interval from `-π` (not included) to `π`. -/
noncomputable def turn (a : ℝ) : ℝ := toIocMod Real.two_pi_pos (-Real.pi) a

/-- A field given by modulus `r` and phase `φ` is in memory, from one slice before the first to
one slice behind the last. -/
def Holds (ψ : Psi) (L Lz : ℕ) (r φ : ℕ → ℕ → ℤ → ℝ) : Prop :=
  ∀ x < L, ∀ y < L, ∀ z : ℤ, -1 ≤ z → z ≤ Lz →
    0 < r x y z ∧
    ψ ((z * L + y) * L + x) =
      some (r x y z * Real.cos (φ x y z), r x y z * Real.sin (φ x y z))

/-- The eight corners of the cell above the point `(x, y, z)`, periodic in x and y. -/
def trueCorners (L x y z : ℕ) : Corners :=
  let at' (a b c : ℕ) : ℤ := siteNo L ((x + a) % L) ((y + b) % L) (z + c)
  { xyz := at' 0 0 0, Xyz := at' 1 0 0, xYz := at' 0 1 0, xyZ := at' 0 0 1
    XYz := at' 1 1 0, XyZ := at' 1 0 1, xYZ := at' 0 1 1, XYZ := at' 1 1 1 }

/-- The sum over all points of all ranks. -/
noncomputable def sumAll (g : Grid) (f : ℕ → ℕ → ℝ) : ℝ :=
  ∑ r ∈ Finset.range g.ranks, ∑ i ∈ Finset.range g.n3, f r i

end Gadget
end Jaxions
