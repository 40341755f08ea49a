import Verif.Model.Reduce

/-!
# What a reduction has to give
-/

namespace Jaxions
namespace Reduce

variable {K : Type} [Field K]

/-- Linear interpolation of `g` at `x`. -/
def lin (g : Nat → K) (x : ℚ) : K :=
  ((1 - (x - x.floor) : ℚ) : K) * g x.floor.toNat + ((x - x.floor : ℚ) : K) * g (x.floor.toNat + 1)

/-- Interpolation along the three axes. -/
def trilinear (f : Nat → Nat → Nat → K) (x y z : ℚ) : K :=
  lin (fun k => lin (fun j => lin (fun i => f i j k) x) y) z

/-- A slab of `Lz` slices of `L × L` sites with content `f`. -/
def Holds (h : Heap Nat K) (L Lz : Nat) (f : Nat → Nat → Nat → K) : Prop :=
  ∀ x < L, ∀ y < L, ∀ z < Lz, h (x + L * (y + L * z)) = some (f x y z)

end Reduce
end Jaxions
