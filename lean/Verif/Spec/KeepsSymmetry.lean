import Verif.Spec.RunSymmetry

/-!
Specification for C95: fields with symmetries.
-/

namespace Jaxions.RunSym

open Run

variable {α : Type}

/-- The lattice looks the same after the symmetries. -/
def Looks (F : Lat α) (l : List Sym) : Prop := act l F = F

/-- Field and velocity have the same value everywhere. -/
def uniform (s : α × α) : Lat α := ⟨fun _ _ _ => s.1, fun _ _ _ => s.2⟩

/-- Field and velocity depend on z only. -/
def Planar (F : Lat α) : Prop := ∀ x y x' y' z : ℤ, F.φ x y z = F.φ x' y' z ∧ F.ν x y z = F.ν x' y' z

end Jaxions.RunSym
