import Verif.Spec.Run

/-!
Specification for C89: symmetries of the lattice.
-/

namespace Jaxions.RunSym

open Run

variable {α : Type}

/-- A new origin, a reflection in x or in z, the exchange of two axes. -/
inductive Sym
  | shift (a b c : ℤ)
  | flipX
  | flipZ
  | xy
  | yz

/-- The site that comes to `(x, y, z)`. -/
def Sym.from : Sym → ℤ → ℤ → ℤ → ℤ × ℤ × ℤ
  | .shift a b c, x, y, z => (x + a, y + b, z + c)
  | .flipX, x, y, z => (-x, y, z)
  | .flipZ, x, y, z => (x, y, -z)
  | .xy, x, y, z => (y, x, z)
  | .yz, x, y, z => (x, z, y)

/-- The field seen after the symmetry. -/
def Sym.seen (s : Sym) (φ : ℤ → ℤ → ℤ → α) (x y z : ℤ) : α :=
  φ (s.from x y z).1 (s.from x y z).2.1 (s.from x y z).2.2

/-- The lattice after some symmetries. -/
def act (l : List Sym) (F : Lat α) : Lat α :=
  l.foldr (fun s F => ⟨s.seen F.φ, s.seen F.ν⟩) F

end Jaxions.RunSym
