import Verif.Model.Field
/-
What the two memory layouts mean, independently of the folding loops: where the value of lattice
site (x, y, z) is stored.

Unfolded: plain row major order.  Folded: the n1 rows of a slice are split in `shift` blocks of
`n1/shift` rows; lane `b` of a vector holds block `b`, vectors are in row major order over the
rows of a block.  (Documented in /repo/include/axiton/trackerClass.h:367-370 comment and
/repo/test/vaxions.cpp:1005-1013.)
-/
namespace Jaxions

variable {α : Type _}

/-- Position of site (x, y, z) relative to the start of the array. -/
def sitePos (g : Geo) (folded : Bool) (x y z : Nat) : Nat :=
  if folded then
    z * g.n2 + ((y % (g.n1 / g.shift)) * g.n1 + x) * g.shift + y / (g.n1 / g.shift)
  else z * g.n2 + y * g.n1 + x

/-- Field value at a lattice site. -/
def Fld.mAt (g : Geo) (f : Fld α) (x y z : Nat) : Option α := f.heap (g.mStart (sitePos g f.folded x y z))
/-- Velocity at a lattice site. -/
def Fld.vAt (g : Geo) (f : Fld α) (x y z : Nat) : Option α := f.heap (g.vStart (sitePos g f.folded x y z))

/-- Two fields in memory have the same physical content. -/
def SameContent (g : Geo) (f f' : Fld α) : Prop :=
  ∀ x y z, x < g.n1 → y < g.n1 → z < g.Lz → f'.mAt g x y z = f.mAt g x y z ∧ f'.vAt g x y z = f.vAt g x y z

end Jaxions
