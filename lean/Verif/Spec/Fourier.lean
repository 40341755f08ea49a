import Verif.Model.Fourier

/-
What the round trip should keep, and what the transform library promises.
-/

namespace Jaxions.Fourier

variable {K : Type}

/-- Numbers per site. -/
def Kind.comps : Kind → ℕ
  | .saxion => 2
  | _ => 1

/-- Exactly the blocks of the field are allocated. -/
def Alloc (y : Lay) (h : Heap Addr K) : Prop :=
  ∀ a : Addr, (h a).isSome ↔ (a.rank < y.P ∧ a.idx < y.size a.blk)

/-- The physical numbers of field and velocity of all ranks (position space): the field
follows its `Ng` ghost slices, the velocity has none; in an Axion allocated as such the
velocity follows the field with both its ghost zones. -/
structure Holds (y : Lay) (M W : ℕ → ℕ → K) (h : Heap Addr K) : Prop where
  m : ∀ r < y.P, ∀ i < y.kind.comps * y.n3,
    h ⟨r, .m, y.kind.comps * (y.n2 * y.Ng) + i⟩ = some (M r i)
  v : ∀ r < y.P, ∀ i < y.kind.comps * y.n3,
    h (if y.kind = .axion then ⟨r, .m, (y.Lz + 2 * y.Ng) * y.n2 + i⟩ else ⟨r, .v, i⟩) =
      some (W r i)

/-- The library's promise: the backward transform undoes the forward transform with the
factor `c` (one over the number of sites). -/
def Undoes [Mul K] (c : K) (n n' : ℕ) (F B : List K → ℕ → K) : Prop :=
  ∀ X : ℕ → K, ∀ i < n,
    B ((List.range n').map fun k => c * F ((List.range n).map X) k) i = X i

/-- Sizes of the transforms of all ranks together. -/
def posSize (y : Lay) : ℕ := y.P * (y.kind.comps * y.n3)

def momSize (y : Lay) : ℕ :=
  match y.kind with
  | .saxion => y.P * (2 * y.n3)
  | _ => y.P * y.nPad

end Jaxions.Fourier
