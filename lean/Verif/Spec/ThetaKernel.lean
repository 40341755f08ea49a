import Verif.Spec.Laplacian
import Mathlib.Algebra.BigOperators.Group.Finset.Basic
/-
Specification for C58: one kick and drift of the axion angle on the lattice.
-/
namespace Jaxions.ThetaKernel

open Stencil

variable {K : Type} [Field K]

/-- `Σ_{d=1..NN} w_d Σ_{six neighbours at distance d} W(neighbour - centre)`. -/
def lapW (W : K → K) (w : Nat → K) (NN : Nat) (φ : Int → Int → Int → K) (x y z : Int) : K :=
  ∑ k ∈ Finset.range NN, w k *
    (W (φ (x + (k + 1 : Nat)) y z - φ x y z) + W (φ (x - (k + 1 : Nat)) y z - φ x y z) +
     W (φ x (y + (k + 1 : Nat)) z - φ x y z) + W (φ x (y - (k + 1 : Nat)) z - φ x y z) +
     W (φ x y (z + (k + 1 : Nat)) - φ x y z) + W (φ x y (z - (k + 1 : Nat)) - φ x y z))

/-- Velocities `v` (on `Lz` slices) and fields `m2` (with `NN` ghost slices below) after the kick
`dzc` with acceleration `a` and the drift `dzd`, followed by `wrap`. -/
structure Kicked (Lx S NN Lz : Nat) (dzc dzd : K) (wrap : K → K) (a φ ν : Int → Int → Int → K)
    (m2 v m2' v' : Nat → Option K) : Prop where
  vel : ∀ x y z : Nat, x < Lx → y < Lx → z < Lz →
    v' (cell Lx S x y z) = some (ν x y z + a x y (z + NN : Nat) * dzc)
  field : ∀ x y z : Nat, x < Lx → y < Lx → z < Lz →
    m2' (cell Lx S x y (z + NN)) =
      some (wrap (φ x y (z + NN : Nat) + (ν x y z + a x y (z + NN : Nat) * dzc) * dzd))
  ghosts : ∀ i, i / (Lx * Lx) < NN ∨ NN + Lz ≤ i / (Lx * Lx) → m2' i = m2 i

end Jaxions.ThetaKernel
