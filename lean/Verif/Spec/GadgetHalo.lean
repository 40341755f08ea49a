/-
What the snapshot of the "halo" kind is meant to hold, without reference to the code: point `i` of
rank `r` is to have `n r i` particles.
-/
import Verif.Model.GadgetHalo
import Verif.Spec.GadgetVoid

namespace Jaxions
namespace Halo
open Gadget (Grid Part begin_)

/-- The particles of the points `i`, `i + 1`, ... (`k` of them) of a rank. -/
def sites (g : Grid) (rank : ℕ) (n : ℕ → ℕ) (i k : ℕ) : List Part :=
  (List.range' i k).flatMap fun j => List.replicate (n j) (begin_ g rank j)

/-- The particles that a rank still has to place: those left of the last point, and those of
the points from `lPos` on. -/
def pend (g : Grid) (rank : ℕ) (n : ℕ → ℕ) (lPos remain : ℕ) : List Part :=
  List.replicate remain (begin_ g rank (lPos - 1)) ++ sites g rank n lPos (g.n3 - lPos)

/-- The particles named in a message. -/
def flat (g : Grid) (rank : ℕ) : ℕ → List ℕ → List Part
  | _, [] => []
  | i, k :: ks => List.replicate k (begin_ g rank i) ++ flat g rank (i + 1) ks

/-- What holds between two exchanges; `D` is the number of particles in the slabs still to
come. -/
structure Inv (g : Grid) (D : ℕ) (st : ℕ → Rk) : Prop where
  pos : ∀ r < g.ranks, (st r).lPos ≤ g.n3
  rem : ∀ r < g.ranks, 0 < (st r).remain → 0 < (st r).lPos
  small : ∀ r < g.ranks, (st r).remain ≤ g.S
  counts : ∀ r < g.ranks, ∀ j, j < g.n3 → (st r).n j ≤ g.S
  miss : ∀ r < g.ranks, 0 ≤ (st r).missing
  full : ∀ r < g.ranks, ((st r).buf.length : ℤ) + (st r).missing = g.S
  bal : ∀ r < g.ranks, (st r).excess + D =
    ((pend g r (st r).n (st r).lPos (st r).remain).length : ℤ) - (st r).missing
  empty : ∀ r < g.ranks, 0 < (st r).missing →
    pend g r (st r).n (st r).lPos (st r).remain = []
  zero : ∑ r ∈ Finset.range g.ranks, (st r).excess = 0

/-- How many particles with property `P` there are: in the files, in the buffers (`b` says
whether to count these) and still to be placed. -/
def tally (g : Grid) (P : Part → Bool) (b : Bool) (st : ℕ → Rk) : ℕ :=
  ∑ r ∈ Finset.range g.ranks,
    ((st r).out.countP P + (if b then (st r).buf.countP P else 0) +
      (pend g r (st r).n (st r).lPos (st r).remain).countP P)

end Halo
end Jaxions
