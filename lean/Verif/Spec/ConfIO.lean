import Verif.Model.ConfIO
import Verif.Model.Index

/-
What a configuration file and the memory of the ranks should hold, in terms of
coordinates of the global lattice.
-/

namespace Jaxions.ConfIO.Spec

/-- A global field: component, x, y, z. -/
abbrev Global (α : Type) := Dset → ℕ → ℕ → ℕ → ℕ → α

/-- The file holds the global field: x runs fastest, then y, then z, the components
of a site are adjacent. -/
def FileHolds {α : Type} (t : FType) (L depth : ℕ) (G : Global α) (d : Dset)
    (h : Heap Cell α) : Prop :=
  ∀ c x y z, c < t.comps → x < L → y < L → z < depth →
    h (.file d (((z * L + y) * L + x) * t.comps + c)) = some (G d c x y z)

/-- Rank `r` of ranks with `Lz` slices holds its part of the global field, from the
element `first` on. -/
def RankHolds {α : Type} (t : FType) (L Lz : ℕ) (first : ℕ) (G : Global α) (d : Dset) (r : ℕ)
    (h : Heap Cell α) : Prop :=
  ∀ c x y z, c < t.comps → x < L → y < L → z < Lz →
    h (.mem r d (first + ((z * L + y) * L + x) * t.comps + c)) = some (G d c x y (r * Lz + z))

/-- Where the site (0, 0, 0) of a rank lies in its arrays: behind the `ng` ghost slices
in front of the field, and for the Paxion also of its second field; any other velocity
has no ghost slices in front. -/
def firstSite (t : FType) (L ng : ℕ) (d : Dset) : ℕ :=
  let ghosts := match d, t with
    | .m, _ => ng
    | .v, .paxion => ng
    | .v, _ => 0
  ((ghosts * L + 0) * L + 0) * t.comps

/-- The dataset has exactly the size of the lattice. -/
def FileSize {α : Type} (t : FType) (L depth : ℕ) (d : Dset) (h : Heap Cell α) : Prop :=
  ∀ i, (h (.file d i)).isSome = decide (i < L * L * depth * t.comps)

end Jaxions.ConfIO.Spec
