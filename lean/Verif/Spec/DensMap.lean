import Verif.Model.DensMap
/-
Specification for C93: what a density map of a measurement file should hold.
-/

namespace Jaxions.DensMap

/-- The dataset holds exactly the `n × n × N` numbers `F`, x fastest. -/
def Map {α : Type} (h : Heap Cell α) (d : Dset) (n N : ℕ) (F : ℕ → ℕ → ℕ → α) : Prop :=
  (∀ x y z : ℕ, x < n → y < n → z < N → h (.file d (x + n * (y + n * z))) = some (F x y z)) ∧
    ∀ i : ℕ, n * n * N ≤ i → h (.file d i) = none

/-- The dataset does not exist. -/
def Absent {α : Type} (h : Heap Cell α) (d : Dset) : Prop := ∀ i : ℕ, h (.file d i) = none

/-- From `first` on, the arrays of the `P` ranks hold their parts, `nz` slices each, of `F`. -/
def Parts {α : Type} (mem : ℕ → Heap ℕ α) (P n nz first : ℕ) (F : ℕ → ℕ → ℕ → α) : Prop :=
  ∀ r x y z : ℕ, r < P → x < n → y < n → z < nz →
    mem r (first + (x + n * (y + n * z))) = some (F x y (r * nz + z))

/-- Any order of the slabs of each dataset. -/
def AnyOrder (P nz : ℕ) (order : Dset → List ConfIO.Turn) : Prop :=
  ∀ d : Dset, (order d).Perm (ConfIO.turns P nz)

/-- Which maps a call should write: bit 0 of the request asks for the radial map, which a field type with
bit 1 (an angle) does not have, bit 1 for the angular map, bit 3 for the auxiliary array. -/
def Wanted (field fMap : ℕ) : Dset → Prop
  | .rho => fMap.testBit 0 = true ∧ field.testBit 1 = false
  | .theta => fMap.testBit 1 = true
  | .aux => fMap.testBit 3 = true

/-- Where the maps are in the array: the angular one at the beginning, the radial one after as many
numbers as a field with ghosts has sites, the auxiliary one behind the ghost slices. -/
def place (Lx Lz Ng comps : ℕ) : Dset → ℕ
  | .rho => (Lz + 2 * Ng) * (Lx * Lx)
  | .theta => 0
  | .aux => Ng * (Lx * Lx) * comps

end Jaxions.DensMap
