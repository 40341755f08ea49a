import Verif.Basic.Heap
import Mathlib.Data.Nat.Notation

/-
Writing and reading the field data of a configuration file.

Source: lib/io/readWrite.pHdf5.cpp, `writeConf` 323-376 (sizes), 678-716 (slab
loop) and `readConf` 1322-1330 (geometry), 1356-1395 (slab size), 1429-1449 (slab
loop); include/scalar/scalarField.h:91,99 (`mStart`, `vStart`).

The collective HDF5 calls are modelled by their effect: a slab selected in the file
is copied from or to memory, element by element.  A selection outside the dataset
or memory makes the outcome `none`.  The ranks run independently: any interleaving
of their slab transfers is allowed.  All numbers are counted in elements of the
stored precision; conversion between precisions is not modelled.
-/

namespace Jaxions.ConfIO

/-- The two datasets and arrays. -/
inductive Dset where
  | m | v
  deriving DecidableEq, Repr

/-- Field types (enum-field.h) as far as the file distinguishes them. -/
inductive FType where
  | saxion | axion | axionMod | naxion | paxion
  deriving DecidableEq, Repr

/-- Numbers per site: `nData`, scalarField.cpp:137-158, and the factor in `slab`,
readWrite.pHdf5.cpp:326-371. -/
def FType.comps : FType → ℕ
  | .saxion => 2
  | .naxion => 2
  | _ => 1

/-- The arrays saved: the velocity of a Naxion is not (readWrite.pHdf5.cpp:667,700). -/
def FType.saved : FType → List Dset
  | .naxion => [.m]
  | _ => [.m, .v]

/-- Addresses: an element of a dataset in the file, or of an array of a rank. -/
inductive Cell where
  | file (d : Dset) (i : ℕ)
  | mem (r : ℕ) (d : Dset) (i : ℕ)
  deriving DecidableEq, Repr

/-- First element of the physical part, scalarField.h:91,99: the velocity has no
ghost slices in front, except for a Paxion. -/
def startOf (t : FType) (surf ng : ℕ) : Dset → ℕ
  | .m => t.comps * surf * ng
  | .v => if t = .paxion then t.comps * surf * ng else 0

/-- One transfer of a slab: which rank, which of its slices. -/
structure Turn where
  rank : ℕ
  z : ℕ
  deriving DecidableEq, Repr

/-- The loops over the slices of all ranks, in rank order: any interleaving is a
permutation of this list. -/
def turns (P Lz : ℕ) : List Turn :=
  (List.range P).flatMap fun r => (List.range Lz).map fun z => ⟨r, z⟩

/-- readWrite.pHdf5.cpp:692,1435: `offset = (myRank*Depth + zDim)*slab`. -/
def fileOffset (Lz slab : ℕ) (t : Turn) : ℕ := (t.rank * Lz + t.z) * slab

/-- The element copies of one turn of `writeConf`, 689-716. -/
def writeTurn (t : FType) (surf ng Lz : ℕ) (u : Turn) : List (Cell × Cell) :=
  let slab := t.comps * surf
  t.saved.flatMap fun d => (List.range slab).map fun k =>
    (.file d (fileOffset Lz slab u + k), .mem u.rank d (startOf t surf ng d + slab * u.z + k))

/-- All of `writeConf` for a given order of the turns. -/
def writeConf {α : Type} (t : FType) (surf ng Lz : ℕ) (order : List Turn) (h : Heap Cell α) :
    Option (Heap Cell α) :=
  copyCells (order.flatMap (writeTurn t surf ng Lz)) h

/-- The element copies of one turn of `readConf`, 1429-1449.  `surf` is the slice
size in the file and `first` the start of the physical part of the field that
receives the data, which may be larger. -/
def readTurn (t : FType) (surf : ℕ) (first : Dset → ℕ) (Nz : ℕ) (u : Turn) :
    List (Cell × Cell) :=
  let slab := t.comps * surf
  [Dset.m, Dset.v].flatMap fun d => (List.range slab).map fun k =>
    (.mem u.rank d (first d + slab * u.z + k), .file d (fileOffset Nz slab u + k))

/-- Outcomes of `readConf`. -/
inductive Outcome (α : Type) where
  /-- "Geometry not valid" or "Invalid field type": the program ends -/
  | exit
  /-- undefined, or an HDF5 error -/
  | bad
  | done (h : Heap Cell α)

/-- `readConf` of a file of depth `depth` on `P` ranks: 1322-1330 and the loop; the
field type "Naxion" has no case (1363-1396). -/
def readConf {α : Type} (t : FType) (surf depth P : ℕ) (first : Dset → ℕ)
    (order : List Turn) (h : Heap Cell α) : Outcome α :=
  if depth % P ≠ 0 then .exit
  else if t = .naxion then .exit
  else match copyCells (order.flatMap (readTurn t surf first (depth / P))) h with
    | none => .bad
    | some h' => .done h'

end Jaxions.ConfIO
