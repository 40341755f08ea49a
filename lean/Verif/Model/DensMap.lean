import Verif.Model.ConfIO

/-
Writing the density maps of a measurement.

Source: lib/io/readWrite.pHdf5.cpp, `writeEDens` 3019-3343; include/enum-field.h (bits of the map and
of the field type); include/scalar/scalarField.h (`rLength`, `rDepth`, `rTotalDepth`, `m2Start`).

As in `Model/ConfIO.lean` an HDF5 call is modelled by its effect: the selected slab of the dataset is
filled from memory, element by element, and a selection or a source outside its array makes the result
`bad`.  A new dataset is not filled (3119, fill time never), so its elements have an arbitrary content.
The ranks run independently between two `commSync`, so any order of the slabs of one dataset is allowed.
Not modelled: attributes, groups other than by their name, the transfer from the GPU, failures of the
library other than the creation of a dataset that exists, the profiler.
-/

namespace Jaxions.DensMap

open ConfIO (Turn turns fileOffset)

/-- The three datasets of a group. -/
inductive Dset where
  | rho | theta | aux
  deriving DecidableEq, Repr

/-- Geometry of one rank: side, depth, ghost slices, number of ranks, numbers per site, and the side and
depth of the reduced grid if `m2` holds one. -/
structure Geo where
  Lx : ℕ
  Lz : ℕ
  Ng : ℕ
  ranks : ℕ
  comps : ℕ
  red : Option (ℕ × ℕ)

/-- `rLength`, `rDepth`: scalarField.h. -/
def Geo.rLx (g : Geo) : ℕ := match g.red with
  | some r => r.1
  | none => g.Lx
def Geo.rLz (g : Geo) : ℕ := match g.red with
  | some r => r.2
  | none => g.Lz

/-- 3095-3098. -/
def Geo.total (g : Geo) : ℕ := g.rLx * g.rLx * (g.rLz * g.ranks)
def Geo.slab (g : Geo) : ℕ := g.rLx * g.rLx
def Geo.rOff (g : Geo) : ℕ := g.Lx * g.Lx * (g.Lz + 2 * g.Ng)

/-- First element in `m2` of what is written: 3247, 3270, 3293 with `m2Start`, scalarField.h. -/
def Geo.start (g : Geo) : Dset → ℕ
  | .rho => g.rOff
  | .theta => 0
  | .aux => g.comps * (g.Lx * g.Lx) * g.Ng

/-- 3036-3039: bit 1 is dropped for field types with bit 2. -/
def effective (field fMap : ℕ) : ℕ :=
  if fMap &&& 1 ≠ 0 ∧ field &&& 2 ≠ 0 then fMap ^^^ 1 else fMap

/-- The datasets of a request, in the order in which they are written. -/
def asked (fMap : ℕ) : List Dset :=
  (if fMap &&& 1 ≠ 0 then [.rho] else []) ++ (if fMap &&& 2 ≠ 0 then [.theta] else []) ++
    (if fMap &&& 8 ≠ 0 then [.aux] else [])

/-- Addresses: an element of a dataset, or of the array `m2` of a rank. -/
inductive Cell where
  | file (d : Dset) (i : ℕ)
  | mem (r : ℕ) (i : ℕ)
  deriving DecidableEq, Repr

/-- The element copies of one slab: 3241-3247, 3264-3270, 3287-3293. -/
def turnOps (g : Geo) (d : Dset) (u : Turn) : List (Cell × Cell) :=
  (List.range g.slab).map fun k =>
    (.file d (fileOffset g.rLz g.slab u + k), .mem u.rank (g.start d + g.slab * u.z + k))

/-- The world after the datasets have been created, 3188-3226. -/
def created {α : Type} (g : Geo) (ds : List Dset) (junk : Dset → ℕ → α) (mem : ℕ → Heap ℕ α) :
    Heap Cell α
  | .file d i => if d ∈ ds ∧ i < g.total then some (junk d i) else none
  | .mem r i => mem r i

/-- How a call ends: nothing to write, refused (the run goes on), end of the program with a status,
access outside an array, or the world with the written group. -/
inductive Outcome (α : Type) where
  | skipped
  | refused
  | exit (status : ℕ)
  | bad
  | done (h : Heap Cell α)

/-- `writeEDens`.  `hasM2`: the array exists; `opened`: a measurement file is open; `there`: the datasets
that the group already has; `order d`: the order of the slabs of dataset `d`. -/
def writeEDens {α : Type} (g : Geo) (field fMap : ℕ) (hasM2 opened : Bool) (there : List Dset)
    (order : Dset → List Turn) (junk : Dset → ℕ → α) (mem : ℕ → Heap ℕ α) : Outcome α :=
  let f := effective field fMap
  if f &&& 11 = 0 then .skipped
  else if hasM2 = false then .refused
  else if opened = false then .refused
  else if field = 6 then .exit 1
  else if (asked f).any (fun d => decide (d ∈ there)) then .exit 0
  else match copyCells ((asked f).flatMap fun d => (order d).flatMap (turnOps g d))
      (created g (asked f) junk mem) with
    | none => .bad
    | some h => .done h

end Jaxions.DensMap
