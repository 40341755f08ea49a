import Verif.Model.DensMap
import Verif.Model.Contrast
/-
Writing the density map in bytes.

Source: lib/io/readWrite.pHdf5.cpp:1959-2130 (`writeDensity`), lib/energy/dContrast.cpp:26-88
(`dContrast` without the reduction).

Conventions of `Model/DensMap.lean`; the dataset of the call, whichever its name, is written `.theta`.
-/

noncomputable section

namespace Jaxions.Contrast

open DensMap (Geo Dset Cell Outcome created)
open ConfIO (Turn fileOffset)

/-- 2094-2106: the bytes of one slab, from the beginning of the map of the rank. -/
def slabOps (g : Geo) (u : Turn) : List (Cell × Cell) :=
  (List.range g.slab).map fun k =>
    (.file .theta (fileOffset g.rLz g.slab u + k), .mem u.rank (g.slab * u.z + k))

/-- `writeDensity`. `there`: the group already has a dataset of that name (2077-2086: the call returns).
-/
def writeDensity (g : Geo) (opened there : Bool) (order : List Turn) (junk : Dset → ℕ → ℕ)
    (rC : ℕ → Heap ℕ ℕ) : Outcome ℕ :=
  if opened = false then .refused
  else if there = true then .refused
  else match copyCells (order.flatMap (slabOps g)) (created g [.theta] junk rC) with
    | none => .bad
    | some h => .done h

open Classical in
/-- dContrast.cpp:26-56 (`first = 0`) or 60-86 (`first = rhoFirst`) on all ranks: the extremes, the bytes
of each rank, the file. -/
def contrast (g : Geo) (first : ℕ) (threads threads' : ℕ → List (List ℕ)) (cells : ℕ → List ℕ)
    (opened there : Bool) (order : List Turn) (junk : Dset → ℕ → ℕ) (data : ℕ → ℕ → ℝ)
    (m2 : ℕ → Heap ℕ ℝ) (rC : ℕ → Heap ℕ ℕ) : Outcome ℕ :=
  let M := find .max g.ranks data threads
  let m := find .min g.ranks data threads'
  if ∃ r < g.ranks, bytes M m first (m2 r) (cells r) (rC r) = none then .bad
  else writeDensity g opened there order junk fun r => (bytes M m first (m2 r) (cells r) (rC r)).getD (rC r)

end Jaxions.Contrast
