import Verif.Basic.Heap
import Mathlib.Data.Nat.Notation
import Mathlib.Algebra.Field.Defs
import Mathlib.Data.List.FinRange

/-
The projection of the auxiliary field along z, and the map written from it.

Source: lib/projector/projector.cpp (runCpu 48-79, projectField 81-96),
include/scalar/scalarField.h:92-93, 104 (pointers), 157, 159, lib/io/readWrite.pHdf5.cpp:4207-4353
(writePMapHdf5s, writePMapHdf5), lib/meas/measa.cpp:251-279.

There are `P + 1` ranks, each with its own memory.  The parallel loops do the points in any
order; different points touch different cells.  `MPI_Reduce` is modelled by its contract: rank 0
receives the sums over the ranks.  Arithmetic is exact, the conversions between precisions are
left out.  `none` is an access outside the memory.
-/

namespace Jaxions.Projector

variable {K : Type}

/-- The arrays `m` and `m2`, counted in real numbers. -/
inductive Buf
  | m | m2
  deriving DecidableEq, Repr

abbrev Mem (K : Type) := Heap (Buf × ℕ) K

/-- `Surf()`, `Depth()`, number of ghost slices, and the real numbers per site `fSize/precision`. -/
structure Shape where
  n2 : ℕ
  Lz : ℕ
  Ng : ℕ
  fS : ℕ

/-- `inData[pt + Sf*zc]`, `m2Cpu()`. -/
def inAt (g : Shape) (pt zc : ℕ) : Buf × ℕ := (.m2, pt + g.n2 * zc)

/-- `medData[pt]`, `mBackGhost()`. -/
def med (g : Shape) (pt : ℕ) : Buf × ℕ := (.m, g.fS * (g.n2 * g.Ng + g.n2 * g.Lz) + pt)

/-- `outData[pt]`, `mFrontGhost()`. -/
def out (pt : ℕ) : Buf × ℕ := (.m, pt)

/-- Body of the loop over the depth, 62-66. -/
def addSlice [Add K] (g : Shape) (filter : K → K) (pt : ℕ) (h : Mem K) (zc : ℕ) : Option (Mem K) :=
  (h (inAt g pt zc)).bind fun x =>
    (h (med g pt)).bind fun s => h.write (med g pt) (s + filter x)

/-- Body of the loop over the points, 58-67. -/
def sumPoint [Zero K] [Add K] (g : Shape) (filter : K → K) (h : Mem K) (pt : ℕ) : Option (Mem K) :=
  (h.write (out pt) 0).bind fun h => (h.write (med g pt) 0).bind fun h =>
    (List.range g.Lz).foldlM (addSlice g filter pt) h

/-- Body of the last loop, 76-78. -/
def scalePoint [Mul K] (oZ : K) (h : Mem K) (pt : ℕ) : Option (Mem K) :=
  (h (out pt)).bind fun x => h.write (out pt) (x * oZ)

/-- Every rank does the same on its own memory. -/
def allRanks {P : ℕ} (f : Fin P → Mem K → Option (Mem K)) (s : Fin P → Mem K) :
    Option (Fin P → Mem K) :=
  if h : ∀ r, (f r (s r)).isSome then some fun r => (f r (s r)).get (h r) else none

/-- `MPI_Reduce (medData, outData, Sf, ..., MPI_SUM, 0, ...)`, one number. -/
def reducePoint {P : ℕ} [Zero K] [Add K] (g : Shape) (s : Fin (P + 1) → Mem K) (h : Mem K) (pt : ℕ) :
    Option (Mem K) :=
  ((List.finRange (P + 1)).mapM fun r => s r (med g pt)).bind fun xs => h.write (out pt) xs.sum

/-- 69-72. -/
def reduce {P : ℕ} [Zero K] [Add K] (g : Shape) (s : Fin (P + 1) → Mem K) :
    Option (Fin (P + 1) → Mem K) :=
  allRanks (fun r h => if r = 0 then (List.range g.n2).foldlM (reducePoint g s) h else some h) s

/-- `runCpu`, 48-79; `order r` and `order' r` are the orders of the points in the two loops of
rank `r`. -/
def runCpu {P : ℕ} [Field K] (g : Shape) (filter : K → K) (order order' : Fin (P + 1) → List ℕ)
    (s : Fin (P + 1) → Mem K) : Option (Fin (P + 1) → Mem K) :=
  (allRanks (fun r h => (order r).foldlM (sumPoint g filter) h) s).bind fun s =>
    (reduce g s).bind fun s =>
      allRanks (fun r h => (order' r).foldlM (scalePoint (1 / ((g.Lz * (P + 1) : ℕ) : K))) h) s

/-- What `m2` is said to hold. -/
inductive M2Status
  | energy | antimask | mask | energySmooth | other
  deriving DecidableEq, Repr

/-- `projectField`, 81-96: without the right content nothing is done. -/
def projectField {P : ℕ} [Field K] (lowmem : Bool) (st : M2Status) (g : Shape) (filter : K → K)
    (order order' : Fin (P + 1) → List ℕ) (s : Fin (P + 1) → Mem K) :
    Option (Fin (P + 1) → Mem K) :=
  if lowmem then some s
  else if st = .other then some s
  else runCpu g filter order order' s

/-- The measurement file: the sets in it. -/
abbrev File (K : Type) := List (String × List K)

/-- How a piece of the program ends: it goes on, or `exit` is called. -/
inductive Res (α : Type)
  | on (a : α)
  | exited
  deriving DecidableEq, Repr

/-- `writePMapHdf5s`, 4207-4348: `Surf()` numbers from `mFrontGhost()` of rank 0.  A set cannot be
created under a name already there; then `exit(0)`, 4307-4312. -/
def writePMap (g : Shape) (name : String) (h : Mem K) (f : File K) : Option (Res (File K)) :=
  if name ∈ f.map Prod.fst then some .exited
  else (readAll ((List.range g.n2).map out) h).bind fun xs => some (.on (f ++ [(name, xs)]))

/-- measa.cpp:258-278, the two maps asked for by `--p2DmapPE` and `--p2DmapPE2`; both go to
`/map/P`. -/
def twoMaps {P : ℕ} [Field K] (pe pe2 : Bool) (g : Shape) (order order' : Fin (P + 1) → List ℕ)
    (s : Fin (P + 1) → Mem K) (f : File K) : Option (Res ((Fin (P + 1) → Mem K) × File K)) := do
  let (s, f) ← if pe then do
      let s ← projectField false .energy g (fun x => x) order order' s
      let r ← writePMap g "/map/P" (s 0) f
      match r with
        | .on f => some (s, some f)
        | .exited => some (s, none)
    else some (s, some f)
  match f with
    | none => some .exited
    | some f =>
      if pe2 then do
        let s ← projectField false .energy g (fun x => x * x) order order' s
        let r ← writePMap g "/map/P" (s 0) f
        match r with
          | .on f => some (.on (s, f))
          | .exited => some .exited
      else some (.on (s, f))

end Jaxions.Projector
