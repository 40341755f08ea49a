import Verif.Basic.Cells
import Mathlib.Data.Nat.Notation

/-
Moving a field to momentum space and back, on all ranks.

Source: lib/scalar/fourier.cpp, `ftField` 26-116, `iftField` 119-202, `padtom2` 204-230,
`unpadfromm2` 232-259; lib/scalar/scaleXeon.cpp (`scaleXeon`); lib/scalar/scalarField.cpp
198-235,258-290 (allocation), 1051-1077 (`setField`), 480-495 (plans);
lib/fft/fftCode.cpp:110-140,270-288 (arrays of the plans); include/scalar/scalarField.h
91,97,166.

Everything is counted in real numbers.  The collective transforms are parameters, each a
function from the list of all numbers of all ranks to the new numbers.  The ranks hold
blocks of equal size before and after the transform (their number divides the length).
The operations of different ranks touch different memory; they are listed rank by rank.
The cells between the padded rows keep their content in the model.
-/

namespace Jaxions.Fourier

/-- How the field was set up: a Saxion; an Axion allocated as such; an Axion that was
allocated as a Saxion and converted by `setField`. -/
inductive Kind where
  | saxion | axion | converted
  deriving DecidableEq, Repr

/-- Allocations of a rank. -/
inductive Blk where
  | m | v | m2
  deriving DecidableEq, Repr

structure Addr where
  rank : ℕ
  blk : Blk
  idx : ℕ
  deriving DecidableEq, Repr

/-- Geometry: ranks, length, local depth, ghost slices. -/
structure Lay where
  kind : Kind
  P : ℕ
  L : ℕ
  Lz : ℕ
  Ng : ℕ

/-- scalarField.h:89. -/
def mCpu (r i : ℕ) : Addr := ⟨r, .m, i⟩

/-- scalarField.h:103. -/
def m2Cpu (r i : ℕ) : Addr := ⟨r, .m2, i⟩

namespace Lay
variable (y : Lay)

def n2 : ℕ := y.L * y.L
def n3 : ℕ := y.Lz * y.n2
def v3 : ℕ := (y.Lz + 2 * y.Ng) * y.n2

/-- Allocated reals: scalarField.cpp:198-222 and 262-282.  An Axion has one block for `m`
and `v`; conversion keeps the blocks of the Saxion. -/
def size : Blk → ℕ
  | .m => match y.kind with
    | .axion => y.v3 + y.n2 * (y.Lz + 2)
    | _ => 2 * y.v3
  | .v => match y.kind with
    | .axion => 0
    | _ => 2 * (y.n2 * (y.Lz + 2))
  | .m2 => 2 * y.v3

/-- scalarField.h:97 and scalarField.cpp:221 (`v = m + mBytes`). -/
def vCpu (r i : ℕ) : Addr :=
  match y.kind with
  | .axion => ⟨r, .m, y.v3 + i⟩
  | _ => ⟨r, .v, i⟩

/-- scalarField.h:91, `fSize` = two reals for a Saxion. -/
def mStart (r i : ℕ) : Addr :=
  match y.kind with
  | .saxion => ⟨r, .m, 2 * (y.n2 * y.Ng) + i⟩
  | _ => ⟨r, .m, y.n2 * y.Ng + i⟩

/-- Reals of a padded transform per rank. -/
def nPad : ℕ := y.Lz * y.L * (y.L + 2)

end Lay

/-- The `k`-th number of all ranks, `n` per rank. -/
def allRanks (n : ℕ) (f : ℕ → ℕ → Addr) (k : ℕ) : Addr := f (k / n) (k % n)

/-- Place of a real in the padded rows. -/
def padIx (L i : ℕ) : ℕ := i / L * (L + 2) + i % L

variable {K : Type} [Mul K]

/-- The transforms: forward and backward for `m` and for `v`. -/
structure Plans (K : Type) where
  fm : List K → ℕ → K
  bm : List K → ℕ → K
  fv : List K → ℕ → K
  bv : List K → ℕ → K

/-- scaleXeon.cpp:15-46,52-84: `eSize()` complex numbers are multiplied, for every field
type. -/
def scale (y : Lay) (c : K) (base : ℕ → ℕ → Addr) (h : Heap Addr K) : Option (Heap Addr K) :=
  updCells (fun x => c * x) (allRanks (2 * y.v3) base) (y.P * (2 * y.v3)) h

/-- fourier.cpp:204-230, rows of `from` to the padded `m2`. -/
def padtom2 (y : Lay) (src : ℕ → ℕ → Addr) (h : Heap Addr K) : Option (Heap Addr K) :=
  copyCells ((List.range (y.P * y.n3)).map fun k =>
    (allRanks y.n3 (fun r i => m2Cpu r (padIx y.L i)) k, allRanks y.n3 src k)) h

/-- fourier.cpp:232-259. -/
def unpadfromm2 (y : Lay) (dst : ℕ → ℕ → Addr) (h : Heap Addr K) : Option (Heap Addr K) :=
  copyCells ((List.range (y.P * y.n3)).map fun k =>
    (allRanks y.n3 dst k, allRanks y.n3 (fun r i => m2Cpu r (padIx y.L i)) k)) h

/-- Padded rows of `m2` as seen by a real transform. -/
def rows (y : Lay) : ℕ → Addr := allRanks y.n3 fun r i => m2Cpu r (padIx y.L i)

/-- Transform of `m` to momentum space: fourier.cpp:43-51 and 72-84. -/
def fwdM (y : Lay) (T : Plans K) (c : K) (h : Heap Addr K) : Option (Heap Addr K) :=
  match y.kind with
  | .saxion =>
    (mapCells T.fm (allRanks (2 * y.n3) y.mStart) (y.P * (2 * y.n3))
      (allRanks (2 * y.n3) y.mStart) (y.P * (2 * y.n3)) h).bind (scale y c mCpu)
  | _ =>
    (padtom2 y y.mStart h).bind fun h =>
    (mapCells T.fm (rows y) (y.P * y.n3) (allRanks y.nPad mCpu) (y.P * y.nPad) h).bind
      (scale y c mCpu)

/-- Transform of `v`: 52-60 and 85-97. -/
def fwdV (y : Lay) (T : Plans K) (c : K) (h : Heap Addr K) : Option (Heap Addr K) :=
  match y.kind with
  | .saxion =>
    (mapCells T.fv (allRanks (2 * y.n3) y.vCpu) (y.P * (2 * y.n3))
      (allRanks (2 * y.n3) y.vCpu) (y.P * (2 * y.n3)) h).bind (scale y c y.vCpu)
  | _ =>
    (padtom2 y y.vCpu h).bind fun h =>
    (mapCells T.fv (rows y) (y.P * y.n3) (allRanks y.nPad y.vCpu) (y.P * y.nPad) h).bind
      (scale y c y.vCpu)

/-- Back to position space, `m`: 131-138 and 158-169. -/
def bckM (y : Lay) (T : Plans K) (h : Heap Addr K) : Option (Heap Addr K) :=
  match y.kind with
  | .saxion =>
    mapCells T.bm (allRanks (2 * y.n3) y.mStart) (y.P * (2 * y.n3))
      (allRanks (2 * y.n3) y.mStart) (y.P * (2 * y.n3)) h
  | _ =>
    (mapCells T.bm (allRanks y.nPad mCpu) (y.P * y.nPad) (rows y) (y.P * y.n3) h).bind
      (unpadfromm2 y y.mStart)

/-- Back to position space, `v`: 139-146 and 170-181. -/
def bckV (y : Lay) (T : Plans K) (h : Heap Addr K) : Option (Heap Addr K) :=
  match y.kind with
  | .saxion =>
    mapCells T.bv (allRanks (2 * y.n3) y.vCpu) (y.P * (2 * y.n3))
      (allRanks (2 * y.n3) y.vCpu) (y.P * (2 * y.n3)) h
  | _ =>
    (mapCells T.bv (allRanks y.nPad y.vCpu) (y.P * y.nPad) (rows y) (y.P * y.n3) h).bind
      (unpadfromm2 y y.vCpu)

/-- Field with its two flags. -/
structure St (K : Type) where
  heap : Heap Addr K
  mMom : Bool
  vMom : Bool

/-- Second half of `ftField` and all of it, for a request of `m` and/or `v`.  A part that
is already in momentum space makes the function return. -/
def ftV (y : Lay) (T : Plans K) (c : K) (reqV : Bool) (s : St K) : Option (St K) :=
  if reqV = false then some s
  else if s.vMom then some s
  else (fwdV y T c s.heap).bind fun h => some { s with heap := h, vMom := true }

def ft (y : Lay) (T : Plans K) (c : K) (reqM reqV : Bool) (s : St K) : Option (St K) :=
  if reqM = false then ftV y T c reqV s
  else if s.mMom then some s
  else (fwdM y T c s.heap).bind fun h => ftV y T c reqV { s with heap := h, mMom := true }

/-- `iftField`. -/
def iftV (y : Lay) (T : Plans K) (reqV : Bool) (s : St K) : Option (St K) :=
  if reqV = false then some s
  else if s.vMom = false then some s
  else (bckV y T s.heap).bind fun h => some { s with heap := h, vMom := false }

def ift (y : Lay) (T : Plans K) (reqM reqV : Bool) (s : St K) : Option (St K) :=
  if reqM = false then iftV y T reqV s
  else if s.mMom = false then some s
  else (bckM y T s.heap).bind fun h => iftV y T reqV { s with heap := h, mMom := false }

end Jaxions.Fourier
