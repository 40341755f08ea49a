import Verif.Model.StringMap
import Mathlib.Data.Nat.Notation

/-!
# Strings in the measurement file

The end of `strings2` (`lib/strings/strings.cpp:336-376`), `writeStringCo`
(`lib/io/readWrite.pHdf5.cpp:2474-2647`) and the data set of `writeString` (`readWrite.pHdf5.cpp:2175-2266`).
Memory and data sets are bytes; `unsigned short` is two bytes, the lower one first, in memory and in
the file (`H5T_NATIVE_USHORT` for both).  Access outside what is allocated has no outcome, and neither
has an MPI call with a negative count, nor a collective call that not all ranks make.

Simplifications.  The ranks are taken turn by turn in `writeStringCo`: only rank 0 writes, and a rank
sends in its turn what it has had since before the loop.  Attributes and errors of the library are
left out.
-/

namespace Jaxions
namespace StrFile

open StringMap (PosList)

/-- Byte `k` of three `unsigned short`. -/
def byte (t : ℕ × ℕ × ℕ) (k : ℕ) : ℕ :=
  let w := if k / 2 = 0 then t.1 else if k / 2 = 1 then t.2.1 else t.2.2
  if k % 2 = 0 then w % 256 else w / 256 % 256

/-- Byte `k` of `eStr->Pos()`. -/
def posByte (P : PosList) (k : ℕ) : Option ℕ := (P.pos (k / 6)).map fun t => byte t (k % 6)

/-- `memcpy`, or the arrival of a message, or a write to a data set: `n` bytes from `src` to `at_` on. -/
def put (src : ℕ → Option ℕ) (at_ n : ℕ) (h : Heap ℕ ℕ) : Option (Heap ℕ ℕ) :=
  (List.range n).foldlM (fun h k => do h.write (at_ + k) (← src k)) h

/-- What `sDStatus` and `m2Status` tell, as far as it matters here. -/
inductive Stat
  | coord
  | other
  deriving DecidableEq

/-- The arrays of a rank: `sData()` and `m2Cpu()`. -/
structure Fld where
  sd : Heap ℕ ℕ
  m2 : Heap ℕ ℕ
  sdStat : Stat
  m2Stat : Stat

/-- `charmax` (`strings.cpp:341-353`); `V` is `Size()`, `ds` is `DataSize()`. -/
def charmax (low : Bool) (V ds : ℕ) : ℕ := if low then V else V * ds

/-- The bytes copied (`strings.cpp:355-361`). -/
def copied (low : Bool) (V ds carde : ℕ) : ℕ := min (carde * 3 * 2) (charmax low V ds / 3 * 3)

/-- The end of `strings2` (`strings.cpp:341-376`). -/
def keep (low : Bool) (V ds carde : ℕ) (P : PosList) (f : Fld) : Option Fld :=
  let n := copied low V ds carde
  if low then (put (posByte P) 0 n f.sd).map fun sd => { f with sd, sdStat := .coord }
  else (put (posByte P) 0 n f.m2).map fun m2 => { f with m2, m2Stat := .coord }

/-- `strData` and whether the status is as wanted (`readWrite.pHdf5.cpp:2489-2507`). -/
def Fld.buf (low : Bool) (f : Fld) : Heap ℕ ℕ := if low then f.sd else f.m2

def Fld.ready (low : Bool) (f : Fld) : Bool := if low then f.sdStat = .coord else f.m2Stat = .coord

/-- The buffer of rank 0 and the data set. -/
structure W where
  buf : Heap ℕ ℕ
  file : Heap ℕ ℕ

/-- `toti` (`readWrite.pHdf5.cpp:2522-2524, 2607-2609`). -/
def toti (N : ℕ → ℕ) (r : ℕ) : ℕ := (List.range r).foldl (fun s i => s + N i) 0

/-- The message of `rank` to rank 0 (`readWrite.pHdf5.cpp:2587-2604`); its length `n` is an `int`. -/
def arrive (src : Heap ℕ ℕ) (rank n : ℕ) (b : Heap ℕ ℕ) : Option (Heap ℕ ℕ) :=
  if rank = 0 then some b else if n < 2 ^ 31 then put src 0 n b else none

/-- One turn of the loop (`readWrite.pHdf5.cpp:2585-2631`): the message of `rank`, then its slab. -/
def turn (buf : ℕ → Heap ℕ ℕ) (N : ℕ → ℕ) (w : W) (rank : ℕ) : Option W := do
  let slab := 3 * N rank
  let b ← arrive (buf rank) rank (slab * 2) w.buf
  let file ← put b (3 * toti N rank * 2) (slab * 2) w.file
  return ⟨b, file⟩

/-- A new data set of `n` bytes. -/
def fresh (n : ℕ) : Heap ℕ ℕ := fun a => if a < n then some 0 else none

/-- `writeStringCo` on `n` ranks, with a file opened and `rData`; `N` are the `strDen_local`.  `some none`: all
ranks return without writing. -/
def writeStringCo (low : Bool) (n : ℕ) (f : ℕ → Fld) (N : ℕ → ℕ) : Option (Option W) :=
  if ∀ r < n, (f r).ready low = true then
    ((List.range n).foldlM (turn (fun r => (f r).buf low) N)
      ⟨(f 0).buf low, fresh (3 * toti N n * 2)⟩).map some
  else if ∀ r < n, (f r).ready low = false then some none
  else none

/-- A slab of `writeString` (`readWrite.pHdf5.cpp:2251-2258`): rank `p.1`, slice `p.2`. -/
def mapSlab (rLx rLz : ℕ) (sd : ℕ → Heap ℕ ℕ) (file : Heap ℕ ℕ) (p : ℕ × ℕ) : Option (Heap ℕ ℕ) :=
  let slab := rLx * rLx
  put (fun k => sd p.1 (slab * p.2 + k)) ((p.1 * rLz + p.2) * slab) slab file

/-- The data set of `writeString` on `n` ranks, the slabs in the order in which they are written. -/
def writeMap (n rLx rLz : ℕ) (sd : ℕ → Heap ℕ ℕ) (order : List (ℕ × ℕ)) : Option (Heap ℕ ℕ) :=
  order.foldlM (mapSlab rLx rLz sd) (fresh (rLx * rLx * (n * rLz)))

/-- The slabs of all ranks. -/
def slabs (n rLz : ℕ) : List (ℕ × ℕ) := (List.range n).flatMap fun r => (List.range rLz).map fun z => (r, z)

end StrFile
end Jaxions
