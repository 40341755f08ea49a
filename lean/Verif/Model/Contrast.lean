import Verif.Basic.Heap
import Mathlib.Analysis.SpecialFunctions.Log.Basic
import Mathlib.Algebra.Order.Round

/-
The density map in bytes.

Source: include/utils/binner.h:325-365 (`find`) and lib/energy/dContrast.cpp:12-88 (`dContrast`).

Exact arithmetic: the energies are real numbers, `log` is the logarithm.  A conversion to `int` of a
quotient by zero (an infinite or undefined number) is undefined behaviour and makes the result `none`.
The conversion to `char` is modulo 256 (gcc); the bytes are written as unsigned numbers
(`H5T_NATIVE_UCHAR`).  Not modelled: the reduction before (C28); the file is in `Model/DensByte`.
-/

noncomputable section

namespace Jaxions.Contrast

/-- `FIND_MAX`, `FIND_MIN`. -/
inductive Kind where
  | max | min
  deriving DecidableEq

open Classical in
/-- binner.h:343, 355: `cur` is replaced by `tmp`. -/
def replaces : Kind → ℝ → ℝ → Bool
  | .max, cur, tmp => decide (cur < tmp)
  | .min, cur, tmp => decide (cur > tmp)

/-- One iteration in a thread.  The private copy of the reduction begins with the number that is replaced
by every other (`none`). -/
def iter (k : Kind) (data : ℕ → ℝ) (cur : Option ℝ) (idx : ℕ) : Option ℝ :=
  match cur with
  | none => some (data idx)
  | some c => some (if replaces k c (data idx) then data idx else c)

/-- Joining the copy of a thread, or the number of another rank. -/
def join (k : Kind) (cur : ℝ) (part : Option ℝ) : ℝ :=
  match part with
  | none => cur
  | some t => if replaces k cur t then t else cur

/-- binner.h:334-346, 352-358 on one rank; `threads` are the iterations of each thread in the order in
which the threads are joined. -/
def findRank (k : Kind) (data : ℕ → ℝ) (threads : List (List ℕ)) : ℝ :=
  (threads.map fun l => l.foldl (iter k data) none).foldl (join k) (data 0)

/-- binner.h:347, 359: `MPI_Allreduce` over the numbers of the ranks, in some order. -/
def allreduce (k : Kind) : List ℝ → ℝ
  | [] => 0
  | a :: l => l.foldl (fun c b => join k c (some b)) a

/-- `find` on `P` ranks, with the iterations `threads r` on rank `r`. -/
def find (k : Kind) (P : ℕ) (data : ℕ → ℕ → ℝ) (threads : ℕ → List (List ℕ)) : ℝ :=
  allreduce k ((List.range P).map fun r => findRank k (data r) (threads r))

/-- dContrast.cpp:13. -/
def lowCut : ℝ := 1 / 1000

open Classical in
/-- dContrast.cpp:36-39. -/
def cMin (eMin : ℝ) : ℝ := if eMin ≤ lowCut then Real.log lowCut else Real.log eMin

open Classical in
/-- C's `round`: halves away from zero. -/
def cRound (x : ℝ) : ℤ := if 0 ≤ x then ⌊x + 1 / 2⌋ else ⌈x - 1 / 2⌉

open Classical in
/-- dContrast.cpp:41-54, one cell: `none` if the divisor of `dCon` is zero and `dCon` is used. -/
def level (eMax eMin x : ℝ) : Option ℤ :=
  if x ≤ lowCut then some 0
  else if Real.log eMax - cMin eMin = 0 then none
  else some (cRound ((Real.log x - cMin eMin) * (255 / (Real.log eMax - cMin eMin))))

/-- The byte as it is written. -/
def toByte (i : ℤ) : ℕ := (i % 256).toNat

/-- dContrast.cpp:46-54 over the cells in `order` (the threads in any order); the numbers of the map begin
at `first` in `m2`. -/
def bytes (eMax eMin : ℝ) (first : ℕ) (m2 : Heap ℕ ℝ) (order : List ℕ) (rC : Heap ℕ ℕ) :
    Option (Heap ℕ ℕ) :=
  order.foldlM (fun h i => do
    let x ← m2 (first + i)
    let b ← level eMax eMin x
    h.write i (toByte b)) rC

/-- dContrast.cpp:60: where the radial map is looked for. -/
def rhoFirst (Lx Lz : ℕ) : ℕ := Lx * Lx * Lz + Lx * Lx * 2

end Jaxions.Contrast
