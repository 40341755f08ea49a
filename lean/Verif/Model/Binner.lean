import Mathlib.Algebra.Order.Floor.Ring
import Mathlib.Algebra.BigOperators.Group.Finset.Basic
/-
Histograms, /repo/include/utils/binner.h. Values are elements of an ordered field with floor (the
doubles `filter(inData[i])`, without rounding, infinities and NaN).
-/
namespace Jaxions.Binner

variable {K : Type} [Field K] [LinearOrder K] [IsStrictOrderedRing K] [FloorRing K]

/-- Template parameter `N` and members of a `Binner` (binner.h:15-36), `mIdx = commThreads()`,
`ranks = commSize()`; the same on every rank. -/
structure Cfg where
  N : Nat
  dSize : Nat
  padded : Nat
  dataLen : Nat
  threads : Nat
  ranks : Nat

/-- binner.h:129-130, 266-267: entries that are padding (`PaddedLength > DataLength` branch). -/
def Cfg.skip (c : Cfg) (i : Nat) : Bool := c.padded != c.dataLen && i % c.padded ≥ c.dataLen

/-- binner.h:103-145 `find`, one rank: (maximum, minimum); `order` is the order in which the
threads get to the entries `1 .. dSize-1`. -/
def findRank (c : Cfg) (data : Nat → K) (order : List Nat) : K × K :=
  order.foldl (fun s i =>
    if c.skip i then s
    else (if data i > s.1 then data i else s.1, if data i < s.2 then data i else s.2))
    (data 0, data 0)

/-- binner.h:147-148: `MPI_Allreduce` with `MPI_MAX` and `MPI_MIN`. -/
def findAll (c : Cfg) (data : Nat → Nat → K) (order : Nat → List Nat) : K × K :=
  let loc := fun r => findRank c (data r) (order r)
  ((List.range c.ranks).foldl (fun a r => max a (loc r).1) (loc 0).1,
   (List.range c.ranks).foldl (fun a r => min a (loc r).2) (loc 0).2)

/-- binner.h:162. -/
def step (c : Cfg) (minVal maxVal : K) : K := (maxVal - minVal) / ((c.N : K) - 1)
/-- binner.h:164. -/
def baseVal (c : Cfg) (minVal maxVal : K) : K := minVal - step c minVal maxVal / 2

/-- binner.h:229-250 (and 269-289): the bin a value goes to; `none` = not binned. `size_t myBin` is
the floor; a negative one would wrap to a huge number and fail `myBin < N`. -/
def binOf (c : Cfg) (minVal maxVal v : K) : Option Nat :=
  let st := step c minVal maxVal
  let ba := baseVal c minVal maxVal
  if minVal ≤ v ∧ v ≤ maxVal then
    if |v - ba| < st / 100 then some 0
    else
      let b := ⌊(v - ba) / st⌋
      if 0 ≤ b ∧ b < c.N then some b.toNat else none
  else none

/-- The table `tBins` of `N*mIdx` counters (binner.h:196-197). -/
abbrev Counters := Nat → Nat

/-- `tBins[k]++`; `none` = outside the vector. -/
def incr (c : Cfg) (t : Counters) (k : Nat) : Option Counters :=
  if k < c.N * c.threads then some fun j => if j = k then t j + 1 else t j else none

/-- Body of the loop over entries (binner.h:227-252); entry `i` is handled by thread `thr i`. -/
def countOne (c : Cfg) (minVal maxVal : K) (data : Nat → K) (thr : Nat → Nat) (t : Counters) (i : Nat) :
    Option Counters :=
  if c.skip i then some t
  else match binOf c minVal maxVal (data i) with
    | none => some t
    | some b => incr c t (b + c.N * thr i)

/-- binner.h:220 and 258-259: `tSize`. -/
def tSize (c : Cfg) (minVal maxVal : K) : K :=
  (((if c.padded = c.dataLen then c.dSize else c.dSize / c.padded * c.dataLen) * c.ranks : Nat) : K) *
    step c minVal maxVal

/-- `run` on one rank, up to the reduction over ranks (binner.h:196-297): the counters start at
zero, the entries are handled in the order `order`, then `bins[j] += Σ_i tBins[j+i*N]/tSize`.
`PaddedLength < DataLength` does nothing. -/
def runRank (c : Cfg) (minVal maxVal : K) (prev : Nat → K) (data : Nat → K) (thr : Nat → Nat)
    (order : List Nat) : Option (Nat → K) :=
  if c.padded < c.dataLen then some prev
  else
    (order.foldlM (countOne c minVal maxVal data thr) fun _ => 0).map fun t j =>
      prev j + ∑ i ∈ Finset.range c.threads, (t (j + i * c.N) : K) / tSize c minVal maxVal

/-- `run` on all ranks with limits already set (binner.h:302-305, `MPI_Allreduce` with `MPI_SUM`):
contents of `bins[j]`, `j < N`, on every rank. `none`: a counter outside the table was touched. -/
def runAll (c : Cfg) (minVal maxVal : K) (prev : Nat → Nat → K) (data : Nat → Nat → K)
    (thr : Nat → Nat → Nat) (order : Nat → List Nat) : Option (Nat → K) :=
  ((List.range c.ranks).mapM fun r =>
    runRank c minVal maxVal (prev r) (data r) (thr r) (order r)).map fun l j =>
      (l.map (· j)).sum

end Jaxions.Binner
