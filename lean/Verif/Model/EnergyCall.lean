import Verif.Model.EnergySax
import Mathlib.Algebra.BigOperators.Group.List.Basic
/-
Model of `energy` (/repo/lib/energy/energy.cpp:137-231), which runs an energy kernel on every rank
and joins the results, and of `writeEnergy` (/repo/lib/io/readWrite.pHdf5.cpp:2720-2853), which
stores them.

An entry of a result array is `none` if the program does not determine a finite number for it: not
written, or a division by zero.  The exchange of ghosts (170) and the folding (164-168) are done
before: the arrays are taken folded with valid ghosts.  `MPI_Allreduce` by its contract.  Timing and
messages are left out.  Only the two field types with kernels modelled here, on the CPU.
-/
namespace Jaxions.Energy

open Stencil Simd SaxKernel

variable {K : Type} [Field K]

/-- Sum of the contributions of the ranks to one entry. -/
def sumOpt : List (Option K) → Option K
  | [] => some 0
  | a :: l => do return (← a) + (← sumOpt l)

/-- energy.cpp:192-194: 23 entries for the complex field, else 5, the others stay as they are. -/
def allreduce (sax : Bool) (tmp : List (Nat → Option K)) (buf : Nat → Option K) (q : Nat) :
    Option K :=
  if q < (if sax then 23 else 5) then sumOpt (tmp.map fun t => t q) else buf q

/-- energy.cpp:197-207, `V` the number of sites of the whole lattice. -/
def scaled [DecidableEq K] (V : Nat) (e : Nat → Option K) (q : Nat) : Option K :=
  if q < 11 then do return (← e q) * (1 / (V : K))
  else if q < 22 then do
    let k ← e 22
    if k = 0 then none else return (← e q) * (1 / k)
  else e q

/-- The two tests at the beginning, energy.cpp:139-149. -/
def refuses (sax lowMem hasMask : Bool) (req : Req) : Bool :=
  (req.hasMap && sax && lowMem) || (req.hasMask && !hasMask)

/-- energy.cpp:192-214, after the kernels have run: the caller's array and whether `m2` is marked as
energy map. -/
def joinRanks [DecidableEq K] (sax : Bool) (req : Req) (V : Nat)
    (tmp : List (Nat → Option K)) (buf : Nat → Option K) (m2Energy : Bool) :
    (Nat → Option K) × Bool :=
  (scaled V (allreduce sax tmp buf), m2Energy || req.hasMap)

section run
variable [LinearOrder K]

/-- `energy` for the complex field on `n` ranks; `none`: undefined behaviour in a kernel. -/
def energySaxRanks (sq : K → K) (trunc : K → Nat) (P : SaxPar K) (p : Prec) (i : Isa)
    (threads : Nat) (pot : Pq × Qcd) (lowMem hasMask : Bool) (req : Req) (Vt : Nat) (s : Shape)
    (n V : Nat) (mk : Nat → Nat → Bool) (m v : Nat → Heap Nat (K × K)) (order : Nat → List Nat)
    (m2 : Nat → Heap Nat K) (buf : Nat → Option K) (m2Energy : Bool) :
    Option (((Nat → Option K) × Bool) × List (Heap Nat K)) :=
  if refuses true lowMem hasMask req then some ((buf, m2Energy), (List.range n).map m2)
  else do
    let r ← (List.range n).mapM fun k =>
      energySax sq trunc P p i threads pot req (mk k) Vt s (m k) (v k) (order k) (m2 k)
    return (joinRanks true req V (r.map Prod.fst) buf m2Energy, r.map Prod.snd)

/-- `energy` for the angle: no masked sums, and the kernel writes five entries only. -/
def energyThetaRanks (i : Isa) (p : Prec) (wMod : Bool) (P : ThetaPar K) (lowMem hasMask : Bool)
    (req : Req) (s : Shape) (n V : Nat) (m v : Nat → Heap Nat K) (order : Nat → List Nat)
    (m2 : Nat → Heap Nat K) (buf : Nat → Option K) (m2Energy : Bool) :
    Option (((Nat → Option K) × Bool) × List (Heap Nat K)) :=
  if refuses false lowMem hasMask req then some ((buf, m2Energy), (List.range n).map m2)
  else do
    let r ← (List.range n).mapM fun k =>
      energyTheta i p wMod req.hasMap P s (m k) (v k) (order k) (m2 k)
    return (joinRanks false req V (r.map fun a q => if q < 5 then some (a.1 q) else none) buf
      m2Energy, r.map Prod.snd)

end run

/-! ### The attributes in the file -/

/-- readWrite.pHdf5.cpp:2794-2819: totals. -/
def totalNames (sax : Bool) : List (String × Nat) :=
  [("Axion Gr X", 0), ("Axion Gr Y", 1), ("Axion Gr Z", 2), ("Axion Potential", 4),
    ("Axion Kinetic", 3)] ++
  if sax then [("Saxion Gr X", 5), ("Saxion Gr Y", 6), ("Saxion Gr Z", 7), ("Saxion Potential", 9),
    ("Saxion vev", 10), ("Saxion Kinetic", 8)] else []

/-- readWrite.pHdf5.cpp:2821-2842: masked averages. -/
def maskNames (sax : Bool) : List (String × Nat) :=
  [("Axion Gr X nMask", 11), ("Axion Gr Y nMask", 12), ("Axion Gr Z nMask", 13),
    ("Axion Potential nMask", 15), ("Axion Kinetic nMask", 14)] ++
  if sax then [("Saxion Gr X nMask", 16), ("Saxion Gr Y nMask", 17), ("Saxion Gr Z nMask", 18),
    ("Saxion Potential nMask", 20), ("Saxion Kinetic nMask", 19), ("Saxion vev nMask", 21),
    ("Number of masked points", 22)] else []

/-- `writeEnergy`: totals for a negative radius, masked ones for a positive one. -/
def writeEnergy [LinearOrder K] (sax : Bool) (rmask : K) (e : Nat → Option K) :
    List (String × Option K) :=
  ((if rmask < 0 then totalNames sax else []) ++ if 0 < rmask then maskNames sax else []).map
    fun a => (a.1, e a.2)

end Jaxions.Energy
