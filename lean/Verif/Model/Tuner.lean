import Verif.Model.Tunable
import Verif.Model.FieldType
/-
`tunePropagator`, lib/propagator/propagator.cpp:498-790, CPU, position space propagators
(the spectral ones return at once, 502-505).
-/
namespace Jaxions.Tuner
open Tunable

/-- The measuring loop, propagator.cpp:637-672. `time i` is the `i`-th measured time after the
`MPI_MAX` reduction (so all ranks see the same number). `fuel` bounds the number of iterations:
`none` when it runs out or when advancing the block is undefined. -/
def loop (time : Nat → Nat) : Nat → Nat → Nat → Tun → Option (Tun × Nat)
  | 0, _, _, _ => none
  | fuel + 1, i, bestTime, t =>
    if t.isTuned then some (t, bestTime)
    else if time i < bestTime then
      (advance (updateBest t)).bind fun t' => loop time fuel (i + 1) (time i) t'
    else (advance t).bind fun t' => loop time fuel (i + 1) bestTime t'

/-- propagator.cpp:613-724: first measurement, advance, loop, `SetBestBlock`. `named` tells whether
the field type has a case in the switch at 678-719: otherwise the function returns before
`SetBestBlock`. -/
def tune (named : Bool) (time : Nat → Nat) (fuel : Nat) (t : Tun) : Option (Tun × Nat) :=
  (advance t).bind fun t1 =>
    (loop time fuel 1 (time 0) t1).map fun r => if named then (setBest r.1, r.2) else r

/-- Time used for a decision: the maximum over ranks of the local times (`MPI_Allreduce` with
`MPI_MAX`, propagator.cpp:629 and 656). -/
def reduced (local' : List (Nat → Nat)) (i : Nat) : Nat := (local'.map (· i)).foldl max 0

/-- What identifies a run for the cache. -/
structure Run where
  mpi : Nat
  threads : Nat
  Lx : Nat
  Lz : Nat
  type : FType
  gpu : Bool
  Ng : Nat
  /-- bytes per real number: 4 or 8 -/
  bytes : Nat
deriving DecidableEq, Repr

/-- A line of `tuneCache.dat`, propagator.cpp:570 and 785. -/
structure Line where
  gpu : Bool
  mpi : Nat
  threads : Nat
  Lx : Nat
  Lz : Nat
  fType : Nat
  block : Block
  Ng : Nat
deriving DecidableEq, Repr

/-- propagator.cpp:557-564 and 776-783. `none`: the variable stays uninitialised. -/
def fieldNumber : FType → Option Nat
  | .saxion => some 0
  | .axion => some 1
  | .naxion => some 2
  | .paxion => some 3
  | _ => none

/-- Lanes, from the alignment and the bytes per site. -/
def lanes (r : Run) (align : Nat) : Nat := align / (r.bytes * r.type.nData)

/-- propagator.cpp:573-574, CPU: is a line taken? `none`: the comparison reads an uninitialised
variable. `prop->BlockX()` is `Lx * lanes` after `InitBlockSize`. -/
def accepts (r : Run) (align : Nat) (l : Line) : Option Bool :=
  (fieldNumber r.type).map fun n =>
    l.mpi == r.mpi && l.threads == r.threads && l.Lx == r.Lx && l.Lz == r.Lz && l.fType == n &&
    l.gpu == r.gpu && l.Ng == r.Ng &&
    (l.block.x ≤ r.Lx * lanes r align && l.block.y ≤ r.Lx * r.Lx / (r.Lx * lanes r align) &&
      l.block.z ≤ r.Lz)

/-- propagator.cpp:785-786: the line written after tuning. -/
def written (r : Run) (b : Block) : Option Line :=
  (fieldNumber r.type).map fun n => ⟨r.gpu, r.mpi, r.threads, r.Lx, r.Lz, n, b, r.Ng⟩

end Jaxions.Tuner
