import Verif.Model.Stencil
import Verif.Model.Comms
import Verif.Model.ThetaKernel
/-
Model of a run of the propagators on all ranks with real arrays: the substeps of `tRunCpu` and
`sRunCpu` (/repo/include/propagator/propClass.h:527-575, 674-730), each an exchange of the ghost
slices of the source array followed by the kernel calls on every rank.

The exchange moves bytes: a cell of `sz` bytes is encoded as its value tagged with the byte number,
and is lost if its bytes do not come together again.  While the messages are on their way the first
kernel call of a rank finds anything at all in the ghost slices of its array; the calls after
`COMM_WAIT` find what was sent.  Ranks only touch their own memory, so they are run one after the
other.  The parameters of a substep (time, mass, coefficients) are arbitrary.
-/
namespace Jaxions.Run

open Stencil

variable {α : Type}

/-- The array of rank `r`. -/
def onRank (h : Heap (Nat × Nat) α) (r : Nat) : Heap Nat α := fun a => h (r, a)

/-- All ranks keep their array but `r`. -/
def setRank (h : Heap (Nat × Nat) α) (r : Nat) (k : Heap Nat α) : Heap (Nat × Nat) α :=
  fun p => if p.1 = r then k p.2 else h p

/-- Bytes of an array with cells of `sz` bytes. -/
def encode (sz : Nat) (h : Heap (Nat × Nat) α) : Heap (Nat × Nat) (α × Nat) :=
  fun p => (h (p.1, p.2 / sz)).map fun x => (x, p.2 % sz)

open Classical in
/-- Cells of an array of bytes; a cell exists if all its bytes are those of one value. -/
noncomputable def decode (sz : Nat) (h : Heap (Nat × Nat) (α × Nat)) : Heap (Nat × Nat) α :=
  fun p => if e : ∃ x, ∀ k, k < sz → h (p.1, p.2 * sz + k) = some (x, k) then some e.choose else none

/-- `sendGhosts(.., COMM_SDRV)` and `COMM_WAIT` on all ranks; `none` if it is undefined or the program
stops because the message is too long. -/
noncomputable def exchange (n sz : Nat) (s : Shape) (Lz : Nat)
    (order : List ((Nat × Nat) × (Nat × Nat)) → List ((Nat × Nat) × (Nat × Nat)))
    (h : Heap (Nat × Nat) α) : Option (Heap (Nat × Nat) α) :=
  ((exchange1 n ⟨s.Lx * s.Lx * sz, Lz, s.NN⟩ order (encode sz h)).bind id).map (decode sz)

/-- A kernel: its sum over the neighbours in an array, and what it does with the result. -/
structure Sub (α : Type) where
  lapF : Shape → Heap Nat α → Nat → Nat → Option α
  law : α → α → α → α × α

/-- The arrays of all ranks. -/
structure World (α : Type) where
  m : Heap (Nat × Nat) α
  m2 : Heap (Nat × Nat) α
  v : Heap (Nat × Nat) α

/-- The accidents of a substep: order of the bytes in the messages, order of the vectors on every
rank before and after the wait, contents of the ghost slices in between. -/
structure Luck (α : Type) where
  msgs : List ((Nat × Nat) × (Nat × Nat)) → List ((Nat × Nat) × (Nat × Nat))
  bulk : Nat → List Nat
  edges : Nat → List Nat
  ghosts : Nat → Nat → α

/-- An array while its ghost slices are being received. -/
def inFlight (s : Shape) (Lz : Nat) (x : Nat → α) (h : Heap Nat α) : Heap Nat α := fun a =>
  if a < s.NN * (s.Lx * s.Lx) ∨ (s.NN + Lz) * (s.Lx * s.Lx) ≤ a then (h a).map fun _ => x a else h a

/-- The kernel calls of rank `r`, the first on the array `old` with the messages on their way, the
others on the array `src` (propClass.h:535-540): destination array and velocities. -/
def rankStep (s : Shape) (Lz : Nat) (u : Sub α) (l : Luck α) (old src : Heap (Nat × Nat) α)
    (acc : Heap (Nat × Nat) α × Heap (Nat × Nat) α) (r : Nat) :
    Option (Heap (Nat × Nat) α × Heap (Nat × Nat) α) := do
  let mid := inFlight s Lz (l.ghosts r) (onRank old r)
  let o ← sweepWith s (u.lapF s mid) u.law mid (l.bulk r) ⟨onRank acc.2 r, onRank acc.1 r⟩
  let o ← sweepWith s (u.lapF s (onRank src r)) u.law (onRank src r) (l.edges r) o
  return (setRank acc.1 r o.m2, setRank acc.2 r o.v)

/-- One substep; `toM2` if it goes from `m` to `m2`. -/
noncomputable def substep (n sz : Nat) (s : Shape) (Lz : Nat) (toM2 : Bool) (u : Sub α) (l : Luck α)
    (w : World α) : Option (World α) := do
  let old := if toM2 then w.m else w.m2
  let src ← exchange n sz s Lz l.msgs old
  let r ← (List.range n).foldlM (rankStep s Lz u l old src) (if toM2 then w.m2 else w.m, w.v)
  return if toM2 then ⟨src, r.1, r.2⟩ else ⟨r.1, src, r.2⟩

/-- A list of substeps, alternating between the two arrays (propClass.h:537-556). -/
noncomputable def run (n sz : Nat) (s : Shape) (Lz : Nat) :
    Bool → List (Sub α × Luck α) → World α → Option (World α)
  | _, [], w => some w
  | b, (u, l) :: us, w => do
    let w' ← substep n sz s Lz b u l w
    run n sz s Lz (!b) us w'

/-- The axion kernel with one of its potentials (propThetaXeon.h). -/
def axionSub {K : Type} [Field K] [LinearOrder K] (pot : ThetaKernel.Pot) (p : Simd.Prec)
    (wMod : Bool) (P : ThetaKernel.Par K) : Sub K where
  lapF := fun s m => ThetaKernel.lapT wMod P s m
  law := ThetaKernel.kick pot p wMod P

/-- The saxion kernel: the neighbour sums are those of `Stencil.lap`; the law of a site is left
open. -/
def saxionSub {K : Type} [Field K] [AddCommGroup α] [Module K α] (PC : List K) (ood2 : K)
    (law : α → α → α → α × α) : Sub α where
  lapF := fun s m => lap s PC ood2 m
  law := law

end Jaxions.Run
