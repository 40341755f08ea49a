import Verif.Basic.Heap
/-
Model of the ghost exchange.

Source: /repo/lib/scalar/scalarField.cpp:713-868 (`sendGeneral`), 870-903 (`sendGhosts2`),
905-1027 (`sendGhosts`), 1029-1037 (`exchangeGhosts`, CPU).

MPI contract used: a send and a receive match if source, destination, tag and communicator agree;
among several candidates the k-th posted send matches the k-th posted receive (non-overtaking
rule); a matched pair copies the bytes of the send buffer to the receive buffer.
Simplifications: the `MPI_TAG_UB` limit and MPI errors are not modelled; offsets are in bytes.
-/
namespace Jaxions

/-- scalarField.cpp:738, 914 `MAX_CHUNK`. -/
def maxChunk : Nat := 2147483584
/-- scalarField.cpp:39 `NMPICHUNK`. -/
def nMpiChunk : Nat := 10

/-- scalarField.cpp:742 number of pieces in `sendGeneral`. -/
def nchunksGeneral (count : Nat) : Nat :=
  if count % maxChunk = 0 then count / maxChunk else 1 + count / maxChunk

/-- scalarField.cpp:916 number of pieces in `sendGhosts`. -/
def nchunksGhosts (count : Nat) : Nat := 1 + count / maxChunk

/-- scalarField.cpp:741-781: pieces `(offset, size)` of `sendGeneral`; `none` = the program stops
with an error message (750-753). -/
def planGeneral (count : Nat) : Option (List (Nat × Nat)) :=
  let nch := nchunksGeneral count
  let last := count - (nch - 1) * maxChunk
  if nch > nMpiChunk then none
  else some ((List.range nch).map fun n =>
    (n * maxChunk, if n = nch - 1 ∧ last > 0 then last else maxChunk))

/-- scalarField.cpp:914-963: pieces of `sendGhosts`. -/
def planGhosts (count : Nat) : Option (List (Nat × Nat)) :=
  let nch := nchunksGhosts count
  let last := count - (nch - 1) * maxChunk
  if nch > nMpiChunk then none
  else some ((List.range nch).map fun n =>
    (n * maxChunk, if n = nch - 1 then last else maxChunk))

/-- scalarField.cpp:734, 908 `fwdNeig = (rank + 1) % nSplit`. -/
def fwdNeig (n r : Nat) : Nat := (r + 1) % n
/-- scalarField.cpp:735, 909 `bckNeig = (rank - 1 + nSplit) % nSplit`. -/
def bckNeig (n r : Nat) : Nat := ((r : Int) - 1 + n).toNat % n

/-- A posted point to point operation: peer rank, tag, buffer offset, size. -/
structure Post where
  peer : Nat
  tag : Nat
  off : Nat
  len : Nat
  deriving DecidableEq, Repr

/-- The four buffer offsets of an exchange (arguments of `sendGeneral`). -/
structure Bufs where
  sB : Nat
  rF : Nat
  sF : Nat
  rB : Nat
  deriving Repr

/-- Sends started by rank `r` in `sendGeneral` (789-791, 821, 825, started in this order 830-836). -/
def sendsGeneral (n : Nat) (b : Bufs) (plan : List (Nat × Nat)) (r : Nat) : List Post :=
  plan.flatMap fun c =>
    (if b.sB ≠ b.rF then [⟨bckNeig n r, 2 * r + 1, b.sB + c.1, c.2⟩] else []) ++
    (if b.sF ≠ b.rB then [⟨fwdNeig n r, 2 * r, b.sF + c.1, c.2⟩] else [])

/-- Receives started by rank `r` in `sendGeneral` (805-807, 822, 826). -/
def recvsGeneral (n : Nat) (b : Bufs) (plan : List (Nat × Nat)) (r : Nat) : List Post :=
  plan.flatMap fun c =>
    (if b.sB ≠ b.rF then [⟨fwdNeig n r, 2 * fwdNeig n r + 1, b.rF + c.1, c.2⟩] else []) ++
    (if b.sF ≠ b.rB then [⟨bckNeig n r, 2 * bckNeig n r, b.rB + c.1, c.2⟩] else [])

/-- Sends started by rank `r` in `sendGhosts` (994-995, 1002-1003). -/
def sendsGhosts (n : Nat) (b : Bufs) (plan : List (Nat × Nat)) (r : Nat) : List Post :=
  plan.flatMap fun c =>
    [⟨fwdNeig n r, 2 * r, b.sF + c.1, c.2⟩, ⟨bckNeig n r, 2 * r + 1, b.sB + c.1, c.2⟩]

/-- Receives started by rank `r` in `sendGhosts` (996-997, 1000-1001). -/
def recvsGhosts (n : Nat) (b : Bufs) (plan : List (Nat × Nat)) (r : Nat) : List Post :=
  plan.flatMap fun c =>
    [⟨bckNeig n r, 2 * bckNeig n r, b.rB + c.1, c.2⟩,
     ⟨fwdNeig n r, 2 * fwdNeig n r + 1, b.rF + c.1, c.2⟩]

/-- Posts of a rank for one channel (peer, tag), in posting order. -/
def onChannel (l : List Post) (peer tag : Nat) : List Post :=
  l.filter fun p => p.peer = peer ∧ p.tag = tag

/-- Byte copies of all matched messages among `n` ranks: address = (rank, byte offset). -/
def transfers (n : Nat) (sends recvs : Nat → List Post) : List ((Nat × Nat) × (Nat × Nat)) :=
  (List.range n).flatMap fun s => (List.range n).flatMap fun d => (List.range (2 * n)).flatMap fun t =>
    ((onChannel (sends s) d t).zip (onChannel (recvs d) s t)).flatMap fun pq =>
      (List.range pq.1.len).map fun k => ((d, pq.2.off + k), (s, pq.1.off + k))

/-- Sizes (in bytes) of the array of one rank that takes part in the exchange: `plane = n2*fSize`. -/
structure Slab where
  plane : Nat
  Lz : Nat
  Ng : Nat
  deriving Repr

/-- scalarField.cpp:883-901 with `rNg` ghost slices (arrays with ghost room in front: m, m2, and v
of a PAXION field); scalarField.cpp:942-945 is the case `rNg = Ng`. -/
def ghostBufs (g : Slab) (rNg : Nat) : Bufs where
  sB := g.Ng * g.plane
  rF := g.Ng * g.plane + g.Lz * g.plane
  sF := g.Ng * g.plane + g.Lz * g.plane - rNg * g.plane
  rB := (g.Ng - rNg) * g.plane

/-- scalarField.cpp:891-894 for `v` of any other field: `vStart = vFrontGhost = v`
(scalarField.h:99-101). -/
def ghostBufsV (g : Slab) (rNg : Nat) : Bufs where
  sB := 0
  rF := g.Ng * g.plane + g.Lz * g.plane
  sF := g.Lz * g.plane - rNg * g.plane
  rB := (g.Ng - rNg) * g.plane

/-- scalarField.cpp:874-878: the number of ghost slices exchanged for an argument `ng`
(`none` = the default argument -1). -/
def effNg (Ng : Nat) : Option Nat → Nat
  | none => Ng
  | some ng => if ng > Ng then Ng else ng

/-- `sendGhosts2(m, SDRV); sendGhosts2(m, WAIT)` on all ranks (also `exchangeGhosts` on the CPU),
the messages being delivered in the order `order` (any reordering of the byte copies).
Outer `none` = undefined behaviour, inner `none` = refused. -/
def exchange2 {β : Type _} (n : Nat) (g : Slab) (ng : Option Nat)
    (order : List ((Nat × Nat) × (Nat × Nat)) → List ((Nat × Nat) × (Nat × Nat)))
    (mem : Heap (Nat × Nat) β) : Option (Option (Heap (Nat × Nat) β)) :=
  let rNg := effNg g.Ng ng
  let b := ghostBufs g rNg
  match planGeneral (rNg * g.plane) with
  | none => some none
  | some plan => (copyCells (order (transfers n (sendsGeneral n b plan) (recvsGeneral n b plan))) mem).map some

/-- The same through `sendGhosts`. -/
def exchange1 {β : Type _} (n : Nat) (g : Slab)
    (order : List ((Nat × Nat) × (Nat × Nat)) → List ((Nat × Nat) × (Nat × Nat)))
    (mem : Heap (Nat × Nat) β) : Option (Option (Heap (Nat × Nat) β)) :=
  let b := ghostBufs g g.Ng
  match planGhosts (g.Ng * g.plane) with
  | none => some none
  | some plan => (copyCells (order (transfers n (sendsGhosts n b plan) (recvsGhosts n b plan))) mem).map some

end Jaxions
