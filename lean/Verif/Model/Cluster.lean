import Verif.Model.Comms
import Verif.Model.Passes
/-
Model of a propagation run on `n` ranks: every rank executes the same list of substeps
(`PropClass::sRunCpu` 646-735, `tRunCpu` 496-578 in /repo/include/propagator/propClass.h) on its own
slab while ghost messages travel asynchronously (`Scalar::sendGhosts`,
/repo/lib/scalar/scalarField.cpp:905-1027).

Data are handled slice by slice: `P` is the content of one z slice of `m` (or `m2`), `Q` that of one
slice of `v`.  How a slice of bytes travels in pieces is the subject of C07, C08, C09; here a
message is the list of `Ng` slices.  Matching of messages follows MPI: messages between the same
pair of ranks with the same tag are received in the order in which they were sent.
-/
namespace Jaxions.Cluster

/-- The two messages of an exchange (scalarField.cpp:976-980): `bck` carries the first physical
slices to the previous rank (tag 2*rank+1), `fwd` the last ones to the next rank (tag 2*rank). -/
inductive Dir | bck | fwd
  deriving DecidableEq, Repr

/-- Where a rank is inside a substep. -/
inductive Phase
  /-- before `sendGhosts(.., COMM_SDRV)` -/
  | idle
  /-- between `COMM_SDRV` and the return of `COMM_WAIT`: bulk kernel call -/
  | flight
  /-- after `COMM_WAIT`: boundary kernel calls -/
  | edge
  deriving DecidableEq, Repr

/-- One substep.  `pre` is the drift without kick of `PROP_FIRST` integrators (`updateMXeon`,
propClass.h:661-669), the identity otherwise; `law` is the kernel: from the source slices at
distance at most `Ng` (argument `o`, distance `o - Ng`) and the velocity slice it gives the new
field slice and the new velocity slice; `toM2` tells whether the source is `m` (true) or `m2`. -/
structure Op (P Q : Type) where
  pre : P → Q → P
  law : (Nat → P) → Q → P × Q
  toM2 : Bool

/-- Local memory and progress of one rank. -/
structure Rank (P Q : Type) where
  /-- arrays with ghosts: slices `0 .. Lz + 2 Ng - 1`, physical ones from `Ng` -/
  m : Nat → P
  m2 : Nat → P
  /-- velocities, no ghosts (`idxV0 = idx - NSf`, propXeon.h) -/
  v : Nat → Q
  /-- substeps completed -/
  pc : Nat
  phase : Phase
  /-- slices the current kernel calls still have to update -/
  todo : List Nat
  /-- the message has left the send buffer -/
  sent : Dir → Bool
  /-- the message is in the ghost slices -/
  got : Dir → Bool

/-- All ranks and the messages under way, by sending rank and direction. -/
structure World (P Q : Type) where
  rank : Nat → Rank P Q
  chan : Nat → Dir → List (List P)

/-- Geometry: ranks, local depth, ghost slices. -/
structure Grid where
  n : Nat
  Lz : Nat
  Ng : Nat

inductive Event
  | start (r : Nat)
  | capture (r : Nat) (d : Dir)
  | deliver (r : Nat) (d : Dir)
  | compute (r k : Nat)
  | wait (r : Nat)
  | finish (r : Nat)

variable {P Q : Type}

/-- Slices of the bulk call (`kernel(2*BO, V)`, propClass.h:686). -/
def bulk (g : Grid) : List Nat := List.range' (2 * g.Ng) (g.Lz - 2 * g.Ng)

/-- Slices of the calls after the wait (`kernel(BO, 2*BO); if (V>BO) kernel(V, V+BO)`,
propClass.h:688-690). -/
def boundary (g : Grid) : List Nat :=
  List.range' g.Ng g.Ng ++ if g.Lz > g.Ng then List.range' g.Lz g.Ng else []

/-- Sender of the message a rank receives in direction `d` (scalarField.cpp:985-986). -/
def source (g : Grid) (r : Nat) : Dir → Nat
  | .bck => fwdNeig g.n r
  | .fwd => bckNeig g.n r

namespace Rank

/-- Source array of a substep. -/
def src (R : Rank P Q) (toM2 : Bool) : Nat → P := if toM2 then R.m else R.m2
/-- Destination array of a substep. -/
def dst (R : Rank P Q) (toM2 : Bool) : Nat → P := if toM2 then R.m2 else R.m

def setSrc (R : Rank P Q) (toM2 : Bool) (a : Nat → P) : Rank P Q :=
  if toM2 then { R with m := a } else { R with m2 := a }
def setDst (R : Rank P Q) (toM2 : Bool) (a : Nat → P) : Rank P Q :=
  if toM2 then { R with m2 := a } else { R with m := a }

end Rank

/-- Contents of a message (scalarField.cpp:941-942): `Ng` slices from the first physical one, or
the last `Ng` physical ones. -/
def message (g : Grid) (a : Nat → P) : Dir → List P
  | .bck => (List.range g.Ng).map fun j => a (g.Ng + j)
  | .fwd => (List.range g.Ng).map fun j => a (g.Ng + g.Lz - g.Ng + j)

/-- Ghost slices written by a message (scalarField.cpp:943-944): the one from the next rank goes
behind the physical slices, the one from the previous rank in front of them. -/
def receive (g : Grid) (a : Nat → P) (msg : List P) : Dir → Nat → P
  | .bck => fun k => if g.Ng + g.Lz ≤ k then (msg[k - (g.Ng + g.Lz)]?).getD (a k) else a k
  | .fwd => fun k => if k < g.Ng then (msg[k]?).getD (a k) else a k

def update {α : Type _} (f : Nat → α) (i : Nat) (x : α) : Nat → α := fun j => if j = i then x else f j

def World.setRank (w : World P Q) (r : Nat) (R : Rank P Q) : World P Q :=
  { w with rank := update w.rank r R }

def World.setChan (w : World P Q) (r : Nat) (d : Dir) (q : List (List P)) : World P Q :=
  { w with chan := fun r' d' => if r' = r ∧ d' = d then q else w.chan r' d' }

/-- One event; `none` if it cannot happen now. -/
def step (g : Grid) (prog : List (Op P Q)) (w : World P Q) : Event → Option (World P Q)
  | .start r =>
    let R := w.rank r
    match prog[R.pc]? with
    | none => none
    | some op =>
      if r < g.n ∧ R.phase = .idle then
        let a := R.src op.toM2
        let R1 := R.setSrc op.toM2 fun k =>
          if g.Ng ≤ k ∧ k < g.Ng + g.Lz then op.pre (a k) (R.v (k - g.Ng)) else a k
        some (w.setRank r { R1 with phase := .flight, todo := bulk g, sent := fun _ => false,
                                    got := fun _ => false })
      else none
  | .capture r d =>
    let R := w.rank r
    match prog[R.pc]? with
    | none => none
    | some op =>
      if r < g.n ∧ R.phase = .flight ∧ R.sent d = false then
        some ((w.setRank r { R with sent := fun d' => if d' = d then true else R.sent d' }).setChan r d
          (w.chan r d ++ [message g (R.src op.toM2) d]))
      else none
  | .deliver r d =>
    let R := w.rank r
    match prog[R.pc]? with
    | none => none
    | some op =>
      if r < g.n ∧ R.phase = .flight ∧ R.got d = false then
        match w.chan (source g r d) d with
        | [] => none
        | msg :: rest =>
          let R1 := R.setSrc op.toM2 (receive g (R.src op.toM2) msg d)
          some ((w.setRank r { R1 with got := fun d' => if d' = d then true else R.got d' }).setChan
            (source g r d) d rest)
      else none
  | .compute r k =>
    let R := w.rank r
    match prog[R.pc]? with
    | none => none
    | some op =>
      if r < g.n ∧ R.phase ≠ .idle ∧ k ∈ R.todo then
        let y := op.law (fun o => R.src op.toM2 (k + o - g.Ng)) (R.v (k - g.Ng))
        let R1 := R.setDst op.toM2 (update (R.dst op.toM2) k y.1)
        some (w.setRank r { R1 with v := update R.v (k - g.Ng) y.2, todo := R.todo.erase k })
      else none
  | .wait r =>
    let R := w.rank r
    if r < g.n ∧ R.phase = .flight ∧ R.todo = [] ∧ R.sent .bck = true ∧ R.sent .fwd = true ∧
        R.got .bck = true ∧ R.got .fwd = true then
      some (w.setRank r { R with phase := .edge, todo := boundary g })
    else none
  | .finish r =>
    let R := w.rank r
    if r < g.n ∧ R.phase = .edge ∧ R.todo = [] then
      some (w.setRank r { R with phase := .idle, pc := R.pc + 1, sent := fun _ => false,
                                 got := fun _ => false })
    else none

/-- An execution: events in some order; `none` if one of them was not possible. -/
def exec (g : Grid) (prog : List (Op P Q)) (w : World P Q) (es : List Event) : Option (World P Q) :=
  es.foldlM (step g prog) w

end Jaxions.Cluster
