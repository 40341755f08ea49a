import Verif.Basic.Heap
import Mathlib.Algebra.Order.Ring.Rat

/-!
# Masking balls around defects

`SpecBin::maskball` (`lib/spectrum/spectrum.cpp:518-738`) and `inflsq` (504-512).  The marks are kept
apart from the defect labels: the labels used have no bit in common with `STRING_MASK`
(`spectrum.cpp:3262, 3557`, `enum-field.h:70-87`).  The ghost loads fit in a `short`.  The exchange of
the two ghost columns is that of `sendGeneral` (C08, C09).
-/

namespace Jaxions
namespace MaskBall

/-- Local grid `Ly × Ly × Lz` of each of `ranks` ranks, `radius_mask`. -/
structure Cfg where
  Ly : Nat
  Lz : Nat
  ranks : Nat
  radius : ℚ

/-- `rz` (`spectrum.cpp:520`). -/
def Cfg.rz (c : Cfg) : Nat := c.radius.floor.toNat

/-- Loop of `inflsq`. -/
def inflsqGo (aux : ℚ) : Nat → Nat → Nat
  | 0, ts => ts
  | fuel + 1, ts => if ((ts * ts : Nat) : ℚ) ≤ aux then inflsqGo aux fuel (ts + 1) else ts

/-- `inflsq` (`spectrum.cpp:504-512`); the bound on the iterations is never reached
(`inflsq_spec`). -/
def inflsq (aux : ℚ) : Int := (inflsqGo aux (aux.floor.toNat + 2) 0 : Int) - 1

/-- `for (int i = a; i <= b; i++)`. -/
def irange (a b : Int) : List Int := (List.range (b - a + 1).toNat).map fun k : Nat => a + k

/-- `(Ly+y+dy) % Ly`, in `size_t`. -/
def wrap (Ly y : Nat) (dy : Int) : Nat := (((Ly : Int) + y + dy) % 2 ^ 64).toNat % Ly

/-- What one point of a ball asks for: mark a site of this rank, or note how far to mark in the
column of the next rank in front or behind. -/
inductive Act
  | own (i : Nat)
  | front (col : Nat) (load : Int)
  | back (col : Nat) (load : Int)
deriving DecidableEq, Repr

/-- The points of the balls of one slice of the boundary loop (`spectrum.cpp:603-661`). -/
def sliceActs (c : Cfg) (defect : Nat → Bool) (liz : Nat) : List Act :=
  let z := liz % c.Lz
  let rzmin : Int := if c.rz > c.Lz then 0 else -(c.rz : Int)
  let rzmax : Int := if c.rz > c.Lz then (c.Lz : Int) - 1 else c.rz
  (List.range c.Ly).flatMap fun y => (List.range c.Ly).flatMap fun x =>
    if defect (c.Ly * c.Ly * z + c.Ly * y + x) then
      (irange rzmin rzmax).flatMap fun dz =>
        let raux := c.radius * c.radius - ((dz * dz : Int) : ℚ)
        let ry := inflsq raux
        (irange (-ry) ry).flatMap fun dy =>
          let yii := wrap c.Ly y dy
          let rx := inflsq (raux - ((dy * dy : Int) : ℚ))
          (irange (-rx) rx).map fun dx =>
            let xii := wrap c.Ly x dx
            if z + dz < 0 then .front (c.Ly * yii + xii) (-(z + dz))
            else if z + dz ≥ c.Lz then .back (c.Ly * yii + xii) (z + dz + 1 - c.Lz)
            else .own (c.Ly * c.Ly * (z + dz).toNat + c.Ly * yii + xii)
    else []

/-- `lzmin`, `lzmax` (`spectrum.cpp:586-591`): the slices of the boundary loop. -/
def boundary (c : Cfg) : List Nat :=
  if c.rz > c.Lz then List.range c.Lz
  else (List.range (2 * c.rz)).map fun k => c.Lz - c.rz + k

/-- The points of the balls of one slice of the bulk loop (`spectrum.cpp:675-707`). -/
def bulkActs (c : Cfg) (defect : Nat → Bool) (z : Nat) : List Act :=
  (List.range c.Ly).flatMap fun y => (List.range c.Ly).flatMap fun x =>
    if defect (c.Ly * c.Ly * z + c.Ly * y + x) then
      (irange (-(c.rz : Int)) c.rz).flatMap fun dz =>
        let raux := c.radius * c.radius - ((dz * dz : Int) : ℚ)
        let ry := inflsq raux
        (irange (-ry) ry).flatMap fun dy =>
          let rx := inflsq (raux - ((dy * dy : Int) : ℚ))
          (irange (-rx) rx).map fun dx =>
            .own ((z + dz).toNat * (c.Ly * c.Ly) + c.Ly * wrap c.Ly y dy + wrap c.Ly x dx)
    else []

/-- Slices of the bulk loop (`spectrum.cpp:668, 677`). -/
def bulk (c : Cfg) : List Nat :=
  if c.Lz > c.rz then (List.range (c.Lz - c.rz - c.rz)).map fun k => c.rz + k else []

/-! ### Threads -/

/-- Atomic steps of a thread; `false` is the front ghost. -/
inductive Micro
  | mark (i : Nat)
  | rd (side : Bool) (col : Nat)
  | wr (side : Bool) (col : Nat) (load : Int)
deriving DecidableEq, Repr

/-- A mark is one atomic update; a note is an atomic read and, if larger, an atomic write
(`spectrum.cpp:629-655`). -/
def Act.micros : Act → List Micro
  | .own i => [.mark i]
  | .front col load => [.rd false col, .wr false col load]
  | .back col load => [.rd true col, .wr true col load]

/-- Marks, ghost columns `mFG`, `mBG`, the variable `aux` of each thread, what is left to do. -/
structure St where
  mask : Nat → Bool
  gh : Bool → Nat → Int
  aux : Nat → Int
  todo : Nat → List Micro

/-- Effect of an atomic step of thread `t`; outside of the arrays it is undefined. -/
def exec (c : Cfg) (s : St) (t : Nat) : Micro → Option St
  | .mark i =>
    if i < c.Ly * c.Ly * c.Lz then
      some { s with mask := fun j => if j = i then true else s.mask j }
    else none
  | .rd side col =>
    if col < c.Ly * c.Ly then
      some { s with aux := fun u => if u = t then s.gh side col else s.aux u }
    else none
  | .wr side col load =>
    if col < c.Ly * c.Ly then
      some (if load > s.aux t then
        { s with gh := fun a b => if a = side ∧ b = col then load else s.gh a b } else s)
    else none

/-- Thread `t` makes its next step. -/
def step (c : Cfg) (s : St) (t : Nat) : Option St :=
  match s.todo t with
  | [] => some s
  | m :: ms => (exec c s t m).map fun s' =>
      { s' with todo := fun u => if u = t then ms else s.todo u }

/-- The threads run in the order `sched`. -/
def run (c : Cfg) (sched : List Nat) (s : St) : Option St := sched.foldlM (step c) s

/-- Start of a parallel loop in which thread `t` has the iterations `dist t`. -/
def start (m : Nat → Bool) (gh : Bool → Nat → Int) (dist : Nat → List Nat) (acts : Nat → List Act) : St :=
  ⟨m, gh, fun _ => 0, fun t => ((dist t).flatMap acts).flatMap Act.micros⟩

/-- Marking of what was received (`spectrum.cpp:719-733`): `recvB` comes from behind (`mFG+LyLy`),
`recvF` from the front (`mBG+LyLy`). -/
def receive (c : Cfg) (recvB recvF : Nat → Int) (m : Nat → Bool) : Option (Nat → Bool) :=
  if c.Lz > 1 then
    (List.range (c.Ly * c.Ly)).foldlM (fun m idx => do
      let m ← (List.range (recvB idx).toNat).foldlM (fun m dz =>
        if idx + dz * (c.Ly * c.Ly) < c.Ly * c.Ly * c.Lz then
          some fun j => if j = idx + dz * (c.Ly * c.Ly) then true else m j
        else none) m
      (List.range (recvF idx).toNat).foldlM (fun m dz =>
        if dz < c.Lz then
          some fun j => if j = idx + c.Ly * c.Ly * (c.Lz - 1 - dz) then true else m j
        else none) m) m
  else some m

end MaskBall
end Jaxions
