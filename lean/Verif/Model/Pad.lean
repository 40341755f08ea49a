import Verif.Basic.Heap

/-!
# Padding of lines for in place transforms

`SpecBin::pad` and `SpecBin::unpad` (`lib/spectrum/spectrum.cpp:2246-2380`), the areas of
`chosechar` (2382-2411) and the loop of `pRun` (773-777).  Addresses count numbers of
`field->Precision()` bytes, so one area is one number; all allocations live in one address space.
-/

namespace Jaxions
namespace Pad

variable {α : Type}

/-- `PadIndex` (`include/enum-field.h:765-776`). -/
inductive Area | M | MS | V | VS | M2 | M2S | M2H | M2HS
deriving DecidableEq, Repr

/-- Values of `PadIndex`. -/
def Area.code : Area → Int
  | .M => 2 | .MS => 3 | .V => 8 | .VS => 9 | .M2 => 16 | .M2S => 17 | .M2H => 32 | .M2HS => 33

/-- Sizes: `Ly`, `Lz`, `Ng`, numbers per site (`fSize/precision`), whether the field is
`FIELD_PAXION`, and the addresses of the three arrays. -/
structure Lay where
  Ly : Nat
  Lz : Nat
  Ng : Nat
  comps : Nat
  paxion : Bool
  m : Nat
  v : Nat
  m2 : Nat

/-- Ghost slices in numbers, `fSize*n2*Ng/precision`. -/
def Lay.ghost (l : Lay) : Nat := l.comps * (l.Ly * l.Ly) * l.Ng
/-- `v3 = n2*(Lz+2*Ng)`. -/
def Lay.v3 (l : Lay) : Nat := l.Ly * l.Ly * (l.Lz + 2 * l.Ng)
/-- `LyLz` (`spectrum.h:164`). -/
def Lay.lines (l : Lay) : Nat := l.Ly * l.Lz

/-- `chosechar` (`spectrum.cpp:2382-2411`) with the pointers of `scalarField.h:88-111`. -/
def Lay.base (l : Lay) : Area → Nat
  | .M => l.m
  | .MS => l.m + l.ghost
  | .V => l.v
  | .VS => if l.paxion then l.v + l.ghost else l.v
  | .M2 => l.m2
  | .M2S => l.m2 + l.ghost
  | .M2H => l.m2 + l.v3
  | .M2HS => l.m2 + l.v3 + l.ghost

/-- One `memmove` of a line of `w` numbers: line `sl` with stride `a` from `o`, to stride `b` at
`d`. -/
def moveLine (o a d b w : Nat) (h : Heap Nat α) (sl : Nat) : Option (Heap Nat α) :=
  memmove (fun i => d + sl * b + i) (fun i => o + sl * a + i) w h

/-- The lines of a loop, in the order given. -/
def moveLines (o a d b w : Nat) (order : List Nat) (h : Heap Nat α) : Option (Heap Nat α) :=
  order.foldlM (moveLine o a d b w) h

/-- `for (sl = 0; sl < n; sl++)`. -/
def up (n : Nat) : List Nat := List.range n
/-- `for (sl = n-1; sl >= 0; sl--)`. -/
def down (n : Nat) : List Nat := (List.range n).reverse

/-- `SpecBin::pad` (`spectrum.cpp:2246-2307`); `sched` is the order in which the threads run the
lines of the parallel loop (2297-2303).  The first three branches (2270-2294) run the same loop. -/
def pad (l : Lay) (origin dest : Area) (sched : List Nat) (h : Heap Nat α) : Option (Heap Nat α) :=
  let dif := origin.code - dest.code
  if dif = 0 ∨ dif = 1 ∨ dif = -1 then
    moveLines (l.base origin) l.Ly (l.base dest) (l.Ly + 2) l.Ly (down l.lines) h
  else moveLines (l.base origin) l.Ly (l.base dest) (l.Ly + 2) l.Ly sched h

/-- `SpecBin::unpad` (`spectrum.cpp:2313-2380`). -/
def unpad (l : Lay) (origin dest : Area) (sched : List Nat) (h : Heap Nat α) : Option (Heap Nat α) :=
  let dif := origin.code - dest.code
  if dif = 0 ∨ dif = 1 then
    moveLines (l.base origin) (l.Ly + 2) (l.base dest) l.Ly l.Ly (up l.lines) h
  else if dif = -1 then do
    let h ← moveLines (l.base origin) (l.Ly + 2) (l.base origin) l.Ly l.Ly
      ((up (l.lines - 1)).map (· + 1)) h
    memmove (fun i => l.base dest + i) (fun i => l.base origin + i) (l.lines * l.Ly) h
  else moveLines (l.base origin) (l.Ly + 2) (l.base dest) l.Ly l.Ly sched h

/-- Padding loop of `pRun` (`spectrum.cpp:773-777`) from `m2` or `m2half` to `m2`. -/
def pRunPad (l : Lay) (half : Bool) (h : Heap Nat α) : Option (Heap Nat α) :=
  moveLines (l.base (if half then .M2H else .M2)) l.Ly (l.base .M2) (l.Ly + 2) l.Ly (down l.lines) h

end Pad
end Jaxions
