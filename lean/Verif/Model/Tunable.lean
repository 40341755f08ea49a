/-
Block size search, include/utils/tunable.h, CPU branch.
-/
namespace Jaxions.Tunable

/-- A block: extents in x, y, z. -/
structure Block where
  x : Nat
  y : Nat
  z : Nat
deriving DecidableEq, Repr

/-- Members of `Tunable` (tunable.h:15-32) used by the search. -/
structure Tun where
  ySize : Nat
  zSize : Nat
  block : Block
  best : Block
  isTuned : Bool
deriving DecidableEq, Repr

/-- `do b++ while (n % b != 0)`, tunable.h:93-95 and alike. For `n = 0` the first value is taken.
Otherwise a value above `n` never divides `n`, the `unsigned` counter runs up to its maximum and
wraps to zero, and `n % 0` is undefined: `none`. -/
def nextDiv (n b : Nat) : Option Nat :=
  if n = 0 then some (b + 1)
  else (List.range' (b + 1) (n - b)).find? fun d => n % d = 0

/-- `InitBlockSize`, tunable.h:169-172: number of halvings until 1. `none` for 0, where the loop
does not end. -/
def initShift : Nat → Option Nat
  | 0 => none
  | 1 => some 0
  | n + 2 => (initShift ((n + 2) / 2)).map (· + 1)

/-- `InitBlockSize`, tunable.h:160-183 and 206, CPU. -/
def init (Lx Lz dataSize alignSize : Nat) : Option Tun :=
  (initShift (alignSize / dataSize)).map fun s =>
    let b : Block := ⟨Lx * 2 ^ s, 2, 1⟩
    ⟨Lx / 2 ^ s, Lz, b, b, false⟩

/-- `AdvanceBlockSize`, tunable.h:91-110, CPU. -/
def advance (t : Tun) : Option Tun :=
  if t.block.y < t.ySize then
    (nextDiv t.ySize t.block.y).map fun y => { t with block := { t.block with y := y } }
  else
    match nextDiv t.ySize 3 with
    | none => none
    | some y =>
      if t.block.z < t.zSize then
        (nextDiv t.zSize t.block.z).map fun z =>
          { t with block := { t.block with y := y, z := z } }
      else some { t with block := { t.block with y := y }, isTuned := true }

/-- `UpdateBestBlock`, tunable.h:64. -/
def updateBest (t : Tun) : Tun := { t with best := t.block }

/-- `SetBestBlock`, tunable.h:65. -/
def setBest (t : Tun) : Tun := { t with block := t.best }

/-- `k` calls of `AdvanceBlockSize`. -/
def advances (t : Tun) : Nat → Option Tun
  | 0 => some t
  | k + 1 => (advances t k).bind advance

end Jaxions.Tunable
