import Verif.Model.Winding
import Verif.Model.Stencil
import Verif.Model.Simd

/-!
# String map and string positions

`stringKernelXeon` and `stringCpu` (`lib/strings/stringXeon.cpp:476-1050`), the map they fill, and
the list of positions made from it by `strings2` (`lib/strings/strings.cpp:265-325`).  Addresses are
in lattice sites (the code doubles them, two scalars per site).  The scaled coordinates
`(size_t)(((double) x)*ratio)` are taken as exact `⌊x rLx / Lx⌋`.
-/

namespace Jaxions
namespace StringMap

open Winding Stencil

variable {K : Type} [Field K] [LinearOrder K]

/-! ## Bits of the map (`include/enum-field.h`, `StringType`) -/

def XY_POSITIVE : Nat := 1
def YZ_POSITIVE : Nat := 2
def ZX_POSITIVE : Nat := 4
def XY_NEGATIVE : Nat := 8
def YZ_NEGATIVE : Nat := 16
def ZX_NEGATIVE : Nat := 32
def WALL : Nat := 64
def XY : Nat := 9
def YZ : Nat := 18
def ZX : Nat := 36
def ONLY : Nat := 63

/-! ## Rotation of the three vectors of the next row, last row of a block -/

/-- Sites per vector (`#define step`, `stringXeon.cpp:488,491,494,764,767,770`). -/
def sites : Simd.Prec → Simd.Isa → Nat
  | .double, .avx512 => 4
  | .double, .avx2 => 2
  | .double, .avx => 2
  | .double, .sse => 1
  | .single, .avx512 => 8
  | .single, .avx2 => 4
  | .single, .avx => 4
  | .single, .sse => 2

/-- What is done to the vectors loaded for `mPy`, `mXY`, `mYZ` (`stringXeon.cpp:572-589`,
845-868). -/
def rotate {α : Type} : (p : Simd.Prec) → (i : Simd.Isa) → Simd.Vec (2 * sites p i) α →
    Simd.Vec (2 * sites p i) α
  | .double, .avx512 => fun a => Simd.permutePd (q := 4) 0b00111001 a
  | .double, .avx2 => fun a => Simd.swapHalves (h := 2) a
  | .double, .avx => fun a => Simd.swapHalves (h := 2) a
  | .double, .sse => fun a => a
  | .single, .avx512 => fun a =>
    Simd.permuteVar (n := 16) ![2, 3, 4, 5, 6, 7, 8, 9, 10, 11, 12, 13, 14, 15, 0, 1] a
  | .single, .avx2 => fun a => Simd.permuteVar (n := 8) ![2, 3, 4, 5, 6, 7, 0, 1] a
  | .single, .avx => fun a =>
    let x := Simd.permutePs (q := 2) 0b01001110 a
    Simd.blend (n := 8) 0b11001100 x (Simd.swapHalves (h := 4) x)
  | .single, .sse => fun a => Simd.shufflePs 0b01001110 a a

/-! ## The kernel -/

/-- Something for each of the seven sites of the three plaquettes. -/
structure Seven (α : Type) where
  mel : α
  px : α
  py : α
  pz : α
  xy : α
  yz : α
  zx : α

/-- Addresses of the seven sites for lane `l` of the vector at `idx` (`stringXeon.cpp:540-612`,
813-889): `idxPx` … `idxZX` plus the lane, or plus the next lane where the vectors are rotated. -/
def addrs (s : Shape) (idx l : Nat) : Seven (Option Nat) :=
  let tmi := idx / s.XC
  let X2 := tmi / s.YC
  let X1 := tmi - X2 * s.YC
  let X0 := idx - tmi * s.XC
  let r := (l + 1) % s.step
  if X1 = s.YC - 1 then
    { mel := some (idx + l)
      pz := some (idx + s.Sf + l)
      py := (sub? (idx + s.XC) s.Sf).map (· + r)
      yz := some (idx + s.XC + r)
      px := (if X0 = s.XC - s.step then sub? (idx + s.step) s.XC else some (idx + s.step)).map (· + l)
      xy := (if X0 = s.XC - s.step then sub? (idx + s.step) s.Sf
             else sub? (idx + s.XC + s.step) s.Sf).map (· + r)
      zx := (if X0 = s.XC - s.step then sub? (idx + s.Sf + s.step) s.XC
             else some (idx + s.Sf + s.step)).map (· + l) }
  else
    { mel := some (idx + l)
      pz := some (idx + s.Sf + l)
      py := some (idx + s.XC + l)
      yz := some (idx + s.Sf + s.XC + l)
      px := (if X0 = s.XC - s.step then sub? (idx + s.step) s.XC else some (idx + s.step)).map (· + l)
      xy := (if X0 = s.XC - s.step then some (idx + s.step) else some (idx + s.XC + s.step)).map (· + l)
      zx := (if X0 = s.XC - s.step then sub? (idx + s.Sf + s.step) s.XC
             else some (idx + s.Sf + s.step)).map (· + l) }

/-- `(size_t)(((double) x)*ratio)` with `ratio = rLx/Lx` (`stringXeon.cpp:519-520`, 803-804). -/
def coarse (r n x : Nat) : Nat := x * r / n

/-- `tIdx` (`stringXeon.cpp:617, 634`, 896, 902); `X[2]-1` wraps for the slice 0, which the callers
never pass. -/
def tIdx (s : Shape) (Lz rLx rLz idx l : Nat) : Option Nat := do
  let tmi := idx / s.XC
  let X2 := tmi / s.YC
  let X1 := tmi - X2 * s.YC
  let X0 := idx - tmi * s.XC
  let z ← sub? X2 1
  return coarse rLx s.Lx (X0 / s.step) + coarse rLx s.Lx X1 * rLx + coarse rLz Lz z * (rLx * rLx)
    + l * (rLx / s.step) * rLx

/-- Map and the three counters. -/
structure SD where
  map : Heap Nat Nat
  nStr : Nat
  nChi : Int
  nWall : Nat

/-- `strg[t] |= b`. -/
def SD.flag (d : SD) (t b : Nat) : Option SD := do
  let old ← d.map t
  let mp ← d.map.write t (old ||| b)
  return { d with map := mp }

/-- The `switch (hand[ih])` (`stringXeon.cpp:636-663`). -/
def SD.record (d : SD) (t pos neg : Nat) (hand : Int) : Option SD :=
  if hand = 2 then (d.flag t pos).map fun d => { d with nStr := d.nStr + 1, nChi := d.nChi + 1 }
  else if hand = -2 then
    (d.flag t neg).map fun d => { d with nStr := d.nStr + 1, nChi := d.nChi - 1 }
  else some d

/-- `if (wHand[ih] != 0)` (`stringXeon.cpp:743-746`). -/
def SD.wall (d : SD) (t : Nat) (w : Bool) : Option SD :=
  if w then (d.flag t WALL).map fun d => { d with nWall := d.nWall + 1 } else some d

/-- Load the seven sites. -/
def loadSeven (m : Heap Nat (Cx K)) (a : Seven (Option Nat)) : Option (Seven (Cx K)) := do
  let mel ← load m a.mel
  let px ← load m a.px
  let py ← load m a.py
  let pz ← load m a.pz
  let xy ← load m a.xy
  let yz ← load m a.yz
  let zx ← load m a.zx
  return ⟨mel, px, py, pz, xy, yz, zx⟩

/-- One lane of one iteration of the kernel (`stringXeon.cpp:614-752`).  The code does the plaquette
XY of all lanes, then YZ of all lanes, then ZX; as the lanes write different bytes, lane after lane
gives the same. -/
def visit (isa : Isa) (s : Shape) (Lz rLx rLz : Nat) (m : Heap Nat (Cx K)) (d : SD)
    (c : Nat × Nat) : Option SD := do
  let q ← loadSeven m (addrs s c.1 c.2)
  let t ← tIdx s Lz rLx rLz c.1 c.2
  let d ← d.record t XY_POSITIVE XY_NEGATIVE (handV isa q.mel q.px q.xy q.py)
  let d ← d.record t YZ_POSITIVE YZ_NEGATIVE (handV isa q.mel q.py q.yz q.pz)
  let d ← d.record t ZX_POSITIVE ZX_NEGATIVE (handV isa q.mel q.pz q.zx q.px)
  d.wall t (wallV q.mel q.px || wallV q.mel q.py || wallV q.mel q.pz)

/-- `for (idx = Vo; idx < Vf; idx += step)` (`stringXeon.cpp:531`, 817). -/
def visits (step Vo Vf : Nat) : List Nat :=
  (List.range ((Vf - Vo + step - 1) / step)).map fun i => Vo + i * step

/-- `stringKernelXeon`, the iterations in the order in which the threads do them. -/
def kernel (isa : Isa) (s : Shape) (Lz rLx rLz : Nat) (m : Heap Nat (Cx K)) (order : List Nat)
    (d : SD) : Option SD :=
  (lanes s order).foldlM (visit isa s Lz rLx rLz m) d

/-- The iterations of `stringCpu` (`stringXeon.cpp:1043-1050`): `Vo = Surf`, `Vf = Size + Surf`. -/
def cpuVisits (s : Shape) (Lz : Nat) : List Nat := visits s.step s.Sf (s.Sf * Lz + s.Sf)

/-- The map after `memset(sData, 0, Size)` (`strings.cpp:27`), counters zero. -/
def blank (V : Nat) : SD := ⟨fun a => if a < V then some 0 else none, 0, 0, 0⟩

/-! ## Positions -/

/-- Which plaquette of a site. -/
inductive Plq | xy | yz | zx
deriving DecidableEq, Repr

/-- The three `if (strdaa[idx] & …)` (`strings.cpp:293, 302, 311`). -/
def Plq.mask : Plq → Nat
  | .xy => XY
  | .yz => YZ
  | .zx => ZX

/-- Coordinates stored for a plaquette, in half lattice units (`strings.cpp:283-318`); the vector
holds `unsigned short`. -/
def coords (Lx Lz rank idx : Nat) (p : Plq) : Nat × Nat × Nat :=
  let tmp := idx / Lx
  let x2 := tmp / Lx
  let x1 := tmp - x2 * Lx
  let x0 := idx - tmp * Lx
  let x2 := (x2 + rank * Lz) * 2
  let x1 := x1 * 2
  let x0 := x0 * 2
  match p with
  | .xy => ((x0 + 1) % 65536, (x1 + 1) % 65536, x2 % 65536)
  | .yz => (x0 % 65536, (x1 + 1) % 65536, (x2 + 1) % 65536)
  | .zx => ((x0 + 1) % 65536, x1 % 65536, (x2 + 1) % 65536)

/-- Vector of positions and the shared counter `unilab`. -/
structure PosList where
  pos : Heap Nat (Nat × Nat × Nat)
  next : Nat

/-- One `if` of the loop body: take a slot, fill it.  A slot beyond the end of the vector is out of
bounds. -/
def place (Lx Lz rank : Nat) (map : Heap Nat Nat) (L : PosList) (i : Nat × Plq) :
    Option PosList := do
  let b ← map i.1
  if b &&& ONLY ≠ 0 ∧ b &&& i.2.mask ≠ 0 then
    let pos ← L.pos.write L.next (coords Lx Lz rank i.1 i.2)
    return ⟨pos, L.next + 1⟩
  else return L

/-- All the tests of the loop (`strings.cpp:273-325`). -/
def tests (V : Nat) : List (Nat × Plq) :=
  (List.range V).flatMap fun i => [(i, .xy), (i, .yz), (i, .zx)]

/-- The loop of `strings2`, the tests in the order in which the threads take their slots;
`pos.resize(3*strDen_local)` and zeros before (`strings.cpp:64-69`). -/
def positions (Lx Lz rank strDen : Nat) (map : Heap Nat Nat) (order : List (Nat × Plq)) :
    Option PosList :=
  order.foldlM (place Lx Lz rank map) ⟨fun a => if a < strDen then some (0, 0, 0) else none, 0⟩

end StringMap
end Jaxions
