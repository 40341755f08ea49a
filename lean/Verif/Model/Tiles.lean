import Mathlib.Data.List.ProdSigma
/-
Model of the tiled loop nest of the CPU kernels.

Sources: /repo/include/propagator/propXeon.h:143-171 (Saxion; the single precision, the field-only
and the energy variants of the file repeat it), propThetaXeon.h:104-127 (Axion),
propNaxXeon.h:119-143 and propPaxXeon.h:103-126 (nonrelativistic and Paxion kernels, which use a
different guard).

Simplification: `uint` is unbounded.
-/
namespace Jaxions

/-- Parameters of one kernel call: `XC`, `YC` row length and rows of the folded plane, `step`
lanes, z range `z0 ≤ zC < zF`, block sizes. -/
structure Tile where
  XC : Nat
  YC : Nat
  step : Nat
  z0 : Nat
  zF : Nat
  bSizeY : Nat
  bSizeZ : Nat
  deriving Repr

namespace Tile
variable (t : Tile)

/-- propXeon.h:145 `zM = (zF-z0+bSizeZ-1)/bSizeZ`. -/
def zM : Nat := (t.zF - t.z0 + t.bSizeZ - 1) / t.bSizeZ
/-- propXeon.h:146 `bY = (YC + bSizeY - 1)/bSizeY`. -/
def bY : Nat := (t.YC + t.bSizeY - 1) / t.bSizeY

/-- Loop counters `(zT, yT, zz, yy, xi)`, `xC = xi*step` (propXeon.h:148-156:
`for zT < zM, for yT < bY, for zz < bSizeZ, for yy < bSizeY, for (xC = 0; xC < XC; xC += step)`). -/
def nest : List (Nat × Nat × Nat × Nat × Nat) :=
  List.range t.zM ×ˢ List.range t.bY ×ˢ List.range t.bSizeZ ×ˢ List.range t.bSizeY ×ˢ
    List.range ((t.XC + t.step - 1) / t.step)

/-- propXeon.h:157 `zC = zz + bSizeZ*zT + z0`. -/
def zC (c : Nat × Nat × Nat × Nat × Nat) : Nat := c.2.2.1 + t.bSizeZ * c.1 + t.z0
/-- propXeon.h:158 `yC = yy + bSizeY*yT`. -/
def yC (c : Nat × Nat × Nat × Nat × Nat) : Nat := c.2.2.2.1 + t.bSizeY * c.2.1
/-- `xC`. -/
def xC (c : Nat × Nat × Nat × Nat × Nat) : Nat := c.2.2.2.2 * t.step
/-- propXeon.h:161 `idx = zC*(YC*XC) + yC*XC + xC`. -/
def idx (c : Nat × Nat × Nat × Nat × Nat) : Nat := t.zC c * (t.YC * t.XC) + t.yC c * t.XC + t.xC c

/-- propXeon.h:166, propThetaXeon.h:127: `if ((yC >= YC) || (zC >= zF)) continue;`.
Indices of the vector sites updated by the call, in sequential order. -/
def visits : List Nat :=
  (t.nest.filter fun c => !(t.yC c ≥ t.YC || t.zC c ≥ t.zF)).map t.idx

/-- propNaxXeon.h:141-142, propPaxXeon.h:124-125: `if (idx >= Vf) continue;`. -/
def visitsIdxGuard (Vf : Nat) : List Nat :=
  (t.nest.filter fun c => !(t.idx c ≥ Vf)).map t.idx

end Tile
end Jaxions
