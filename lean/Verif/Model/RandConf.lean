import Verif.Basic.Tickets
import Mathlib.Analysis.SpecialFunctions.Sqrt
import Mathlib.Analysis.SpecialFunctions.Complex.Arg
import Mathlib.Analysis.SpecialFunctions.Trigonometric.Basic
import Mathlib.Data.Int.Notation
/-
Point based initial conditions: `randXeon` and `randConf`, lib/gen/randXeon.cpp.

Simplifications: arithmetic on reals is exact and the constants 3.14159265 and 6.2831853 are `π` and
`2π`.  Sums and products of `size_t` are exact modulo `2^64`; products of `int` do not overflow.  A
division by zero gives the value `none` (not a number); the division by `kcr*kcr` is taken care of by
hypotheses.  `abs` at line 237 is that of reals.  For `CONF_RAND` the first number drawn is the real
part (C++ leaves the order open).
-/
noncomputable section

namespace Jaxions.RandConf

/-- `ConfsubType`, include/enum-field.h:314-330. -/
inductive Sub
  | rand | axnoise | saxnoise | ax1mode | minicluster | minicluster0 | axiton
  | stringxy | stringyz | parres | strwave | thetavel | velrand
  deriving DecidableEq

/-- Whether the field is in double precision. -/
inductive Prec
  | double | single
  deriving DecidableEq

/-- Template instance, lib/gen/randXeon.cpp:408-449 and 471-512: in double precision the case
`CONF_AXITON` calls the instance of `CONF_PARRES`. -/
def inst : Prec → Sub → Sub
  | .double, .axiton => .parres
  | _, k => k

/-- The parameters, lib/gen/randXeon.cpp:36-60: `IcData`, the vector read from kkk.dat (or
`(kMax, 0, 0)`), and the global `kCrit` (line 225). -/
structure Ic where
  mode0 : ℝ
  kcr : ℝ
  kMax : ℕ
  kx : ℝ
  ky : ℝ
  kz : ℝ
  kCrit : ℝ

/-- Grid, lib/gen/randXeon.cpp:27-33. -/
structure Box where
  Lx : ℕ
  Tz : ℕ
  ranks : ℕ
  L : ℝ

/-- `field->Surf()`. -/
def Box.Sf (b : Box) : ℕ := b.Lx * b.Lx

/-- `field->Depth()`. -/
def Box.nz (b : Box) : ℕ := b.Tz / b.ranks

/-- `field->Size()`. -/
def Box.V (b : Box) : ℕ := b.nz * b.Sf

/-- `Lz = Lx/commSize()`, lib/gen/randXeon.cpp:32. -/
def Box.Lz (b : Box) : ℕ := b.Lx / b.ranks

/-- `double mod0 = ic.mode0 > 0.0;`, lib/gen/randXeon.cpp:37. -/
def Ic.mod0 (ic : Ic) : ℝ := if ic.mode0 > 0 then 1 else 0

/-- Radius of a loop over `Lx`, lib/gen/randXeon.cpp:50. -/
def Ic.strR (ic : Ic) : ℝ := if ic.mode0 > 0 then ic.mode0 else 0.2501

/-- `kCri2`, lib/gen/randXeon.cpp:42. -/
def kCri2 (b : Box) (ic : Ic) : ℝ := b.L * b.L / (2 * b.Sf * ic.kcr * ic.kcr)

/-- Coordinates of cell `idx`, lib/gen/randXeon.cpp:147-149 and others; `local_z_start = rank*Lz`,
line 34. -/
def ixOf (b : Box) (idx : ℕ) : ℕ := idx % b.Sf % b.Lx
def iyOf (b : Box) (idx : ℕ) : ℕ := idx % b.Sf / b.Lx
def izOf (b : Box) (rank idx : ℕ) : ℕ := idx / b.Sf + rank * b.Lz

/-- `if (iz>Lx/2) { z = z-Lx; }`, lib/gen/randXeon.cpp:165, 182-184, 200-202, 253. -/
def folded (Lx i : ℕ) : ℤ := if i > Lx / 2 then (i : ℤ) - Lx else i

/-- An expression of type `size_t`. -/
def u64 (i : ℤ) : ℕ := (i % 2 ^ 64).toNat

/-- `std::complex<Float>(cos(theta), sin(theta))`. -/
def unit (θ : ℝ) : ℂ := ⟨Real.cos θ, Real.sin θ⟩

/-- Angle of the loop without its sign, lib/gen/randXeon.cpp:232-237 and 258-263; `none` is a
division by zero. -/
def loopAngle (aL rho z2 : ℝ) : Option ℝ :=
  let d12 := (rho + aL) * (rho + aL) + z2
  let d22 := (rho - aL) * (rho - aL) + z2
  if Real.sqrt (d12 * d22) = 0 then none
  else some (Real.pi * (0.5 + (4 * aL * aL - d12 - d22) / (4 * Real.sqrt (d12 * d22))))

/-- Distance along z to the plane of the loop, lib/gen/randXeon.cpp:225-227. -/
def zisOf (b : Box) (ic : Ic) (iz : ℕ) : ℝ :=
  let z0 := (iz : ℝ) - ic.kCrit
  let z1 := if z0 > (b.Tz : ℝ) / 2 then z0 - b.Tz else z0
  if -z1 > (b.Tz : ℝ) / 2 then z1 + b.Tz else z1

/-- Squared distance from the axis, lib/gen/randXeon.cpp:229. -/
def rho2XY (b : Box) (ix iy : ℕ) : ℕ :=
  u64 (((ix : ℤ) - (b.Lx / 2 : ℕ)) * ((ix : ℤ) - (b.Lx / 2 : ℕ)) +
    ((iy : ℤ) - (b.Lx / 2 : ℕ)) * ((iy : ℤ) - (b.Lx / 2 : ℕ)))

/-- Loop in the XY plane, lib/gen/randXeon.cpp:214-240. -/
def loopXY (b : Box) (ic : Ic) (ix iy iz : ℕ) : Option ℂ :=
  let zis := zisOf b ic iz
  let aL := (b.Lx : ℝ) * ic.strR
  (loopAngle aL (Real.sqrt (rho2XY b ix iy)) (zis * zis)).bind fun th =>
    if |-0.01 + zis| = 0 then none else some (unit (th * (-0.01 + zis) / |-0.01 + zis|))

/-- Loop in the YZ plane, lib/gen/randXeon.cpp:243-285. -/
def loopYZ (b : Box) (ic : Ic) (ix iy iz : ℕ) : Option ℂ :=
  let z := folded b.Lx iz
  let aL := (b.Lx : ℝ) * ic.strR
  let rho2 := u64 (z * z + ((iy : ℤ) - (b.Lx / 2 : ℕ)) * ((iy : ℤ) - (b.Lx / 2 : ℕ)))
  let z2 := u64 (((ix : ℤ) - (b.Lx / 2 : ℕ)) * ((ix : ℤ) - (b.Lx / 2 : ℕ)))
  (loopAngle aL (Real.sqrt rho2) z2).map fun th =>
    unit (if ix > b.Lx / 2 then -th else th)

/-- Squared distance for `CONF_MINICLUSTER`, lib/gen/randXeon.cpp:166. -/
def centred2 (b : Box) (ix iy iz : ℕ) : ℕ :=
  u64 (((ix : ℤ) - (b.Lx / 2 : ℕ)) * ((ix : ℤ) - (b.Lx / 2 : ℕ)) +
    ((iy : ℤ) - (b.Lx / 2 : ℕ)) * ((iy : ℤ) - (b.Lx / 2 : ℕ)) + folded b.Lx iz * folded b.Lx iz)

/-- Squared distance for `CONF_MINICLUSTER0` and `CONF_AXITON`, lib/gen/randXeon.cpp:185, 203. -/
def corner2 (b : Box) (ix iy iz : ℕ) : ℤ :=
  folded b.Lx ix * folded b.Lx ix + folded b.Lx iy * folded b.Lx iy +
    folded b.Lx iz * folded b.Lx iz

/-- Value of a cell, given its coordinates and its random numbers in [-1, 1],
lib/gen/randXeon.cpp:119-339. -/
def pointVal (K : Sub) (b : Box) (ic : Ic) (ix iy iz : ℕ) (u : ℕ → ℝ) : Option ℂ :=
  match K with
  | .rand => some ⟨u 0, u 1⟩
  | .axnoise => some (unit (ic.mod0 + u 0 * ic.kcr))
  | .saxnoise =>
    let th := u 0 * ic.kcr + 1
    some ⟨th * Real.cos ic.mod0, th * Real.sin ic.mod0⟩
  | .ax1mode => some (unit (ic.mod0 *
      Real.cos (2 * Real.pi * ((ix : ℝ) * ic.kMax + iy) / b.Lx)))
  | .minicluster => some (unit (Real.exp (-(centred2 b ix iy iz : ℝ) * kCri2 b ic) * ic.mod0))
  | .minicluster0 => some (unit (Real.exp (-(corner2 b ix iy iz : ℝ) * kCri2 b ic) * ic.mod0))
  | .axiton => some (unit (ic.mod0 / ((corner2 b ix iy iz : ℝ) * kCri2 b ic + 1)))
  | .stringxy => loopXY b ic ix iy iz
  | .stringyz => loopYZ b ic ix iy iz
  | .parres =>
    let th := ic.mod0 * Real.cos (2 * Real.pi * (ix * ic.kx + iy * ic.ky + iz * ic.kz) / b.Lx)
    some ⟨ic.kcr * Real.cos th, ic.kcr * Real.sin th⟩
  | .strwave => some 0
  | .thetavel => some ⟨0, ic.mod0 *
      Real.sin (2 * Real.pi / b.Lx * (ix * ic.kx + iy * ic.ky + iz * ic.kz))⟩
  | .velrand => some ⟨0, ic.mod0 * u 0⟩

/-- Calls of `uni(mt64)` for a cell, lib/gen/randXeon.cpp:124, 131, 138, 335. -/
def nDraws : Sub → ℕ
  | .rand => 2
  | .axnoise | .saxnoise | .velrand => 1
  | _ => 0

/-- Angle of the straight strings at a point of the plane, lib/gen/randXeon.cpp:357, 371-376;
`atan2(y,x)` is the argument of `x+iy`. -/
def waveAngle (b : Box) (ic : Ic) (x y : ℕ) : ℝ :=
  let LL := (b.Lx : ℝ) / ic.kMax
  ((List.range (2 * ic.kMax + 2)).map fun i : ℕ =>
    ((List.range (2 * ic.kMax + 2)).map fun j : ℕ =>
      let nx : ℤ := (i : ℤ) - ic.kMax
      let ny : ℤ := (j : ℤ) - ic.kMax
      (-1 : ℝ) ^ (nx + ny) *
        Complex.arg ⟨(x : ℝ) - ((nx : ℝ) + 0.5) * LL, (y : ℝ) - ((ny : ℝ) + 0.5) * LL⟩).sum).sum

/-- `m[idx+iz*Sf] *= eee`, lib/gen/randXeon.cpp:377-379. -/
def waveCell (b : Box) (ic : Ic) (idx : ℕ) (m : Heap ℕ (Option ℂ)) (iz : ℕ) :
    Option (Heap ℕ (Option ℂ)) :=
  (m (idx + iz * b.Sf)).bind fun z =>
    m.write (idx + iz * b.Sf)
      (z.map fun z => z * unit (waveAngle b ic (idx % b.Sf % b.Lx) (idx % b.Sf / b.Lx)))

/-- One iteration of the loop over the plane: the slices `iz < Lz`,
lib/gen/randXeon.cpp:378-380. -/
def waveColumn (b : Box) (ic : Ic) (m : Heap ℕ (Option ℂ)) (idx : ℕ) :
    Option (Heap ℕ (Option ℂ)) :=
  (List.range b.Lz).foldlM (waveCell b ic idx) m

/-- `CONF_STRWAVE`, lib/gen/randXeon.cpp:344-383, iterations in any order. -/
def strWave (b : Box) (ic : Ic) (order : List ℕ) (m : Heap ℕ (Option ℂ)) :
    Option (Heap ℕ (Option ℂ)) :=
  order.foldlM (waveColumn b ic) m

/-- `randConf`, lib/gen/randXeon.cpp:103-342 and 388-519, for a type other than `CONF_STRWAVE`: the parallel
loop over the cells. -/
def randConf (p : Prec) (K : Sub) (b : Box) (ic : Ic) (rank : ℕ) (draws : ℕ → ℕ → ℝ)
    (L : List (ℕ × ℕ)) (s : Drawing (Option ℂ)) : Option (Drawing (Option ℂ)) :=
  drawAll (nDraws (inst p K))
    (fun idx u => pointVal (inst p K) b ic (ixOf b idx) (iyOf b idx) (izOf b rank idx) u)
    (fun idx => idx) draws L s

end Jaxions.RandConf
