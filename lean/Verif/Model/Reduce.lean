import Verif.Basic.Heap
import Mathlib.Data.Rat.Cast.Defs
import Mathlib.Algebra.Field.Rat

/-!
# Reduction of the grid

The interpolation of `Reducer::transformField` (`lib/reducer/reducer.cpp:135-187`), what `runCpu`
does with its result (191-275), `Scalar::setDims` (`lib/scalar/scalarField.cpp:1147-1161`) and the
"cherrypicking" of `SpecBin::filter` (`lib/spectrum/spectrum.cpp:2494-2541`).  Arithmetic is exact.
The transforms and the filter of the modes are not modelled here.
-/

namespace Jaxions
namespace Reduce

variable {K : Type} [Field K]

/-- `floor(fX)`. -/
def below (f : ℚ) : Nat := f.floor.toNat

/-- `ceil(fX)`, `if (xMax >= Lx) xMax = Lx-1` (`reducer.cpp:142-145`). -/
def above (L : Nat) (f : ℚ) : Nat :=
  let c := f.ceil.toNat
  if c ≥ L then L - 1 else c

/-- `f3[xyz]*… + f3[Xyz]*… + …` (`reducer.cpp:166-180`). -/
def average (h : Heap Nat K) (Lx xMin xMax yMin yMax zMin zMax : Nat) (rX rY rZ : ℚ) : Option K := do
  let a ← h (xMin + Lx * (yMin + Lx * zMin))
  let b ← h (xMax + Lx * (yMin + Lx * zMin))
  let c ← h (xMin + Lx * (yMax + Lx * zMin))
  let d ← h (xMax + Lx * (yMax + Lx * zMin))
  let e ← h (xMin + Lx * (yMin + Lx * zMax))
  let f ← h (xMax + Lx * (yMin + Lx * zMax))
  let g ← h (xMin + Lx * (yMax + Lx * zMax))
  let i ← h (xMax + Lx * (yMax + Lx * zMax))
  some (a * (((1 - rX) * (1 - rY) * (1 - rZ) : ℚ) : K) + b * ((rX * (1 - rY) * (1 - rZ) : ℚ) : K)
    + c * (((1 - rX) * rY * (1 - rZ) : ℚ) : K) + d * ((rX * rY * (1 - rZ) : ℚ) : K)
    + e * (((1 - rX) * (1 - rY) * rZ : ℚ) : K) + f * ((rX * (1 - rY) * rZ : ℚ) : K)
    + g * (((1 - rX) * rY * rZ : ℚ) : K) + i * ((rX * rY * rZ : ℚ) : K))

/-- Memory and the running coordinates `fX`, `fY`, `fZ`. -/
abbrev St (K : Type) := Heap Nat K × ℚ × ℚ × ℚ

/-- Loop over `ix` (`reducer.cpp:157-181`). -/
def loopX (Lx Lz newLx : Nat) (iy iz : Nat) (s : St K) : Option (St K) :=
  loop newLx (fun ix s => do
    let (h, fX, fY, fZ) := s
    let v ← average h Lx (below fX) (above Lx fX) (below fY) (above Lx fY) (below fZ) (above Lz fZ)
      (fX - below fX) (fY - below fY) (fZ - below fZ)
    let h ← h.write (ix + newLx * (iy + newLx * iz)) v
    some (h, fX + (Lx : ℚ) / newLx, fY, fZ)) s

/-- Loop over `iy` (`reducer.cpp:149-184`). -/
def loopY (Lx Lz newLx : Nat) (iz : Nat) (s : St K) : Option (St K) :=
  loop newLx (fun iy s => do
    let (h, _, fY, fZ) ← loopX Lx Lz newLx iy iz s
    some (h, 0, fY + (Lx : ℚ) / newLx, fZ)) s

/-- Loop over `iz` (`reducer.cpp:141-187`). -/
def reduce (Lx Lz newLx newLz : Nat) (h : Heap Nat K) : Option (Heap Nat K) :=
  (loop newLz (fun iz s => do
    let (h, fX, _, fZ) ← loopY Lx Lz newLx iz s
    some (h, fX, 0, fZ + (Lz : ℚ) / newLz)) (h, 0, 0, 0)).map Prod.fst

/-- `SpecBin::filter`, reorganisation (`spectrum.cpp:2494-2541`), both precisions. -/
def cherry {α : Type} (Ly Lz seta : Nat) (h : Heap Nat α) : Option (Heap Nat α) :=
  if seta = 0 then none
  else
    let newNx := Ly / seta
    let newNz := Lz / seta
    loop newNz (fun iz h => loop newNx (fun iy h => loop newNx (fun ix h =>
      copyCell h (ix + newNx * iy + newNx * newNx * iz)
        (ix * seta + (Ly + 2) * iy * seta + Ly * (Ly + 2) * iz * seta)) h) h) h

/-! ### Where the result goes -/

/-- The arrays `runCpu` works with; `outM`, `outV` are those of a new field. -/
inductive Buf | m | v | m2 | outM | outV
deriving DecidableEq, Repr

/-- Fields `runCpu` tells apart. -/
inductive Kind | saxion | axion
deriving DecidableEq, Repr

/-- Dimensions of a field. -/
structure Dims where
  n1 : Nat
  Lz : Nat
  Ng : Nat
deriving DecidableEq, Repr

/-- `mStart` in sites. -/
def Dims.start (d : Dims) : Nat := d.n1 * d.n1 * d.Ng

/-- `Scalar::setDims` (`scalarField.cpp:1147-1161`). -/
def setDims (d : Dims) (newnLx newnLz : Nat) : Dims :=
  if newnLx < d.n1 ∧ newnLz < d.Lz then { d with n1 := newnLx, Lz := newnLz } else d

/-- `memcpy(dst, m2, volData)` between two arrays. -/
def copyOut {α : Type} (dst : Buf) (off n : Nat) (h : Heap (Buf × Nat) α) :
    Option (Heap (Buf × Nat) α) :=
  memcpy (fun i => (dst, off + i)) (fun i => (Buf.m2, i)) n h

/-- `runCpu` for `FIELD_MV` (`reducer.cpp:206-275`): `trM` and `trV` stand for the two calls of
`transformField`, which leave the reduced data at the beginning of `m2`.  Returns the memory and the
dimensions of the field. -/
def runCpu {α : Type} (k : Kind) (inPlace : Bool) (d : Dims) (newLx newLz : Nat)
    (trM trV : Heap (Buf × Nat) α → Option (Heap (Buf × Nat) α)) (h : Heap (Buf × Nat) α) :
    Option (Heap (Buf × Nat) α × Dims) := do
  let vol := newLx * newLx * newLz
  let out : Dims := { d with n1 := newLx, Lz := newLz }
  let h ← trM h
  let h ← if inPlace then copyOut .m (newLx * newLx * d.Ng) vol h
    else match k with
      | .saxion => copyOut .outM out.start vol h
      | .axion => copyOut .m d.start vol h
  let h ← trV h
  let h ← if inPlace then copyOut .v 0 vol h else copyOut .outV 0 vol h
  some (h, if inPlace then setDims d newLx newLz else d)

end Reduce
end Jaxions
