import Verif.Basic.Heap
import Mathlib.Data.Nat.Notation
import Mathlib.Algebra.Field.Basic
/-
Conversions between the complex field and the angle, CPU.

Source: lib/scalar/thetaXeon.cpp:8-50 (`toThetaKernelXeon`), lib/scalar/thetaScalar.cpp:59-111
(`cmplxToTheta`), include/utils/simpleops.h:317-379 (`ctheta2csaxion`),
lib/scalar/theta2CmplxXeon.cpp:14-74 (`th2cxXeon`), include/scalar/scalarField.h:91-106 (pointers).

Memory is counted in real numbers; `m`, `v` and `m2` are separate blocks, as for a field created as
complex.  Numbers are exact; `ang x y` is the argument of `x + i y`, `cs` and `sn` are cosine and
sine.  The iterations of a parallel loop run in any order.  Folding before and after (C01), mending
(C25) and the GPU are left out.
-/

namespace Jaxions.ToTheta

inductive Buf
  | m | v | m2
  deriving DecidableEq, Repr

abbrev Mem (K : Type) := Heap (Buf × ℕ) K

/-- `Surf()`, `Depth()`, number of ghost slices. -/
structure Geo where
  S : ℕ
  Lz : ℕ
  Ng : ℕ

/-- `Size()`. -/
def Geo.V (g : Geo) : ℕ := g.S * g.Lz

/-- `v3`, points with ghosts (scalarField.cpp:44-54). -/
def Geo.v3 (g : Geo) : ℕ := g.S * (g.Lz + 2 * g.Ng)

/-- `mStart()` of the complex field: number of the real part of site `i`. -/
def Geo.cm (g : Geo) (i : ℕ) : Buf × ℕ := (.m, 2 * (g.S * g.Ng + i))
/-- Imaginary part. -/
def Geo.cm' (g : Geo) (i : ℕ) : Buf × ℕ := (.m, 2 * (g.S * g.Ng + i) + 1)
/-- `vCpu()` of the complex field. -/
def cv (i : ℕ) : Buf × ℕ := (.v, 2 * i)
def cv' (i : ℕ) : Buf × ℕ := (.v, 2 * i + 1)
/-- `mField`, thetaXeon.cpp:26, which is `mStart()` of the angle. -/
def Geo.rm (g : Geo) (i : ℕ) : Buf × ℕ := (.m, g.S * g.Ng + i)
/-- `vField`, 27. -/
def rv (i : ℕ) : Buf × ℕ := (.v, i)
/-- `aField1` and `aField2`, 28-29: the ghosts of the complex field. -/
def aux1 (l : ℕ) : Buf × ℕ := (.m, l)
def Geo.aux2 (g : Geo) (l : ℕ) : Buf × ℕ := (.m, 2 * (g.S * g.Ng + g.V) + l)

variable {K : Type} [Field K]

/-- `R`, `z`, `Frw()` and `shift`, 31-33. -/
structure Par (K : Type) where
  R : K
  z : K
  frw : K
  shift : K

/-- Line 33. -/
def Par.F (P : Par K) : K := P.frw * P.R / P.z

/-- Body of the loop over a slice, 41-45. -/
def site (ang : K → K → K) (g : Geo) (P : Par K) (cZ : ℕ) (h : Mem K) (l : ℕ) : Option (Mem K) :=
  (h (g.cm (cZ * g.S + l))).bind fun x0 => (h (g.cm' (cZ * g.S + l))).bind fun y =>
    let x := x0 - P.shift
    let iMod := P.R / (x * x + y * y)
    (h.write (aux1 l) (ang x y)).bind fun h =>
      (h (cv (cZ * g.S + l))).bind fun a => (h (cv' (cZ * g.S + l))).bind fun b =>
        (h (aux1 l)).bind fun t =>
          (h.write (g.aux2 l) ((b * x - a * y) * iMod + P.F * t)).bind fun h =>
            (h (aux1 l)).bind fun t => h.write (aux1 l) (t * P.R)

/-- One slice, 35-49. -/
def slice (ang : K → K → K) (g : Geo) (P : Par K) (order : ℕ → List ℕ) (h : Mem K) (cZ : ℕ) :
    Option (Mem K) :=
  ((order cZ).foldlM (site ang g P cZ) h).bind fun h =>
    (memcpy (fun k => g.rm (cZ * g.S + k)) aux1 g.S h).bind fun h =>
      memcpy (fun k => rv (cZ * g.S + k)) g.aux2 g.S h

/-- `toThetaKernelXeon`. -/
def toTheta (ang : K → K → K) (g : Geo) (P : Par K) (order : ℕ → List ℕ) (h : Mem K) :
    Option (Mem K) :=
  (List.range g.Lz).foldlM (slice ang g P order) h

/-- What `cmplxToTheta` leaves behind: memory, the flag `lowmem`.  thetaScalar.cpp:74, 93. -/
def cmplxToTheta (ang : K → K → K) (g : Geo) (P : Par K) (order : ℕ → List ℕ)
    (s : Mem K × Bool) : Option (Mem K × Bool) :=
  (toTheta ang g P order s.1).map fun h => (h, false)

/-! ### Back to the complex field -/

/-- Body of the loop of `ctheta2csaxion`, simpleops.h:348-352: `(Rp (1 - i θ) + i v/R) mc`. -/
def backSite (cs sn : K → K) (g : Geo) (R Rp : K) (h : Mem K) (i : ℕ) : Option (Mem K) :=
  (h (.m2, i)).bind fun m =>
    let θ := m / R
    let x := R * cs θ
    let y := R * sn θ
    (h.write (g.cm i) x).bind fun h => (h.write (g.cm' i) y).bind fun h =>
      (h (.m2, g.v3 + i)).bind fun v =>
        let w := v / R - Rp * θ
        (h.write (cv i) (Rp * x - w * y)).bind fun h => h.write (cv' i) (Rp * y + w * x)

/-- `ctheta2csaxion`, 317-379: field and velocity are moved to the two halves of `m2` first. -/
def toSaxion (cs sn : K → K) (g : Geo) (R Rp : K) (order : List ℕ) (h : Mem K) : Option (Mem K) :=
  (memmove (fun k => (.m2, k)) g.rm g.V h).bind fun h =>
    (memmove (fun k => (.m2, g.v3 + k)) rv g.V h).bind fun h =>
      order.foldlM (backSite cs sn g R Rp) h

/-! ### Initial conditions given as an angle -/

/-- Body of the loop of `th2cxXeon`, theta2CmplxXeon.cpp:32-37. -/
def initSite (cs sn : K → K) (g : Geo) (r : K) (h : Mem K) (i : ℕ) : Option (Mem K) :=
  (h (g.cm i)).bind fun t =>
    let x := r * cs t
    let y := r * sn t
    (h.write (g.cm i) x).bind fun h => (h.write (g.cm' i) y).bind fun h =>
      (h (cv i)).bind fun w =>
        (h.write (cv i) (1 / r * x - w * y)).bind fun h => h.write (cv' i) (1 / r * y + w * x)

/-- `th2cxXeon`. -/
def th2cx (cs sn : K → K) (g : Geo) (r : K) (order : List ℕ) (h : Mem K) : Option (Mem K) :=
  order.foldlM (initSite cs sn g r) h

end Jaxions.ToTheta
