import Verif.Model.Integrator
import Verif.Model.Cluster
import Mathlib.Algebra.Module.Defs
/-
What the kernel calls listed by `Verif.Model.Integrator` do to the arrays `m`, `m2`, `v`.
-/
namespace Jaxions.Integrator

variable {K X : Type} [Field K] [AddCommGroup X] [Module K X]

/-- The three arrays. -/
structure Arrays (X : Type) where
  m : X
  m2 : X
  v : X

/-- Kernel `propagateKernelXeon` without damping (propXeon.h: `v' = v + a*dzc`, `m2 = m + v'*dzd`
with `dzc = dz*c`, `dzd = dz*d`); `F zMass zR` is the acceleration as a function of the source
array.  `toM2 = true`: source `m`, destination `m2`; `false`: the other way round.  `updateMXeon`
(propXeon.h:874-1020): `m = m + v*dzd` in place. -/
def kernel (F : K → K → X → X) (dz : K) (toM2 : Bool) (a : Arrays X) : Act K → Arrays X
  | .drift d => { a with m := a.m + (dz * d) • a.v }
  | .sub c d zm zr =>
    let src := if toM2 then a.m else a.m2
    let v' := a.v + (dz * c) • F zm zr src
    let dst := src + (dz * d) • v'
    if toM2 then { a with m2 := dst, v := v' } else { a with m := dst, v := v' }

/-- The calls in order; source and destination alternate (propClass.h:686/702, 537/550). -/
def runKernels (F : K → K → X → X) (dz : K) : Bool → List (Act K) → Arrays X → Arrays X
  | _, [], a => a
  | b, .drift d :: l, a => runKernels F dz b l (kernel F dz b a (.drift d))
  | b, .sub c d zm zr :: l, a => runKernels F dz (!b) l (kernel F dz b a (.sub c d zm zr))

/-- Spectral kernels work in place (`sPropKernelXeon`: `m` and `v` updated, `m2` holds the
laplacian, overwritten; sPropXeon.h). -/
def inPlace (F : K → K → X → X) (dz : K) (mv : X × X) : Act K → X × X
  | .drift d => (mv.1 + (dz * d) • mv.2, mv.2)
  | .sub c d zm zr =>
    let v' := mv.2 + (dz * c) • F zm zr mv.1
    (mv.1 + (dz * d) • v', v')

end Jaxions.Integrator
