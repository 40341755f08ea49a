import Verif.Basic.Heap
import Verif.Model.MassRate
import Verif.Model.Run
import Verif.Model.Integrator
import Mathlib.Analysis.SpecialFunctions.Trigonometric.Basic
import Mathlib.Analysis.Complex.Basic
/-
Model of the conversion of the axion to its two nonrelativistic forms,
/repo/lib/scalar/theta2PaxionXeon.cpp and theta2NaxionXeon.cpp, and of the kernel of the second form,
/repo/include/propagator/propNaxXeon.h, over the real numbers.  Loops run in any order.
-/
namespace Jaxions.Nonrel

open Cosmo Stencil Run

/-! ### Conversion -/

/-- The arrays. -/
inductive Arr | m | v | m2
  deriving DecidableEq

abbrev Mem := Heap (Arr × Nat) ℝ

/-- What the conversion asks the background for: `AxionMass()`, `*RV()`, `*zV()`, `Frw()`,
`DAxionMass2Dct`; `AxionMassSq()` is the square of the mass. -/
structure Now where
  mA : ℝ
  R : ℝ
  ct : ℝ
  frw : ℝ
  dm2 : ℝ

/-- `sqcms1`, theta2PaxionXeon.cpp:24. -/
noncomputable def Now.sq1 (n : Now) : ℝ := Real.sqrt (0.5 * n.mA * n.R)
/-- `sqcms2`, theta2PaxionXeon.cpp:25. -/
noncomputable def Now.sq2 (n : Now) : ℝ := Real.sqrt (2.0 * n.mA * n.R)
/-- `adiab`, theta2PaxionXeon.cpp:26. -/
noncomputable def Now.adiab (n : Now) : Option ℝ := do
  let q ← quot (2 * n.frw * (n.mA * n.mA) * (n.R * n.R)) n.ct
  quot (n.dm2 + q) (4 * (n.mA * n.mA) * n.mA)

/-- One site, theta2PaxionXeon.cpp:34-36; `b` is `NG*S`. -/
noncomputable def paxSite (s1 s2 ad : ℝ) (b : Nat) (h : Mem) (i : Nat) : Option Mem := do
  let x ← h (.m, b + i)
  let h ← h.write (.m, b + i) (x * s1)
  let y ← h (.v, i)
  let y ← quot y s2
  let h ← h.write (.v, i) y
  let y ← h (.v, i)
  let x ← h (.m, b + i)
  h.write (.v, i) (y + x * ad)

/-- `th2PaxionXeon`, theta2PaxionXeon.cpp:8-41: all sites, then the velocities move up to make room
for ghosts. -/
noncomputable def thPaxion (n : Now) (NG S V : Nat) (order : List Nat) (h : Mem) : Option Mem := do
  let ad ← n.adiab
  let h ← order.foldlM (paxSite n.sq1 n.sq2 ad (NG * S)) h
  memmove (fun i => (.v, NG * S + i)) (fun i => (.v, i)) V h

/-- One site, theta2NaxionXeon.cpp:36-37. -/
noncomputable def naxSite (s : ℝ) (b : Nat) (h : Mem) (i : Nat) : Option Mem := do
  let x ← h (.m, b + i)
  let h ← h.write (.m2, 2 * i) (x * s)
  let y ← h (.v, i)
  let y ← quot (-y) s
  h.write (.m2, 2 * i + 1) y

/-- `th2NaxionXeon`, theta2NaxionXeon.cpp:7-66.  The destination of the copy is the array `m` as
complex numbers, which runs on into the velocities; `w` is where number `k` of `m` lies. -/
noncomputable def thNaxion (n : Now) (w : Nat → Arr × Nat) (NG S V : Nat) (order : List Nat) (h : Mem) :
    Option Mem := do
  let h ← order.foldlM (naxSite (Real.sqrt (n.mA * n.R)) (NG * S)) h
  memcpy (fun i => w (2 * S * NG + i)) (fun i => (.m2, i)) (2 * V) h

/-! ### Kernel of the Naxion -/

/-- `ood2`, propNaxXeon.h:46. -/
noncomputable def ood2 (dz d ood2a mA R : ℝ) : Option ℝ := quot (dz * d * ood2a) (2.0 * mA * R)

/-- `KKt`, propNaxXeon.h:73-74. -/
noncomputable def kkt (ct beta R frw dz d : ℝ) : Option ℝ :=
  let u := 2 * frw - 1.0
  quot (ct * beta * ((ct + dz * d) ^ u - ct ^ u)) (4.0 * R * R * u * (ct + dz * d) ^ u)

/-- One site, propNaxXeon.h:212-268 (single precision 430-495): `mPx = mel + i lap`, then `m2 = mPx
cos + i mPx sin` of `KKt |mPx|²`.  The array `v` is passed and not used; the model writes back what
is there. -/
noncomputable def naxLaw (k : ℝ) (lap mel vel : ℂ) : ℂ × ℂ :=
  let p : ℂ := ⟨mel.re + -lap.im, mel.im + lap.re⟩
  let n := p.re * p.re + p.im * p.im
  (⟨-(p.im * Real.sin (k * n)) + p.re * Real.cos (k * n),
    p.re * Real.sin (k * n) + p.im * Real.cos (k * n)⟩, vel)

/-- A stage of `nRunCpu`, propClass.h:1028-1053, as a substep from one array to the other. -/
noncomputable def naxSub (PC : List ℝ) (o k : ℝ) : Run.Sub ℂ := saxionSub PC o (naxLaw k)

end Jaxions.Nonrel
