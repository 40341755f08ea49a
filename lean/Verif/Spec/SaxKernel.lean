import Verif.Model.SaxKernel
import Mathlib.Analysis.Real.Sqrt
import Mathlib.Analysis.Calculus.Deriv.Basic
/-
What the kick of the complex field should do at one site, in polar terms and in terms of
potentials.  Nothing here refers to registers except `re` and `im`, which pick a site.
-/
namespace Jaxions.SaxKernel
open Jaxions.Simd

variable {K : Type _}

/-- Real and imaginary part of site `s` of a register. -/
def re {p : Prec} {i : Isa} (a : Vec (W p i) K) (s : Fin (sites .saxion p i)) : K :=
  a ⟨2 * s, by have := s.2; unfold W; omega⟩
def im {p : Prec} {i : Isa} (a : Vec (W p i) K) (s : Fin (sites .saxion p i)) : K :=
  a ⟨2 * s + 1, by have := s.2; unfold W; omega⟩

/-- Site `s` as a point of the plane. -/
def at' {p : Prec} {i : Isa} (a : Vec (W p i) K) (s : Fin (sites .saxion p i)) : K × K :=
  (re a s, im a s)

variable [Field K] [LinearOrder K]

/-- Scalar product with the field: |m| times the radial part of `v`. -/
def radial (m v : K × K) : K := m.1 * v.1 + m.2 * v.2
/-- Vector product with the field: |m| times the angular part of `v`. -/
def angular (m v : K × K) : K := m.1 * v.2 - m.2 * v.1

/-- Half the damping per step: gamma/R, or gamma R/t with a decay time t, times half the step. -/
def half (q : Par K) : K :=
  (if 0 < q.deti then q.gamma * q.R / q.deti else q.gamma / q.R) * (q.dz * q.c) / 2

/-- The radial part of the new velocity as it should be.  The radial velocity is damped relative to
the one of a field at rest in physical units, |m|^2 R'/R. -/
def newRadial (q : Par K) (pot : Pot) (m a v : K × K) : K :=
  let r2 := radial m m
  let ar := if pot.evolTheta then r2 * q.Rpp else radial m a
  let vr := if pot.evolTheta then r2 * q.Rp else radial m v
  match pot.damp with
  | .none => vr + q.dz * q.c * ar
  | .rho => r2 * q.Rp + (1 - half q) / (1 + half q) * (vr - r2 * q.Rp)
      + q.dz * q.c / (1 + half q) * ar
  | .all => (1 - half q) / (1 + half q) * vr + q.dz * q.c / (1 + half q) * ar

/-- The angular part of the new velocity as it should be. -/
def newAngular (q : Par K) (pot : Pot) (m a v : K × K) : K :=
  if pot.evolRho then 0 else
  match pot.damp with
  | .all => (1 - half q) / (1 + half q) * angular m v + q.dz * q.c / (1 + half q) * angular m a
  | _ => angular m v + q.dz * q.c * angular m a

/-- Which sites of a vector get the right exchange of real and imaginary part in the damping and in
the projection on the radius: all in single precision and with SSE, the first site of every vector;
with doubles and AVX the others only without radial damping, and with AVX-512 sites 2 and 3 only
without projection on the radius. -/
def SiteOk (p : Prec) (i : Isa) (pot : Pot) (s : Nat) : Prop :=
  p = .single ∨ i = .sse ∨ s = 0 ∨
    (pot.damp ≠ .rho ∧ (pot.evolRho = true → i = .avx512 → s < 2))

instance (p : Prec) (i : Isa) (pot : Pot) (s : Nat) : Decidable (SiteOk p i pot s) := by
  unfold SiteOk; infer_instance

/-! ### Potentials

In units of the decay constant, as functions of the physical field (enum-field.h:108-118). -/

/-- The symmetry breaking potentials with coupling `l`. -/
noncomputable def Vpq (l : ℝ) : Pq → ℝ → ℝ → ℝ
  | .pq1, x, y => l / 4 * (x ^ 2 + y ^ 2 - 1) ^ 2
  | .pq2, x, y => l / 4 * ((x ^ 2 + y ^ 2) ^ 2 - 1) ^ 2
  | .pq3, x, y =>
    if x ^ 2 + y ^ 2 < 1 then l / 4 * (x ^ 2 + y ^ 2 - 1) ^ 2
    else l * (Real.sqrt (x ^ 2 + y ^ 2) - 1) ^ 2

/-- The QCD potentials with susceptibility `chi`.  `V_QCD2` has two minima and is normalised so that
the mass at the minimum is the same as for the others.  `V_QCDL` is meant to be quadratic in the
angle and is not written here, the kernels do not have it. -/
noncomputable def Vqcd (chi : ℝ) : Qcd → ℝ → ℝ → ℝ
  | .qcd0, _, _ => 0
  | .qcd1, x, _ => chi * (1 - x)
  | .qcdV, x, y => chi / 2 * ((1 - x) ^ 2 + y ^ 2)
  | .qcd2, x, y => chi / 4 * (1 - x ^ 2 + y ^ 2)
  | .qcdC, x, y => chi * (1 - x / Real.sqrt (x ^ 2 + y ^ 2))
  | .qcdL, _, _ => 0

/-- The potential in the equation of the rescaled field m = R phi: R^4 V(m / R). -/
noncomputable def comoving (V : ℝ → ℝ → ℝ) (R x y : ℝ) : ℝ := R ^ 4 * V (x / R) (y / R)

/-- `(fx, fy)` is minus the gradient of `U` at `(x, y)`. -/
def IsForce (U : ℝ → ℝ → ℝ) (x y fx fy : ℝ) : Prop :=
  HasDerivAt (fun t => U t y) (-fx) x ∧ HasDerivAt (fun t => U x t) (-fy) y

end Jaxions.SaxKernel
