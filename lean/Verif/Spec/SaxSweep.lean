import Verif.Spec.SaxKernel
import Verif.Spec.Run
import Verif.Model.SaxSweep
import Mathlib.Analysis.Calculus.Deriv.Basic

/-!
The equation of motion of the saxion field on one periodic lattice, in kicks and drifts.
-/

namespace Jaxions.SaxRun

open SaxKernel Run Stencil

/-- The gradient of a potential. -/
noncomputable def grad (U : ℝ → ℝ → ℝ) (z : C) : C :=
  (deriv (fun t => U t z.2) z.1, deriv (fun t => U z.1 t) z.2)

/-- The potential in the equation of the rescaled field. -/
noncomputable def potential (c : Opt) (x y : ℝ) : ℝ :=
  comoving (Vpq c.q.LL c.pot.pq) c.q.R x y + comoving (Vqcd c.q.mA2 c.pot.qcd) c.q.R x y

/-- Half the friction of a step. -/
noncomputable def friction (c : Opt) : ℝ :=
  if c.pot.damp = .all then
    (if 0 < c.q.deti then c.q.gamma * c.q.R / c.q.deti else c.q.gamma / c.q.R) *
      (c.q.dz * c.q.c) / 2
  else 0

/-- Kick and drift of a site: from its Laplacian, field and velocity the new field and velocity. -/
noncomputable def eqLaw (c : Opt) (L m v : C) : C × C :=
  let a := L + c.q.Rpp • m - grad (potential c) m
  let v' := ((1 - friction c) / (1 + friction c)) • v + (c.q.dz * c.q.c / (1 + friction c)) • a
  (m + (c.q.dz * c.q.d) • v', v')

/-- The rule of a substep. -/
noncomputable def eqRule (NN : ℕ) (w : ℕ → ℝ) (ood2 : ℝ) (c : Opt) : Rule C where
  lap := laplacian (fun k => w k * ood2) NN
  law := eqLaw c

/-- Options covered: the whole field evolves, no damping or damping of all of it, and a QCD potential
whose force is right in this precision and has no singularity at the core of a string. -/
structure Covered (p : Simd.Prec) (c : Opt) : Prop where
  R : 0 < c.q.R
  theta : c.pot.evolTheta = false
  rho : c.pot.evolRho = false
  damp : c.pot.damp ≠ .rho
  qcd : c.pot.qcd = .qcd0 ∨ c.pot.qcd = .qcd1 ∨ (p = .single ∧ c.pot.qcd = .qcd2)

/-- The angular momentum of the lattice in the plane of the field, its Peccei-Quinn charge. -/
noncomputable def charge (Lx N : ℕ) (F : Lat C) : ℝ :=
  ∑ x ∈ Finset.range Lx, ∑ y ∈ Finset.range Lx, ∑ z ∈ Finset.range N,
    ((F.φ x y z).1 * (F.ν x y z).2 - (F.φ x y z).2 * (F.ν x y z).1)

/-- Multiplication of field and velocity of every site by a complex number. -/
def rotate (u : C) (F : Lat C) : Lat C where
  φ := fun x y z => (u.1 * (F.φ x y z).1 - u.2 * (F.φ x y z).2, u.2 * (F.φ x y z).1 + u.1 * (F.φ x y z).2)
  ν := fun x y z => (u.1 * (F.ν x y z).1 - u.2 * (F.ν x y z).2, u.2 * (F.ν x y z).1 + u.1 * (F.ν x y z).2)

/-- Complex conjugate of field and velocity of every site. -/
def conj (F : Lat C) : Lat C where
  φ := fun x y z => ((F.φ x y z).1, -(F.φ x y z).2)
  ν := fun x y z => ((F.ν x y z).1, -(F.ν x y z).2)

end Jaxions.SaxRun
