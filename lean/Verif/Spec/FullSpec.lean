import Verif.Spec.SpecLap
import Verif.Model.FullSpec
import Mathlib.MeasureTheory.Integral.IntervalIntegral.Basic
/-
Specification for C83: the wave equation on a periodic lattice, and stages that alternate a kick with
its exact solution.
-/
namespace Jaxions.FullSpec

open Gravity

/-- In the time `σ` the field and velocity `s` turn into `s'` under `ü = lap u + q(t)`. -/
def Wave {X K : Type} [NormedAddCommGroup K] [NormedSpace ℝ K] (lap : (X → K) → X → K) (q : ℝ → K)
    (σ : ℝ) (s s' : (X → K) × (X → K)) : Prop :=
  ∃ U W : ℝ → X → K,
    (∀ t x, HasDerivAt (fun t => U t x) (W t x) t) ∧
    (∀ t x, HasDerivAt (fun t => W t x) (lap (U t) x + q t) t) ∧
    (U 0, W 0) = s ∧ (U σ, W σ) = s'

/-- A change of the velocity by the acceleration `a` for a time `τ`. -/
def kick {X K : Type} [Add K] [SMul ℝ K] (a : (X → K) → X → K) (τ : ℝ) (s : (X → K) × (X → K)) :
    (X → K) × (X → K) := (s.1, fun x => s.2 x + τ • a s.1 x)

/-- Laplacian of the trigonometric interpolation of a real field in a box of length `ℓ`. -/
noncomputable def lapR {L T : ℕ} [NeZero L] [NeZero T] (ℓ : ℝ) (φ : Torus L T → ℝ) (x : Torus L T) : ℝ :=
  (lapS (2 * Real.pi / ℓ) (fun y => (φ y : ℂ)) x).re

/-- Several steps, one after the other. -/
def Steps {P S : Type} (step : P → S → S → Prop) : List P → S → S → Prop
  | [], s, s' => s = s'
  | p :: ps, s, s' => ∃ t, step p s t ∧ Steps step ps t s'

/-- The arrays of an Axion on all ranks hold the field `s.1`, after `Ng` ghost slices, and the velocity
`s.2`; each array has `Q` numbers. -/
structure Shows (g : Gravity.Geo) (Ng Q : ℕ) (s : (Torus g.Lx g.Tz → ℝ) × (Torus g.Lx g.Tz → ℝ))
    (w : ℕ → WKB.Mem) : Prop where
  m : ∀ r i, r < g.n → i < g.vol →
    (w r).m (g.Lx * g.Lx * Ng + i) = some (s.1 (siteOf g (r * g.vol + i)))
  v : ∀ r i, r < g.n → i < g.vol → (w r).v i = some (s.2 (siteOf g (r * g.vol + i)))
  room : ∀ r a, r < g.n → a < Q → ((w r).m a).isSome ∧ ((w r).v a).isSome ∧ ((w r).m2 a).isSome

/-- The threads run every iteration of every loop once. -/
structure Orders.Ok (g : Gravity.Geo) (step : ℕ) (o : Orders) : Prop where
  acc : o.acc.Perm (lanes (g.lines * (g.Lx + 2)) (2 * step))
  modes : o.modes.Perm (lanes g.modes step)

/-- The library as the code wants it: the transforms are right, and a transform to rows keeps the
modes. -/
structure Lib.Keeps (g : Gravity.Geo) [NeZero g.Lx] [NeZero g.Tz] (L : Lib) : Prop where
  plan : L.plan.Exact g
  left : ∀ r h, L.left r h = h

/-- A stage for an Axion: a kick with the force of the cosine potential and the expansion, then free
waves. -/
def AxionStage {L T : ℕ} [NeZero L] [NeZero T] (p : Par) (s s' : (Torus L T → ℝ) × (Torus L T → ℝ)) :
    Prop :=
  Wave (lapR p.ℓ) (fun _ => (0 : ℝ)) (p.dz * p.d)
    (kick (fun φ x => p.Rpp * φ x - p.mA2 * p.R ^ 3 * Real.sin (φ x / p.R)) (p.dz * p.c) s) s'

/-! ### Saxion -/

/-- The arrays of a Saxion on all ranks hold the field `s.1`, after a ghost slice, and the velocity
`s.2`; each array has `Q` complex numbers. -/
structure CShows (g : Gravity.Geo) (Q : ℕ) (s : (Torus g.Lx g.Tz → ℂ) × (Torus g.Lx g.Tz → ℂ))
    (w : ℕ → CMem) : Prop where
  m : ∀ r i, r < g.n → i < g.vol →
    (w r).m (g.Lx * g.Lx + i) = some (s.1 (siteOf g (r * g.vol + i)))
  v : ∀ r i, r < g.n → i < g.vol → (w r).v i = some (s.2 (siteOf g (r * g.vol + i)))
  room : ∀ r a, r < g.n → a < Q → ((w r).m a).isSome ∧ ((w r).v a).isSome ∧ ((w r).m2 a).isSome

/-- The threads run every iteration of every loop once. -/
structure SIn.Ok (g : Gravity.Geo) (step : ℕ) (s : SIn) : Prop where
  acc : ∀ r < g.n, (s.acc r).Perm (lanes g.vol step)
  modes : ∀ r < g.n, (s.modes r).Perm (sLanes g step)

/-- The stage gets the integrals of `q` over its drift: the first and the repeated one. -/
structure SIn.Driven (q : ℝ → ℝ) (s : SIn) : Prop where
  cont : Continuous q
  one : s.I1 = ∫ t in (0 : ℝ)..s.par.dz * s.par.d, q t
  two : s.I2 = ∫ t in (0 : ℝ)..s.par.dz * s.par.d, ∫ y in (0 : ℝ)..t, q y

/-- A stage for a Saxion: a kick with the force of the PQ potential, then waves with the uniform force
`q` on the real part. -/
def SaxionStage {L T : ℕ} [NeZero L] [NeZero T] (p : Par × (ℝ → ℝ))
    (s s' : (Torus L T → ℂ) × (Torus L T → ℂ)) : Prop :=
  Wave (lapS (2 * Real.pi / p.1.ℓ)) (fun t => (p.2 t : ℂ)) (p.1.dz * p.1.d)
    (kick (fun φ x => (p.1.LL * (p.1.R ^ 2 - ‖φ x‖ ^ 2)) • φ x) (p.1.dz * p.1.c) s) s'

end Jaxions.FullSpec
