import Verif.Spec.Gravity
import Verif.Model.SpecLap
import Mathlib.Analysis.Calculus.IteratedDeriv.Defs
/-
Specification for C82: fields on a periodic box that a lattice resolves, and their Laplacian.
-/
namespace Jaxions.SpecLap

open Gravity

/-- `∂²f/∂x² + ∂²f/∂y² + ∂²f/∂z²`. -/
noncomputable def laplacian {E : Type} [NormedAddCommGroup E] [NormedSpace ℝ E]
    (f : ℝ → ℝ → ℝ → E) (x y z : ℝ) : E :=
  iteratedDeriv 2 (fun t => f t y z) x + iteratedDeriv 2 (fun t => f x t z) y +
    iteratedDeriv 2 (fun t => f x y t) z

/-- The same with a factor `q` on the derivative along `z`. -/
noncomputable def laplacianZ {E : Type} [NormedAddCommGroup E] [NormedSpace ℝ E] (q : ℝ)
    (f : ℝ → ℝ → ℝ → E) (x y z : ℝ) : E :=
  iteratedDeriv 2 (fun t => f t y z) x + iteratedDeriv 2 (fun t => f x t z) y +
    q • iteratedDeriv 2 (fun t => f x y t) z

/-- The plane wave with `n` periods in a box of sides `ℓ`, `ℓ`, `h`. -/
noncomputable def ripple (ℓ h : ℝ) (n : ℤ × ℤ × ℤ) (x y z : ℝ) : ℂ :=
  Complex.exp (2 * Real.pi * Complex.I * ((n.1 * x / ℓ + n.2.1 * y / ℓ + n.2.2 * z / h : ℝ) : ℂ))

/-- A lattice of `L × L × T` sites resolves `f`: it is a sum of finitely many plane waves, with at
least two sites in a wavelength. -/
def Resolved (L T : ℕ) (ℓ h : ℝ) (f : ℝ → ℝ → ℝ → ℂ) : Prop :=
  ∃ (A : Finset (ℤ × ℤ × ℤ)) (c : ℤ × ℤ × ℤ → ℂ),
    (∀ n ∈ A, 2 * |n.1| ≤ L ∧ 2 * |n.2.1| ≤ L ∧ 2 * |n.2.2| ≤ T) ∧
    ∀ x y z, f x y z = ∑ n ∈ A, c n * ripple ℓ h n x y z

/-- The values of `f` on a lattice with spacing `δ`. -/
def sample {E : Type} (L T : ℕ) (δ : ℝ) (f : ℝ → ℝ → ℝ → E) (x : Torus L T) : E :=
  f (x.1.val * δ) (x.2.1.val * δ) (x.2.2.val * δ)

/-- Mode number `i` of rank `r` of a complex transform: `k_x` runs fastest, then `k_z`, then `k_y`,
which is divided over the ranks. -/
def modeFull (g : Gravity.Geo) (r i : ℕ) : Torus g.Lx g.Tz :=
  ((i % g.Lx : ℕ), (r * (g.Lx / g.n) + i / g.Lx / g.Tz : ℕ), (i / g.Lx % g.Tz : ℕ))

/-- What the library promises for complex fields. -/
structure CPlan.Exact (g : Gravity.Geo) [NeZero g.Lx] [NeZero g.Tz] (P : CPlan) : Prop where
  fwd : ∀ (f : Torus g.Lx g.Tz → ℂ) (r i : ℕ), r < g.n → i < g.vol →
    P.fwd ((List.range (g.n * g.vol)).map fun j => f (siteOf g j)) r i = dft f (modeFull g r i)
  bck : ∀ (A : ℕ → ℕ → Option ℂ) (H : Torus g.Lx g.Tz → ℂ),
    (∀ r i, r < g.n → i < g.vol → A r i = some (H (modeFull g r i))) →
    ∃ F, P.bck A = some F ∧ ∀ i, i < g.n * g.vol → F i = synth H (siteOf g i)

/-- The arrays of all ranks hold the field `s.1`, after one ghost slice, and the velocity `s.2`; there
are `N` numbers in `m2`. -/
structure Shows {K : Type} (g : Gravity.Geo) (N : ℕ)
    (s : (Torus g.Lx g.Tz → K) × (Torus g.Lx g.Tz → K)) (w : ℕ → Heap Loc K) : Prop where
  m : ∀ r i, r < g.n → i < g.vol → w r ⟨.m, g.Lx * g.Lx + i⟩ = some (s.1 (siteOf g (r * g.vol + i)))
  v : ∀ r i, r < g.n → i < g.vol → w r ⟨.v, i⟩ = some (s.2 (siteOf g (r * g.vol + i)))
  m2 : ∀ r i, r < g.n → i < N → (w r ⟨.m2, i⟩).isSome

/-- A kick with acceleration `a` for a time `τ`, followed by a drift for a time `σ`. -/
def kickDrift {X K : Type} [Add K] [SMul ℝ K] (a : (X → K) → X → K) (τ σ : ℝ) (s : (X → K) × (X → K)) :
    (X → K) × (X → K) :=
  (fun x => s.1 x + σ • (s.2 x + τ • a s.1 x), fun x => s.2 x + τ • a s.1 x)

/-- The acceleration of the comoving angle without expansion term: Laplacian minus the force of the
cosine potential. -/
noncomputable def axionAcc {L T : ℕ} [NeZero L] [NeZero T] (ℓ R mA2 : ℝ) (φ : Torus L T → ℝ)
    (x : Torus L T) : ℝ :=
  (lapS (2 * Real.pi / ℓ) (fun y => (φ y : ℂ)) x).re - mA2 * R ^ 3 * Real.sin (φ x / R)

/-- The threads run every iteration of every loop once. -/
structure Orders.Ok (g : Gravity.Geo) (half : Bool) (step : ℕ) (o : Orders) : Prop where
  rows : o.rows.Perm (List.range g.lines)
  modes : o.modes.Perm (iterations g half)
  lanes : o.lanes.Perm (Spectral.lanes (g.Lx * g.Lx) (g.vol + g.Lx * g.Lx) step)

end Jaxions.SpecLap
