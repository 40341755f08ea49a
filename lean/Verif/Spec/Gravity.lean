import Mathlib.Analysis.SpecialFunctions.Complex.CircleAddChar
import Mathlib.Data.Fintype.Prod
import Verif.Model.Gravity
/-
Specification for C60: the Poisson equation on a periodic lattice.
-/
namespace Jaxions.Gravity

open Finset

/-- Sites, and wave vectors, of a lattice of `L × L × T` sites. -/
abbrev Torus (L T : ℕ) := ZMod L × ZMod L × ZMod T

variable {L T : ℕ} [NeZero L] [NeZero T]

/-- Plane wave `exp(2πi (k₁x₁/L + k₂x₂/L + k₃x₃/T))`. -/
noncomputable def wave (k x : Torus L T) : ℂ :=
  ZMod.stdAddChar (k.1 * x.1) * ZMod.stdAddChar (k.2.1 * x.2.1) * ZMod.stdAddChar (k.2.2 * x.2.2)

/-- Fourier amplitude `Σ_x f(x) exp(-2πi k·x)`. -/
noncomputable def dft (f : Torus L T → ℂ) (k : Torus L T) : ℂ := ∑ x, f x * wave (-k) x

/-- Superposition of plane waves with the given amplitudes. -/
noncomputable def synth (H : Torus L T → ℂ) (x : Torus L T) : ℂ := ∑ k, H k * wave k x

/-- Wave number between `-N/2` and `N/2` of a mode. -/
def signed {N : ℕ} (k : ZMod N) : ℤ := if k.val ≤ N / 2 then k.val else k.val - N

/-- Square of the wave vector in units of `k₀ = 2π/length`. -/
def ksq (k : Torus L T) : ℤ := signed k.1 ^ 2 + signed k.2.1 ^ 2 + signed k.2.2 ^ 2

/-- Laplacian of the trigonometric interpolation: the wave `k` is multiplied by `-k₀² k²`. -/
noncomputable def lapS (k₀ : ℝ) (f : Torus L T → ℂ) (x : Torus L T) : ℂ :=
  (1 / (L * L * T : ℂ)) * ∑ k, -(k₀ ^ 2 * ksq k) * dft f k * wave k x

/-- The same with `c` the ratio of the lengths of the box along `x` and along `z`. -/
noncomputable def lapBox (k₀ c : ℝ) (f : Torus L T → ℂ) (x : Torus L T) : ℂ :=
  (1 / (L * L * T : ℂ)) * ∑ k : Torus L T,
    -(k₀ ^ 2 * ((signed k.1 ^ 2 + signed k.2.1 ^ 2 : ℤ) + c ^ 2 * (signed k.2.2 ^ 2 : ℤ)) : ℂ) *
      dft f k * wave k x

/-- `Φ` is the potential of the density `ρ`: `∇²Φ = ρ - ⟨ρ⟩` with zero mean. -/
structure Poisson (k₀ : ℝ) (ρ Φ : Torus L T → ℝ) : Prop where
  eq : ∀ x, lapS k₀ (fun y => (Φ y : ℂ)) x = ρ x - (∑ y, ρ y) / (L * L * T)
  mean : ∑ x, Φ x = 0

/-! ### The transform library -/

/-- Site of number `i` in the numbers of all ranks, one after the other: `x` runs fastest. -/
def siteOf (g : Geo) (i : ℕ) : Torus g.Lx g.Tz :=
  ((i % g.Lx : ℕ), (i / g.Lx % g.Lx : ℕ), (i / (g.Lx * g.Lx) : ℕ))

/-- Mode number `i` of rank `r`: `k_x` runs fastest and only up to `Lx/2`, then `k_z`, then `k_y`,
which is divided over the ranks. -/
def modeOf (g : Geo) (r i : ℕ) : Torus g.Lx g.Tz :=
  ((i % g.hLx : ℕ), (r * (g.Lx / g.n) + i / g.hLx / g.Tz : ℕ), (i / g.hLx % g.Tz : ℕ))

/-- What the library promises: forward the amplitudes of the real field, backward the field of a
Hermitian spectrum, both without normalisation. -/
structure Plan.Exact (g : Geo) [NeZero g.Lx] [NeZero g.Tz] (P : Plan) : Prop where
  fwd : ∀ (ρ : Torus g.Lx g.Tz → ℝ) (r i : ℕ), r < g.n → i < g.modes →
    P.fwd ((List.range (g.n * g.vol)).map fun j => ρ (siteOf g j)) r i =
      some (dft (fun x => (ρ x : ℂ)) (modeOf g r i))
  bck : ∀ (A : ℕ → ℕ → Option ℂ) (H : Torus g.Lx g.Tz → ℂ),
    (∀ k, H (-k) = starRingEnd ℂ (H k)) →
    (∀ r i, r < g.n → i < g.modes → A r i = some (H (modeOf g r i))) →
    ∃ Φ, P.bck A = some Φ ∧ ∀ i, i < g.n * g.vol → (Φ i : ℂ) = synth H (siteOf g i)

end Jaxions.Gravity
