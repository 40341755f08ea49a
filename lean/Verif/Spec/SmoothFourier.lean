import Verif.Model.SmoothFourier
import Verif.Spec.Gravity
/-
Specification for C85: smoothing of a density on a periodic lattice.
-/
namespace Jaxions.SmoothF

open Finset Gravity WKB

/-- Transform of the averaging kernels of unit length, as a function of `q = |k| R`: a Gaussian of
width `R`, a ball of radius `R`, all waves up to `|k| = 1/R`. -/
noncomputable def window (f : Filter) (q : ℝ) : ℝ :=
  match f with
  | .gauss => Real.exp (-(q ^ 2 / 2))
  | .tophat => if q = 0 then 1 else 3 * (Real.sin q - q * Real.cos q) / q ^ 3
  | .sharpk => if 1 < q then 0 else 1

section
variable {L T : ℕ} [NeZero L] [NeZero T]

/-- The density smoothed over `R`: every wave is multiplied by the window. -/
noncomputable def smoothed (k0 : ℝ) (f : Filter) (R : ℝ) (ρ : Torus L T → ℝ) (x : Torus L T) : ℝ :=
  ((1 / (L * L * T : ℂ)) * ∑ k : Torus L T, (window f (k0 * Real.sqrt (ksq k) * R) : ℂ) *
    dft (fun y => (ρ y : ℂ)) k * wave k x).re

end

variable {g : Geo} [NeZero g.Lx] [NeZero g.Tz]

/-- The array at `o` holds the transform of `ρ`. -/
def Modes (g : Geo) [NeZero g.Lx] [NeZero g.Tz] (o : ℕ) (ρ : Torus g.Lx g.Tz → ℝ)
    (w : ℕ → Heap ℕ ℝ) : Prop :=
  ∀ r i, r < g.n → i < g.modes → load (w r) o i = some (dft (fun x => (ρ x : ℂ)) (modeOf g r i))

/-- The array at `o` holds `ρ`, without padding. -/
def Bare (g : Geo) (o : ℕ) (ρ : Torus g.Lx g.Tz → ℝ) (w : ℕ → Heap ℕ ℝ) : Prop :=
  ∀ r i, r < g.n → i < g.vol → w r (o + i) = some (ρ (siteOf g (r * g.vol + i)))

/-- `m2` holds `ρ`, in padded rows. -/
def Rows (g : Geo) (ρ : Torus g.Lx g.Tz → ℝ) (w : ℕ → Heap ℕ ℝ) : Prop :=
  ∀ r i, r < g.n → i < g.vol → w r (rowIx g.Lx i) = some (ρ (siteOf g (r * g.vol + i)))

/-- The places where the function finds the density `ρ`, and what the status says about them. -/
inductive Available (g : Geo) [NeZero g.Lx] [NeZero g.Tz] (Ng : ℕ) (ρ : Torus g.Lx g.Tz → ℝ) (s : State) : Prop
  | both : s.st = .fft → s.sth = .fft → Modes g 0 ρ s.m2 → Modes g (v3 g Ng) ρ s.m2 → Available g Ng ρ s
  | m2 : s.st = .fft → s.sth ≠ .fft → Modes g 0 ρ s.m2 → Available g Ng ρ s
  | half : s.st ≠ .fft → s.sth = .fft → Modes g (v3 g Ng) ρ s.m2 → Available g Ng ρ s
  | energy : s.st = .energy → s.sth ≠ .fft → Bare g 0 ρ s.m2 → Available g Ng ρ s
  | energyHalf : s.st ≠ .fft → s.st ≠ .energy → s.sth = .energy → Bare g (v3 g Ng) ρ s.m2 → Available g Ng ρ s

/-- Both arrays are allocated. -/
def Allocated (g : Geo) (Ng : ℕ) (w : ℕ → Heap ℕ ℝ) : Prop :=
  ∀ r, r < g.n → ∀ a, a < v3 g Ng + total g → (w r a).isSome

/-- Every line and every mode of a rank once, in any order. -/
structure Orders.Ok (g : Geo) (o : Orders) : Prop where
  lines : ∀ r, r < g.n → (o.lines r).Perm (List.range g.lines)
  modes : ∀ r, r < g.n → (o.modes r).Perm (List.range g.modes)

/-- What may happen between two calls: `m2` is used for something else, but not for a transform, and
`m2half` is left alone. -/
structure Kept (g : Geo) (Ng : ℕ) (s s' : State) : Prop where
  half : ∀ r, r < g.n → ∀ a, v3 g Ng ≤ a → s'.m2 r a = s.m2 r a
  alloc : Allocated g Ng s'.m2
  st : s'.st ≠ .fft
  sth : s'.sth = s.sth

end Jaxions.SmoothF
