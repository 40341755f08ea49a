import Verif.Spec.Run
import Verif.Spec.ThetaKernel
import Verif.Model.ThetaKernel
import Mathlib.Analysis.SpecialFunctions.Trigonometric.Basic

/-!
Specification for C88: what a run of the axion field keeps.
-/

namespace Jaxions.AxionRun

open Run ThetaKernel

/-- What a substep is called with. -/
abbrev Call := Pot × Simd.Prec × Bool × ThetaKernel.Par ℝ

/-- Sum of the velocities over the lattice. -/
noncomputable def momentum (Lx N : ℕ) (F : Lat ℝ) : ℝ :=
  ∑ x ∈ Finset.range Lx, ∑ y ∈ Finset.range Lx, ∑ z ∈ Finset.range N, F.ν x y z

/-- Sum of the field over the lattice. -/
noncomputable def amount (Lx N : ℕ) (F : Lat ℝ) : ℝ :=
  ∑ x ∈ Finset.range Lx, ∑ y ∈ Finset.range Lx, ∑ z ∈ Finset.range N, F.φ x y z

/-- Theta to minus theta. -/
def minus (F : Lat ℝ) : Lat ℝ := ⟨fun x y z => -F.φ x y z, fun x y z => -F.ν x y z⟩

/-- A linear combination. -/
def combine (a b : ℝ) (F G : Lat ℝ) : Lat ℝ :=
  ⟨fun x y z => a * F.φ x y z + b * G.φ x y z, fun x y z => a * F.ν x y z + b * G.ν x y z⟩

/-- A shape `ψ` with amplitude and rate. -/
def shaped (ψ : ℤ → ℤ → ℤ → ℝ) (s : ℝ × ℝ) : Lat ℝ :=
  ⟨fun x y z => s.1 * ψ x y z, fun x y z => s.2 * ψ x y z⟩

/-- The squared mass in units of the rescaled field: none, or that of the quadratic potential. -/
noncomputable def mass2 (q : Call) : ℝ := if q.1 = .qcd0 then 0 else q.2.2.2.mA2 * q.2.2.2.R ^ 2

/-- Options with a linear equation: plain differences and no potential or the quadratic one. -/
def Linear (q : Call) : Prop :=
  q.2.2.1 = false ∧ (q.1 = .qcd0 ∨ (q.1 = .qcdL ∧ q.2.1 = .double ∧ q.2.2.2.R ≠ 0))

/-- Kick and drift of an oscillator of squared wave number `l`. -/
noncomputable def swing (l : ℝ) (s : ℝ × ℝ) (q : Call) : ℝ × ℝ :=
  let b := s.2 + q.2.2.2.dz * q.2.2.2.c * ((q.2.2.2.Rpp - mass2 q - l * q.2.2.2.ood2) * s.1)
  (s.1 + q.2.2.2.dz * q.2.2.2.d * b, b)

/-- The squared wave number of the difference operator for wave vector `k`, in units of the lattice
spacing. -/
noncomputable def symbol (w : ℕ → ℝ) (NN : ℕ) (k : ℝ × ℝ × ℝ) : ℝ :=
  ∑ j ∈ Finset.range NN, w j * ((2 - 2 * Real.cos ((j + 1) * k.1)) + (2 - 2 * Real.cos ((j + 1) * k.2.1)) +
    (2 - 2 * Real.cos ((j + 1) * k.2.2)))

/-- A plane wave. -/
noncomputable def wave (k : ℝ × ℝ × ℝ) (δ : ℝ) (x y z : ℤ) : ℝ :=
  Real.cos (k.1 * x + k.2.1 * y + k.2.2 * z + δ)

end Jaxions.AxionRun
