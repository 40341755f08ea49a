import Verif.Model.ToTheta
import Mathlib.Analysis.SpecialFunctions.Complex.Arg
import Mathlib.Analysis.SpecialFunctions.Trigonometric.Basic

/-!
What the memory of a field means (C54).  `S` sites in a slice, `Lz` slices, `Ng` ghost slices
before the first site.
-/

namespace Jaxions.ToTheta

/-- The blocks are allocated at the size of a complex field. -/
def Alloc {K : Type} (g : Geo) (h : Mem K) : Prop :=
  (∀ k < 2 * g.v3, (h (.m, k)).isSome) ∧ (∀ k < 2 * g.V, (h (.v, k)).isSome)

/-- The memory holds the complex field `φ` with velocity `w`: two numbers for a site. -/
def Saxion (g : Geo) (h : Mem ℝ) (φ w : ℕ → ℂ) : Prop :=
  ∀ i < g.S * g.Lz,
    h (.m, 2 * (g.S * g.Ng + i)) = some (φ i).re ∧
    h (.m, 2 * (g.S * g.Ng + i) + 1) = some (φ i).im ∧
    h (.v, 2 * i) = some (w i).re ∧ h (.v, 2 * i + 1) = some (w i).im

/-- The memory holds the real field `c` with velocity `w`: one number for a site. -/
def Axion (g : Geo) (h : Mem ℝ) (c w : ℕ → ℝ) : Prop :=
  ∀ i < g.S * g.Lz, h (.m, g.S * g.Ng + i) = some (c i) ∧ h (.v, i) = some (w i)

/-- `std::arg`. -/
noncomputable def arg2 (x y : ℝ) : ℝ := Complex.arg ⟨x, y⟩

end Jaxions.ToTheta
