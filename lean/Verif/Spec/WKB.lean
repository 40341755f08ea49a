import Verif.Model.Cosmos
import Mathlib.Analysis.SpecialFunctions.Sqrt
import Mathlib.MeasureTheory.Integral.IntervalIntegral.Basic
/-
Specification for C61: modes of a free field whose mass grows with a power of the time and then
stays constant.
-/
namespace Jaxions.WKB

open Cosmo

/-- Mass at time `z`: it grows as `z^(n/2)` until `zThRes`. -/
noncomputable def lawMass (c : Cosmos) (z : ℝ) : ℝ := c.indi3 * min z c.zThRes ^ (c.nQcd / 2)

/-- Mass in conformal units. -/
noncomputable def conf (c : Cosmos) (z : ℝ) : ℝ := z * lawMass c z

/-- Frequency of a mode. -/
noncomputable def freq (c : Cosmos) (k z : ℝ) : ℝ := √(k ^ 2 + conf c z ^ 2)

/-- Phase by which the mode oscillates from `z₁` to `z₂`. -/
noncomputable def phase (c : Cosmos) (k z₁ z₂ : ℝ) : ℝ := ∫ z in z₁..z₂, freq c k z

/-- Relative error of the adiabatic solution in its equation of motion while the mass grows. -/
noncomputable def defect (c : Cosmos) (k z : ℝ) : ℝ :=
  let p := c.nQcd / 2 + 1
  p * conf c z ^ 2 / (4 * z ^ 2 * freq c k z ^ 4) *
    (5 * p * conf c z ^ 2 - (4 * p - 2) * freq c k z ^ 2)

/-- The settings in which this law holds in the program: a power law in a radiation dominated
universe. -/
structure Law (c : Cosmos) : Prop where
  file : c.ueCosm = false
  frw : c.frw = 1
  grav : c.grav ≤ 0
  mass : 0 < c.indi3
  thres : 0 < c.zThRes
  exponent : -2 < c.nQcd
  size : 0 < c.lSize
  saturate : c.zRestore < c.zThRes

end Jaxions.WKB
