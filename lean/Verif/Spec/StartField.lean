import Mathlib.Analysis.Calculus.Deriv.Basic
import Mathlib.Analysis.Complex.Basic
/-
What a start of the evolution should be: the conformal field is the scale factor times the field,
and the velocity is its rate in conformal time.
-/

namespace Jaxions.StartField

/-- `m`, `v` are the value and the rate at time `t` of the conformal field `a · φ`, where the field
has the history `φ` and the scale factor the history `a`. -/
def IsStart (a : ℝ → ℝ) (φ : ℝ → ℂ) (t : ℝ) (m v : ℂ) : Prop :=
  m = a t * φ t ∧ HasDerivAt (fun s => (a s : ℂ) * φ s) v t

/-- Mean of `f` over all the sites of all the ranks. -/
noncomputable def mean (ranks : List (List ℂ)) (f : ℂ → ℝ) : ℝ :=
  (ranks.flatten.map f).sum / (ranks.flatten.length : ℕ)

end Jaxions.StartField
