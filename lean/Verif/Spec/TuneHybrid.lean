import Verif.Model.TuneHybrid

/-!
Specification for C97.
-/

namespace Jaxions.TuneHybrid

/-- The plan and the smoothing fit the reduction. -/
def Sound (s : State) : Prop :=
  s.plan = some s.redfft ∧ s.smsteps = 2 * s.redfft ∧ s.smstep2 = 2 * s.redfft

/-- The reduced calculation with everything fitting. -/
def byFactor (r : ℕ) : Mode := .reduced r (2 * r) (2 * r) (some r)

/-- The five ways to calculate the potential that are compared. -/
def ways : List Mode := [.full, byFactor 2, byFactor 4, byFactor 8, byFactor 16]

end Jaxions.TuneHybrid
