import Verif.Model.PropChoice

/-
What the propagator options should mean, read off the command line without any
bit arithmetic.
-/

namespace Jaxions.PropChoice.Spec

/-- The integrators named on the command line. -/
def Named (os : List Opt) (i : Integ) : Prop := Opt.prop (some i) ∈ os

/-- The integrator asked for: the only one named, or the default when none is. -/
def Asked (os : List Opt) (i : Integ) : Prop :=
  (Named os i ∧ ∀ j, Named os j → j = i) ∨ ((∀ j, ¬ Named os j) ∧ i = .rkn4)

/-- The last number of neighbours given. -/
def lastLap (os : List Opt) : Option ℤ :=
  (os.filterMap fun o => match o with | .lap n => some n | _ => none).getLast?

/-- The laplacian mode asked for. -/
def mode (os : List Opt) : Class :=
  if Opt.spec ∈ os then .spec else if Opt.fspec ∈ os then .fspec else .base

/-- The command line is refused: an unknown integrator, a number of neighbours out
of range, or neighbours together with a spectral mode. -/
def Refused (os : List Opt) : Prop :=
  Opt.prop none ∈ os ∨ (∃ n, Opt.lap n ∈ os ∧ (n < 0 ∨ 6 < n)) ∨
    (∃ n, lastLap os = some n ∧ 0 < n ∧ (Opt.spec ∈ os ∨ Opt.fspec ∈ os))

/-- The integrator was compiled in. -/
def Compiled (b : Build) : Integ → Bool
  | .rkn4 => b.rkn4
  | .mleap => b.mleap
  | .leap => b.leap
  | .om2 => b.om2
  | .om4 => b.om4

end Jaxions.PropChoice.Spec
