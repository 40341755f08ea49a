import Mathlib.Data.Real.Basic
import Mathlib.Data.Nat.Notation

/-!
Model of the choice between the full and the reduced calculation of the gravitational potential:
`include/gravity/potentialClass.h:196-247` (tunehybrid), `:128-137` (constructor), `:143` (SetHybrid),
`:178-193` (RunCpu).

Simplified: the potential itself is in `Model/Gravity`; here a call of Run is a measurement whose duration
is given by a clock that may depend on anything (the number of the call and what is run).
-/

namespace Jaxions.TuneHybrid

/-- What a call of Run does: the full calculation, or the one on a lattice reduced by a factor, with the
numbers of smoothing steps and the reduction of the plan of the transform. -/
inductive Mode
  | full
  | reduced (red sm sm2 : ℕ) (plan : Option ℕ)
  deriving DecidableEq

/-- Members of GraVi and the plan "m2redFFT". -/
structure State where
  hybrid : Bool
  redfft : ℕ
  smsteps : ℕ
  smstep2 : ℕ
  plan : Option ℕ
  deriving DecidableEq

/-- potentialClass.h:130-136. -/
def start : State := ⟨false, 2, 2 * 2, 2 * 2, some 2⟩

/-- potentialClass.h:178-193. -/
def State.mode (s : State) : Mode :=
  if s.hybrid then .reduced s.redfft s.smsteps s.smstep2 s.plan else .full

/-- One pass of the loop, potentialClass.h:217-236: the members, the shortest time, the best factor, and
what was measured so far. -/
noncomputable def pass (clock : ℕ → Mode → ℝ) (w : State × ℝ × ℕ × List (Mode × ℝ)) (fo : ℕ) :
    State × ℝ × ℕ × List (Mode × ℝ) :=
  let s : State := { w.1 with redfft := fo, smsteps := 2 * fo, smstep2 := 2 * fo, plan := some fo }
  let t := clock w.2.2.2.length s.mode
  let l := w.2.2.2 ++ [(s.mode, t)]
  if t < w.2.1 then (s, t, fo, l) else (s, w.2.1, w.2.2.1, l)

/-- potentialClass.h:196-247: the members afterwards and what was measured. -/
noncomputable def tune (clock : ℕ → Mode → ℝ) (s : State) : State × List (Mode × ℝ) :=
  let t := clock 0 s.mode
  let w := [2, 4, 8, 16].foldl (pass clock) ({ s with hybrid := true }, t, 1, [(s.mode, t)])
  let s := w.1
  let best := w.2.2.1
  let s : State :=
    if best = 1 then { s with hybrid := false }
    else { s with redfft := best, smsteps := 2 * best, smstep2 := 2 * best }
  ({ s with plan := some s.redfft }, w.2.2.2)

/-- potentialClass.h:143. -/
def setHybrid (b : Bool) (s : State) : State := { s with hybrid := b }

end Jaxions.TuneHybrid
