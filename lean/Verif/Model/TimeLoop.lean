import Mathlib.Data.Nat.Notation
import Mathlib.Data.Rat.Defs
import Mathlib.Algebra.Order.Ring.Rat
import Mathlib.Algebra.Order.Group.Abs

/-
The time loop with measurements from a list.

Source: test/vaxions.cpp:231-238 (first entry), 264-426 (loop, case `DUMP_FROMLIST`),
428-451 (last measurement), 991-997 (`loadmeasfromlist`).

Times are exact.  `propagate` advances the time by its argument, which is C11.  The
`abs` of lines 233 and 394 is the one for `double`.  The automatic step of each turn is
an input: whatever `dzSize` gives, or the fixed step `(zFinl-zInit)/nSteps`.  Another
input says whether the field changes from complex to angle in that turn (342-385).  The
outcome `none` is a read outside the list.
-/

namespace Jaxions.TimeLoop

/-- A measurement: the entry whose `meas` is used, the entry whose maps and masks are
used (`none`: those of the command line), and the time of the field. -/
structure Meas where
  what : Option ℕ
  maps : Option ℕ
  time : ℚ
  deriving DecidableEq

/-- The variables of the loop: the time of the field, `i_meas`, the entry last loaded
into `defaultmeasType` and into `ninfa`, the measurements done, the steps taken. -/
structure St where
  z : ℚ
  i : ℕ
  what : Option ℕ
  maps : Option ℕ
  done : List Meas
  steps : List ℚ
  deriving DecidableEq

/-- One turn's input. -/
structure Turn where
  dz : ℚ
  toTheta : Bool
  deriving DecidableEq

/-- Lines 284-291: the entries from `i` on that lie in the past are counted. -/
def skip (ct : List ℚ) (z : ℚ) (i : ℕ) : Option ℕ :=
  match ct[i]? with
  | none => none
  | some t => some (if t < z then i + (ct.drop i).countP (fun t => decide (t < z)) else i)

/-- Lines 293-305: the step, and whether to measure after it. -/
structure Aim where
  dz : ℚ
  hit : Bool
  measure : Bool

def aim (ct : List ℚ) (z dz : ℚ) (i : ℕ) : Option Aim :=
  match ct[i]? with
  | none => none
  | some t =>
    if t ≤ z + dz ∧ z < t then some ⟨t - z, true, i ≠ ct.length - 1⟩ else some ⟨dz, false, false⟩

/-- Lines 390-397: is the run over. -/
def over (zFinl z : ℚ) : Bool := decide (zFinl ≤ z) || decide (|z - zFinl| < 1 / 10 ^ 10)

/-- One turn of the loop.  The flag tells whether the loop was left. -/
def turn (ct : List ℚ) (zFinl : ℚ) (s : St) (u : Turn) : Option (St × Bool) := do
  let i ← skip ct s.z s.i
  let a ← aim ct s.z u.dz i
  let what := if a.hit then some i else s.what
  let maps := if a.hit then some i else s.maps
  let z := s.z + a.dz
  -- 356-357: before the change to the angle, `ninfa.maty` and `ninfa.mask` are set back
  let maps := if u.toTheta then none else maps
  let s' : St := ⟨z, i, what, maps, s.done, s.steps ++ [a.dz]⟩
  if over zFinl z then pure (s', true)
  else if a.measure then
    pure ({ s' with i := i + 1, done := s.done ++ [⟨what, maps, z⟩] }, false)
  else pure (s', false)

/-- The loop over `nSteps` turns. -/
def loop (ct : List ℚ) (zFinl : ℚ) : St → List Turn → Option (St × Bool)
  | s, [] => some (s, false)
  | s, u :: us => do
    let (s', stop) ← turn ct zFinl s u
    if stop then pure (s', true) else loop ct zFinl s' us

/-- Lines 231-238: the first entry counts as done when the start is within one part in
ten thousand of it, unless the run is a restart. -/
def first (ct : List ℚ) (z : ℚ) (restart : Bool) : Option ℕ :=
  match ct[0]? with
  | none => none
  | some t => some (if restart = false ∧ |1 - z / t| < 1 / 10000 then 1 else 0)

/-- The whole loop: `zFinl` is the last listed time (980), and after the loop the field
is measured once more, 434-451. -/
def run (ct : List ℚ) (z : ℚ) (restart : Bool) (us : List Turn) : Option St := do
  let zFinl ← ct.getLast?
  let i ← first ct z restart
  let (s, _) ← loop ct zFinl ⟨z, i, none, none, [], []⟩ us
  pure { s with done := s.done ++ [⟨s.what, s.maps, s.z⟩] }

end Jaxions.TimeLoop
