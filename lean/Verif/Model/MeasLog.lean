import Verif.Model.MeasList
import Mathlib.Analysis.SpecialFunctions.Log.Basic

/-!
# A list of measurements spaced in the logarithm

`createMeasLogList` (`lib/utils/parse.cpp:193-251`), called for the option `--measlistlog`
(`parse.cpp:2430-2435, 2696-2697`).  The numbers are real: rounding of the arithmetic is not
modelled, the printing of a number is a parameter.  `sizeN` is positive.  What is printed on the
screen is left out.
-/

namespace Jaxions.MeasLog

/-- The global variables: `sizeN`, `sizeL`, `msa`, `zFinl`, `zInit`, `uZin`, `dump` (not negative,
`parse.cpp:1736`) and whether `lType` is `LAMBDA_FIXED`. -/
structure Par where
  N : ℕ
  ℓ : ℝ
  msa : ℝ
  zFinl : ℝ
  zInit : ℝ
  uZin : Bool
  dump : ℕ
  fixed : Bool

variable (p : Par)

/-- `logf` (`parse.cpp:206-215`). -/
noncomputable def logf : ℝ :=
  if p.fixed then Real.log (p.msa * p.zFinl * p.zFinl * p.N / p.ℓ)
  else Real.log (p.msa * p.zFinl * p.N / p.ℓ)

/-- `z0` (`parse.cpp:203, 217-218`). -/
def z0 : ℝ := if p.uZin then p.zInit else 0

/-- `lo += fr` (`parse.cpp:204, 233`); `none` is infinity, `1/0`. -/
noncomputable def next (lo : ℝ) : Option ℝ :=
  if p.dump = 0 then none else some (lo + 1 / p.dump)

/-- `zas` (`parse.cpp:234-236`). -/
noncomputable def time (lo : ℝ) : ℝ :=
  let zas := Real.exp lo * p.ℓ / p.N / p.msa
  if p.fixed then Real.sqrt zas else zas

/-- The loop (`parse.cpp:233-240`), with the times written; `none` when it has not ended after as
many turns as given. -/
noncomputable def loop : ℕ → ℝ → Option (List ℝ)
  | 0, _ => none
  | n + 1, lo =>
    if lo < logf p then
      match next p lo with
      | none => some [time p lo]
      | some lo' => (loop n lo').map (time p lo :: ·)
    else some []

/-- How a call ends: there was a file already, the loop goes on, the comparison of a variable that
was never set, or a file with these times. -/
inductive Outcome
  | refused
  | running
  | undefined
  | written (times : List ℝ)

/-- `createMeasLogList` (`parse.cpp:193-251`): the last time (`parse.cpp:242-245`) is added when
`zas`, which the loop set, is not equal to it. -/
noncomputable def create (found : Bool) (turns : ℕ) : Outcome :=
  if found then .refused
  else match loop p turns (z0 p) with
    | none => .running
    | some l => match l.getLast? with
      | none => .undefined
      | some zas => .written (if zas ≠ p.zFinl then l ++ [p.zFinl] else l)

/-- The lines of the file (`parse.cpp:239, 244`): `%f` and `%d` are the parameters `fmt` and
`fmtInt`. -/
def lines (fmt : ℝ → String) (fmtInt : BitVec 32 → String) (meas : BitVec 32) (times : List ℝ) :
    List (List String) :=
  times.map fun t => [fmt t, fmtInt meas]

end Jaxions.MeasLog
