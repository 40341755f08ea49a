import Mathlib.Data.Nat.Notation
import Mathlib.Data.List.FinRange
import Mathlib.Logic.Function.Basic

/-
The check made by every rank after every step: has the wall time run out, is there a
file asking to stop, to abort or to save?

Source: test/vaxions.cpp:645-746 (`checkTime`), called at line 424 once per step of
the time loop.

All ranks run at their own pace and share one directory.  An execution is a list of
events in any order: a rank does the next line of its program, or somebody outside
creates or deletes a file.  What lies between two checks (the propagation of the
field, the measurements) is left out; it only makes ranks wait more often.
-/

namespace Jaxions.CheckTime

/-- The three files that are looked for: `./stop` (657), `./abort` (663),
`./savejaxconf` (669). -/
inductive File where
  | stop | abort | save
  deriving DecidableEq, Repr

/-- Where a rank is.  `clock`: before line 653; `stop`: before 657; `abort`: before
663; `save`: before 669; `remove`: before 672, having seen the file; `gather`: inside
`MPI_Allgather`, 677; `ended`: after `exit(0)`, 706, 725 or 735. -/
inductive PC where
  | clock | stop | abort | save | remove | gather | ended
  deriving DecidableEq, Repr

/-- What one rank knows: its place, the number of checks it has finished, its variable
`flag` (648) and the list of its past decisions. -/
structure Local where
  pc : PC
  round : ℕ
  flag : ℕ
  log : List ℕ
  deriving DecidableEq

/-- The whole machine: the directory, the ranks, and what each rank has handed to the
`k`-th `MPI_Allgather`. -/
structure St (n : ℕ) where
  files : File → Bool
  loc : Fin n → Local
  sent : ℕ → Fin n → Option ℕ

/-- Events.  `user f b`: the file `f` is created or deleted from outside.  `clock r
late`: rank `r` reads its clock, `late` is `wTime <= cTime`.  `remove r ok`: the call of
`remove` at 672, which may fail. -/
inductive Ev (n : ℕ) where
  | user (f : File) (b : Bool)
  | clock (r : Fin n) (late : Bool)
  | stop (r : Fin n)
  | abort (r : Fin n)
  | save (r : Fin n)
  | remove (r : Fin n) (ok : Bool)
  | leave (r : Fin n)
  deriving DecidableEq

/-- Lines 679-685: the first positive entry, in the order of the ranks; without one
`done` stays false, which is the decision 0. -/
def decision (allFlags : List ℕ) : ℕ :=
  (allFlags.find? (fun val => decide (0 < val))).getD 0

/-- Does the decision end the run: the branches at 690, 709 and 728 call `exit`, the one
at 738 does not. -/
def ends (d : ℕ) : Bool := d == 1 || d == 2 || d == 3

/-- One rank changes its own record. -/
def St.upd {n : ℕ} (s : St n) (r : Fin n) (l : Local) : St n :=
  { s with loc := Function.update s.loc r l }

/-- One event; `none` when the event cannot happen now. -/
def step {n : ℕ} (s : St n) : Ev n → Option (St n)
  | .user f b => some { s with files := Function.update s.files f b }
  | .clock r late =>
      -- 646-654
      if (s.loc r).pc = .clock then
        some (s.upd r { s.loc r with pc := .stop, flag := if late then 1 else 0 })
      else none
  | .stop r =>
      -- 656-660
      if (s.loc r).pc = .stop then
        some (s.upd r { s.loc r with
          pc := .abort, flag := if s.files .stop then 2 else (s.loc r).flag })
      else none
  | .abort r =>
      -- 662-666
      if (s.loc r).pc = .abort then
        some (s.upd r { s.loc r with
          pc := .save, flag := if s.files .abort then 3 else (s.loc r).flag })
      else none
  | .save r =>
      -- 668-671; without the file the rank goes on to the gather
      if (s.loc r).pc = .save then
        if s.files .save then
          some (s.upd r { s.loc r with pc := .remove, flag := 4 })
        else
          some { s.upd r { s.loc r with pc := .gather } with
            sent := Function.update s.sent (s.loc r).round
              (Function.update (s.sent (s.loc r).round) r (some (s.loc r).flag)) }
      else none
  | .remove r ok =>
      -- 672-675, then the gather
      if (s.loc r).pc = .remove then
        some { s.upd r { s.loc r with pc := .gather } with
          files := if ok then Function.update s.files .save false else s.files
          sent := Function.update s.sent (s.loc r).round
            (Function.update (s.sent (s.loc r).round) r (some (s.loc r).flag)) }
      else none
  | .leave r =>
      -- 677-745: the gather returns once every rank has contributed to it
      if (s.loc r).pc = .gather then
        match (List.finRange n).mapM (s.sent (s.loc r).round) with
        | none => none
        | some allFlags =>
          let d := decision allFlags
          some (s.upd r
            { pc := if ends d then .ended else .clock
              round := (s.loc r).round + 1
              flag := 0
              log := (s.loc r).log ++ [d] })
      else none

/-- The collective calls made by a rank in one check. -/
inductive Coll where
  | allgather | writeConf (restart : Bool) | sync | endAxions
  deriving DecidableEq, Repr

/-- Line 677; then 693 and 704; 712 and 723; 733; 740 and 741. -/
def colls (d : ℕ) : List Coll :=
  .allgather ::
    (if d = 1 then [.writeConf true, .endAxions]
     else if d = 2 then [.writeConf true, .endAxions]
     else if d = 3 then [.endAxions]
     else if d = 4 then [.writeConf false, .sync]
     else [])

/-- The start of the run: no rank has made a check. -/
def init (n : ℕ) (files : File → Bool) : St n :=
  { files := files
    loc := fun _ => { pc := .clock, round := 0, flag := 0, log := [] }
    sent := fun _ _ => none }

/-- `Exec s es t`: the events `es`, one after the other, lead from `s` to `t`. -/
inductive Exec {n : ℕ} (s : St n) : List (Ev n) → St n → Prop where
  | nil : Exec s [] s
  | snoc {es : List (Ev n)} {t u : St n} {e : Ev n} :
      Exec s es t → step t e = some u → Exec s (es ++ [e]) u

end Jaxions.CheckTime
