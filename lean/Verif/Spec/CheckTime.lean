import Verif.Model.CheckTime

/-
What the check after every step should do, in terms of the events of an execution.
-/

namespace Jaxions.CheckTime

variable {n : ℕ}

/-- In the execution `es` from `s`, rank `r` met the reason numbered `f`: 1 its clock
was past the limit, 2, 3, 4 the stop, abort or save file was there when it looked. -/
def Saw (s : St n) (es : List (Ev n)) (r : Fin n) (f : ℕ) : Prop :=
  (f = 1 ∧ Ev.clock r true ∈ es) ∨
  (f = 2 ∧ ∃ es1 es2 u, es = es1 ++ Ev.stop r :: es2 ∧ Exec s es1 u ∧ u.files .stop = true) ∨
  (f = 3 ∧ ∃ es1 es2 u, es = es1 ++ Ev.abort r :: es2 ∧ Exec s es1 u ∧ u.files .abort = true) ∨
  (f = 4 ∧ ∃ es1 es2 u, es = es1 ++ Ev.save r :: es2 ∧ Exec s es1 u ∧ u.files .save = true)

/-- Nobody outside touches the files. -/
def NoUser (es : List (Ev n)) : Prop := ∀ f b, Ev.user f b ∉ es

/-- Everything a rank has called so far that the other ranks must call too. -/
def calls (l : Local) : List Coll := l.log.flatMap colls

end Jaxions.CheckTime
