import Verif.Model.Log

/-
What a log should contain.
-/

namespace Jaxions.Log

variable {α : Type}

/-- What a call asks to be logged. -/
def Call.asked : Call α → List α
  | .msg m _ => [m]
  | .error place text => [place, text]
  | .flush => []

/-- Everything a rank asked to be logged, in order. -/
def logged (cs : List (Call α)) : List α := cs.flatMap Call.asked

/-- Rank zero: what was put on its stack. -/
def Event.put : Event α → List (Msg α)
  | .own m => [m]
  | .receive m => [m]
  | .flush _ => []

end Jaxions.Log
