import Verif.Model.Plans
import Mathlib.Order.Defs.LinearOrder

/-
What a user of the plan registry may assume, independently of how it is stored:
a name stands for nothing, for a plan some field created, or for an empty
placeholder left by a lookup.
-/

namespace Jaxions.Plans.Spec

variable {N : Type}

/-- What a name stands for. -/
inductive Entry where
  | plan (owner : ℕ) (dir : Dir)
  | placeholder
  deriving DecidableEq, Repr

/-- The registry seen from outside: the meaning of each name and whether the
library is switched on. -/
structure Reg (N : Type) where
  get : N → Option Entry
  on : Bool

/-- Give a name a meaning. -/
def Reg.set [DecidableEq N] (r : Reg N) (name : N) (e : Option Entry) : Reg N :=
  ⟨fun m => if m = name then e else r.get m, r.on⟩

/-- Give a name a meaning only when it has none. -/
def Reg.fresh [DecidableEq N] (r : Reg N) (name : N) (e : Entry) : Reg N :=
  if r.get name = none then r.set name (some e) else r

/-- The direction was asked for when the plan was created. -/
def Dir.has (d : Dir) : Way → Bool
  | .fwd => d.fwd
  | .bck => d.bck

/-- The registry at the start of the program. -/
def Reg.start : Reg N := ⟨fun _ => none, false⟩

/-- How a call changes the meaning of names.  Closing empties the registry when
it is on, and switches it off when the greatest name stands for a plan. -/
def Reg.Next [LinearOrder N] (r : Reg N) : Call N → Reg N → Prop
  | .start prec, r' => r' = ⟨r.get, r.on || prec != .none⟩
  | .create owner _ _ dir name, r' => r' = r.fresh name (.plan owner dir)
  | .fetch name, r' => r' = r.fresh name .placeholder
  | .run name _, r' => r' = r.fresh name .placeholder
  | .remove name, r' => r' = r.set name none
  | .close, r' =>
    if r.on then r'.get = (fun _ => none) ∧
      (r'.on = false ↔ ∃ n owner dir, r.get n = some (.plan owner dir) ∧
        ∀ m, r.get m ≠ none → m ≤ n)
    else r' = r
  | .assign _ _, _ => False

/-- The meaning of names after a history. -/
inductive Reg.After [LinearOrder N] : List (Call N) → Reg N → Prop
  | nil : Reg.After [] Reg.start
  | snoc {cs r c r'} : Reg.After cs r → r.Next c r' → Reg.After (cs ++ [c]) r'

/-- Calls the interface supports: a plan type with a case in the constructor, a
field precision that exists, and no assignment of one plan over another. -/
def Ok : Call N → Prop
  | .create _ kind prec _ _ => kind.hasCase = true ∧ prec ≠ .none
  | .assign _ _ => False
  | _ => True

/-- A call that must not be made in a given registry: running a plan in a
direction it was not created for, and closing an empty registry. -/
def Forbidden (r : Reg N) : Call N → Prop
  | .run name way => ∃ owner dir, r.get name = some (.plan owner dir) ∧
      Dir.has dir way = false
  | .close => r.on = true ∧ ∀ n, r.get n = none
  | _ => False

end Jaxions.Plans.Spec
