import Verif.Model.MeasList
import Mathlib.Order.Basic

/-
What the measurement list should contain, in terms of the words of the file.
-/

namespace Jaxions.MeasList.Spec

/-- The names of the columns a user may write. -/
def known : List String := ["ct", "meas", "map", "mask", "kgv"]

/-- A proper header: some of the names, in any order, each at most once. -/
structure Header (h : List String) : Prop where
  some : h ≠ []
  known : ∀ w ∈ h, w ∈ Spec.known
  once : h.Nodup

/-- The word of a line that stands under the column `name`, if there is one. -/
def under (h line : List String) (name : String) : Option String :=
  line[h.idxOf name]?.filter fun _ => name ∈ h

/-- The number under a column, 0 for a column that is not given. -/
def number (num : Num) (h line : List String) (name : String) : Option (BitVec 32) :=
  match under h line name with
  | none => some 0
  | some w => num.stoi w

/-- The entry asked for by a line: the time, the measurements (a negative number means
the default ones), and the maps, masks and kinds together with those of the command
line. -/
def entry (num : Num) (g : Given) (h line : List String) : Option Rec := do
  let w ← under h line "ct"
  let t ← num.stof w
  let meas ← number num h line "meas"
  let map ← number num h line "map"
  let mask ← number num h line "mask"
  let nrt ← number num h line "kgv"
  pure ⟨t, if meas.msb then g.meas else meas, map ||| g.map, mask ||| g.mask, nrt ||| g.nrt⟩

end Jaxions.MeasList.Spec
