import Verif.Model.Save

/-
What a complete file is.
-/

namespace Jaxions.Save

/-- The file `p` is on the disk, closed, and holds exactly the content `w`. -/
def HoldsFile {β : Type} (d : Disk β) (p : Path) (w : List (ℕ × β)) : Prop :=
  ∃ f, d p = some f ∧ f.closed = true ∧ ∀ i b, f.data i = some b ↔ (i, b) ∈ w

/-- There is a complete file of that name, with some content. -/
def Ready {β : Type} (d : Disk β) (p : Path) : Prop := ∃ w, HoldsFile d p w

/-- The content of a call: every element once. -/
def WellFormed {β : Type} (c : Call β) : Prop := (c.items.map Prod.fst).Nodup

end Jaxions.Save
