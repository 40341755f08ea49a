import Verif.Model.StringFile

/-!
# What a reader of the file sees
-/

namespace Jaxions
namespace StrFile

/-- Element `j` of a data set of `unsigned short`. -/
def word (file : Heap ℕ ℕ) (j : ℕ) : Option ℕ := do return (← file (2 * j)) + 256 * (← file (2 * j + 1))

/-- Entry `a` of a list of positions, three elements each. -/
def triple (file : Heap ℕ ℕ) (a : ℕ) : Option (ℕ × ℕ × ℕ) := do
  return (← word file (3 * a), ← word file (3 * a + 1), ← word file (3 * a + 2))

/-- The three numbers fit in an `unsigned short`. -/
def Short (t : ℕ × ℕ × ℕ) : Prop := t.1 < 65536 ∧ t.2.1 < 65536 ∧ t.2.2 < 65536

/-- `n` bytes are allocated. -/
def Room (h : Heap ℕ ℕ) (n : ℕ) : Prop := ∀ a, a < n → (h a).isSome

/-- The bytes of the buffer on a rank with `V` sites: with little memory the string map, a byte for each
site, else `m2`, `ds` bytes for each site. -/
def space (low : Bool) (V ds : ℕ) : ℕ := match low with | true => V | false => V * ds

end StrFile
end Jaxions
