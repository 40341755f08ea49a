import Verif.Model.CosTable

/-!
# What a table file holds
-/

namespace Jaxions
namespace CosTable

/-- The words of one row. -/
def Row.words {K : Type} (r : Row K) : List (Tok K) :=
  [.num r.eta, .num r.R, .num r.T, .num r.Rpp, .num r.chi, .num r.pf]

/-- The words of a file with these rows. -/
def words {K : Type} (rows : List (Row K)) : List (Tok K) := rows.flatMap Row.words

/-- The table a search starts from: at least three rows, positive and increasing times. -/
def Good (rows : List (Row ℝ)) : Prop :=
  2 < rows.length ∧ (∀ i, i < rows.length → 0 < col rows Row.eta i) ∧
    ∀ i, i + 1 < rows.length → col rows Row.eta i < col rows Row.eta (i + 1)

end CosTable
end Jaxions
