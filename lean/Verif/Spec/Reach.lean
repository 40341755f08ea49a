import Verif.Spec.Run

/-!
Specification for C91: how far a change travels.
-/

namespace Jaxions.Reach

open Run

variable {α : Type}

/-- Number of links between two sites. -/
def far (x y z a b c : ℤ) : ℕ := (a - x).natAbs + (b - y).natAbs + (c - z).natAbs

/-- Two lattices agree up to `d` links from a site. -/
def Agree (d : ℕ) (x y z : ℤ) (F G : Lat α) : Prop := ∀ a b c, far x y z a b c ≤ d →
  F.φ a b c = G.φ a b c ∧ F.ν a b c = G.ν a b c


end Jaxions.Reach
