import Verif.Model.Smooth

/-!
# What smoothing has to do

The whole periodic lattice is a function of `x`, `y`, `z`.
-/

namespace Jaxions
namespace Smooth

variable {K E : Type} [Field K] [AddCommGroup E] [Module K E]

/-- Average of a site with its six neighbours on the periodic lattice `L × L × T`. -/
def average (L T : Nat) (alpha : K) (f : Nat → Nat → Nat → E) (x y z : Nat) : E :=
  alpha • f x y z + ((1 - alpha) / 6) • (f ((x + 1) % L) y z + f ((x + L - 1) % L) y z +
    f x ((y + 1) % L) z + f x ((y + L - 1) % L) z + f x y ((z + 1) % T) + f x y ((z + T - 1) % T))

/-- The ranks together hold `f` in their physical sites; nothing is said about the ghosts. -/
def Holds (g : Grid) (w : World E) (f : Nat → Nat → Nat → E) : Prop :=
  ∀ r < g.n, ∀ x < g.Lx, ∀ y < g.Lx, ∀ z < g.Lz,
    w.m r ((x + g.Lx * y + g.Lx * g.Lx * z : Nat) : Int) = some (f x y (r * g.Lz + z))

/-- Memory of the ranks: `m` with its ghosts, `m2` at least as large as the physical part. -/
def Alloc (g : Grid) (w : World E) : Prop :=
  ∀ r < g.n, (∀ i : Int, (w.m r i).isSome ↔ -((g.Ng * g.S : Nat) : Int) ≤ i ∧ i < g.V + (g.Ng * g.S : Nat)) ∧
    ∀ i < g.V, (w.m2 r i).isSome

/-- Every site once, in any order. -/
def Orders (g : Grid) (order : Nat → Nat → List Nat) : Prop :=
  ∀ it r, (order it r).Perm (List.range g.V)

end Smooth
end Jaxions
