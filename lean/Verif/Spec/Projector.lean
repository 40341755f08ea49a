import Verif.Model.Projector

/-
What the projection should give.
-/

namespace Jaxions.Projector

variable {K : Type}

/-- The ranks hold the global field `G pt z`, rank `r` the slices `r*Lz .. (r+1)*Lz - 1`, in the
plain order; and the array `m` is there with its ghosts. -/
structure Holds {P : ℕ} (g : Shape) (G : ℕ → ℕ → K) (s : Fin (P + 1) → Mem K) : Prop where
  field : ∀ r : Fin (P + 1), ∀ pt < g.n2, ∀ zc < g.Lz,
    s r (.m2, zc * g.n2 + pt) = some (G pt (r * g.Lz + zc))
  alloc : ∀ r : Fin (P + 1), ∀ i < g.fS * (g.n2 * (g.Lz + 2 * g.Ng)), (s r (.m, i)).isSome

/-- The average over all `N` slices of the filtered field. -/
def average [Field K] (N : ℕ) (filter : K → K) (G : ℕ → ℕ → K) (pt : ℕ) : K :=
  ((List.range N).map fun z => filter (G pt z)).sum / (N : K)

/-- A cell of the ghost slices of `m`. -/
def InGhost (g : Shape) (a : Buf × ℕ) : Prop :=
  a.1 = .m ∧ (a.2 < g.fS * (g.n2 * g.Ng) ∨ g.fS * (g.n2 * (g.Lz + g.Ng)) ≤ a.2)

end Jaxions.Projector
