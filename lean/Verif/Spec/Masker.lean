import Verif.Model.Masker
import Verif.Spec.AxionSpectrum

/-
What the masks of strings should be, in terms of the string map of the whole lattice.
-/

namespace Jaxions.Masker

open AxSpec (Grid Site)

/-- `x` is `a` or its upper neighbour on a circle of `L`. -/
def Adj (L a x : ℕ) : Prop := x = a ∨ x = (a + 1) % L

/-- The site is a corner of a plaquette the map `f` says is pierced: lattice of `L × L × T` sites,
periodic. -/
def Corner (L T : ℕ) (f : ℕ → ℕ → ℕ → Byte) (x y z : ℕ) : Prop :=
  ∃ a b c, a < L ∧ b < L ∧ c < T ∧
    (((f a b c).xy = true ∧ Adj L a x ∧ Adj L b y ∧ z = c) ∨
      ((f a b c).yz = true ∧ x = a ∧ Adj L b y ∧ Adj T c z) ∨
      ((f a b c).zx = true ∧ Adj L a x ∧ y = b ∧ Adj T c z))

/-- Rank `r` holds its part of the map. -/
def HasMap (g : Grid) (r : ℕ) (f : ℕ → ℕ → ℕ → Byte) (s : Rank) : Prop :=
  ∀ x y z, x < g.L → y < g.L → z < g.Lz → s.sd (g.bare (x, y, z)) = some (f x y (r * g.Lz + z))

/-- Cleared arrays, spectrum.cpp:2863. -/
structure Clear (g : Grid) (s : Rank) : Prop where
  m2 : ∀ a, a < 2 * g.v3 → s.m2 a = some 0
  out : ∀ a, a < g.L * (g.L + 2) → s.out a = some false

/-- Each site of the slices for which `P` holds, once. -/
structure Sites (g : Grid) (P : ℕ → Prop) (order : List Site) : Prop where
  nodup : order.Nodup
  mem : ∀ p, p ∈ order ↔ g.In p ∧ P p.2.2

end Jaxions.Masker
