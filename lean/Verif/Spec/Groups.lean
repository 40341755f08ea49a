import Verif.Model.Groups
import Mathlib.Logic.Relation

/-
What the groups of dense points should be, in terms of lattice sites.
-/

namespace Jaxions.Groups

/-- A site of the slab of a rank. -/
structure Site where
  x : ℕ
  y : ℕ
  z : ℕ
  deriving DecidableEq

def Site.In (g : Geo) (a : Site) : Prop := a.x < g.n1 ∧ a.y < g.n1 ∧ a.z < g.Lz

/-- The number of a site in unfolded order. -/
def Site.no (g : Geo) (a : Site) : ℕ := a.x + g.n1 * (a.y + g.n1 * a.z)

/-- One step along a circle of `n` points. -/
def Around (n a b : ℕ) : Prop := b = (a + 1) % n ∨ a = (b + 1) % n

/-- Two sites one step apart: around the box along x and y, inside the slab along z. -/
def Touch (g : Geo) (a b : Site) : Prop :=
  (a.y = b.y ∧ a.z = b.z ∧ Around g.n1 a.x b.x) ∨
  (a.x = b.x ∧ a.z = b.z ∧ Around g.n1 a.y b.y) ∨
  (a.x = b.x ∧ a.y = b.y ∧ (b.z = a.z + 1 ∨ a.z = b.z + 1))

/-- Two sites joined by a chain of dense sites of the slab. -/
def Linked (g : Geo) (dense : Site → Bool) : Site → Site → Prop :=
  Relation.ReflTransGen fun a b => a.In g ∧ b.In g ∧ dense b = true ∧ Touch g a b

/-- The array of densities holds `dense` in unfolded order. -/
def Shows (g : Geo) (dense : Site → Bool) (hit : ℕ → Bool) : Prop :=
  ∀ a : Site, a.In g → hit (a.no g) = dense a

/-- The groups found are the linked sets of dense sites: numbered from 1, no site is listed
twice, exactly the dense sites are listed, and two of them are in the same group exactly if
they are linked. -/
structure Right (g : Geo) (dense : Site → Bool) (halo : List Group) : Prop where
  numbered : halo.map Group.gid = (List.range halo.length).map (· + 1)
  once : (halo.flatMap Group.pts).Nodup
  listed : ∀ n, n ∈ halo.flatMap Group.pts ↔ ∃ a : Site, a.In g ∧ dense a = true ∧ n = a.no g
  linked : ∀ G ∈ halo, G.pts ≠ [] ∧ ∀ a : Site, a.In g → a.no g ∈ G.pts →
    ∀ b : Site, b.In g → (b.no g ∈ G.pts ↔ Linked g dense a b)

/-- The neighbours the code looks at from a site: all, but not site 0 from the site above it. -/
def Sees (g : Geo) (a b : Site) : Prop := Touch g a b ∧ ¬ (a = ⟨0, 0, 1⟩ ∧ b = ⟨0, 0, 0⟩)

/-- The points reached from a first one through points of positive label outside the earlier
groups. -/
def Reached (g : Geo) (m2h : ℕ → ℕ) (before : List Group) : Site → Site → Prop :=
  Relation.ReflTransGen fun a b => a.In g ∧ b.In g ∧ 0 < m2h (b.no g) ∧
    (∀ G ∈ before, b.no g ∉ G.pts) ∧ Sees g a b

end Jaxions.Groups
