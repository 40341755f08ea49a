import Verif.Model.Tracker
import Verif.Spec.Layout

/-
What a tracker should record, in terms of lattice sites.
-/

namespace Jaxions.Tracker

variable {K : Type}

/-- Field and velocity on the lattice sites of a rank. -/
abbrev Lat (K : Type) := ℕ → ℕ → ℕ → K × K

/-- The arrays hold the lattice `L`, in their layout, and nothing else. -/
def Shows (g : Geo) (L : Lat K) (f : Arr K) : Prop :=
  (∀ x y z, x < g.n1 → y < g.n1 → z < g.Lz →
    f.m (sitePos g f.folded x y z) = some (L x y z).1 ∧
    f.v (sitePos g f.folded x y z) = some (L x y z).2) ∧
  ∀ i, g.n3 ≤ i → f.m i = none ∧ f.v i = none

/-- A history with the lattice at each event.  A search visits every site once, in any
order. -/
def Ev.Of (g : Geo) (e : Ev K) (L : Lat K) : Prop :=
  match e with
  | .search _ _ f order => Shows g L f ∧ order.Perm (List.range g.n3)
  | .read f _ => Shows g L f

/-- The lattices at the readings, in order. -/
def readings : List (Ev K × Lat K) → List (Lat K)
  | [] => []
  | (.read _ _, L) :: es => L :: readings es
  | (.search _ _ _ _, _) :: es => readings es

/-- The times of the readings. -/
def times : List (Ev K) → List K
  | [] => []
  | .read _ z :: es => z :: times es
  | .search _ _ _ _ :: es => times es

/-- What a search looks for: a large field if fields count, a large velocity if velocities do. -/
def Meets (c : Crit K) (m v : K) : Prop :=
  (c.addifm = true ∧ c.big m = true) ∨ (c.addifv = true ∧ c.fast v = true)

/-- Was site `(x, y, z)` found by a search. -/
def Found (es : List (Ev K × Lat K)) (x y z : ℕ) : Prop :=
  ∃ e ∈ es, ∃ c f order, e.1 = .search c true f order ∧ Meets c (e.2 x y z).1 (e.2 x y z).2

/-- The field was folded at every reading. -/
def ReadFolded (es : List (Ev K)) : Prop :=
  ∀ e ∈ es, ∀ f z, e = .read f z → f.folded = true

/-- Every pair rank, number once, in order. -/
def allPairs : ℕ → List ℕ → List (ℕ × ℕ)
  | _, [] => []
  | r, n :: ns => (List.range n).map (fun l => (r, l)) ++ allPairs (r + 1) ns

/-- No rank after the first is without axitons while a later rank has some. -/
def NoGap (nAx : List ℕ) : Prop :=
  ∀ r s : ℕ, 0 < r → r < s → nAx[r]? = some 0 → ∀ n, nAx[s]? = some n → n = 0

end Jaxions.Tracker
