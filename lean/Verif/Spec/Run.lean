import Verif.Spec.Laplacian
import Verif.Model.Run
/-
Specification for C59: one lattice, no ranks, no ghosts, no vectors.
-/
namespace Jaxions.Run

open Stencil

variable {α : Type}

/-- Field and velocity on the whole lattice. -/
structure Lat (α : Type) where
  φ : Int → Int → Int → α
  ν : Int → Int → Int → α

/-- What a substep does to a site. -/
structure Rule (α : Type) where
  lap : (Int → Int → Int → α) → Int → Int → Int → α
  law : α → α → α → α × α

/-- One substep of the lattice. -/
def Rule.step (u : Rule α) (F : Lat α) : Lat α where
  φ := fun x y z => (u.law (u.lap F.φ x y z) (F.φ x y z) (F.ν x y z)).1
  ν := fun x y z => (u.law (u.lap F.φ x y z) (F.φ x y z) (F.ν x y z)).2

/-- A list of substeps. -/
def evolve : List (Rule α) → Lat α → Lat α
  | [], F => F
  | u :: us, F => evolve us (u.step F)

/-- Periodic with side `Lx` in x and y and depth `N` in z. -/
def Periodic3 (Lx N : Nat) (φ : Int → Int → Int → α) : Prop :=
  (∀ x y z, φ (x + Lx) y z = φ x y z) ∧ (∀ x y z, φ x (y + Lx) z = φ x y z) ∧
    ∀ x y z, φ x y (z + N) = φ x y z

/-- The ranks hold the lattice: slice `z` of rank `r`, stored behind `off` slices, is slice
`r Lz + z` of the lattice, folded with vectors of `S` sites. -/
def Shows (n Lx S Lz off : Nat) (h : Nat × Nat → Option α) (φ : Int → Int → Int → α) : Prop :=
  ∀ r x y z : Nat, r < n → x < Lx → y < Lx → z < Lz →
    h (r, cell Lx S x y (z + off)) = some (φ x y (r * Lz + z : Nat))

/-- The kernel `u` computes the rule `g`: its neighbour sum is `g.lap` at every site that has `NN`
slices on each side; `g.lap` is the same everywhere and looks no further than `NN` slices. -/
structure Computes (NN : Nat) (u : Sub α) (g : Rule α) : Prop where
  law : u.law = g.law
  lap : ∀ {Lx S : Nat}, 0 < S → S ∣ Lx → 2 * NN ≤ Lx / S → ∀ (m : Nat → Option α)
    (φ : Int → Int → Int → α) (nz : Nat), Periodic Lx φ → Holds Lx S nz m φ →
    ∀ {x y z : Nat}, x < Lx → y < Lx → NN ≤ z → z + NN < nz →
      u.lapF ⟨Lx, S, NN⟩ m (cell Lx S x y z - y / (Lx / S)) (y / (Lx / S)) = some (g.lap φ x y z)
  shift : ∀ (φ : Int → Int → Int → α) (a b c x y z : Int),
    g.lap (fun x y z => φ (x + a) (y + b) (z + c)) x y z = g.lap φ (x + a) (y + b) (z + c)
  near : ∀ (φ ψ : Int → Int → Int → α) (x y z : Int),
    (∀ x' y' z' : Int, z - NN ≤ z' → z' ≤ z + NN → φ x' y' z' = ψ x' y' z') →
      g.lap φ x y z = g.lap ψ x y z

end Jaxions.Run
