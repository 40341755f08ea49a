import Verif.Model.StringLength
import Verif.Props.StringFlux
import Mathlib.Data.List.ReduceOption

/-!
# What the length of strings is

The points at which strings go through the faces of the cells of an unbounded lattice, and the mean
over all ways to join the points of a cell in pairs.
-/

namespace Jaxions
namespace StrLen

open Winding

/-- Every way to take one element out of a list. -/
def picks {α : Type} : List α → List (α × List α)
  | [] => []
  | a :: l => (a, l) :: (picks l).map fun p => (p.1, a :: p.2)

/-- All ways to join the elements of a list of `2 n` elements in pairs. -/
def matchings {α : Type} : ℕ → List α → List (List (α × α))
  | n + 1, a :: l => (picks l).flatMap fun p => (matchings n p.2).map fun m => (a, p.1) :: m
  | _, _ => [[]]

/-- The total length of the pairs. -/
noncomputable def pairLen (m : List (Pt × Pt)) : ℝ := (m.map fun p => gap p.1 p.2).sum

/-- The mean over all ways to join the points in pairs. -/
noncomputable def meanLen (l : List Pt) : ℝ :=
  ((matchings (l.length / 2) l).map pairLen).sum / (matchings (l.length / 2) l).length

/-- The point of the plaquette at a site with its sides along `x` and `y`. -/
noncomputable def ptXY (φ : Lat ℝ) (x y z : ℤ) : Option Pt :=
  (setCross (φ x y z) (φ (x + 1) y z) (φ x (y + 1) z) (φ (x + 1) (y + 1) z)).map
    fun d => ⟨x + d.1, y + d.2, z⟩
/-- Sides along `y` and `z`. -/
noncomputable def ptYZ (φ : Lat ℝ) (x y z : ℤ) : Option Pt :=
  (setCross (φ x y z) (φ x (y + 1) z) (φ x y (z + 1)) (φ x (y + 1) (z + 1))).map
    fun d => ⟨x, y + d.1, z + d.2⟩
/-- Sides along `z` and `x`. -/
noncomputable def ptZX (φ : Lat ℝ) (x y z : ℤ) : Option Pt :=
  (setCross (φ x y z) (φ x y (z + 1)) (φ (x + 1) y z) (φ (x + 1) y (z + 1))).map
    fun d => ⟨x + d.2, y, z + d.1⟩

/-- The points of the faces of the cell at a site that have a winding, all but the one above. -/
noncomputable def lowEnds (φ : Lat ℝ) (x y z : ℤ) : List (Option Pt) :=
  (if xy stringHand φ x y z ≠ 0 then [ptXY φ x y z] else []) ++
  (if yz stringHand φ x y z ≠ 0 then [ptYZ φ x y z] else []) ++
  (if zx stringHand φ x y z ≠ 0 then [ptZX φ x y z] else []) ++
  (if yz stringHand φ (x + 1) y z ≠ 0 then [ptYZ φ (x + 1) y z] else []) ++
  (if zx stringHand φ x (y + 1) z ≠ 0 then [ptZX φ x (y + 1) z] else [])

/-- The points of all faces of the cell at a site that have a winding. -/
noncomputable def cubeEnds (φ : Lat ℝ) (x y z : ℤ) : List (Option Pt) :=
  lowEnds φ x y z ++ (if xy stringHand φ x y (z + 1) ≠ 0 then [ptXY φ x y (z + 1)] else [])

/-- Those that are points. -/
noncomputable def cubePts (φ : Lat ℝ) (x y z : ℤ) : List Pt := (cubeEnds φ x y z).reduceOption

/-- The length of string in the cell at a site. -/
noncomputable def trueLen (φ : Lat ℝ) (x y z : ℤ) : ℝ := meanLen (cubePts φ x y z)

/-- A point of the cell at a site. -/
def InCube (x y z : ℤ) (p : Pt) : Prop :=
  (x : ℝ) ≤ p.x ∧ p.x ≤ x + 1 ∧ (y : ℝ) ≤ p.y ∧ p.y ≤ y + 1 ∧ (z : ℝ) ≤ p.z ∧ p.z ≤ z + 1

/-- The field of a rank in the layout without folding, with the slice above its own. -/
def Holds (Lx Lz r : ℕ) (ma : ℕ → Cx ℝ) (φ : Lat ℝ) : Prop :=
  ∀ x y z : ℕ, x < Lx → y < Lx → z ≤ Lz → ma (x + Lx * y + Lx * Lx * z) = φ x y (r * Lz + z : ℕ)

/-- The map of a rank: which plaquettes of its sites have a winding. -/
def MapOf (Lx Lz r : ℕ) (sd : ℕ → ℕ) (φ : Lat ℝ) : Prop :=
  ∀ x y z : ℕ, x < Lx → y < Lx → z < Lz →
    ((sd (x + Lx * y + Lx * Lx * z) &&& StringMap.XY ≠ 0) ↔
      xy stringHand φ x y (r * Lz + z : ℕ) ≠ 0) ∧
    ((sd (x + Lx * y + Lx * Lx * z) &&& StringMap.YZ ≠ 0) ↔
      yz stringHand φ x y (r * Lz + z : ℕ) ≠ 0) ∧
    ((sd (x + Lx * y + Lx * Lx * z) &&& StringMap.ZX ≠ 0) ↔
      zx stringHand φ x y (r * Lz + z : ℕ) ≠ 0)

/-- The lattice closes on itself after `Lx` sites in `x` and `y`. -/
def Closed (Lx : ℕ) (φ : Lat ℝ) : Prop :=
  ∀ x y z, φ (x + Lx) y z = φ x y z ∧ φ x (y + Lx) z = φ x y z

end StrLen
end Jaxions
