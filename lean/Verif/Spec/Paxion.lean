import Verif.Spec.Run
import Mathlib.Analysis.SpecialFunctions.Trigonometric.Basic
/-
Specification for C63: a complex field on one periodic lattice, real part `φ`, imaginary part `ν`.
-/
namespace Jaxions.Paxion

open Stencil Run

/-- What an operation does to the lattice: a kick of the imaginary (`toV`) or real part with the
Laplacian of the other, or a turn of the complex field at every site. -/
inductive Move
  | kick (toV : Bool) (k : ℝ)
  | turn (k g : ℝ) (Φ : Int → Int → Int → ℝ)

/-- The angle of a turn: `k|ψ|² + gΦ`. -/
def angle (k g : ℝ) (Φ : Int → Int → Int → ℝ) (F : Lat ℝ) (x y z : Int) : ℝ :=
  k * (F.φ x y z ^ 2 + F.ν x y z ^ 2) + g * Φ x y z

/-- `w` are the weights of the Laplacian of radius `NN`. -/
noncomputable def Move.on (NN : Nat) (w : Nat → ℝ) (F : Lat ℝ) : Move → Lat ℝ
  | .kick true k => ⟨F.φ, fun x y z => F.ν x y z + k * laplacian w NN F.φ x y z⟩
  | .kick false k => ⟨fun x y z => F.φ x y z + k * laplacian w NN F.ν x y z, F.ν⟩
  | .turn k g Φ =>
    ⟨fun x y z => Real.cos (angle k g Φ F x y z) * F.φ x y z -
        Real.sin (angle k g Φ F x y z) * F.ν x y z,
     fun x y z => Real.sin (angle k g Φ F x y z) * F.φ x y z +
        Real.cos (angle k g Φ F x y z) * F.ν x y z⟩

/-- A list of moves. -/
noncomputable def moves (NN : Nat) (w : Nat → ℝ) (ms : List Move) (F : Lat ℝ) : Lat ℝ :=
  ms.foldl (Move.on NN w) F

/-- Sum over the lattice. -/
noncomputable def total (Lx N : Nat) (f : Int → Int → Int → ℝ) : ℝ :=
  ∑ x ∈ Finset.range Lx, ∑ y ∈ Finset.range Lx, ∑ z ∈ Finset.range N, f x y z

end Jaxions.Paxion
