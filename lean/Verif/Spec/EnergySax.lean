import Verif.Spec.Energy
import Verif.Spec.SaxKernel
import Verif.Model.EnergySax
/-
Specification for C52: the energy density of the complex field, split in a radial and an angular
part.
-/
noncomputable section

namespace Jaxions.Energy

open SaxKernel

/-- Scale factor, `R'/R`, lattice spacing, self coupling, susceptibility (axion mass squared), shift
of the symmetric point along the real axis in units of the physical field. -/
structure SaxUniverse where
  R : ℝ
  H : ℝ
  δ : ℝ
  l : ℝ
  chi : ℝ
  sh : ℝ

/-- Difference of two values. -/
def dif (a b : ℝ × ℝ) : ℝ × ℝ := (a.1 - b.1, a.2 - b.2)

/-- Mean of the squares of a part (radial or angular) of the forward and backward difference at `c`;
`part c d` is `|c|` times the part of `d`. -/
def meanPart (part : ℝ × ℝ → ℝ × ℝ → ℝ) (f c b : ℝ × ℝ) : ℝ :=
  (part c (dif f c) ^ 2 + part c (dif c b) ^ 2) / radial c c / 2

/-- Physical energy densities of the field `φ` with conformal time derivative `φ'`, entries in the
order of the result: angular gradients along x, y, z, angular kinetic, axion potential `V`, the same
for the radius with the symmetry breaking potential, and the radius itself. -/
def saxDensity (U : SaxUniverse) (pq : Pq) (V : ℝ × ℝ → ℝ) (φ φ' : ℤ → ℤ → ℤ → ℝ × ℝ)
    (x y z : ℤ) : ℕ → ℝ
  | 0 => meanPart angular (φ (x + 1) y z) (φ x y z) (φ (x - 1) y z) / U.δ ^ 2 / (2 * U.R ^ 2)
  | 1 => meanPart angular (φ x (y + 1) z) (φ x y z) (φ x (y - 1) z) / U.δ ^ 2 / (2 * U.R ^ 2)
  | 2 => meanPart angular (φ x y (z + 1)) (φ x y z) (φ x y (z - 1)) / U.δ ^ 2 / (2 * U.R ^ 2)
  | 3 => angular (φ x y z) (φ' x y z) ^ 2 / radial (φ x y z) (φ x y z) / (2 * U.R ^ 2)
  | 4 => V (φ x y z)
  | 5 => meanPart radial (φ (x + 1) y z) (φ x y z) (φ (x - 1) y z) / U.δ ^ 2 / (2 * U.R ^ 2)
  | 6 => meanPart radial (φ x (y + 1) z) (φ x y z) (φ x (y - 1) z) / U.δ ^ 2 / (2 * U.R ^ 2)
  | 7 => meanPart radial (φ x y (z + 1)) (φ x y z) (φ x y (z - 1)) / U.δ ^ 2 / (2 * U.R ^ 2)
  | 8 => radial (φ x y z) (φ' x y z) ^ 2 / radial (φ x y z) (φ x y z) / (2 * U.R ^ 2)
  | 9 => Vpq U.l pq ((φ x y z).1 - U.sh) (φ x y z).2
  | 10 => Real.sqrt (((φ x y z).1 - U.sh) ^ 2 + (φ x y z).2 ^ 2)
  | _ => 0

/-- The QCD potential named by the option, at the shifted field. -/
def named (U : SaxUniverse) (qcd : Qcd) (c : ℝ × ℝ) : ℝ := Vqcd U.chi qcd (c.1 - U.sh) c.2

/-- Which requests ask for the totals, for the masked sums. -/
def wantsTotal : Req → Prop
  | .ene => True
  | .map => True
  | .enemask => True
  | .enemapmask => True
  | _ => False
def wantsMask : Req → Prop
  | .ene => False
  | .map => False
  | _ => True

instance (r : Req) : Decidable (wantsTotal r) := by cases r <;> unfold wantsTotal <;> infer_instance
instance (r : Req) : Decidable (wantsMask r) := by cases r <;> unfold wantsMask <;> infer_instance

end Jaxions.Energy
