import Verif.Model.AnyString
import Mathlib.MeasureTheory.Integral.IntervalIntegral.Basic
/-
What a string given by points should be.
-/
noncomputable section

namespace Jaxions.AnyString

/-- First component of `v × r / |r|³`, the law of Biot and Savart for an element `v` seen from `r`. -/
def biot (v r : Pt) : ℝ :=
  (v.2.1 * r.2.2 - v.2.2 * r.2.1) / Real.sqrt (r.1 ^ 2 + r.2.1 ^ 2 + r.2.2 ^ 2) ^ 3

/-- Its integral along the link of length one that starts at `r` in the first direction. -/
def linkField (v r : Pt) : ℝ := ∫ s in (0 : ℝ)..1, biot v (r.1 + s, r.2.1, r.2.2)

/-- Element and distance to its middle for the segment from `P` to `Q`. -/
def elem (P Q : Pt) : Pt := (Q.1 - P.1, Q.2.1 - P.2.1, Q.2.2 - P.2.2)
def sep (P Q X : Pt) : Pt :=
  (X.1 - (P.1 + Q.1) / 2, X.2.1 - (P.2.1 + Q.2.1) / 2, X.2.2 - (P.2.2 + Q.2.2) / 2)

/-- Points of a segment used close to it, from the far end back to one tenth before the start. -/
def sample (P Q X : Pt) (u : ℝ) : Pt :=
  ((sep P Q X).1 + (elem P Q).1 * u, (sep P Q X).2.1 + (elem P Q).2.1 * u,
    (sep P Q X).2.2 + (elem P Q).2.2 * u)

/-- Squared length. -/
def len2 (p : Pt) : ℝ := p.1 ^ 2 + p.2.1 ^ 2 + p.2.2 ^ 2

/-- The link from `X` in the first direction meets the point `X - d`. -/
def Meets (d : Pt) : Prop := d.2.1 = 0 ∧ d.2.2 = 0 ∧ -1 ≤ d.1 ∧ d.1 ≤ 0

/-- The arrays of a rank are allocated: gradients in `m2`, angles in `th`. -/
def Box.Alloc2 (b : Box) (m2 : Heap ℕ ℝ) : Prop := ∀ a < 2 * b.v3, (m2 a).isSome
def Box.AllocT (b : Box) (th : Heap ℕ ℝ) : Prop := ∀ a ≤ b.V, (th a).isSome

/-- Gradients of a rank on its links: `Gx` at every cell, `Gy` on the face `x = 0`, `Gz` on the
edge. -/
structure Grad where
  Gx : ℕ → ℝ
  Gy : ℕ → ℕ → ℝ
  Gz : ℕ → ℝ

/-- `m2` holds the gradients. -/
def Box.Holds (b : Box) (m2 : Heap ℕ ℝ) (g : Grad) : Prop :=
  (∀ idx < b.V, m2 (b.atBx idx) = some (g.Gx idx)) ∧
  (∀ y < b.Lx, ∀ k < b.nz, m2 (b.atBy y k) = some (g.Gy y k)) ∧
  (∀ k < b.nz, m2 (b.atBz k) = some (g.Gz k))

def Box.cell (b : Box) (x y k : ℕ) : ℕ := k * b.Sf + y * b.Lx + x

/-- Sum of `n` links. -/
def path (n : ℕ) (f : ℕ → ℝ) : ℝ := ((List.range n).map f).sum

/-- Angle at a cell: from the start of the slice along y, then along x. -/
def Box.angle (b : Box) (g : Grad) (start : ℕ → ℝ) (x y k : ℕ) : ℝ :=
  start k + path y (fun j => g.Gy j k) + path x (fun i => g.Gx (b.cell i y k))

/-- Angle of the edge in the whole box: the sum of all links below, on all ranks. -/
def Box.edgeAngle (b : Box) (g : ℕ → Grad) (rank k : ℕ) : ℝ :=
  path rank (fun r => path b.nz (g r).Gz) + path k (g rank).Gz

/-- The phase is the same. -/
def SamePhase (s t : ℝ) : Prop := ∃ n : ℤ, s = t + 2 * Real.pi * n

/-- `g` are the gradients of the string at the links of a rank: half the sum over the segments, the
three directions by renaming the axes. -/
def Box.IsGrad (b : Box) (pts : List Pt) (eps : List ℤ) (rank : ℕ) (g : Grad) : Prop :=
  (∀ x < b.Lx, ∀ y < b.Lx, ∀ k < b.nz,
    segSum pts eps id (b.pos rank (b.cell x y k)) = some (2 * g.Gx (b.cell x y k))) ∧
  (∀ y < b.Lx, ∀ k < b.nz,
    segSum pts eps rot (b.pos rank (b.cell 0 y k)) = some (2 * g.Gy y k)) ∧
  (∀ k < b.nz, segSum pts eps (fun p => rot (rot p)) (b.pos rank (b.cell 0 0 k)) =
    some (2 * g.Gz k))

/-- Moved along z. -/
def lift (h : ℝ) (p : Pt) : Pt := (p.1, p.2.1, p.2.2 + h)

/-- Sum over the segments of a list of points that the marks do not exclude. -/
def imageSum (pts : List Pt) (eps : List ℤ) (seg : Pt → Pt → ℝ) : ℝ :=
  (((pts.zip pts.tail).zip eps).map fun s => if s.2 = 1 then 0 else seg s.1.1 s.1.2).sum

end Jaxions.AnyString
