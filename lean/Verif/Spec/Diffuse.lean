import Verif.Spec.Masker

/-
What one iteration of the diffused mask should do to the numbers and the string map of the whole
lattice.
-/

namespace Jaxions.Masker

open AxSpec (Grid Site)

/-- The six neighbours on the periodic lattice of `L × L × T`. -/
def nb (L T : ℕ) (V : ℕ → ℕ → ℕ → ℝ) (x y z : ℕ) : List ℝ :=
  [V ((x + 1) % L) y z, V ((x + L - 1) % L) y z, V x ((y + 1) % L) z, V x ((y + L - 1) % L) z,
    V x y ((z + 1) % T), V x y ((z + T - 1) % T)]

open Classical in
/-- The new number. -/
noncomputable def newV (L T : ℕ) (grow : Bool) (V : ℕ → ℕ → ℕ → ℝ) (B : ℕ → ℕ → ℕ → Byte) (x y z : ℕ) : ℝ :=
  if (B x y z).mask then 1
  else if grow then (if ∃ v ∈ nb L T V x y z, 0 < v then 1 else 0)
  else (nb L T V x y z).sum / 6

open Classical in
/-- The new byte. -/
noncomputable def newB (L T : ℕ) (grow : Bool) (V : ℕ → ℕ → ℕ → ℝ) (B : ℕ → ℕ → ℕ → Byte) (x y z : ℕ) : Byte :=
  if grow = true ∧ (∃ v ∈ nb L T V x y z, 0 < v) then (B x y z).addMask else B x y z

/-- Rank `r` has its part of them. -/
structure Part (g : Grid) (r : ℕ) (V : ℕ → ℕ → ℕ → ℝ) (B : ℕ → ℕ → ℕ → Byte) (s : Rank) : Prop where
  m2 : ∀ x y z, x < g.L → y < g.L → z < g.Lz → s.m2 (GR g + g.bare (x, y, z)) = some (V x y (r * g.Lz + z))
  sd : ∀ x y z, x < g.L → y < g.L → z < g.Lz → s.sd (g.bare (x, y, z)) = some (B x y (r * g.Lz + z))
  room : ∀ a, a < 2 * g.v3 → (s.m2 a).isSome

/-- Steps between two places of a circle of `L`. -/
def circ (L a b : ℕ) : ℕ := min ((a + (L - b)) % L) ((b + (L - a)) % L)

/-- A site of `C` can be reached in `n` steps along the axes of the periodic lattice. -/
def Within (L T n : ℕ) (C : ℕ → ℕ → ℕ → Prop) (x y z : ℕ) : Prop :=
  ∃ x' y' z', x' < L ∧ y' < L ∧ z' < T ∧ C x' y' z' ∧ circ L x x' + circ L y y' + circ T z z' ≤ n

/-- Iterations, the first `G` of which let the mask grow. -/
noncomputable def run (L T G : ℕ) (V : ℕ → ℕ → ℕ → ℝ) (B : ℕ → ℕ → ℕ → Byte) :
    ℕ → (ℕ → ℕ → ℕ → ℝ) × (ℕ → ℕ → ℕ → Byte)
  | 0 => (V, B)
  | k + 1 =>
    (newV L T (decide (k < G)) (run L T G V B k).1 (run L T G V B k).2,
     newB L T (decide (k < G)) (run L T G V B k).1 (run L T G V B k).2)

end Jaxions.Masker
