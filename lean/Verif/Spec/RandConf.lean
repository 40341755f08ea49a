import Verif.Model.RandConf
import Mathlib.Topology.Basic
import Mathlib.Analysis.SpecialFunctions.Complex.Circle
/-
What the point based initial conditions should be.
-/
noncomputable section

namespace Jaxions.RandConf

/-- The iterations of a loop over `n` cells, done in any order by any threads. -/
def Schedule (n : ℕ) (L : List (ℕ × ℕ)) : Prop := (L.map Prod.snd).Perm (List.range n)

/-- The array has room for the cells of a rank. -/
def Box.Allocated (b : Box) (m : Heap ℕ (Option ℂ)) : Prop := ∀ a < b.V, (m a).isSome

/-- Height in the whole box of slice `k` of a rank. -/
def Box.height (b : Box) (rank k : ℕ) : ℕ := rank * b.nz + k

/-- Address of a point on its rank. -/
def Box.cell (b : Box) (x y k : ℕ) : ℕ := k * b.Sf + y * b.Lx + x

/-- Angle announced by the help text for a type of initial conditions,
lib/utils/parse.cpp:368-373, at a point where the random number is `u`. -/
def announced (K : Sub) (b : Box) (ic : Ic) (x y z : ℕ) (u : ℝ) : ℝ :=
  match K with
  | .axnoise => ic.mode0 + u * ic.kcr
  | .saxnoise => ic.mode0
  | .ax1mode => ic.mode0 * Real.cos (2 * Real.pi * (ic.kMax * x + y) / b.Lx)
  | .parres => ic.mode0 * Real.cos (2 * Real.pi * (ic.kx * x + ic.ky * y + ic.kz * z) / b.Lx)
  | _ => 0

/-- A point of a periodic line of `n` points seen from the origin: the representative nearest to
zero. -/
def Nearest (n : ℕ) (i d : ℤ) : Prop := (∃ k : ℤ, d = i + k * n) ∧ -(n : ℤ) ≤ 2 * d ∧ 2 * d ≤ n

/-- Gaussian bump of height `h` and width `σ` at distance `r`. -/
def bump (h σ r : ℝ) : ℝ := h * Real.exp (-r ^ 2 / (2 * σ ^ 2))

/-- Share of the half turn gained at distance `ρ` from the axis and height `z` above the plane of a
circle of radius `a`: half of one minus the cosine of the angle under which the diameter is seen.
The cosine is the scalar product of the two vectors to the ends of the diameter over their
lengths. -/
def share (a ρ z : ℝ) : ℝ :=
  (1 - ((ρ + a) * (ρ - a) + z * z) /
    (Real.sqrt ((ρ + a) ^ 2 + z ^ 2) * Real.sqrt ((ρ - a) ^ 2 + z ^ 2))) / 2

/-- Field of a loop of radius `a`: the phase climbs to `π` on the disc from one side and to `-π`
from the other. -/
def loopField (a : ℝ) (q : ℝ × ℝ) : ℂ :=
  if 0 < q.2 then unit (Real.pi * share a q.1 q.2) else unit (-(Real.pi * share a q.1 q.2))

end Jaxions.RandConf
