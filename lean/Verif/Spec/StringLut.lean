import Verif.Model.StringLut

/-!
Specification for C96: a table of a function of four variables and interpolation in it.
-/

namespace Jaxions.StringLut

/-- The table holds `f` at 26 x 26 x 6 x 21 points, the last variable running fastest. -/
def Tabulates (T : List ℝ) (f : ℕ → ℕ → ℕ → ℕ → ℝ) : Prop :=
  T.length = 26 * 26 * 6 * 21 ∧ ∀ a b e c, a < 26 → b < 26 → e < 6 → c < 21 →
    T[((a * 26 + b) * 6 + e) * 21 + c]? = some (f a b e c)

/-- Between two values. -/
def mix (x y t : ℝ) : ℝ := x * (1 - t) + y * t

/-- Interpolation in all four variables at the position `a b e c`, in units of the spacings. -/
noncomputable def blend (f : ℕ → ℕ → ℕ → ℕ → ℝ) (a b e c : ℝ) : ℝ :=
  let g4 (i j k : ℕ) := mix (f i j k ⌊c⌋₊) (f i j k (⌊c⌋₊ + 1)) (c - ⌊c⌋₊)
  let g3 (i j : ℕ) := mix (g4 i j ⌊e⌋₊) (g4 i j (⌊e⌋₊ + 1)) (e - ⌊e⌋₊)
  let g2 (i : ℕ) := mix (g3 i ⌊b⌋₊) (g3 i (⌊b⌋₊ + 1)) (b - ⌊b⌋₊)
  mix (g2 ⌊a⌋₊) (g2 (⌊a⌋₊ + 1)) (a - ⌊a⌋₊)

/-- The sites at which the callers use the table. -/
structure Near (d : Da) : Prop where
  a0 : |d.m0| ≤ |5 * d.a0|
  b0 : |d.m1| ≤ |5 * d.b0|
  a1 : |d.m0| ≤ |5 * d.a1|
  b1 : |d.m1| ≤ |5 * d.b1|
  a2 : |d.m0| ≤ |5 * d.a2|
  b2 : |d.m1| ≤ |5 * d.b2|

/-- The site in the field turned by half a turn. -/
def Da.turned (d : Da) : Da :=
  ⟨-d.m0, -d.m1, -d.v0, -d.v1, -d.a0, -d.a1, -d.a2, -d.b0, -d.b1, -d.b2⟩

/-- The site in the complex conjugate field. -/
def Da.conj (d : Da) : Da := ⟨d.m0, -d.m1, d.v0, -d.v1, d.a0, d.a1, d.a2, -d.b0, -d.b1, -d.b2⟩

/-- Real and imaginary part exchanged. -/
def Da.swapped (d : Da) : Da := ⟨d.m1, d.m0, d.v1, d.v0, d.b0, d.b1, d.b2, d.a0, d.a1, d.a2⟩

/-- The negative number. -/
def Res.neg : Res → Res
  | .val r => .val (-r)
  | .nan => .nan
  | .outside => .outside

end Jaxions.StringLut
