import Verif.Model.MomConf
/-
What the initial conditions in momentum space should be.
-/
noncomputable section

namespace Jaxions.MomConf

/-- Mode numbers of a lattice of `n` points: from `-(n-1)/2` to `n/2`. -/
def InRange (n : ℕ) (p : ℤ) : Prop := -(n : ℤ) < 2 * p ∧ 2 * p ≤ n

/-- The modes of the box; a real field keeps those with `px ≥ 0`. -/
def Geo.InBox (g : Geo) (p : ℤ × ℤ × ℤ) : Prop :=
  (if g.cmplx then InRange g.Lx p.1 else 0 ≤ p.1 ∧ 2 * p.1 ≤ g.Lx) ∧
    InRange g.Lx p.2.1 ∧ InRange g.Tz p.2.2

/-- Squared length of a mode. -/
def sq (p : ℤ × ℤ × ℤ) : ℤ := p.1 ^ 2 + p.2.1 ^ 2 + p.2.2 ^ 2

/-- The iterations of a loop, done in any order by any threads. -/
def Geo.Schedule (g : Geo) (L : List (ℕ × Cell)) : Prop := (L.map Prod.snd).Perm g.cells

/-- Every cell of the two arrays is allocated. -/
def Geo.Allocated (g : Geo) (s : State) : Prop :=
  ∀ a < g.LLy * g.Tz * g.maxLx, (s.fM a).isSome ∧ (s.fV a).isSome

/-- Cells of a rank. -/
def Geo.Valid (g : Geo) (c : Cell) : Prop := c.y < g.LLy ∧ c.z < g.Tz ∧ c.x < g.maxLx

/-- Amplitude of a mode of length `k`, for the types with a formula. -/
def shape (K : Kind) (kc : ℝ) (Lx : ℕ) (k : ℝ) : ℝ :=
  match K with
  | .flat => 1
  | .sin => if k = 0 then 1 else |Real.sin (k / kc) / (k / kc)|
  | .vsincos => if k = 0 then 1 else |Real.sin (k / kc) / (k / kc)|
  | .exp => Real.exp (-(k / kc))
  | .exp2 => Real.exp (-(k / kc) ^ 2)
  | .cole => Real.exp (-(2 * k / Lx) ^ 2) / (1 + (k / kc) ^ 2) ^ (1.5 : ℝ)
  | .kcole => Real.exp (-(k / kc) ^ 2)
  | .spax => 0
  | .vthermal => 0

end Jaxions.MomConf
