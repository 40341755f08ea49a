import Verif.Model.AxionSpectrum

/-
What the arrays behind the axion spectra should hold, in terms of the field alone.
-/

namespace Jaxions.AxSpec

open Complex

/-- Sizes of a slab; the padded copy of it fits into one half of `m2`. -/
structure Grid.Ok (g : Grid) : Prop where
  L : 0 < g.L
  Lz : 0 < g.Lz
  Ng : 1 ≤ g.Ng
  fits : g.Lz ≤ g.Ng * g.L

/-- A site of the slab. -/
def Grid.In (g : Grid) (p : Site) : Prop := p.1 < g.L ∧ p.2.1 < g.L ∧ p.2.2 < g.Lz

/-- Each site once, in some order. -/
structure Grid.Order (g : Grid) (order : List Site) : Prop where
  nodup : order.Nodup
  mem : ∀ p, p ∈ order ↔ g.In p

/-- Both halves of `m2` are there. -/
def Grid.Room {α : Type} (g : Grid) (t : Heap ℕ α) : Prop := ∀ a, a < 2 * g.v3 → (t a).isSome

/-- The rank with slices `z0, z0+1, ...` of the periodic field `φ` of `T` slices holds them with
one right slice at each end, its velocities `ω` and its string map `hit`. -/
structure Holds (g : Grid) (T z0 : ℕ) (M : Mem) (φ ω : ℕ → ℕ → ℕ → ℂ) (hit : ℕ → ℕ → ℕ → Bool) :
    Prop where
  room : z0 + g.Lz ≤ T
  m : ∀ x y j, x < g.L → y < g.L → j < g.Lz + 2 →
    M.m (g.ma (x + g.L * y + g.S * j)) = some (φ x y ((z0 + j + T - 1) % T))
  v : ∀ x y z, x < g.L → y < g.L → z < g.Lz → M.v (x + g.L * y + g.S * z) = some (ω x y (z0 + z))
  sd : ∀ x y z, x < g.L → y < g.L → z < g.Lz →
    M.sd (x + g.L * y + g.S * z) = some (hit x y (z0 + z))

/-- The point `(x, y, z)` of the periodic field and its six neighbours. -/
def around (L T : ℕ) (φ : ℕ → ℕ → ℕ → ℂ) (x y z : ℕ) : Near :=
  ⟨φ x y z, φ ((x + 1) % L) y z, φ ((x + L - 1) % L) y z, φ x ((y + 1) % L) z,
    φ x ((y + L - 1) % L) z, φ x y ((z + 1) % T), φ x y ((z + T - 1) % T)⟩

/-- Rate of change of the phase of `w` when `w` changes at the rate `u`. -/
noncomputable def phaseRate (w u : ℂ) : ℝ := (u / w).im

/-- What a mask makes of the factor `R`: `hit` tells a site near a string, `q` is the stored
smooth mask. -/
noncomputable def maskFactor (k : Mask) (R : ℝ) (w : ℂ) (hit : Bool) (q : ℝ) : ℝ :=
  match k with
  | .redo | .ball => if hit then 0 else R
  | .gaus | .diff => q * R
  | .vil => ‖w‖
  | .vil2 => ‖w‖ ^ 2 / R
  | _ => R

/-- The stored number when the field does not vanish at the site, or the site is masked. -/
noncomputable def maskedRate (k : Mask) (R : ℝ) (w : ℂ) (hit : Bool) (q r : ℝ) : ℝ :=
  maskFactor k R w hit q * r

end Jaxions.AxSpec
