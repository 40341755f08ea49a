import Verif.Model.Norm
/-!
What normalisation and the profile of cores should do (C56).
-/
namespace Jaxions.Norm

/-- The memory of `m` holds `Φ x y k`, where `k = 0` is the ghost slice below, `k = 1 .. Lz` are the
slices of the rank and `k = Lz + 1` is the ghost slice above. -/
def Holds (g : Geo) (h : Mem) (Φ : ℕ → ℕ → ℕ → ℂ) : Prop :=
  ∀ x < g.n1, ∀ y < g.n1, ∀ k < g.Lz + 2,
    h (.m, g.n1 * g.n1 * g.Ng + (x + g.n1 * y + g.n1 * g.n1 * k) - g.n1 * g.n1) = some (Φ x y k)

/-- Sine of the angle from `a` to `b`, times the ratio of their moduli. -/
noncomputable def turn (a b : ℂ) : ℝ := (b / a).im

/-- Sum of the squares over the six neighbours on the lattice, periodic in x and y. -/
noncomputable def grad2 (n : ℕ) (Φ : ℕ → ℕ → ℕ → ℂ) (x y k : ℕ) : ℝ :=
  turn (Φ x y k) (Φ ((x + 1) % n) y k) ^ 2 + turn (Φ x y k) (Φ ((x + n - 1) % n) y k) ^ 2 +
  turn (Φ x y k) (Φ x ((y + 1) % n) k) ^ 2 + turn (Φ x y k) (Φ x ((y + n - 1) % n) k) ^ 2 +
  turn (Φ x y k) (Φ x y (k + 1)) ^ 2 + turn (Φ x y k) (Φ x y (k - 1)) ^ 2

end Jaxions.Norm
