import Verif.Spec.EnergySax
/-
Specification for C53: averages over the whole lattice and over its masked sites, the slab of a
rank, and the names under which the averages are stored.
-/
noncomputable section

namespace Jaxions.Energy

/-- The field of rank `r` as it sees it: its first physical slice `r Lz` has number `NN`. -/
def slab {α : Type} (Lz NN r : ℕ) (Φ : ℤ → ℤ → ℤ → α) (x y z : ℤ) : α := Φ x y (z - NN + r * Lz)

/-- Average over the `V` sites of the whole lattice. -/
def mean (V : ℕ) (f : ℕ → ℝ) : ℝ := (∑ n ∈ Finset.range V, f n) / V

/-- Number of masked sites, and average over them. -/
def masked (V : ℕ) (mk : ℕ → Bool) : ℕ := ((Finset.range V).filter fun n => mk n = true).card
def maskedMean (V : ℕ) (mk : ℕ → Bool) (f : ℕ → ℝ) : ℝ :=
  (∑ n ∈ (Finset.range V).filter (fun n => mk n = true), f n) / masked V mk

/-- Names of the eleven densities of `saxDensity`. -/
def quantity : ℕ → String
  | 0 => "Axion Gr X"
  | 1 => "Axion Gr Y"
  | 2 => "Axion Gr Z"
  | 3 => "Axion Kinetic"
  | 4 => "Axion Potential"
  | 5 => "Saxion Gr X"
  | 6 => "Saxion Gr Y"
  | 7 => "Saxion Gr Z"
  | 8 => "Saxion Kinetic"
  | 9 => "Saxion Potential"
  | _ => "Saxion vev"

end Jaxions.Energy
