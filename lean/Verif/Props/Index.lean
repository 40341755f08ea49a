import Verif.Model.Index
import Verif.Basic.DivMod
/-
C03: site numbers and coordinates.
-/
namespace Jaxions

/-- **C03** Decoding a site number in row order gives back the coordinates it was built from. -/
theorem C03_coords_of_number (L x y z : Nat) (hx : x < L) (hy : y < L) :
    idx2Vec (x + L * (y + L * z)) L = (x, y, z) := by
  have e : x + L * (y + L * z) = (z * L + y) * L + x := by
    rw [Nat.mul_comm L (y + L * z), Nat.mul_comm L z, Nat.add_comm y]; omega
  have h1 : ((z * L + y) * L + x) / L = z * L + y := div_of hx
  have h2 : (z * L + y) / L = z := div_of hy
  simp only [idx2Vec, e, h1, h2, Prod.mk.injEq, and_true]
  omega

/-- **C03** The site number of decoded coordinates is the number decoded; the decoded coordinates
are in range. -/
theorem C03_number_of_coords (L Lz idx : Nat) (h : idx < Lz * (L * L)) :
    vec2Idx (idx2Vec idx L) L = idx ∧
      (idx2Vec idx L).1 < L ∧ (idx2Vec idx L).2.1 < L ∧ (idx2Vec idx L).2.2 < Lz := by
  have hL : 0 < L := by
    rcases Nat.eq_zero_or_pos L with h0 | h0
    · subst h0; simp at h
    · exact h0
  have e1 := div_mul_add_mod idx L
  have e2 := div_mul_add_mod (idx / L) L
  have b1 := Nat.mod_lt idx hL
  have b2 := Nat.mod_lt (idx / L) hL
  have c1 : idx - idx / L * L = idx % L := by omega
  have c2 : idx / L - idx / L / L * L = idx / L % L := by omega
  simp only [idx2Vec, vec2Idx, c1, c2]
  refine ⟨?_, b1, b2, ?_⟩
  · rw [Nat.mul_comm L (idx / L / L), Nat.add_comm (idx / L % L), e2, Nat.mul_comm L, Nat.add_comm]
    exact e1
  · apply lt_of_mul_div
    apply lt_of_mul_div
    rwa [Nat.mul_assoc]

/-- **C03** Padded numbering `x + (L+2)(y + L z)`: decoding gives back the coordinates. -/
theorem C03_padded (L x y z : Nat) (hx : x < L + 2) (hy : y < L) :
    idx2VecPad (x + (L + 2) * (y + L * z)) L = (x, y, z) := by
  have e : x + (L + 2) * (y + L * z) = (z * L + y) * (L + 2) + x := by
    rw [Nat.mul_comm (L + 2), Nat.mul_comm L z, Nat.add_comm y]; omega
  have h1 : ((z * L + y) * (L + 2) + x) / (L + 2) = z * L + y := div_of hx
  have h2 : (z * L + y) / L = z := div_of hy
  simp only [idx2VecPad, e, h1, h2, Prod.mk.injEq, and_true]
  omega

/-- **C03** padded direction, other way round: every padded number decodes into range and is the
padded number of its coordinates. -/
theorem C03_padded_number (L Lz idx : Nat) (hL : 0 < L) (h : idx < Lz * (L * (L + 2))) :
    let v := idx2VecPad idx L
    v.1 + (L + 2) * (v.2.1 + L * v.2.2) = idx ∧ v.1 < L + 2 ∧ v.2.1 < L ∧ v.2.2 < Lz := by
  have e1 := div_mul_add_mod idx (L + 2)
  have e2 := div_mul_add_mod (idx / (L + 2)) L
  have b1 := Nat.mod_lt idx (by omega : 0 < L + 2)
  have b2 := Nat.mod_lt (idx / (L + 2)) hL
  have c1 : idx - idx / (L + 2) * (L + 2) = idx % (L + 2) := by omega
  have c2 : idx / (L + 2) - idx / (L + 2) / L * L = idx / (L + 2) % L := by omega
  simp only [idx2VecPad, c1, c2]
  refine ⟨?_, b1, b2, ?_⟩
  · rw [Nat.mul_comm L (idx / (L + 2) / L), Nat.add_comm (idx / (L + 2) % L), e2,
      Nat.mul_comm (L + 2), Nat.add_comm]
    exact e1
  · apply lt_of_mul_div
    apply lt_of_mul_div
    rwa [Nat.mul_assoc]

/-- Site number of coordinates, specification form. -/
def siteNo (L x y z : Nat) : Nat := (z * L + y) * L + x

/-- **C03** The four in-plane neighbours of a site are the periodic neighbours, for every length
of at least two. -/
theorem C03_neighbours (L x y z : Nat) (hL : 2 ≤ L) (hx : x < L) (hy : y < L) :
    idx2VecNeighX (siteNo L x y z) L = (x, y, z) ∧
    idx2VecNeighO (siteNo L x y z) L =
      ⟨siteNo L ((x + 1) % L) y z, siteNo L ((x + L - 1) % L) y z,
       siteNo L x ((y + 1) % L) z, siteNo L x ((y + L - 1) % L) z⟩ := by
  have h1 : ((z * L + y) * L + x) / L = z * L + y := div_of hx
  have h2 : (z * L + y) / L = z := div_of hy
  have hX : idx2VecNeighX (siteNo L x y z) L = (x, y, z) := by
    simp only [idx2VecNeighX, siteNo, h1, h2, Prod.mk.injEq, and_true]
    omega
  refine ⟨hX, ?_⟩
  -- periodic coordinates without division
  have per1 : ∀ t, t < L → (t + 1) % L = if t = L - 1 then 0 else t + 1 := by
    intro t ht
    split
    · have : t + 1 = L := by omega
      rw [this, Nat.mod_self]
    · exact Nat.mod_eq_of_lt (by omega)
  have per2 : ∀ t, t < L → (t + L - 1) % L = if t = 0 then L - 1 else t - 1 := by
    intro t ht
    split
    · next h => subst h; rw [Nat.zero_add]; exact Nat.mod_eq_of_lt (by omega)
    · have : t + L - 1 = (t - 1) + L := by omega
      rw [this, Nat.add_mod_right]
      exact Nat.mod_eq_of_lt (by omega)
  rw [per1 x hx, per1 y hy, per2 x hx, per2 y hy]
  simp only [idx2VecNeighO, hX]
  have cast1 : ((L - 1 : Nat) : Int) = (L : Int) - 1 := by omega
  have cx : x ≠ 0 → ((x - 1 : Nat) : Int) = (x : Int) - 1 := by intro h; omega
  have cy : y ≠ 0 → ((y - 1 : Nat) : Int) = (y : Int) - 1 := by intro h; omega
  have key : ∀ t : Nat, t < L → (t = 0 ∧ t ≠ L - 1) ∨ (t ≠ 0 ∧ t = L - 1 ∧ (L : Int) = t + 1) ∨
      (t ≠ 0 ∧ t ≠ L - 1) := by intro t ht; omega
  rw [Neigh.mk.injEq]
  refine ⟨?_, ?_, ?_, ?_⟩ <;> simp only [siteNo]
  · rcases key x hx with ⟨h0, h⟩ | ⟨h0, h, hl⟩ | ⟨h0, h⟩
    · rw [if_pos h0, if_neg h]; push_cast; grind
    · rw [if_neg h0, if_pos h, if_pos h]; push_cast; grind
    · rw [if_neg h0, if_neg h, if_neg h]; push_cast; grind
  · rcases key x hx with ⟨h0, h⟩ | ⟨h0, h, hl⟩ | ⟨h0, h⟩
    · rw [if_pos h0, if_pos h0]; push_cast; rw [cast1]; grind
    · rw [if_neg h0, if_neg h0, if_pos h]; push_cast; rw [cx h0]; grind
    · rw [if_neg h0, if_neg h, if_neg h0]; push_cast; rw [cx h0]; grind
  · rcases key y hy with ⟨h0, h⟩ | ⟨h0, h, hl⟩ | ⟨h0, h⟩
    · rw [if_pos h0, if_neg h]; push_cast; grind
    · rw [if_neg h0, if_pos h, if_pos h]; push_cast; grind
    · rw [if_neg h0, if_neg h, if_neg h]; push_cast; grind
  · rcases key y hy with ⟨h0, h⟩ | ⟨h0, h, hl⟩ | ⟨h0, h⟩
    · rw [if_pos h0, if_pos h0]; push_cast; rw [cast1]; grind
    · rw [if_neg h0, if_neg h0, if_pos h]; push_cast; rw [cy h0]; grind
    · rw [if_neg h0, if_neg h, if_neg h0]; push_cast; rw [cy h0]; grind

/-- The neighbours are sites of the grid, so the unsigned arithmetic of the code is exact. -/
theorem C03_neighbours_in_grid (L Lz x y z : Nat) (hL : 2 ≤ L) (hx : x < L) (hy : y < L)
    (hz : z < Lz) :
    let o := idx2VecNeighO (siteNo L x y z) L
    ∀ k ∈ [o.px, o.mx, o.py, o.my], 0 ≤ k ∧ k < ((Lz * (L * L) : Nat) : Int) := by
  have h := (C03_neighbours L x y z hL hx hy).2
  have L0 : 0 < L := by omega
  have key : ∀ a b, a < L → b < L →
      (0 : Int) ≤ (siteNo L a b z : Nat) ∧ ((siteNo L a b z : Nat) : Int) < ((Lz * (L * L) : Nat) : Int) := by
    intro a b ha hb
    have : siteNo L a b z < Lz * (L * L) := by
      rw [← Nat.mul_assoc]; exact pair_lt (pair_lt hz hb) ha
    omega
  have m := fun t => Nat.mod_lt t L0
  simp only [h, List.mem_cons, List.not_mem_nil, or_false]
  rintro k (rfl | rfl | rfl | rfl)
  · exact key _ _ (m _) hy
  · exact key _ _ (m _) hy
  · exact key _ _ hx (m _)
  · exact key _ _ hx (m _)

-- concrete cases: corner site of a 4 x 4 plane
example : idx2VecNeighO (siteNo 4 3 0 2) 4 = ⟨32, 34, 39, 47⟩ := by decide
example : idx2VecPad (5 + 6 * (3 + 4 * 1)) 4 = (5, 3, 1) := by decide

end Jaxions

namespace Jaxions
/-- Remark: for a plane of one site the code answers a number outside the plane. -/
theorem C03_length_one : idx2VecNeighO (siteNo 1 0 0 0) 1 = ⟨1, 0, 1, 0⟩ := by decide
end Jaxions
