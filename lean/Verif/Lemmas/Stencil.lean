import Verif.Model.Stencil
import Verif.Spec.Laplacian
import Verif.Basic.DivMod
import Mathlib.Tactic.Ring
/-
Address arithmetic of the stencil.
-/
namespace Jaxions.Stencil

/-- Geometry used in the lemmas: `Y` rows per block, `S` lanes. -/
def shape (Y S NN : Nat) : Shape := ⟨Y * S, S, NN⟩

variable {Y S NN : Nat}

theorem shape_XC : (shape Y S NN).XC = Y * S * S := rfl
theorem shape_YC (hS : 0 < S) : (shape Y S NN).YC = Y := by
  simp [shape, Shape.YC, Nat.mul_div_cancel _ hS]
theorem shape_Sf : (shape Y S NN).Sf = Y * (Y * S * S) := by
  simp only [shape, Shape.Sf]; ring

/-- Start of the vector of row `y0` of every block. -/
def vec (Y S x y0 z : Nat) : Nat := z * (Y * (Y * S * S)) + y0 * (Y * S * S) + x * S

theorem cell_eq (hS : 0 < S) (x y z : Nat) :
    cell (Y * S) S x y z = vec Y S x (y % Y) z + y / Y := by
  simp only [cell, vec, Nat.mul_div_cancel _ hS]
  ring

theorem x_lt {x : Nat} (hS : 0 < S) (hx : x < Y * S) : x * S < Y * S * S :=
  Nat.mul_lt_mul_of_pos_right hx hS

theorem vec_mod {x y0 z : Nat} (hS : 0 < S) (hx : x < Y * S) :
    vec Y S x y0 z % (Y * S * S) = x * S := by
  have : vec Y S x y0 z = (z * Y + y0) * (Y * S * S) + x * S := by simp only [vec]; ring
  rw [this]
  exact mod_of (x_lt hS hx)

theorem vec_div {x y0 z : Nat} (hS : 0 < S) (hx : x < Y * S) (hy : y0 < Y) :
    vec Y S x y0 z / (Y * S * S) % Y = y0 := by
  have : vec Y S x y0 z = (z * Y + y0) * (Y * S * S) + x * S := by simp only [vec]; ring
  rw [this, div_of (x_lt hS hx)]
  exact mod_of hy

theorem lane_lt {y : Nat} (hy : y < Y * S) : y / Y < S :=
  Nat.div_lt_of_lt_mul hy

theorem addr_yPlus {x y z nv : Nat} (hS : 0 < S) (hy : y < Y * S) (h2 : 2 * nv ≤ Y) :
    (shape Y S NN).yPlus nv (y % Y) (vec Y S x (y % Y) z) (y / Y) =
      some (cell (Y * S) S x ((y + nv) % (Y * S)) z) := by
  have hY : 0 < Y := by
    rcases Nat.eq_zero_or_pos Y with h | h
    · subst h; simp at hy
    · exact h
  have hl := lane_lt hy
  have hd : Y * (y / Y) + y % Y = y := Nat.div_add_mod y Y
  have hm : y % Y < Y := Nat.mod_lt _ hY
  generalize hl' : y / Y = l at *
  generalize hy0 : y % Y = y0 at *
  rw [cell_eq hS]
  simp only [Shape.yPlus, shape_XC, shape_Sf, shape_YC hS]
  have hYl : Y * (l + 1) ≤ Y * S := Nat.mul_le_mul_left Y hl
  have hYl' : Y * (l + 1) = Y * l + Y := by ring
  by_cases h1 : y0 < nv
  · rw [if_pos h1]
    have hlt : y + nv < Y * S := by omega
    have e : y + nv = l * Y + (y0 + nv) := by rw [Nat.mul_comm l Y]; omega
    rw [Nat.mod_eq_of_lt hlt, e, mod_of (by omega), div_of (by omega)]
    simp only [vec, Option.some.injEq]
    ring
  · rw [if_neg h1]
    by_cases h3 : y0 + nv ≥ Y
    · rw [if_pos h3]
      have hb : y0 + nv - Y < Y := by omega
      have e : y + nv = (l + 1) * Y + (y0 + nv - Y) := by rw [Nat.mul_comm (l + 1) Y]; omega
      have e2 : (y + nv) % (Y * S) = ((l + 1) % S) * Y + (y0 + nv - Y) := by
        rcases Nat.lt_or_ge (l + 1) S with h | h
        · rw [Nat.mod_eq_of_lt h, e]
          apply Nat.mod_eq_of_lt
          rw [Nat.mul_comm Y S]
          exact pair_lt h hb
        · have : l + 1 = S := by omega
          rw [this, Nat.mod_self, e, this, Nat.mul_comm Y S, Nat.zero_mul, Nat.zero_add,
            Nat.add_mod_left]
          apply Nat.mod_eq_of_lt
          have := Nat.mul_le_mul_right Y hS
          omega
      rw [e2, mod_of hb, div_of hb]
      obtain ⟨q, hq⟩ : ∃ q, y0 + nv = Y + q := ⟨y0 + nv - Y, by omega⟩
      have e3 : y0 + nv - Y = q := by omega
      have e4 : vec Y S x y0 z + nv * (Y * S * S) = vec Y S x q z + Y * (Y * S * S) := by
        have : (y0 + nv) * (Y * S * S) = (Y + q) * (Y * S * S) := by rw [hq]
        simp only [vec]
        rw [Nat.add_mul, Nat.add_mul] at this
        omega
      rw [e4, e3, sub?, if_pos (by omega)]
      simp [shape]
    · rw [if_neg h3]
      have hlt : y + nv < Y * S := by omega
      have e : y + nv = l * Y + (y0 + nv) := by rw [Nat.mul_comm l Y]; omega
      rw [Nat.mod_eq_of_lt hlt, e, mod_of (by omega), div_of (by omega)]
      simp only [vec, Option.some.injEq]
      ring

theorem addr_yMinus {x y z nv : Nat} (hS : 0 < S) (hy : y < Y * S) (h2 : nv ≤ Y) :
    (shape Y S NN).yMinus nv (y % Y) (vec Y S x (y % Y) z) (y / Y) =
      some (cell (Y * S) S x ((y + Y * S - nv) % (Y * S)) z) := by
  have hY : 0 < Y := by
    rcases Nat.eq_zero_or_pos Y with h | h
    · subst h; simp at hy
    · exact h
  have hl := lane_lt hy
  have hd : Y * (y / Y) + y % Y = y := Nat.div_add_mod y Y
  have hm : y % Y < Y := Nat.mod_lt _ hY
  generalize hl' : y / Y = l at *
  generalize hy0 : y % Y = y0 at *
  rw [cell_eq hS]
  simp only [Shape.yMinus, shape_XC, shape_Sf]
  have hYl : Y * (l + 1) ≤ Y * S := Nat.mul_le_mul_left Y hl
  have hYl' : Y * (l + 1) = Y * l + Y := by ring
  have hYS : Y ≤ Y * S := Nat.le_mul_of_pos_right Y hS
  by_cases h1 : y0 < nv
  · rw [if_pos h1]
    have hb : y0 + Y - nv < Y := by omega
    have e2 : (y + Y * S - nv) % (Y * S) = ((l + S - 1) % S) * Y + (y0 + Y - nv) := by
      rcases Nat.eq_zero_or_pos l with h | h
      · subst h
        have : (0 + S - 1) % S = S - 1 := by rw [Nat.mod_eq_of_lt] <;> omega
        rw [this]
        have h5 : (S - 1) * Y = Y * S - Y := by
          rw [Nat.sub_mul, Nat.mul_comm S Y, Nat.one_mul]
        rw [Nat.mod_eq_of_lt (by omega), h5]
        omega
      · have h6 : (l + S - 1) % S = l - 1 := by
          rw [show l + S - 1 = (l - 1) + S by omega, Nat.add_mod_right, Nat.mod_eq_of_lt (by omega)]
        have h7 : (l - 1) * Y = Y * l - Y := by
          rw [Nat.sub_mul, Nat.mul_comm l Y, Nat.one_mul]
        have h8 : Y ≤ Y * l := Nat.le_mul_of_pos_right Y h
        rw [h6, h7, show y + Y * S - nv = (y - nv) + Y * S by omega, Nat.add_mod_right,
          Nat.mod_eq_of_lt (by omega)]
        omega
    rw [e2, mod_of hb, div_of hb]
    obtain ⟨q, hq⟩ : ∃ q, y0 + Y = nv + q := ⟨y0 + Y - nv, by omega⟩
    have e3 : y0 + Y - nv = q := by omega
    have e4 : vec Y S x y0 z + Y * (Y * S * S) = vec Y S x q z + nv * (Y * S * S) := by
      have : (y0 + Y) * (Y * S * S) = (nv + q) * (Y * S * S) := by rw [hq]
      simp only [vec]
      rw [Nat.add_mul, Nat.add_mul] at this
      omega
    rw [e4, e3, sub?, if_pos (by omega)]
    simp [shape]
  · rw [if_neg h1]
    obtain ⟨q, hq⟩ : ∃ q, y0 = nv + q := ⟨y0 - nv, by omega⟩
    have e : y + Y * S - nv = (l * Y + q) + Y * S := by rw [Nat.mul_comm l Y]; omega
    have hlt : l * Y + q < Y * S := by rw [Nat.mul_comm l Y]; omega
    rw [e, Nat.add_mod_right, Nat.mod_eq_of_lt hlt, mod_of (by omega), div_of (by omega)]
    have e4 : vec Y S x y0 z = vec Y S x q z + nv * (Y * S * S) := by
      subst hq
      simp only [vec]; ring
    rw [e4, sub?, if_pos (by omega)]
    simp

theorem addr_xPlus {x y0 z nv : Nat} (hS : 0 < S) (hx : x < Y * S) (hn : nv ≤ Y * S) :
    (shape Y S NN).idxPx nv (x * S) (vec Y S x y0 z) = some (vec Y S ((x + nv) % (Y * S)) y0 z) := by
  have hdef : ∀ i, (shape Y S NN).idxPx nv (x * S) i =
      if x * S + nv * S ≥ Y * S * S then sub? (i + nv * S) (Y * S * S) else some (i + nv * S) :=
    fun _ => rfl
  rw [hdef]
  have e : x * S + nv * S = (x + nv) * S := by ring
  by_cases h : x + nv ≥ Y * S
  · rw [if_pos (e ▸ Nat.mul_le_mul_right S h)]
    obtain ⟨q, hq⟩ : ∃ q, x + nv = Y * S + q := ⟨x + nv - Y * S, by omega⟩
    have e4 : vec Y S x y0 z + nv * S = vec Y S q y0 z + Y * S * S := by
      have : (x + nv) * S = (Y * S + q) * S := by rw [hq]
      simp only [vec]
      rw [Nat.add_mul, Nat.add_mul] at this
      omega
    rw [e4, sub?, if_pos (by omega), hq, Nat.add_mod_left, Nat.mod_eq_of_lt (by omega)]
    simp
  · rw [if_neg (by
      rw [e]
      exact Nat.not_le.2 (Nat.mul_lt_mul_of_pos_right (Nat.not_le.1 h) hS)),
      Nat.mod_eq_of_lt (by omega)]
    simp only [vec, Option.some.injEq]; ring

theorem addr_xMinus {x y0 z nv : Nat} (hS : 0 < S) (hx : x < Y * S) (hn : nv ≤ Y * S) :
    (shape Y S NN).idxMx nv (x * S) (vec Y S x y0 z) =
      some (vec Y S ((x + Y * S - nv) % (Y * S)) y0 z) := by
  simp only [Shape.idxMx, shape_XC]
  have hstep : (shape Y S NN).step = S := rfl
  rw [hstep]
  by_cases h : x < nv
  · rw [if_pos (Nat.mul_lt_mul_of_pos_right h hS)]
    obtain ⟨q, hq⟩ : ∃ q, x + Y * S = nv + q := ⟨x + Y * S - nv, by omega⟩
    have e4 : vec Y S x y0 z + Y * S * S = vec Y S q y0 z + nv * S := by
      have : (x + Y * S) * S = (nv + q) * S := by rw [hq]
      simp only [vec]
      rw [Nat.add_mul, Nat.add_mul] at this
      omega
    rw [e4, sub?, if_pos (by omega), hq, Nat.add_sub_cancel_left, Nat.mod_eq_of_lt (by omega)]
    simp
  · rw [if_neg (Nat.not_lt.2 (Nat.mul_le_mul_right S (Nat.not_lt.1 h)))]
    obtain ⟨q, hq⟩ : ∃ q, x = nv + q := ⟨x - nv, by omega⟩
    have e4 : vec Y S x y0 z = vec Y S q y0 z + nv * S := by
      subst hq
      simp only [vec]; ring
    rw [e4, sub?, if_pos (by omega), show x + Y * S - nv = q + Y * S by omega, Nat.add_mod_right,
      Nat.mod_eq_of_lt (by omega)]
    simp

theorem addr_zPlus {x y0 z nv : Nat} :
    (shape Y S NN).idxPz nv (vec Y S x y0 z) = some (vec Y S x y0 (z + nv)) := by
  simp only [Shape.idxPz, shape_Sf, vec, Option.some.injEq]; ring

theorem addr_zMinus {x y0 z nv : Nat} (h : nv ≤ z) :
    (shape Y S NN).idxMz nv (vec Y S x y0 z) = some (vec Y S x y0 (z - nv)) := by
  obtain ⟨q, rfl⟩ : ∃ q, z = nv + q := ⟨z - nv, by omega⟩
  have e : vec Y S x y0 (nv + q) = vec Y S x y0 q + nv * (Y * (Y * S * S)) := by
    simp only [vec]; ring
  rw [Nat.add_sub_cancel_left]
  simp only [Shape.idxMz, shape_Sf]
  rw [e, sub?, if_pos (by omega)]
  simp

end Jaxions.Stencil
