import Verif.Model.StringMap
import Verif.Lemmas.Stencil
import Mathlib.Tactic.Ring
import Mathlib.Data.List.Nodup
import Mathlib.Data.List.ProdSigma
import Mathlib.Algebra.BigOperators.Group.List.Basic

/-! Helper lemmas for C24: addresses of the string kernel, flags of the map. -/

namespace Jaxions
namespace StringMap

open Winding Stencil

variable {Y S : Nat}

/-- Row and lane of the next row. -/
theorem ynext {y : Nat} (hY : 0 < Y) (hy : y < Y * S) :
    (y % Y = Y - 1 → (y + 1) % (Y * S) % Y = 0 ∧ (y + 1) % (Y * S) / Y = (y / Y + 1) % S) ∧
    (y % Y ≠ Y - 1 → (y + 1) % (Y * S) % Y = y % Y + 1 ∧ (y + 1) % (Y * S) / Y = y / Y) := by
  have hd : Y * (y / Y) + y % Y = y := Nat.div_add_mod y Y
  have hm : y % Y < Y := Nat.mod_lt _ hY
  have hl := lane_lt (S := S) hy
  constructor
  · intro h
    have e : y + 1 = Y * (y / Y + 1) := by rw [Nat.mul_add, Nat.mul_one]; omega
    rw [e, Nat.mul_mod_mul_left]
    exact ⟨Nat.mul_mod_right _ _, Nat.mul_div_cancel_left _ hY⟩
  · intro h
    have hlt : y + 1 < Y * S := by
      have : Y * (y / Y + 1) ≤ Y * S := Nat.mul_le_mul_left Y hl
      rw [Nat.mul_add, Nat.mul_one] at this
      omega
    rw [Nat.mod_eq_of_lt hlt]
    have e : y + 1 = Y * (y / Y) + (y % Y + 1) := by omega
    have hlt' : y % Y + 1 < Y := by omega
    generalize hk : y % Y + 1 = k at *
    generalize y / Y = q at *
    constructor
    · rw [e, Nat.mul_add_mod, Nat.mod_eq_of_lt hlt']
    · rw [e, Nat.mul_add_div hY, Nat.div_eq_of_lt hlt', Nat.add_zero]

theorem vec_y (x y0 z : Nat) : vec Y S x (y0 + 1) z = vec Y S x y0 z + Y * S * S := by
  simp only [vec]; ring

theorem vec_z (x y0 z : Nat) : vec Y S x y0 (z + 1) = vec Y S x y0 z + Y * (Y * S * S) := by
  simp only [vec]; ring

theorem vec_wrap (hY : 0 < Y) (x z : Nat) :
    vec Y S x 0 z + Y * (Y * S * S) = vec Y S x (Y - 1) z + Y * S * S := by
  obtain ⟨k, rfl⟩ : ∃ k, Y = k + 1 := ⟨Y - 1, by omega⟩
  simp only [vec, Nat.add_sub_cancel]; ring

theorem vec_x {x : Nat} (hx : x + 1 < Y * S) (y0 z : Nat) :
    vec Y S ((x + 1) % (Y * S)) y0 z = vec Y S x y0 z + S := by
  rw [Nat.mod_eq_of_lt hx]; simp only [vec]; ring

theorem vec_xwrap {x : Nat} (hx : x + 1 = Y * S) (y0 z : Nat) :
    vec Y S ((x + 1) % (Y * S)) y0 z + Y * S * S = vec Y S x y0 z + S := by
  rw [hx, Nat.mod_self]
  have : x * S + S = Y * S * S := by rw [← hx]; ring
  simp only [vec]; omega

theorem sub?_eq {a b c : Nat} (h : c + b = a) : sub? a b = some c := by
  rw [sub?, if_pos (by omega)]; congr 1; omega

/-- Coordinates found by the kernel in the index of a vector. -/
theorem decode {x y0 z : Nat} (hS : 0 < S) (hx : x < Y * S) (hy : y0 < Y) :
    let c := Y * S * S
    let idx := vec Y S x y0 z
    idx / c / Y = z ∧ idx / c - z * Y = y0 ∧ idx - idx / c * c = x * S := by
  have e : vec Y S x y0 z = (z * Y + y0) * (Y * S * S) + x * S := by simp only [vec]; ring
  have h1 : vec Y S x y0 z / (Y * S * S) = z * Y + y0 := by
    rw [e, div_of (x_lt hS hx)]
  have h2 : (z * Y + y0) / Y = z := div_of hy
  refine ⟨by rw [h1, h2], by rw [h1]; omega, by rw [h1, e]; omega⟩

/-- The seven addresses are the cells of the seven sites. -/
theorem addrs_eq {x y z : Nat} (hS : 0 < S) (hY : 0 < Y) (hx : x < Y * S) (hy : y < Y * S) (NN : Nat) :
    addrs (shape Y S NN) (vec Y S x (y % Y) z) (y / Y) =
      { mel := some (cell (Y * S) S x y z)
        px := some (cell (Y * S) S ((x + 1) % (Y * S)) y z)
        py := some (cell (Y * S) S x ((y + 1) % (Y * S)) z)
        pz := some (cell (Y * S) S x y (z + 1))
        xy := some (cell (Y * S) S ((x + 1) % (Y * S)) ((y + 1) % (Y * S)) z)
        yz := some (cell (Y * S) S x ((y + 1) % (Y * S)) (z + 1))
        zx := some (cell (Y * S) S ((x + 1) % (Y * S)) y (z + 1)) } := by
  have hm : y % Y < Y := Nat.mod_lt _ hY
  obtain ⟨d2, d1, d0⟩ := decode (Y := Y) (S := S) (z := z) hS hx hm
  obtain ⟨n1, n2⟩ := ynext hY hy
  have step : (shape Y S NN).step = S := rfl
  have xe : (x * S = Y * S * S - S) ↔ x + 1 = Y * S := by
    constructor
    · intro h
      have h1 : S ≤ Y * S * S := Nat.le_mul_of_pos_left S (Nat.mul_pos hY hS)
      have h2 : (x + 1) * S = Y * S * S := by rw [Nat.add_mul, Nat.one_mul]; omega
      exact Nat.eq_of_mul_eq_mul_right hS h2
    · intro h
      have : (x + 1) * S = Y * S * S := by rw [h]
      rw [Nat.add_mul, Nat.one_mul] at this; omega
  simp only [addrs, shape_XC, shape_YC hS, shape_Sf, step, d2, d1, d0, xe]
  simp only [cell_eq hS]
  by_cases hlast : y % Y = Y - 1
  · obtain ⟨r1, r2⟩ := n1 hlast
    rw [if_pos hlast, r1, r2, hlast]
    have w := vec_wrap (S := S) hY
    have wz := vec_z (Y := Y) (S := S)
    by_cases hxl : x + 1 = Y * S
    · have hxw := vec_xwrap hxl
      simp only [if_pos hxl]
      have p1 := w x z
      have p2 := w ((x + 1) % (Y * S)) z
      have p3 := hxw (Y - 1) z
      have p4 := wz ((x + 1) % (Y * S)) (Y - 1) z
      have p5 := wz x 0 z
      have p6 := wz x (Y - 1) z
      rw [sub?_eq p3, sub?_eq (show vec Y S x 0 z + Y * (Y * S * S) = _ from p1),
        sub?_eq (c := vec Y S ((x + 1) % (Y * S)) 0 z) (by omega),
        sub?_eq (c := vec Y S ((x + 1) % (Y * S)) (Y - 1) (z + 1)) (by omega), p5, p6, p1]
      simp
    · have hxw := vec_x (Y := Y) (S := S) (x := x) (by omega)
      simp only [if_neg hxl]
      have p1 := w x z
      have p2 := w ((x + 1) % (Y * S)) z
      have p3 := hxw (Y - 1) z
      have p4 := wz ((x + 1) % (Y * S)) (Y - 1) z
      have p5 := wz x 0 z
      have p6 := wz x (Y - 1) z
      rw [sub?_eq (show vec Y S x 0 z + Y * (Y * S * S) = _ from p1),
        sub?_eq (c := vec Y S ((x + 1) % (Y * S)) 0 z) (by omega), p5, p6, p1, p4, p3]
      simp; omega
  · obtain ⟨r1, r2⟩ := n2 hlast
    rw [if_neg hlast, r1, r2]
    have wy := vec_y (Y := Y) (S := S)
    have wz := vec_z (Y := Y) (S := S)
    by_cases hxl : x + 1 = Y * S
    · have hxw := vec_xwrap hxl
      simp only [if_pos hxl]
      have p1 := wy x (y % Y) z
      have p2 := wy ((x + 1) % (Y * S)) (y % Y) z
      have p3 := hxw (y % Y) z
      have p4 := wz ((x + 1) % (Y * S)) (y % Y) z
      have p5 := wz x (y % Y + 1) z
      have p6 := wz x (y % Y) z
      rw [sub?_eq p3, sub?_eq (c := vec Y S ((x + 1) % (Y * S)) (y % Y) (z + 1)) (by omega), p5, p6, p2, p1, p3]
      simp; omega
    · have hxw := vec_x (Y := Y) (S := S) (x := x) (by omega)
      simp only [if_neg hxl]
      have p1 := wy x (y % Y) z
      have p2 := wy ((x + 1) % (Y * S)) (y % Y) z
      have p3 := hxw (y % Y) z
      have p4 := wz ((x + 1) % (Y * S)) (y % Y) z
      have p5 := wz x (y % Y + 1) z
      have p6 := wz x (y % Y) z
      rw [p5, p6, p2, p1, p4, p3]
      simp; omega

/-! ### Flags -/

/-- Effect of one site on the map and the counters. -/
def upd (d : SD) (t bits n : Nat) (c : Int) (w : Nat) : SD where
  map := fun a => if a = t then (d.map t).map (· ||| bits) else d.map a
  nStr := d.nStr + n
  nChi := d.nChi + c
  nWall := d.nWall + w

/-- Bits, number and charge of a plaquette. -/
def bitsOf (pos neg : Nat) (h : Int) : Nat := if h = 2 then pos else if h = -2 then neg else 0
@[inherit_doc bitsOf] def numOf (h : Int) : Nat := if h = 2 ∨ h = -2 then 1 else 0
@[inherit_doc bitsOf] def chgOf (h : Int) : Int := if h = 2 then 1 else if h = -2 then -1 else 0

theorem upd_upd (d : SD) (t b n : Nat) (c : Int) (w b' n' : Nat) (c' : Int) (w' : Nat) :
    upd (upd d t b n c w) t b' n' c' w' = upd d t (b ||| b') (n + n') (c + c') (w + w') := by
  unfold upd
  simp only [if_true, SD.mk.injEq]
  refine ⟨?_, by omega, by omega, by omega⟩
  funext a
  by_cases h : a = t
  · simp only [if_pos h]; cases d.map t <;> simp [Nat.or_assoc]
  · simp only [if_neg h]

theorem upd_zero (d : SD) (t : Nat) : upd d t 0 0 0 0 = d := by
  unfold upd
  cases d with
  | mk mp a b c =>
    simp only [SD.mk.injEq, Nat.add_zero, add_zero, and_true]
    funext x
    by_cases h : x = t
    · subst h; cases h : mp x <;> simp [h]
    · simp only [if_neg h]

theorem flag_eq {d : SD} {t b : Nat} (h : (d.map t).isSome) : d.flag t b = some (upd d t b 0 0 0) := by
  obtain ⟨o, ho⟩ := Option.isSome_iff_exists.mp h
  have : (fun a => if a = t then some (o ||| b) else d.map a) =
      fun a => if a = t then (d.map t).map (· ||| b) else d.map a := by
    funext a; by_cases g : a = t <;> simp [g, ho]
  simp [SD.flag, upd, Heap.write, ho]

theorem upd_isSome {d : SD} {t b n : Nat} {c : Int} {w : Nat} (a : Nat) :
    ((upd d t b n c w).map a).isSome = (d.map a).isSome := by
  unfold upd
  by_cases h : a = t
  · subst h; simp
  · simp [h]

theorem record_eq {d : SD} {t pos neg : Nat} {h : Int} (ht : (d.map t).isSome) :
    d.record t pos neg h = some (upd d t (bitsOf pos neg h) (numOf h) (chgOf h) 0) := by
  unfold SD.record bitsOf numOf chgOf
  by_cases h2 : h = 2
  · simp [h2, flag_eq ht, upd]
  · by_cases h3 : h = -2
    · simp [h3, flag_eq ht, upd]; omega
    · simp only [if_neg h2, if_neg h3, h2, h3, or_self, if_false]
      rw [upd_zero]

theorem wall_eq {d : SD} {t : Nat} {w : Bool} (ht : (d.map t).isSome) :
    d.wall t w = some (upd d t (if w then WALL else 0) 0 0 w.toNat) := by
  unfold SD.wall
  cases w
  · simp [upd_zero]
  · simp [flag_eq ht, upd]

end StringMap
end Jaxions
