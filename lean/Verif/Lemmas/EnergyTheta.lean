import Verif.Model.EnergyTheta
import Verif.Lemmas.EnergyLoop
import Mathlib.Tactic.Linarith
import Mathlib.Tactic.FieldSimp
/-
What a lane of the energy kernels reads, and the wrap to the nearest representative.
-/
namespace Jaxions.Energy

open Stencil Simd

variable {Y S NN : Nat}

theorem enPx_eq {x idx : Nat} (hx : x < Y * S) :
    enPx (shape Y S NN) (x * S) idx = (shape Y S NN).idxPx 1 (x * S) idx := by
  have hle : (x + 1) * S ≤ Y * S * S := Nat.mul_le_mul_right S hx
  have e : (x + 1) * S = x * S + S := by ring
  change (if x * S + S = Y * S * S then sub? (idx + S) (Y * S * S) else some (idx + S)) =
    if x * S + 1 * S ≥ Y * S * S then sub? (idx + 1 * S) (Y * S * S) else some (idx + 1 * S)
  rw [Nat.one_mul]
  by_cases h : x * S + S = Y * S * S
  · rw [if_pos h, if_pos (by omega)]
  · rw [if_neg h, if_neg (by omega)]

theorem enMx_eq {x idx : Nat} (hS : 0 < S) :
    enMx (shape Y S NN) (x * S) idx = (shape Y S NN).idxMx 1 (x * S) idx := by
  change (if x * S = 0 then sub? (idx + Y * S * S) S else sub? idx S) =
    if x * S < 1 * S then sub? (idx + Y * S * S) (1 * S) else sub? idx (1 * S)
  rw [Nat.one_mul]
  by_cases h : x * S = 0
  · rw [if_pos h, if_pos (by omega)]
  · rw [if_neg h, if_neg]
    have : x ≠ 0 := by rintro rfl; simp at h
    have : 1 * S ≤ x * S := Nat.mul_le_mul_right S (by omega)
    omega

section reads

variable {α : Type}

/-- The neighbours of a site in memory. -/
theorem reads (hS : 0 < S) (m : Heap Nat α) (φ : Int → Int → Int → α) {nz : Nat}
    (hper : Periodic (Y * S) φ) (hm : Holds (Y * S) S nz m φ) {x y z : Nat} (hx : x < Y * S)
    (hy : y < Y * S) (h2 : 2 ≤ Y) (hz : 1 ≤ z) (hz' : z + 1 < nz) :
    let s := shape Y S NN
    let idx := vec Y S x (y % Y) z
    let l := y / Y
    m (idx + l) = some (φ x y z) ∧
    load m ((s.idxPx 1 (x * S) idx).map (· + l)) = some (φ (x + 1) y z) ∧
    load m ((s.idxMx 1 (x * S) idx).map (· + l)) = some (φ (x - 1) y z) ∧
    load m (s.yPlus 1 (y % Y) idx l) = some (φ x (y + 1) z) ∧
    load m (s.yMinus 1 (y % Y) idx l) = some (φ x (y - 1) z) ∧
    m (idx + s.Sf + l) = some (φ x y (z + 1)) ∧
    load m ((sub? idx s.Sf).map (· + l)) = some (φ x y (z - 1)) := by
  intro s idx l
  have hY : 0 < Y := by omega
  have hYS : 0 < Y * S := Nat.mul_pos hY hS
  have hle : Y ≤ Y * S := Nat.le_mul_of_pos_right Y hS
  have rd : ∀ x' y' z' : Nat, x' < Y * S → y' < Y * S → z' < nz →
      m (vec Y S x' (y' % Y) z' + y' / Y) = some (φ x' y' z') := by
    intro x' y' z' h1 h2 h3
    rw [← cell_eq hS]
    exact hm x' y' z' h1 h2 h3
  have wrapP : ∀ t : Nat, ((((t + 1) % (Y * S) : Nat) : Int)) = ((t : Int) + 1) % ((Y * S : Nat) : Int) := by
    intro t; push_cast; rfl
  have wrapM : ∀ t : Nat, ((((t + Y * S - 1) % (Y * S) : Nat) : Int)) =
      ((t : Int) - 1) % ((Y * S : Nat) : Int) := by
    intro t
    have : ((t + Y * S - 1 : Nat) : Int) = ((t : Int) - 1) + ((Y * S : Nat) : Int) := by omega
    rw [Int.natCast_emod, this, Int.add_emod_right]
  have small : ∀ t : Nat, t < Y * S → (t : Int) = (t : Int) % ((Y * S : Nat) : Int) := by
    intro t ht
    rw [← Int.natCast_emod, Nat.mod_eq_of_lt ht]
  have e1 := hper (x + 1) y z
  have e2 := hper (x - 1) y z
  have e3 := hper x (y + 1) z
  have e4 := hper x (y - 1) z
  rw [← small y hy, ← wrapP x] at e1
  rw [← small y hy, ← wrapM x] at e2
  rw [← small x hx, ← wrapP y] at e3
  rw [← small x hx, ← wrapM y] at e4
  have a1 := rd ((x + 1) % (Y * S)) y z (Nat.mod_lt _ hYS) hy (by omega)
  have a2 := rd ((x + Y * S - 1) % (Y * S)) y z (Nat.mod_lt _ hYS) hy (by omega)
  have a3 := hm x ((y + 1) % (Y * S)) z hx (Nat.mod_lt _ hYS) (by omega)
  have a4 := hm x ((y + Y * S - 1) % (Y * S)) z hx (Nat.mod_lt _ hYS) (by omega)
  have a5 := rd x y (z + 1) hx hy hz'
  have a6 := rd x y (z - 1) hx hy (by omega)
  have a0 := rd x y z hx hy (by omega)
  rw [← e1] at a1
  rw [← e2] at a2
  rw [← e3] at a3
  rw [← e4] at a4
  have ez : ((z - 1 : Nat) : Int) = (z : Int) - 1 := by omega
  rw [ez] at a6
  simp only [Nat.cast_add, Nat.cast_one] at a5
  refine ⟨a0, ?_, ?_, ?_, ?_, ?_, ?_⟩
  · simpa [s, idx, l, addr_xPlus hS hx (show 1 ≤ Y * S by omega), load] using a1
  · simpa [s, idx, l, addr_xMinus hS hx (show 1 ≤ Y * S by omega), load] using a2
  · simpa [s, idx, l, addr_yPlus hS hy (show 2 * 1 ≤ Y by omega), load] using a3
  · simpa [s, idx, l, addr_yMinus hS hy (show 1 ≤ Y by omega), load] using a4
  · have := addr_zPlus (Y := Y) (S := S) (NN := NN) (x := x) (y0 := y % Y) (z := z) (nv := 1)
    simp only [Shape.idxPz, Option.some.injEq, Nat.one_mul] at this
    rw [show idx + s.Sf = vec Y S x (y % Y) (z + 1) from this]
    exact a5
  · have := addr_zMinus (Y := Y) (S := S) (NN := NN) (x := x) (y0 := y % Y) (z := z) (nv := 1) hz
    simp only [Shape.idxMz, Nat.one_mul] at this
    rw [show sub? idx s.Sf = some (vec Y S x (y % Y) (z - 1)) from this]
    simpa [load] using a6

end reads

/-! ### Wrap -/

section wrap

variable {K : Type} [Field K] [LinearOrder K] [IsStrictOrderedRing K]

theorem modPd_eq {x md : K} (h : 0 < md) :
    modPd x md = if x = md / 2 ∨ x = -(md / 2) then 0
      else if md / 2 < x then x - md else if x < -(md / 2) then x + md else x := by
  have f1 : (x + md) * (x + md) - x * x = md * (2 * x + md) := by ring
  have f2 : (x - md) * (x - md) - x * x = md * (md - 2 * x) := by ring
  have f3 : (x + md) * (x + md) - (x - md) * (x - md) = 4 * (md * x) := by ring
  have key : ∀ {a : K}, 0 < a → 0 < md * a := fun ha => mul_pos h ha
  unfold modPd
  dsimp only
  rcases lt_trichotomy x (-(md / 2)) with c | c | c
  · have p1 := key (a := -(2 * x + md)) (by linarith)
    have p2 := key (a := md - 2 * x) (by linarith)
    have p3 := key (a := -x) (by linarith)
    have g1 : (x + md) * (x + md) < x * x := by linarith
    have g2 : (x + md) * (x + md) < (x - md) * (x - md) := by linarith
    rw [min_eq_left g2.le, min_eq_left g1.le, if_pos rfl, if_neg g2.ne, if_neg g1.ne,
      if_neg (by rintro (e | e) <;> linarith), if_neg (by linarith), if_pos c]
    ring
  · subst c
    rw [if_pos (Or.inr rfl)]
    have g1 : (-(md / 2) + md) * (-(md / 2) + md) = -(md / 2) * -(md / 2) := by ring
    have p := key h
    have g2 : -(md / 2) * -(md / 2) < (-(md / 2) - md) * (-(md / 2) - md) := by
      have : (-(md / 2) - md) * (-(md / 2) - md) - -(md / 2) * -(md / 2) = 2 * (md * md) := by ring
      linarith
    rw [g1, min_eq_left g2.le, min_self, if_pos rfl, if_neg g2.ne]
    simp only [if_true]
    ring
  · rcases lt_trichotomy x (md / 2) with d | d | d
    · have p1 := key (a := 2 * x + md) (by linarith)
      have p2 := key (a := md - 2 * x) (by linarith)
      have g1 : x * x < (x + md) * (x + md) := by linarith
      have g2 : x * x < (x - md) * (x - md) := by linarith
      rw [min_eq_right (le_min g1.le g2.le), if_neg g1.ne, if_neg g2.ne, if_pos rfl,
        if_neg (by rintro (e | e) <;> linarith), if_neg (by linarith), if_neg (by linarith)]
      ring
    · subst d
      rw [if_pos (Or.inl rfl)]
      have g1 : (md / 2 - md) * (md / 2 - md) = md / 2 * (md / 2) := by ring
      have p := key h
      have g2 : md / 2 * (md / 2) < (md / 2 + md) * (md / 2 + md) := by
        have : (md / 2 + md) * (md / 2 + md) - md / 2 * (md / 2) = 2 * (md * md) := by ring
        linarith
      rw [g1, min_eq_right g2.le, min_self, if_neg g2.ne, if_pos rfl]
      simp only [if_true]
      ring
    · have p1 := key (a := 2 * x - md) (by linarith)
      have p2 := key (a := 2 * x + md) (by linarith)
      have p3 := key (a := x) (by linarith)
      have g1 : (x - md) * (x - md) < x * x := by linarith
      have g2 : (x - md) * (x - md) < (x + md) * (x + md) := by linarith
      rw [min_eq_right g2.le, min_eq_left g1.le, if_neg g2.ne, if_pos rfl, if_neg g1.ne,
        if_neg (by rintro (e | e) <;> linarith), if_pos d]
      ring

/-- Wrapping commutes with a change of scale. -/
theorem modPd_scale {R d md : K} (hR : 0 < R) (h : 0 < md) :
    modPd (R * d) (R * md) = R * modPd d md := by
  have hr := hR.ne'
  rw [modPd_eq (mul_pos hR h), modPd_eq h]
  have e1 : R * d = R * md / 2 ↔ d = md / 2 := by
    rw [mul_div_assoc]; exact mul_right_inj' hr
  have e2 : R * d = -(R * md / 2) ↔ d = -(md / 2) := by
    rw [mul_div_assoc, ← mul_neg]; exact mul_right_inj' hr
  have e3 : R * md / 2 < R * d ↔ md / 2 < d := by
    rw [mul_div_assoc]; exact mul_lt_mul_iff_right₀ hR
  have e4 : R * d < -(R * md / 2) ↔ d < -(md / 2) := by
    rw [mul_div_assoc, ← mul_neg]; exact mul_lt_mul_iff_right₀ hR
  simp only [e1, e2, e3, e4]
  split_ifs <;> ring

end wrap

end Jaxions.Energy
