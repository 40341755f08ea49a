import Verif.Model.EnergySax
import Verif.Lemmas.SaxKernel
import Verif.Lemmas.EnergyTheta
/- Lane facts and loads of the energy kernel of the complex field. -/
namespace Jaxions.Energy
set_option linter.unusedSectionVars false

open Stencil Simd SaxKernel

section lanes
variable {K : Type} [Field K]

theorem gsum_ok (p : Prec) (i : Isa) (a b : Vec (W p i) K) (s : Fin (sites .saxion p i)) :
    re (gsum p i a b) s = re a s + im a s ∧ im (gsum p i a b) s = re b s + im b s := by
  cases p <;> cases i <;> fin_cases s <;>
    first | exact ⟨rfl, rfl⟩ | exact ⟨add_comm _ _, rfl⟩

theorem md2_ok (p : Prec) (i : Isa) (a : Vec (W p i) K) (s : Fin (sites .saxion p i)) :
    re (md2 p i a) s = re a s + im a s ∧ im (md2 p i a) s = re a s + im a s := by
  cases p <;> cases i <;> fin_cases s <;>
    first | exact ⟨rfl, rfl⟩ | exact ⟨add_comm _ _, rfl⟩

theorem swSg_ok (p : Prec) (i : Isa) (s) : SwapsAt (K := K) (swSg p i) s := by
  intro a
  cases p <;> cases i <;> fin_cases s <;> exact ⟨rfl, rfl⟩

/-- With SSE and doubles the odd lane of `mod` is taken; both lanes are equal. -/
theorem tVp_ok (p : Prec) (i : Isa) (a b : Vec (W p i) K) (s : Fin (sites .saxion p i))
    (h : im a s = re a s) :
    re (tVp p i a b) s = re a s ∧ im (tVp p i a b) s = re b s := by
  cases p <;> cases i <;> fin_cases s <;> first | exact ⟨rfl, rfl⟩ | exact ⟨h, rfl⟩

theorem sites_pos (p : Prec) (i : Isa) : 0 < sites .saxion p i := by
  cases p <;> cases i <;> decide

theorem rotPlus_at (p : Prec) (i : Isa) (a : Vec (W p i) K) (s : Fin (sites .saxion p i)) :
    at' (p := p) (i := i) (rotPlus .saxion p i a) s =
      at' a ⟨(s + 1) % sites .saxion p i, Nat.mod_lt _ (sites_pos p i)⟩ := by
  cases p <;> cases i <;> fin_cases s <;> rfl

theorem rotMinus_at (p : Prec) (i : Isa) (a : Vec (W p i) K) (s : Fin (sites .saxion p i)) :
    at' (p := p) (i := i) (rotMinus .saxion p i a) s =
      at' a ⟨(s + sites .saxion p i - 1) % sites .saxion p i, Nat.mod_lt _ (sites_pos p i)⟩ := by
  cases p <;> cases i <;> fin_cases s <;> rfl

end lanes

theorem next_prev {t S : Nat} (h : t < S) : ((t + S - 1) % S + 1) % S = t := by
  rcases Nat.eq_zero_or_pos t with h0 | h0
  · rw [h0, Nat.zero_add, Nat.mod_eq_of_lt (by omega : S - 1 < S),
      show S - 1 + 1 = S by omega, Nat.mod_self]
  · rw [show t + S - 1 = (t - 1) + S by omega, Nat.add_mod_right,
      Nat.mod_eq_of_lt (by omega : t - 1 < S), show t - 1 + 1 = t by omega, Nat.mod_eq_of_lt h]

theorem prev_next {t S : Nat} (h : t < S) : ((t + 1) % S + S - 1) % S = t := by
  by_cases h0 : t + 1 = S
  · rw [h0, Nat.mod_self, Nat.zero_add, Nat.mod_eq_of_lt (by omega)]; omega
  · rw [Nat.mod_eq_of_lt (by omega : t + 1 < S), show t + 1 + S - 1 = t + S by omega,
      Nat.add_mod_right, Nat.mod_eq_of_lt h]

variable {K : Type} [Field K] [LinearOrder K]

theorem loadReg_some (p : Prec) (i : Isa) (m : Heap Nat (K × K)) (a : Nat)
    (h : ∀ s : Fin (sites .saxion p i), (m (a + s)).isSome) :
    ∃ r, loadReg p i m (some a) = some r ∧
      ∀ s : Fin (sites .saxion p i), m (a + s) = some (at' r s) := by
  refine ⟨_, by simp only [loadReg, Option.bind_eq_bind, Option.bind_some, dif_pos h]; rfl, ?_⟩
  intro s
  have e : ∀ b, b / 2 = s.1 → ∀ hb : (m (a + b / 2)).isSome, some ((m (a + b / 2)).get hb) =
      m (a + s) := by
    intro b hb h'
    rw [Option.some_get, hb]
  have h0 : (2 * s.1) / 2 = s.1 := by omega
  have h1 : (2 * s.1 + 1) / 2 = s.1 := by omega
  have hv : ∃ c, m (a + s) = some c := Option.isSome_iff_exists.1 (h s)
  obtain ⟨c, hc⟩ := hv
  have g : ∀ b, b / 2 = s.1 → ∀ hb : (m (a + b / 2)).isSome, (m (a + b / 2)).get hb = c := by
    intro b hb h'
    have := e b hb h'
    rw [hc] at this
    exact Option.some.inj this
  rw [hc]
  simp only [at', re, im, g _ h0, g _ h1, Nat.mul_mod_right, if_true]
  simp

/-- A load at an optional address, of which every site is known. -/
theorem loadReg_of (p : Prec) (i : Isa) (m : Heap Nat (K × K)) (o : Option Nat)
    (f : Fin (sites .saxion p i) → K × K)
    (h : ∀ s : Fin (sites .saxion p i), load m (o.map (· + s.1)) = some (f s)) :
    ∃ r, loadReg p i m o = some r ∧ ∀ s, at' r s = f s := by
  cases o with
  | none => have := h ⟨0, sites_pos p i⟩; simp [load] at this
  | some a =>
    simp only [load, Option.map_some, Option.bind_some] at h
    obtain ⟨r, h1, h2⟩ := loadReg_some p i m a (fun s => by rw [h s]; rfl)
    refine ⟨r, h1, fun s => ?_⟩
    have := h2 s
    rw [h s] at this
    exact (Option.some.inj this).symm

theorem loadReg_plus (p : Prec) (i : Isa) (m : Heap Nat (K × K)) (o : Option Nat)
    (f : Fin (sites .saxion p i) → K × K)
    (h : ∀ s : Fin (sites .saxion p i),
      load m (o.map (· + (s.1 + 1) % sites .saxion p i)) = some (f s)) :
    ∃ r, loadReg p i m o = some r ∧
      ∀ s, at' (p := p) (i := i) (rotPlus .saxion p i r) s = f s := by
  have hp := sites_pos p i
  obtain ⟨r, h1, h2⟩ := loadReg_of p i m o
    (fun s => f ⟨(s + sites .saxion p i - 1) % sites .saxion p i, Nat.mod_lt _ hp⟩) (by
      intro s
      have := h ⟨(s + sites .saxion p i - 1) % sites .saxion p i, Nat.mod_lt _ hp⟩
      rw [← this]
      have e := next_prev s.2
      simp only [e])
  refine ⟨r, h1, fun s => ?_⟩
  rw [rotPlus_at, h2]
  congr 1
  exact Fin.ext (prev_next s.2)

theorem loadReg_minus (p : Prec) (i : Isa) (m : Heap Nat (K × K)) (o : Option Nat)
    (f : Fin (sites .saxion p i) → K × K)
    (h : ∀ s : Fin (sites .saxion p i),
      load m (o.map (· + (s.1 + sites .saxion p i - 1) % sites .saxion p i)) = some (f s)) :
    ∃ r, loadReg p i m o = some r ∧
      ∀ s, at' (p := p) (i := i) (rotMinus .saxion p i r) s = f s := by
  have hp := sites_pos p i
  obtain ⟨r, h1, h2⟩ := loadReg_of p i m o
    (fun s => f ⟨(s + 1) % sites .saxion p i, Nat.mod_lt _ hp⟩) (by
      intro s
      have := h ⟨(s + 1) % sites .saxion p i, Nat.mod_lt _ hp⟩
      rw [← this]
      have e := prev_next s.2
      simp only [e])
  refine ⟨r, h1, fun s => ?_⟩
  rw [rotMinus_at, h2]
  congr 1
  exact Fin.ext (next_prev s.2)

variable {Y NN Lz : Nat}

/-- What the registers of a vector hold at the lane of site (x, y, z). -/
theorem loadAll_eq (p : Prec) (i : Isa) (m v : Heap Nat (K × K))
    (ψ ν : Int → Int → Int → K × K) (hN : 1 ≤ NN) (h2 : 2 ≤ Y)
    (hper : Periodic (Y * sites .saxion p i) ψ)
    (hm : Holds (Y * sites .saxion p i) (sites .saxion p i) (Lz + 2 * NN) m ψ)
    (hv : Holds (Y * sites .saxion p i) (sites .saxion p i) Lz v ν) {x y0 z : Nat}
    (hx : x < Y * sites .saxion p i) (hy0 : y0 < Y) (hz : z < Lz) :
    ∃ L, loadAll p i (shape Y (sites .saxion p i) NN) m v
        (vec Y (sites .saxion p i) x y0 (z + NN)) = some L ∧
      ∀ s : Fin (sites .saxion p i),
        let y : Int := ((s * Y + y0 : Nat) : Int)
        let w : Int := ((z + NN : Nat) : Int)
        at' L.mel s = ψ x y w ∧ at' L.vel s = ν x y z ∧
        at' L.px s = ψ (x + 1) y w ∧ at' L.mx s = ψ (x - 1) y w ∧
        at' L.py s = ψ x (y + 1) w ∧ at' L.my s = ψ x (y - 1) w ∧
        at' L.pz s = ψ x y (w + 1) ∧ at' L.mz s = ψ x y (w - 1) := by
  have hS := sites_pos p i
  have hYp : 0 < Y := by omega
  -- every lane
  have hl : ∀ s : Fin (sites .saxion p i), s.1 * Y + y0 < Y * sites .saxion p i := by
    intro s
    have := s.2
    calc s.1 * Y + y0 < s.1 * Y + Y := by omega
      _ = (s.1 + 1) * Y := by ring
      _ ≤ sites .saxion p i * Y := Nat.mul_le_mul_right _ this
      _ = _ := Nat.mul_comm _ _
  have hmod : ∀ s : Fin (sites .saxion p i), (s.1 * Y + y0) % Y = y0 := fun s => mod_of hy0
  have hdiv : ∀ s : Fin (sites .saxion p i), (s.1 * Y + y0) / Y = s := fun s => div_of hy0
  have R := fun s : Fin (sites .saxion p i) => reads (NN := NN) hS m ψ hper hm hx (hl s) h2
    (show 1 ≤ z + NN by omega) (show z + NN + 1 < Lz + 2 * NN by omega)
  simp only [hmod, hdiv] at R
  have hX : vec Y (sites .saxion p i) x y0 (z + NN) % (shape Y (sites .saxion p i) NN).XC =
      x * sites .saxion p i := by rw [shape_XC]; exact vec_mod hS hx
  have hX1 : vec Y (sites .saxion p i) x y0 (z + NN) / (shape Y (sites .saxion p i) NN).XC %
      (shape Y (sites .saxion p i) NN).YC = y0 := by
    rw [shape_XC, shape_YC hS]; exact vec_div hS hx hy0
  have hvel : ∀ s : Fin (sites .saxion p i), load v ((sub? (vec Y (sites .saxion p i) x y0 (z + NN))
      ((shape Y (sites .saxion p i) NN).NN * (shape Y (sites .saxion p i) NN).Sf)).map
      (· + s.1)) = some (ν x ((s * Y + y0 : Nat) : Int) z) := by
    intro s
    have e : sub? (vec Y (sites .saxion p i) x y0 (z + NN))
        ((shape Y (sites .saxion p i) NN).NN * (shape Y (sites .saxion p i) NN).Sf) =
        some (vec Y (sites .saxion p i) x y0 z) := by
      have hN' : (shape Y (sites .saxion p i) NN).NN * (shape Y (sites .saxion p i) NN).Sf =
          NN * (Y * (Y * sites .saxion p i * sites .saxion p i)) := by
        rw [shape_Sf]; rfl
      have hv' : vec Y (sites .saxion p i) x y0 (z + NN) = vec Y (sites .saxion p i) x y0 z +
          NN * (Y * (Y * sites .saxion p i * sites .saxion p i)) := by
        simp only [vec]; ring
      rw [hN', hv', sub?, if_pos (by omega), Nat.add_sub_cancel]
    rw [e]
    simp only [Option.map_some, load, Option.bind_some]
    have := hv x (s * Y + y0) z hx (hl s) hz
    rw [cell_eq hS, hmod, hdiv] at this
    exact this
  obtain ⟨r0, e0, a0⟩ := loadReg_of p i m (some (vec Y (sites .saxion p i) x y0 (z + NN))) _
    (fun s => by simpa [load] using (R s).1)
  obtain ⟨rv, ev, av⟩ := loadReg_of p i v _ _ hvel
  obtain ⟨rpx, epx, apx⟩ := loadReg_of p i m _ _ (fun s => (R s).2.1)
  obtain ⟨rmx, emx, amx⟩ := loadReg_of p i m _ _ (fun s => (R s).2.2.1)
  obtain ⟨rpz, epz, apz⟩ := loadReg_of p i m (some (vec Y (sites .saxion p i) x y0 (z + NN) +
    (shape Y (sites .saxion p i) NN).Sf)) _ (fun s => by simpa [load] using (R s).2.2.2.2.2.1)
  obtain ⟨rmz, emz, amz⟩ := loadReg_of p i m _ _ (fun s => (R s).2.2.2.2.2.2)
  have RP := fun s => (R s).2.2.2.1
  have RM := fun s => (R s).2.2.2.2.1
  have hYC : (shape Y (sites .saxion p i) NN).YC = Y := shape_YC hS
  have hy : ∃ ry, loadY p i (shape Y (sites .saxion p i) NN) m y0
      (vec Y (sites .saxion p i) x y0 (z + NN)) = some ry ∧ ∀ s : Fin (sites .saxion p i),
      at' ry.1 s = ψ x (((s * Y + y0 : Nat) : Int) + 1) ((z + NN : Nat) : Int) ∧
      at' ry.2 s = ψ x (((s * Y + y0 : Nat) : Int) - 1) ((z + NN : Nat) : Int) := by
    by_cases h0 : y0 = 0
    · have h1 : ¬ (y0 + 1 ≥ (shape Y (sites .saxion p i) NN).YC) := by rw [hYC]; omega
      simp only [Shape.yPlus, if_pos (show y0 < 1 by omega), if_neg h1, Nat.one_mul] at RP
      simp only [Shape.yMinus, if_pos (show y0 < 1 by omega), Nat.one_mul] at RM
      obtain ⟨ra, ea, aa⟩ := loadReg_of p i m (some (vec Y (sites .saxion p i) x y0 (z + NN) +
        (shape Y (sites .saxion p i) NN).XC)) _ (fun s => by simpa using RP s)
      obtain ⟨rb, eb, ab⟩ := loadReg_minus p i m _ _ RM
      refine ⟨(ra, rotMinus .saxion p i rb), ?_, fun s => ⟨aa s, ab s⟩⟩
      simp only [loadY, if_pos h0, ea, eb, Option.bind_eq_bind, Option.bind_some, Option.pure_def]
    · simp only [Shape.yMinus, if_neg (show ¬ y0 < 1 by omega), Nat.one_mul] at RM
      obtain ⟨rb, eb, ab⟩ := loadReg_of p i m _ _ RM
      by_cases h1 : y0 + 1 = Y
      · have h1' : y0 + 1 = (shape Y (sites .saxion p i) NN).YC := by rw [hYC]; exact h1
        simp only [Shape.yPlus, if_neg (show ¬ y0 < 1 by omega), if_pos (show y0 + 1 ≥ (shape Y (sites .saxion p i) NN).YC by omega),
          Nat.one_mul] at RP
        obtain ⟨ra, ea, aa⟩ := loadReg_plus p i m _ _ RP
        refine ⟨(rotPlus .saxion p i ra, rb), ?_, fun s => ⟨aa s, ab s⟩⟩
        simp only [loadY, if_neg h0, if_pos h1', ea, eb, Option.bind_eq_bind, Option.bind_some,
          Option.pure_def]
      · have h1' : ¬ (y0 + 1 = (shape Y (sites .saxion p i) NN).YC) := by rw [hYC]; exact h1
        have h1'' : ¬ (y0 + 1 ≥ (shape Y (sites .saxion p i) NN).YC) := by rw [hYC]; omega
        simp only [Shape.yPlus, if_neg (show ¬ y0 < 1 by omega), if_neg h1'', Nat.one_mul] at RP
        obtain ⟨ra, ea, aa⟩ := loadReg_of p i m (some (vec Y (sites .saxion p i) x y0 (z + NN) +
          (shape Y (sites .saxion p i) NN).XC)) _ (fun s => by simpa using RP s)
        refine ⟨(ra, rb), ?_, fun s => ⟨aa s, ab s⟩⟩
        simp only [loadY, if_neg h0, if_neg h1', ea, eb, Option.bind_eq_bind, Option.bind_some,
          Option.pure_def]
  obtain ⟨ry, ey, ay⟩ := hy
  rw [← enPx_eq hx] at epx
  rw [← enMx_eq hS] at emx
  refine ⟨⟨r0, rv, rpx, rmx, ry.1, ry.2, rpz, rmz⟩, ?_, fun s =>
    ⟨a0 s, av s, apx s, amx s, (ay s).1, (ay s).2, apz s, amz s⟩⟩
  simp only [loadAll, hX, hX1, e0, ev, epx, emx, ey, epz, emz, Option.bind_eq_bind,
    Option.bind_some, Option.pure_def]

end Jaxions.Energy
