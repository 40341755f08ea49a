import Verif.Model.Mend
import Verif.Spec.Mend
import Verif.Basic.DivMod
import Mathlib.Tactic.Ring
import Mathlib.Tactic.Linarith
import Mathlib.Tactic.FieldSimp
import Mathlib.Tactic.Abel
import Mathlib.Tactic.LinearCombination
import Mathlib.Tactic.Push

namespace Jaxions
namespace Mend

variable {K : Type} [Field K] [LinearOrder K] [IsStrictOrderedRing K] [FloorRing K]

/-! ## Turns -/

theorem turnsV_range {zP : K} (h : 0 < zP) (d : K) :
    -zP ≤ d + turnsV zP d * (2 * zP) ∧ d + turnsV zP d * (2 * zP) < zP := by
  have h2 : 0 < 2 * zP := by linarith
  have a := Int.floor_le ((d + zP) / (2 * zP))
  have b := Int.lt_floor_add_one ((d + zP) / (2 * zP))
  rw [le_div_iff₀ h2] at a
  rw [div_lt_iff₀ h2] at b
  simp only [turnsV, Int.cast_neg]
  constructor <;> linarith

theorem turnsV_unique {zP : K} (h : 0 < zP) {d : K} {k : Int} (h1 : -zP ≤ d + k * (2 * zP))
    (h2 : d + k * (2 * zP) < zP) : turnsV zP d = k := by
  have h3 : 0 < 2 * zP := by linarith
  have : ⌊(d + zP) / (2 * zP)⌋ = -k := by
    rw [Int.floor_eq_iff, le_div_iff₀ h3, div_lt_iff₀ h3]
    push_cast
    constructor <;> linarith
  rw [turnsV, this, neg_neg]

theorem turnsV_small {zP : K} (h : 0 < zP) {d : K} (h1 : -zP ≤ d) (h2 : d < zP) :
    turnsV zP d = 0 := turnsV_unique h (by simpa using h1) (by simpa using h2)

theorem turnsV_zero {zP : K} (h : 0 < zP) {d : K} (hd : turnsV zP d = 0) : -zP ≤ d ∧ d < zP := by
  have := turnsV_range h d
  rw [hd] at this
  simpa using this

theorem turnsV_add {zP : K} (h : 0 < zP) (d : K) (j : Int) :
    turnsV zP (d + j * (2 * zP)) = turnsV zP d - j := by
  have := turnsV_range h d
  refine turnsV_unique h ?_ ?_ <;> push_cast <;> linarith

theorem turnsV_neg {zP : K} (h : 0 < zP) {d : K} (hd : d ≥ zP) : turnsV zP d < 0 := by
  have := (turnsV_range h d).2
  by_contra hc
  have : (0 : K) ≤ turnsV zP d := by exact_mod_cast not_lt.mp hc
  nlinarith

theorem turnsV_pos {zP : K} (h : 0 < zP) {d : K} (hd : d < -zP) : 0 < turnsV zP d := by
  have := (turnsV_range h d).1
  by_contra hc
  have : (turnsV zP d : K) ≤ 0 := by exact_mod_cast not_lt.mp hc
  nlinarith

theorem turnsS_abs {zP : K} (h : 0 < zP) (d : K) : |d + turnsS zP d * (2 * zP)| ≤ zP := by
  have h2 : 0 < 2 * zP := by linarith
  rw [abs_le]
  unfold turnsS
  split_ifs with h1 h3
  · have a := Int.le_ceil ((d - zP) / (2 * zP))
    have b := Int.ceil_lt_add_one ((d - zP) / (2 * zP))
    rw [div_le_iff₀ h2] at a
    rw [← sub_lt_iff_lt_add, lt_div_iff₀ h2] at b
    push_cast
    constructor <;> linarith
  · have a := Int.le_ceil ((-zP - d) / (2 * zP))
    have b := Int.ceil_lt_add_one ((-zP - d) / (2 * zP))
    rw [div_le_iff₀ h2] at a
    rw [← sub_lt_iff_lt_add, lt_div_iff₀ h2] at b
    constructor <;> linarith
  · simp only [Int.cast_zero, zero_mul, add_zero]
    constructor <;> linarith

theorem turnsS_unique {zP : K} (h : 0 < zP) {d : K} {k : Int} (h1 : |d + k * (2 * zP)| < zP) :
    turnsS zP d = k := by
  have h2 : 0 < 2 * zP := by linarith
  have := turnsS_abs h d
  rw [abs_le] at this
  rw [abs_lt] at h1
  have a : ((turnsS zP d - k : Int) : K) * (2 * zP) < 1 * (2 * zP) := by push_cast; linarith
  have b : (-1 : K) * (2 * zP) < ((turnsS zP d - k : Int) : K) * (2 * zP) := by push_cast; linarith
  have a := lt_of_mul_lt_mul_right a h2.le
  have b := lt_of_mul_lt_mul_right b h2.le
  have a : turnsS zP d - k < 1 := by exact_mod_cast a
  have b : -1 < turnsS zP d - k := by exact_mod_cast b
  omega

theorem turnsS_zero {zP d : K} (h : |d| ≤ zP) : turnsS zP d = 0 := by
  rw [abs_le] at h
  rw [turnsS, if_neg (not_lt.mpr h.2), if_neg (not_lt.mpr h.1)]

/-! ## The loops -/

theorem turnsS_sub {zP d : K} (h : 0 < zP) (hd : d > zP) :
    turnsS zP d < 0 ∧ turnsS zP (d - 2 * zP) = turnsS zP d + 1 := by
  have h2 : 0 < 2 * zP := by linarith
  have pos : 0 < ⌈(d - zP) / (2 * zP)⌉ := Int.ceil_pos.mpr (div_pos (by linarith) h2)
  constructor
  · rw [turnsS, if_pos hd]; omega
  · have e : (d - 2 * zP - zP) / (2 * zP) = (d - zP) / (2 * zP) - 1 := by
      field_simp; ring
    rw [turnsS, turnsS, if_pos hd]
    by_cases h3 : d - 2 * zP > zP
    · rw [if_pos h3, e, Int.ceil_sub_one]; omega
    · rw [if_neg h3, if_neg (by linarith)]
      have : ⌈(d - zP) / (2 * zP)⌉ ≤ 1 := by
        rw [Int.ceil_le, div_le_iff₀ h2]; push_cast; linarith
      omega

theorem turnsS_add {zP d : K} (h : 0 < zP) (hd : d < -zP) :
    0 < turnsS zP d ∧ turnsS zP (d + 2 * zP) = turnsS zP d - 1 := by
  have h2 : 0 < 2 * zP := by linarith
  have pos : 0 < ⌈(-zP - d) / (2 * zP)⌉ := Int.ceil_pos.mpr (div_pos (by linarith) h2)
  have h4 : ¬ d > zP := by linarith
  constructor
  · rw [turnsS, if_neg h4, if_pos hd]; exact pos
  · have e : (-zP - (d + 2 * zP)) / (2 * zP) = (-zP - d) / (2 * zP) - 1 := by
      field_simp; ring
    rw [turnsS, turnsS, if_neg h4, if_pos hd, if_neg (by linarith)]
    by_cases h3 : d + 2 * zP < -zP
    · rw [if_pos h3, e, Int.ceil_sub_one]
    · rw [if_neg h3]
      have : ⌈(-zP - d) / (2 * zP)⌉ ≤ 1 := by
        rw [Int.ceil_le, div_le_iff₀ h2]; push_cast; linarith
      omega

theorem whileS_eq {zP : K} (h : 0 < zP) (w mel : K) (fuel : Nat) : ∀ a : K × K,
    (turnsS zP (a.1 - mel)).natAbs ≤ fuel →
    whileS zP w mel fuel a = some (a.1 + turnsS zP (a.1 - mel) * (2 * zP),
      a.2 + turnsS zP (a.1 - mel) * w) := by
  induction fuel with
  | zero =>
    intro a ha
    have h0 : turnsS zP (a.1 - mel) = 0 := by omega
    have := turnsS_abs h (a.1 - mel)
    rw [h0] at this ⊢
    simp only [Int.cast_zero, zero_mul, add_zero] at this ⊢
    rw [whileS, if_neg (not_lt.mpr this)]
  | succ fuel ih =>
    intro a ha
    by_cases hc : |a.1 - mel| > zP
    · rw [whileS, if_pos hc]
      rcases lt_abs.mp hc with h1 | h1
      · obtain ⟨b1, b2⟩ := turnsS_sub h h1
        have e : bumpS zP w mel a = (a.1 - 2 * zP, a.2 - w) := by
          simp only [bumpS, if_pos h1]
        have e2 : a.1 - 2 * zP - mel = a.1 - mel - 2 * zP := by ring
        rw [e, ih _ (by simp only [e2, b2]; omega)]
        simp only [e2, b2]
        push_cast
        congr 2 <;> ring
      · have h1 : a.1 - mel < -zP := by linarith
        obtain ⟨b1, b2⟩ := turnsS_add h h1
        have e : bumpS zP w mel a = (a.1 + 2 * zP, a.2 + w) := by
          have : ¬ a.1 - mel > zP := by linarith
          simp only [bumpS, if_neg this]
          rw [if_pos (by linarith)]
        have e2 : a.1 + 2 * zP - mel = a.1 - mel + 2 * zP := by ring
        rw [e, ih _ (by simp only [e2, b2]; omega)]
        simp only [e2, b2]
        push_cast
        congr 2 <;> ring
    · rw [whileS, if_neg hc, turnsS_zero (not_lt.mp hc)]
      simp

theorem hit_iff {zP : K} (h : 0 < zP) (d : K) :
    (maskP zP d || maskM zP d) = true ↔ turnsV zP d ≠ 0 := by
  simp only [maskP, maskM, Bool.or_eq_true, decide_eq_true_eq]
  constructor
  · rintro (h1 | h1) h0
    · have := turnsV_neg h h1; omega
    · have := turnsV_pos h h1; omega
  · intro h0
    by_contra hc
    rw [not_or, not_le, not_lt] at hc
    exact h0 (turnsV_small h hc.2 hc.1)

theorem anyLane_iff {n : Nat} {f : Nat → Bool} : anyLane n f = true ↔ ∃ k < n, f k = true := by
  simp [anyLane]

/-- The lanes of the vector loop are independent. -/
theorem whileV_eq {zP : K} (h : 0 < zP) (w : K) (n : Nat) (ref : Nat → K) (fuel : Nat) :
    ∀ a : Nat → K × K, (∀ k < n, (turnsV zP ((a k).1 - ref k)).natAbs ≤ fuel) →
    ∃ b, whileV zP w n ref fuel a = some b ∧ ∀ k < n,
      b k = ((a k).1 + turnsV zP ((a k).1 - ref k) * (2 * zP),
        (a k).2 + turnsV zP ((a k).1 - ref k) * w) := by
  induction fuel with
  | zero =>
    intro a ha
    refine ⟨a, ?_, ?_⟩
    · rw [whileV, if_neg]
      rw [anyLane_iff]
      rintro ⟨k, hk, hh⟩
      exact (hit_iff h _).mp hh (by have := ha k hk; omega)
    · intro k hk
      have : turnsV zP ((a k).1 - ref k) = 0 := by have := ha k hk; omega
      rw [this]; simp
  | succ fuel ih =>
    intro a ha
    by_cases hc : anyLane n (fun k => maskP zP ((a k).1 - ref k) || maskM zP ((a k).1 - ref k)) = true
    · have key : ∀ k, turnsV zP ((bump zP w (maskP zP ((a k).1 - ref k))
          (maskM zP ((a k).1 - ref k)) (a k)).1 - ref k) =
          turnsV zP ((a k).1 - ref k) - (turnsV zP ((a k).1 - ref k)).sign ∧
          bump zP w (maskP zP ((a k).1 - ref k)) (maskM zP ((a k).1 - ref k)) (a k) =
          ((a k).1 + (turnsV zP ((a k).1 - ref k)).sign * (2 * zP),
            (a k).2 + (turnsV zP ((a k).1 - ref k)).sign * w) := by
        intro k
        by_cases h1 : (a k).1 - ref k ≥ zP
        · have hn := turnsV_neg h h1
          have m1 : maskP zP ((a k).1 - ref k) = true := by simp [maskP, h1]
          have m2 : maskM zP ((a k).1 - ref k) = false := by simp [maskM]; linarith
          rw [m1, m2, Int.sign_eq_neg_one_of_neg hn]
          simp only [bump, if_true, Bool.false_eq_true, if_false]
          constructor
          · have := turnsV_add h ((a k).1 - ref k) (-1)
            push_cast at this
            rw [← this]; congr 1; ring
          · push_cast; congr 1 <;> ring
        · by_cases h2 : (a k).1 - ref k < -zP
          · have hn := turnsV_pos h h2
            have m1 : maskP zP ((a k).1 - ref k) = false := by
              simp only [maskP, decide_eq_false_iff_not]; exact h1
            have m2 : maskM zP ((a k).1 - ref k) = true := by simp [maskM, h2]
            rw [m1, m2, Int.sign_eq_one_of_pos hn]
            simp only [bump, if_true, Bool.false_eq_true, if_false]
            constructor
            · have := turnsV_add h ((a k).1 - ref k) 1
              push_cast at this
              rw [← this]; congr 1; ring
            · push_cast; congr 1 <;> ring
          · have h0 := turnsV_small h (not_lt.mp h2) (not_le.mp h1)
            have m1 : maskP zP ((a k).1 - ref k) = false := by
              simp only [maskP, decide_eq_false_iff_not]; exact h1
            have m2 : maskM zP ((a k).1 - ref k) = false := by
              simp only [maskM, decide_eq_false_iff_not]; exact h2
            rw [m1, m2, h0]
            simp [bump, h0]
      obtain ⟨b, hb, hv⟩ := ih (fun k => bump zP w (maskP zP ((a k).1 - ref k))
          (maskM zP ((a k).1 - ref k)) (a k)) (by
        intro k hk
        simp only [(key k).1]
        have := ha k hk
        rcases lt_trichotomy (turnsV zP ((a k).1 - ref k)) 0 with h1 | h1 | h1
        · rw [Int.sign_eq_neg_one_of_neg h1]; omega
        · rw [h1]; simp
        · rw [Int.sign_eq_one_of_pos h1]; omega)
      refine ⟨b, by rw [whileV, if_pos hc]; exact hb, ?_⟩
      intro k hk
      rw [hv k hk]
      rw [(key k).1, (key k).2]
      push_cast
      congr 1 <;> ring
    · refine ⟨a, by rw [whileV, if_neg hc], ?_⟩
      intro k hk
      have : turnsV zP ((a k).1 - ref k) = 0 := by
        by_contra h0
        exact hc (anyLane_iff.mpr ⟨k, hk, (hit_iff h _).mpr h0⟩)
      rw [this]; simp

end Mend
end Jaxions
