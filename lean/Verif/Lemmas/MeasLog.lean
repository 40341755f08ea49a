import Verif.Spec.MeasLog
import Mathlib.Analysis.SpecialFunctions.Sqrt
import Mathlib.Analysis.SpecialFunctions.Log.Basic
import Mathlib.Algebra.Order.Floor.Semiring
import Mathlib.Tactic.FieldSimp
import Mathlib.Tactic.Linarith
import Mathlib.Tactic.Positivity

namespace Jaxions.MeasLog

open Spec

variable {p : Par}

theorem logf_eq (p : Par) : logf p = kappa p p.zFinl := by
  unfold logf kappa
  cases p.fixed
  · simp only [Bool.false_eq_true, if_false]
    congr 1
    ring
  · simp only [if_true]
    congr 1
    ring

theorem z0_eq (p : Par) : z0 p = first p := rfl

theorem time_pos (ok : Ok p) (lo : ℝ) : 0 < time p lo := by
  have h1 := ok.N
  have h2 := ok.ℓ
  have h3 := ok.msa
  have h : 0 < Real.exp lo * p.ℓ / p.N / p.msa := by positivity
  unfold time
  cases p.fixed
  · simpa using h
  · simpa using h

theorem kappa_time (ok : Ok p) (lo : ℝ) : kappa p (time p lo) = lo := by
  have h1 : (0 : ℝ) < p.N := by exact_mod_cast ok.N
  have h2 := ok.ℓ
  have h3 := ok.msa
  have h : 0 ≤ Real.exp lo * p.ℓ / p.N / p.msa := by positivity
  have e : p.msa * (p.N / p.ℓ) * (Real.exp lo * p.ℓ / p.N / p.msa) = Real.exp lo := by
    field_simp
  unfold kappa time
  cases p.fixed
  · simp only [Bool.false_eq_true, if_false]
    rw [e, Real.log_exp]
  · simp only [if_true]
    rw [Real.sq_sqrt h, e, Real.log_exp]

theorem kappa_lt (ok : Ok p) {a b : ℝ} (ha : 0 < a) (hb : 0 < b) : kappa p a < kappa p b ↔ a < b := by
  have h1 : (0 : ℝ) < p.N := by exact_mod_cast ok.N
  have h2 := ok.ℓ
  have h3 := ok.msa
  have hc : 0 < p.msa * (p.N / p.ℓ) := by positivity
  unfold kappa
  cases p.fixed
  · simp only [Bool.false_eq_true, if_false]
    rw [Real.log_lt_log_iff (by positivity) (by positivity), mul_lt_mul_iff_of_pos_left hc]
  · simp only [if_true]
    rw [Real.log_lt_log_iff (by positivity) (by positivity), mul_lt_mul_iff_of_pos_left hc,
      sq_lt_sq₀ ha.le hb.le]

theorem kappa_inj (ok : Ok p) {a b : ℝ} (ha : 0 < a) (hb : 0 < b) (h : kappa p a = kappa p b) :
    a = b := by
  rcases lt_trichotomy a b with h' | h' | h'
  · exact absurd h ((kappa_lt ok ha hb).2 h').ne
  · exact h'
  · exact absurd h ((kappa_lt ok hb ha).2 h').ne'

theorem loop_eq (hd : 0 < p.dump) (n : ℕ) (lo : ℝ) (h : ⌈(logf p - lo) * p.dump⌉₊ < n) :
    loop p n lo = some ((List.range ⌈(logf p - lo) * p.dump⌉₊).map fun k : ℕ => time p (lo + k / p.dump)) := by
  have hd' : (0 : ℝ) < p.dump := by exact_mod_cast hd
  induction n generalizing lo with
  | zero => omega
  | succ n ih =>
    unfold loop
    by_cases hl : lo < logf p
    · rw [if_pos hl]
      have hn : next p lo = some (lo + 1 / p.dump) := if_neg hd.ne'
      rw [hn]
      have e : ⌈(logf p - lo) * p.dump⌉₊ = ⌈(logf p - (lo + 1 / p.dump)) * p.dump⌉₊ + 1 := by
        have e1 : (logf p - (lo + 1 / p.dump)) * p.dump = (logf p - lo) * p.dump - 1 := by
          field_simp
          ring
        have h0 : 0 < (logf p - lo) * p.dump := mul_pos (by linarith) hd'
        rw [e1, Nat.ceil_sub_one]
        have := Nat.ceil_pos.2 h0
        omega
      show (loop p n (lo + 1 / p.dump)).map (time p lo :: ·) = _
      rw [ih _ (by omega), e, List.range_succ_eq_map]
      simp only [Option.map_some, List.map_cons, List.map_map, Nat.cast_zero, zero_div, add_zero]
      congr 2
      apply List.map_congr_left
      intro k _
      simp only [Function.comp]
      congr 1
      push_cast
      ring
    · rw [if_neg hl]
      have : ⌈(logf p - lo) * p.dump⌉₊ = 0 :=
        Nat.ceil_eq_zero.2 (mul_nonpos_of_nonpos_of_nonneg (by linarith) hd'.le)
      rw [this]
      rfl

theorem step_lt (hd : 0 < p.dump) {k : ℕ} (hk : k < count p) :
    first p + k / p.dump < kappa p p.zFinl := by
  have hd' : (0 : ℝ) < p.dump := by exact_mod_cast hd
  have := Nat.lt_ceil.1 hk
  rw [← sub_pos]
  have h2 : 0 < ((kappa p p.zFinl - first p) * p.dump - k) / p.dump := div_pos (by linarith) hd'
  have e : ((kappa p p.zFinl - first p) * p.dump - k) / p.dump =
      kappa p p.zFinl - (first p + k / p.dump) := by
    field_simp
    ring
  linarith [e ▸ h2]

theorem step_ge (hd : 0 < p.dump) : kappa p p.zFinl ≤ first p + count p / p.dump := by
  have hd' : (0 : ℝ) < p.dump := by exact_mod_cast hd
  have h := Nat.le_ceil ((kappa p p.zFinl - first p) * p.dump)
  have h2 : (kappa p p.zFinl - first p) * p.dump / p.dump ≤ count p / p.dump :=
    div_le_div_of_nonneg_right h hd'.le
  rw [mul_div_cancel_right₀ _ hd'.ne'] at h2
  linarith

theorem count_pos (hd : 0 < p.dump) : 0 < count p ↔ first p < kappa p p.zFinl := by
  have hd' : (0 : ℝ) < p.dump := by exact_mod_cast hd
  unfold count
  rw [Nat.ceil_pos, mul_pos_iff_of_pos_right hd', sub_pos]

end Jaxions.MeasLog
