import Verif.Model.Shift
import Mathlib.Tactic.Ring
import Mathlib.Tactic.Linarith
import Mathlib.Tactic.FieldSimp
import Mathlib.Analysis.SpecialFunctions.Trigonometric.Basic
import Mathlib.Analysis.SpecialFunctions.Trigonometric.DerivHyp

/-!
The cubic of the vacuum, and polynomials with integer coefficients on the interval from 0 to 1.
-/

namespace Jaxions.Shift

theorem sqrt3_sq : √3 * √3 = (3 : ℝ) := Real.mul_self_sqrt (by norm_num)
theorem sqrt3_pos : (0 : ℝ) < √3 := Real.sqrt_pos.2 (by norm_num)

/-- Both branches: `1 + shift` solves `x^3 - x = alpha`, and the shift is not negative. -/
theorem saxionShift_spec {a : ℝ} (ha : 0 ≤ a) :
    0 ≤ saxionShift a ∧ (1 + saxionShift a) ^ 3 - (1 + saxionShift a) = a := by
  have h3 := sqrt3_pos
  have h33 := sqrt3_sq
  unfold saxionShift
  dsimp only
  split_ifs with hd
  · set d := 4 / 3 - 9 * a * a with hdd
    set z : ℂ := ⟨3 * a, √d⟩ with hz
    have hn : ‖z‖ = 2 / √3 := by
      rw [Complex.norm_def, Complex.normSq_apply]
      have : z.re * z.re + z.im * z.im = (2 / √3) * (2 / √3) := by
        simp only [hz]
        rw [Real.mul_self_sqrt hd.le, div_mul_div_comm, h33, hdd]
        ring
      rw [this, Real.sqrt_mul_self (by positivity)]
    have hz0 : z ≠ 0 := by
      intro h
      have := hn
      rw [h, norm_zero] at this
      have h2 : (0 : ℝ) < 2 / √3 := by positivity
      linarith
    have hc : Real.cos (Complex.arg z) = 3 * a / (2 / √3) := by
      rw [Complex.cos_arg hz0, hn]
    have h0 : 0 ≤ Complex.arg z := Complex.arg_nonneg_iff.2 (Real.sqrt_nonneg _)
    have h1 : Complex.arg z ≤ Real.pi / 2 := by
      have := (Complex.abs_arg_le_pi_div_two_iff (z := z)).2 (by simp only [hz]; linarith)
      exact (abs_le.1 this).2
    have hf : atan2 (√d) (3 * a) = Complex.arg z := rfl
    rw [hf]
    have h4 := Real.cos_three_mul (Complex.arg z / 3)
    rw [mul_div_cancel₀ _ (by norm_num : (3 : ℝ) ≠ 0), hc] at h4
    have hcs : √3 / 2 ≤ Real.cos (Complex.arg z / 3) := by
      rw [← Real.cos_pi_div_six]
      refine Real.cos_le_cos_of_nonneg_of_le_pi (by linarith) ?_ (by linarith)
      have := Real.pi_pos
      linarith
    constructor
    · have : 1 ≤ 2 / √3 * Real.cos (Complex.arg z / 3) := by
        rw [div_mul_eq_mul_div, le_div_iff₀ h3]; linarith
      linarith
    · generalize Real.cos (Complex.arg z / 3) = c at h4
      have h5 : 3 * a = 2 / √3 * (4 * c ^ 3 - 3 * c) := by
        rw [← h4]; field_simp
      have h6 : (2 / √3) ^ 3 = 4 / 3 * (2 / √3) := by
        field_simp
        rw [show √3 ^ 2 = √3 * √3 by ring, h33]; norm_num
      have : (1 + (2 / √3 * c - 1)) ^ 3 = (2 / √3) ^ 3 * c ^ 3 := by ring
      rw [this, h6]
      linarith
  · set d := 4 / 3 - 9 * a * a with hdd
    have hd' : 0 ≤ -d := by linarith
    have ha' : 0 < a := by
      rcases ha.lt_or_eq with h | h
      · exact h
      · rw [← h] at hdd; norm_num at hdd; linarith
    set y := √(-d) / (3 * a) with hy
    have hy0 : 0 ≤ y := by positivity
    have hy2 : 1 - y ^ 2 = (4 / 3) / (9 * a ^ 2) := by
      rw [hy, div_pow, Real.sq_sqrt hd', hdd]
      field_simp
      ring
    have hy1 : y < 1 := by
      have : 0 < 1 - y ^ 2 := by rw [hy2]; positivity
      nlinarith
    set u := atanh y with hu
    have ht : Real.tanh u = y := Real.tanh_artanh ⟨by linarith, hy1⟩
    have hcp : 0 < Real.cosh u := Real.cosh_pos u
    have hcu : Real.cosh u ^ 2 * (1 - y ^ 2) = 1 := by
      rw [← ht, Real.tanh_eq_sinh_div_cosh, div_pow, mul_sub, mul_one,
        mul_div_cancel₀ _ (pow_ne_zero 2 hcp.ne'), Real.cosh_sq]
      ring
    have hcu' : Real.cosh u = 3 * a / (2 / √3) := by
      have h7 : Real.cosh u ^ 2 = (3 * a / (2 / √3)) ^ 2 := by
        rw [hy2] at hcu
        field_simp at hcu ⊢
        rw [show √3 ^ 2 = √3 * √3 by ring, h33]
        linarith
      exact (pow_left_inj₀ hcp.le (by positivity) (by norm_num)).1 h7
    have h4 := Real.cosh_three_mul (u / 3)
    rw [mul_div_cancel₀ _ (by norm_num : (3 : ℝ) ≠ 0), hcu'] at h4
    have hcs : 1 ≤ Real.cosh (u / 3) := Real.one_le_cosh _
    have h32 : √3 ≤ 2 := by
      rw [show (2 : ℝ) = √(2 * 2) by rw [Real.sqrt_mul_self (by norm_num)]]
      exact Real.sqrt_le_sqrt (by norm_num)
    constructor
    · have : 1 ≤ 2 / √3 * Real.cosh (u / 3) := by
        rw [div_mul_eq_mul_div, le_div_iff₀ h3]; linarith
      linarith
    · generalize Real.cosh (u / 3) = c at h4
      have h5 : 3 * a = 2 / √3 * (4 * c ^ 3 - 3 * c) := by
        rw [← h4]; field_simp
      have h6 : (2 / √3) ^ 3 = 4 / 3 * (2 / √3) := by
        field_simp
        rw [show √3 ^ 2 = √3 * √3 by ring, h33]; norm_num
      have : (1 + (2 / √3 * c - 1)) ^ 3 = (2 / √3) ^ 3 * c ^ 3 := by ring
      rw [this, h6]
      linarith

/-! ### Polynomials on [0, 1] -/

/-- Value of a polynomial given by its integer coefficients. -/
def ev (l : List ℤ) (x : ℝ) : ℝ := l.foldr (fun c r => (c : ℝ) + x * r) 0

def padd : List ℤ → List ℤ → List ℤ
  | [], b => b
  | a, [] => a
  | x :: a, y :: b => (x + y) :: padd a b

def psmul (c : ℤ) (a : List ℤ) : List ℤ := a.map (c * ·)

def pmul : List ℤ → List ℤ → List ℤ
  | [], _ => []
  | x :: a, b => padd (psmul x b) (0 :: pmul a b)

def ppow (a : List ℤ) : ℕ → List ℤ
  | 0 => [1]
  | n + 1 => pmul a (ppow a n)

theorem ev_nil (x : ℝ) : ev [] x = 0 := rfl
theorem ev_cons (c : ℤ) (l : List ℤ) (x : ℝ) : ev (c :: l) x = c + x * ev l x := rfl

theorem ev_padd (a b : List ℤ) (x : ℝ) : ev (padd a b) x = ev a x + ev b x := by
  induction a generalizing b with
  | nil => simp [padd, ev_nil]
  | cons c a ih =>
    cases b with
    | nil => simp [padd, ev_nil]
    | cons d b => simp only [padd, ev_cons, ih]; push_cast; ring

theorem ev_psmul (c : ℤ) (a : List ℤ) (x : ℝ) : ev (psmul c a) x = c * ev a x := by
  induction a with
  | nil => simp [psmul, ev_nil]
  | cons d a ih =>
    have : psmul c (d :: a) = (c * d) :: psmul c a := rfl
    rw [this, ev_cons, ev_cons, ih]; push_cast; ring

theorem ev_pmul (a b : List ℤ) (x : ℝ) : ev (pmul a b) x = ev a x * ev b x := by
  induction a with
  | nil => simp [pmul, ev_nil]
  | cons c a ih => rw [pmul, ev_padd, ev_psmul, ev_cons, ev_cons, ih]; push_cast; ring

theorem ev_ppow (a : List ℤ) (n : ℕ) (x : ℝ) : ev (ppow a n) x = ev a x ^ n := by
  induction n with
  | zero => simp [ppow, ev_cons, ev_nil]
  | succ n ih => rw [ppow, ev_pmul, ih]; ring

/-- All sums of the first coefficients, starting from `s`, are not negative. -/
def sumsOk (s : ℤ) : List ℤ → Bool
  | [] => decide (0 ≤ s)
  | c :: l => decide (0 ≤ s) && sumsOk (s + c) l

theorem ev_nonneg_aux (l : List ℤ) (s : ℤ) (h : sumsOk s l = true) (x : ℝ) (h0 : 0 ≤ x)
    (h1 : x ≤ 1) : 0 ≤ (s : ℝ) + ev l x := by
  induction l generalizing s with
  | nil =>
    simp only [sumsOk, decide_eq_true_eq] at h
    rw [ev_nil, add_zero]; exact_mod_cast h
  | cons c l ih =>
    simp only [sumsOk, Bool.and_eq_true, decide_eq_true_eq] at h
    have hs : (0 : ℝ) ≤ s := by exact_mod_cast h.1
    have := ih (s + c) h.2
    rw [ev_cons]
    push_cast at this
    -- s + c + x e with s + c + e >= 0; linear in x between s + c >= 0 and the value at 1
    have hc : (0 : ℝ) ≤ s + c := by
      have : 0 ≤ s + c := by
        cases l with
        | nil => simpa [sumsOk] using h.2
        | cons _ _ => simp only [sumsOk, Bool.and_eq_true, decide_eq_true_eq] at h; exact h.2.1
      exact_mod_cast this
    nlinarith

/-- A polynomial all of whose partial sums of coefficients are not negative is not negative on
[0, 1]. -/
theorem ev_nonneg {l : List ℤ} (h : sumsOk 0 l = true) {x : ℝ} (h0 : 0 ≤ x) (h1 : x ≤ 1) :
    0 ≤ ev l x := by
  have := ev_nonneg_aux l 0 h x h0 h1
  simpa using this

/-- Numerator and denominator of `rsvPQ2`, times 10^17, and their sum. -/
def cN : List ℤ := [0, 12500000000000000, 30676113886283973, 20762392505082639, 3303541390146716]
def cD : List ℤ :=
  [100000000000000000, 301658911090271650, 285782277528938900, 89696133248566030,
    5640260585369341]
def cA : List ℤ := padd cD cN

/-- `2 (A^7 - A^3 D^4) - z D^7`. -/
def cP : List ℤ :=
  padd (psmul 2 (padd (ppow cA 7) (psmul (-1) (pmul (ppow cA 3) (ppow cD 4)))))
    (psmul (-1) (0 :: ppow cD 7))

theorem lower_ok : sumsOk 0 (padd (0 :: ppow cD 7) (psmul 50000 cP)) = true := by decide +kernel
theorem upper_ok : sumsOk 0 (padd (0 :: ppow cD 7) (psmul (-50000) cP)) = true := by
  decide +kernel

theorem rsv_eq (z : ℝ) : rsvPQ2 z = ev cN z / ev cD z := by
  unfold rsvPQ2
  have hN : ev cN z = 10 ^ 17 * (0.125 * z + 0.30676113886283973 * (z * z) +
      0.20762392505082639 * (z * z * z) + 0.03303541390146716 * (z * z * (z * z))) := by
    simp only [cN, ev_cons, ev_nil]; push_cast; ring
  have hD : ev cD z = 10 ^ 17 * (1 + 3.0165891109027165 * z + 2.857822775289389 * (z * z) +
      0.8969613324856603 * (z * z * z) + 0.05640260585369341 * (z * z * (z * z))) := by
    simp only [cD, ev_cons, ev_nil]; push_cast; ring
  rw [hN, hD, mul_div_mul_left _ _ (by norm_num)]

theorem cD_pos {z : ℝ} (h0 : 0 ≤ z) : 0 < ev cD z := by
  simp only [cD, ev_cons, ev_nil]; push_cast; positivity

/-- The place `x = 1 + rsvPQ2 z` solves `2 x^3 (x^4 - 1) = z` up to `z/50000`, for `z` up to 1. -/
theorem rsv_residual {z : ℝ} (h0 : 0 ≤ z) (h1 : z ≤ 1) :
    |2 * (1 + rsvPQ2 z) ^ 3 * ((1 + rsvPQ2 z) ^ 4 - 1) - z| ≤ z / 50000 := by
  have hD := cD_pos h0
  have hx : 1 + rsvPQ2 z = ev cA z / ev cD z := by
    rw [rsv_eq, cA, ev_padd]; field_simp
  have hP : ev cP z = 2 * (ev cA z ^ 7 - ev cA z ^ 3 * ev cD z ^ 4) - z * ev cD z ^ 7 := by
    unfold cP
    simp only [ev_padd, ev_psmul, ev_pmul, ev_ppow, ev_cons]
    push_cast
    ring
  have hr : 2 * (1 + rsvPQ2 z) ^ 3 * ((1 + rsvPQ2 z) ^ 4 - 1) - z = ev cP z / ev cD z ^ 7 := by
    rw [hx, hP]
    field_simp
  have hl := ev_nonneg lower_ok h0 h1
  have hu := ev_nonneg upper_ok h0 h1
  simp only [ev_padd, ev_psmul, ev_ppow, ev_cons] at hl hu
  push_cast at hl hu
  have hD7 : 0 < ev cD z ^ 7 := by positivity
  rw [hr, abs_le]
  constructor
  · rw [le_div_iff₀ hD7]; linarith
  · rw [div_le_iff₀ hD7]; linarith

theorem rsv_nonneg {z : ℝ} (h0 : 0 ≤ z) : 0 ≤ rsvPQ2 z := by
  unfold rsvPQ2; positivity

theorem rsv_bound {z : ℝ} (h0 : 0 ≤ z) : rsvPQ2 z ≤ 3 / 5 := by
  have hD := cD_pos h0
  rw [rsv_eq, div_le_iff₀ hD]
  simp only [cD, cN, ev_cons, ev_nil]
  push_cast
  nlinarith [mul_nonneg h0 h0, mul_nonneg (mul_nonneg h0 h0) h0,
    mul_nonneg (mul_nonneg h0 h0) (mul_nonneg h0 h0)]

end Jaxions.Shift
