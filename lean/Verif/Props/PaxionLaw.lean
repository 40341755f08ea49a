import Verif.Model.Paxion
import Verif.Spec.Paxion
import Verif.Lemmas.MassRate
import Mathlib.Analysis.SpecialFunctions.Integrals.Basic
import Mathlib.Analysis.Calculus.MeanValue
import Mathlib.MeasureTheory.Integral.IntervalIntegral.Basic
/-
C63: what the factors of the Paxion propagator are, and what its operations keep.
-/
namespace Jaxions.Paxion

open Stencil Run Cosmo intervalIntegral Set

/-! ### The turn -/

/-- **C63** A potential operation keeps the number density at every site. -/
theorem C63_turn_number (NN : Nat) (w : Nat → ℝ) (k g : ℝ) (Φ : Int → Int → Int → ℝ) (F : Lat ℝ)
    (x y z : Int) :
    (Move.on NN w F (.turn k g Φ)).φ x y z ^ 2 + (Move.on NN w F (.turn k g Φ)).ν x y z ^ 2 =
      F.φ x y z ^ 2 + F.ν x y z ^ 2 := by
  simp only [Move.on]
  have := Real.sin_sq_add_cos_sq (angle k g Φ F x y z)
  linear_combination (F.φ x y z ^ 2 + F.ν x y z ^ 2) * this

/-- The move that undoes a move. -/
def Move.back : Move → Move
  | .kick b k => .kick b (-k)
  | .turn k g Φ => .turn (-k) (-g) Φ

theorem back_on (NN : Nat) (w : Nat → ℝ) (mv : Move) (F : Lat ℝ) :
    mv.back.on NN w (mv.on NN w F) = F := by
  cases mv with
  | kick b k =>
    cases b
    · simp only [Move.back, Move.on]
      congr 1
      funext x y z
      ring
    · simp only [Move.back, Move.on]
      congr 1
      funext x y z
      ring
  | turn k g Φ =>
    have ha : ∀ x y z, angle (-k) (-g) Φ (Move.on NN w F (.turn k g Φ)) x y z = -angle k g Φ F x y z := by
      intro x y z
      unfold angle
      rw [C63_turn_number]
      ring
    have key : ∀ x y z, Real.sin (angle k g Φ F x y z) ^ 2 + Real.cos (angle k g Φ F x y z) ^ 2 = 1 :=
      fun x y z => Real.sin_sq_add_cos_sq _
    have e : Move.back (.turn k g Φ) = .turn (-k) (-g) Φ := rfl
    rw [e]
    show Lat.mk _ _ = F
    simp only [ha, Real.cos_neg, Real.sin_neg]
    cases F with
    | mk φ ν =>
      congr 1
      · funext x y z
        simp only [Move.on]
        linear_combination φ x y z * key x y z
      · funext x y z
        simp only [Move.on]
        linear_combination ν x y z * key x y z

/-- **C63** Every list of operations is undone by the opposite operations in the opposite order. -/
theorem C63_reverse (NN : Nat) (w : Nat → ℝ) (ms : List Move) (F : Lat ℝ) :
    moves NN w (ms ++ (ms.map Move.back).reverse) F = F := by
  induction ms generalizing F with
  | nil => rfl
  | cons m ms ih =>
    unfold moves at ih ⊢
    rw [List.map_cons, List.reverse_cons, List.cons_append, List.foldl_cons, ← List.append_assoc,
      List.foldl_append, ih, List.foldl_cons, List.foldl_nil, back_on]

/-- The field of one site obeys `ψ' = i q(t) |ψ|² ψ`. -/
def Obeys (q φ ν : ℝ → ℝ) (a b : ℝ) : Prop :=
  ∀ t ∈ uIcc a b, HasDerivAt φ (-(q t * (φ t ^ 2 + ν t ^ 2) * ν t)) t ∧
    HasDerivAt ν (q t * (φ t ^ 2 + ν t ^ 2) * φ t) t

theorem const_of_deriv {f : ℝ → ℝ} {a b : ℝ} (h : ∀ t ∈ uIcc a b, HasDerivAt f 0 t) : f b = f a := by
  have := intervalIntegral.integral_eq_sub_of_hasDerivAt (f := f) (f' := fun _ => 0) h
    intervalIntegrable_const
  simp only [intervalIntegral.integral_zero] at this
  linarith

/-- A turn by the integral of the coupling is the exact evolution of a site. -/
theorem turn_of_obeys {q Q φ ν : ℝ → ℝ} {a b : ℝ} (hQ : ∀ t ∈ uIcc a b, HasDerivAt Q (q t) t)
    (h : Obeys q φ ν a b) :
    φ b = Real.cos ((Q b - Q a) * (φ a ^ 2 + ν a ^ 2)) * φ a -
        Real.sin ((Q b - Q a) * (φ a ^ 2 + ν a ^ 2)) * ν a ∧
      ν b = Real.sin ((Q b - Q a) * (φ a ^ 2 + ν a ^ 2)) * φ a +
        Real.cos ((Q b - Q a) * (φ a ^ 2 + ν a ^ 2)) * ν a := by
  have hN : ∀ t ∈ uIcc a b, φ t ^ 2 + ν t ^ 2 = φ a ^ 2 + ν a ^ 2 := by
    intro t ht
    have hsub : uIcc a t ⊆ uIcc a b := uIcc_subset_uIcc_left ht
    refine const_of_deriv (f := fun t => φ t ^ 2 + ν t ^ 2) fun s hs => ?_
    obtain ⟨h1, h2⟩ := h s (hsub hs)
    refine ((h1.pow 2).add (h2.pow 2)).congr_deriv ?_
    simp only [Nat.cast_ofNat, Nat.add_one_sub_one, pow_one]
    ring
  have hT : ∀ t ∈ uIcc a b, HasDerivAt (fun t => (Q t - Q a) * (φ a ^ 2 + ν a ^ 2))
      (q t * (φ a ^ 2 + ν a ^ 2)) t := fun t ht => ((hQ t ht).sub_const _).mul_const _
  have hX := const_of_deriv (a := a) (b := b)
    (f := fun t => Real.cos ((Q t - Q a) * (φ a ^ 2 + ν a ^ 2)) * φ t +
      Real.sin ((Q t - Q a) * (φ a ^ 2 + ν a ^ 2)) * ν t) (fun t ht => by
    obtain ⟨h1, h2⟩ := h t ht
    refine (((hT t ht).cos.mul h1).add ((hT t ht).sin.mul h2)).congr_deriv ?_
    rw [hN t ht]
    ring)
  have hY := const_of_deriv (a := a) (b := b)
    (f := fun t => Real.cos ((Q t - Q a) * (φ a ^ 2 + ν a ^ 2)) * ν t -
      Real.sin ((Q t - Q a) * (φ a ^ 2 + ν a ^ 2)) * φ t) (fun t ht => by
    obtain ⟨h1, h2⟩ := h t ht
    refine (((hT t ht).cos.mul h2).sub ((hT t ht).sin.mul h1)).congr_deriv ?_
    rw [hN t ht]
    ring)
  simp only [sub_self, zero_mul, Real.cos_zero, Real.sin_zero, one_mul, add_zero, sub_zero] at hX hY
  have key := Real.sin_sq_add_cos_sq ((Q b - Q a) * (φ a ^ 2 + ν a ^ 2))
  generalize Real.cos ((Q b - Q a) * (φ a ^ 2 + ν a ^ 2)) = c at *
  generalize Real.sin ((Q b - Q a) * (φ a ^ 2 + ν a ^ 2)) = s at *
  constructor
  · linear_combination c * hX - s * hY - φ b * key
  · linear_combination s * hX + c * hY - ν b * key

/-! ### The factor of the potential -/

/-- The parameters at time `t` when the scale factor is `a t^f`. -/
structure OnPower (P : Par) (a : ℝ) : Prop where
  pos : 0 < P.ct
  ne : a ≠ 0
  R : P.R = a * P.ct ^ P.frw

theorem rpow_deriv {p t : ℝ} (hp : p ≠ 0) (ht : 0 < t) :
    HasDerivAt (fun s => s ^ p / p) (t ^ (p - 1)) t := by
  refine ((Real.hasDerivAt_rpow_const (p := p) (Or.inl ht.ne')).div_const p).congr_deriv ?_
  field_simp

/-- An antiderivative of `1 / R²`. -/
theorem anti_R2 {a f t : ℝ} (ha : a ≠ 0) (hf : 2 * f - 1 ≠ 0) (ht : 0 < t) :
    HasDerivAt (fun s => s ^ (1 - 2 * f) / (1 - 2 * f) / a ^ 2) (1 / (a * t ^ f) ^ 2) t := by
  have h : 1 - 2 * f ≠ 0 := fun h => hf (by linarith)
  refine ((rpow_deriv h ht).div_const (a ^ 2)).congr_deriv ?_
  rw [mul_pow, ← Real.rpow_natCast (t ^ f), ← Real.rpow_mul ht.le,
    show (1 - 2 * f - 1) = -(f * ((2 : ℕ) : ℝ)) by push_cast; ring, Real.rpow_neg ht.le]
  have := (Real.rpow_pos_of_pos ht (f * ((2 : ℕ) : ℝ))).ne'
  field_simp

theorem kkt_anti {P : Par} {a dz : ℝ} (h : OnPower P a) (hf : 2 * P.frw - 1 ≠ 0)
    (hz : 0 < P.ct + dz) :
    kkt P dz = some (P.sign * P.beta / 8 *
      ((P.ct + dz) ^ (1 - 2 * P.frw) / (1 - 2 * P.frw) / a ^ 2 -
        P.ct ^ (1 - 2 * P.frw) / (1 - 2 * P.frw) / a ^ 2)) := by
  obtain ⟨ht, ha, hR⟩ := h
  have hf' : 1 - 2 * P.frw ≠ 0 := fun h => hf (by linarith)
  have p1 := Real.rpow_pos_of_pos ht (2 * P.frw - 1)
  have p2 := Real.rpow_pos_of_pos hz (2 * P.frw - 1)
  have e1 : (P.ct + dz) ^ (1 - 2 * P.frw) = ((P.ct + dz) ^ (2 * P.frw - 1))⁻¹ := by
    rw [← Real.rpow_neg hz.le]; congr 1; ring
  have e2 : P.ct ^ (1 - 2 * P.frw) = (P.ct ^ (2 * P.frw - 1))⁻¹ := by
    rw [← Real.rpow_neg ht.le]; congr 1; ring
  have e3 : P.R * P.R = a ^ 2 * (P.ct ^ (2 * P.frw - 1) * P.ct) := by
    rw [hR, ← Real.rpow_add_one ht.ne', sub_add_cancel, two_mul, Real.rpow_add ht]
    ring
  have hden : 8.0 * P.R * P.R * (2.0 * P.frw - 1.0) * (P.ct + dz) ^ (2.0 * P.frw - 1.0) =
      8 * (a ^ 2 * (P.ct ^ (2 * P.frw - 1) * P.ct)) * (2 * P.frw - 1) *
        (P.ct + dz) ^ (2 * P.frw - 1) := by
    rw [← e3, show (8.0 : ℝ) = 8 by norm_num, show (2.0 : ℝ) = 2 by norm_num,
      show (1.0 : ℝ) = 1 by norm_num]
    ring
  unfold kkt
  simp only [quot]
  have h1 : (2.0 : ℝ) * P.frw - 1.0 = 2 * P.frw - 1 := by norm_num
  rw [hden, h1, if_neg (by positivity), e1, e2]
  congr 1
  generalize P.ct ^ (2 * P.frw - 1) = A at *
  generalize (P.ct + dz) ^ (2 * P.frw - 1) = B at *
  have := ht.ne'
  rw [show 1 - 2 * P.frw = -(2 * P.frw - 1) by ring]
  field_simp
  ring

/-- **C63** On a power law background `R = a t^f`, `f ≠ 1/2`, the factor of the potential is
`±β/8` times the integral of `1/R²` over the time of the call. -/
theorem C63_kkt {P : Par} {a dz : ℝ} (h : OnPower P a) (hf : P.frw ≠ 1 / 2) (hz : 0 < P.ct + dz) :
    kkt P dz = some (P.sign * P.beta / 8 * ∫ s in P.ct..P.ct + dz, 1 / (a * s ^ P.frw) ^ 2) := by
  have hf' : 2 * P.frw - 1 ≠ 0 := fun h => hf (by linarith)
  rw [kkt_anti h hf' hz]
  congr 2
  symm
  have hpos : ∀ s ∈ uIcc P.ct (P.ct + dz), 0 < s := by
    intro s hs
    rw [uIcc, mem_Icc] at hs
    exact lt_of_lt_of_le (lt_min h.pos hz) hs.1
  refine intervalIntegral.integral_eq_sub_of_hasDerivAt
    (fun s hs => anti_R2 h.ne hf' (hpos s hs)) ?_
  refine ContinuousOn.intervalIntegrable ?_
  refine continuousOn_const.div ?_ ?_
  · exact (continuousOn_const.mul (continuousOn_id.rpow_const fun s hs =>
      Or.inl (hpos s hs).ne')).pow 2
  · intro s hs
    have := (Real.rpow_pos_of_pos (hpos s hs) P.frw).ne'
    have := h.ne
    positivity

/-- Finding: for `R ∝ √t` the kernel divides zero by zero. -/
theorem C63_kkt_half (P : Par) (dz : ℝ) (h : P.frw = 1 / 2) : kkt P dz = none := by
  unfold kkt
  simp only [quot, h]
  norm_num

/-- **C63** The potential operation is the exact evolution of a site under
`ψ' = i β |ψ|² ψ / (8 R²)` over the time of the call. -/
theorem C63_turn_exact {P : Par} {a dz : ℝ} (h : OnPower P a) (hf : P.frw ≠ 1 / 2)
    (hz : 0 < P.ct + dz) {φ ν : ℝ → ℝ}
    (ho : Obeys (fun t => P.sign * P.beta / 8 * (1 / (a * t ^ P.frw) ^ 2)) φ ν P.ct (P.ct + dz)) :
    ∃ k, kkt P dz = some k ∧ ∀ (NN : Nat) (w : Nat → ℝ) (Φ : Int → Int → Int → ℝ) (F : Lat ℝ)
      (x y z : Int), F.φ x y z = φ P.ct → F.ν x y z = ν P.ct →
        (Move.on NN w F (.turn k 0 Φ)).φ x y z = φ (P.ct + dz) ∧
        (Move.on NN w F (.turn k 0 Φ)).ν x y z = ν (P.ct + dz) := by
  have hf' : 2 * P.frw - 1 ≠ 0 := fun h => hf (by linarith)
  have hpos : ∀ s ∈ uIcc P.ct (P.ct + dz), 0 < s := by
    intro s hs
    rw [uIcc, mem_Icc] at hs
    exact lt_of_lt_of_le (lt_min h.pos hz) hs.1
  refine ⟨_, kkt_anti h hf' hz, fun NN w Φ F x y z e1 e2 => ?_⟩
  obtain ⟨r1, r2⟩ := turn_of_obeys
    (Q := fun s => P.sign * P.beta / 8 * (s ^ (1 - 2 * P.frw) / (1 - 2 * P.frw) / a ^ 2))
    (fun t ht => (anti_R2 h.ne hf' (hpos t ht)).const_mul _) ho
  rw [← mul_sub] at r1 r2
  simp only [Move.on, angle, e1, e2, zero_mul, add_zero]
  exact ⟨r1.symm, r2.symm⟩

/-- Finding: the two half steps of the potential take their factors over `[t, t + h/2]` and
`[t + h, t + 3h/2]`; together they are the integral over the step only without coupling or on a
static background. -/
theorem C63_halves {B : Bg} {a t h : ℝ} (ha : a ≠ 0) (ht : 0 < t) (hh : 0 < h) (hf0 : 0 ≤ B.frw)
    (hf : B.frw ≠ 1 / 2) (hR : ∀ s, B.R s = a * s ^ B.frw) :
    ∃ k1 k2 g1 g2, B.half t h = some (.pot k1 g1) ∧ B.half (t + h) h = some (.pot k2 g2) ∧
      (k1 + k2 = B.beta / 8 * ∫ s in t..t + h, 1 / (a * s ^ B.frw) ^ 2 ↔
        B.beta = 0 ∨ B.frw = 0) := by
  have hP : ∀ u, 0 < u → OnPower (B.par u 1) a := fun u hu => ⟨hu, ha, hR u⟩
  have k1 := C63_kkt (dz := 0.5 * h) (hP t ht) hf (by simp only [Bg.par]; positivity)
  have k2 := C63_kkt (dz := 0.5 * h) (hP (t + h) (by positivity)) hf
    (by simp only [Bg.par]; positivity)
  refine ⟨_, _, _, _, by unfold Bg.half; rw [k1]; rfl, by unfold Bg.half; rw [k2]; rfl, ?_⟩
  simp only [Bg.par, one_mul]
  set g : ℝ → ℝ := fun s => 1 / (a * s ^ B.frw) ^ 2 with hg
  have e : (0.5 : ℝ) * h = h / 2 := by norm_num; ring
  rw [e]
  have hcont : ContinuousOn g (Ioi 0) := by
    refine continuousOn_const.div ?_ ?_
    · exact (continuousOn_const.mul (continuousOn_id.rpow_const fun s hs =>
        Or.inl (ne_of_gt hs))).pow 2
    · intro s hs
      have := (Real.rpow_pos_of_pos hs B.frw).ne'
      positivity
  have hint : ∀ u v, 0 < u → 0 < v → IntervalIntegrable g MeasureTheory.volume u v := by
    intro u v hu hv
    refine (hcont.mono ?_).intervalIntegrable
    intro s hs
    rw [uIcc, mem_Icc] at hs
    exact lt_of_lt_of_le (lt_min hu hv) hs.1
  have hsplit : ∫ s in t..t + h, g s =
      (∫ s in t..t + h / 2, g s) + ∫ s in t + h / 2..t + h, g s :=
    (intervalIntegral.integral_add_adjacent_intervals (hint _ _ ht (by positivity))
      (hint _ _ (by positivity) (by positivity))).symm
  have hshift : ∫ s in t + h..t + h + h / 2, g s = ∫ s in t + h / 2..t + h, g (s + h / 2) := by
    rw [intervalIntegral.integral_comp_add_right (fun s => g s) (h / 2)]
    congr 1
    ring
  rw [hsplit, hshift]
  constructor
  · intro heq
    by_contra hc
    push Not at hc
    obtain ⟨hb, hf1⟩ := hc
    have hfpos : 0 < B.frw := lt_of_le_of_ne hf0 (Ne.symm hf1)
    have hlt : ∫ s in t + h / 2..t + h, g (s + h / 2) < ∫ s in t + h / 2..t + h, g s := by
      have hs : ∀ s, 0 < s → g (s + h / 2) < g s := by
        intro s hs
        simp only [hg]
        have p1 := Real.rpow_pos_of_pos hs B.frw
        have p2 : s ^ B.frw < (s + h / 2) ^ B.frw :=
          Real.rpow_lt_rpow hs.le (by linarith) hfpos
        refine one_div_lt_one_div_of_lt (by positivity) ?_
        rw [mul_pow, mul_pow]
        exact mul_lt_mul_of_pos_left (pow_lt_pow_left₀ p2 p1.le two_ne_zero) (by positivity)
      refine intervalIntegral.integral_lt_integral_of_continuousOn_of_le_of_exists_lt (by linarith)
        ?_ ?_ ?_ ?_
      · refine hcont.comp (continuousOn_id.add continuousOn_const) ?_
        intro s hs
        rw [mem_Icc] at hs
        simp only [mem_Ioi]
        linarith [hs.1]
      · refine hcont.mono ?_
        intro s hs
        rw [mem_Icc] at hs
        simp only [mem_Ioi]
        linarith [hs.1]
      · intro s hs'
        exact (hs s (by rw [mem_Ioc] at hs'; linarith [hs'.1])).le
      · exact ⟨t + h, ⟨by linarith, le_rfl⟩, hs _ (by linarith)⟩
    have hb8 : B.beta / 8 ≠ 0 := by positivity
    have : (∫ s in t..t + h / 2, g s) + ∫ s in t + h / 2..t + h, g (s + h / 2) =
        (∫ s in t..t + h / 2, g s) + ∫ s in t + h / 2..t + h, g s := by
      apply mul_left_cancel₀ hb8
      linarith
    linarith
  · rintro (hb | hf1)
    · simp [hb]
    · have : ∀ s, g s = 1 / a ^ 2 := by
        intro s
        simp only [hg, hf1, Real.rpow_zero, mul_one]
      rw [← mul_add]
      congr 2
      exact intervalIntegral.integral_congr fun s _ => by simp only [this]

/-! ### The factor of the Laplacian -/

/-- **C63** When `m_A R = μ t^n` the factor of the Laplacian is `±ood2a/2` times the integral of
`1/(m_A R)` over the time of the call; exactly when the exponent is one or differs from one by at
least a hundredth. -/
theorem C63_ood2_iff {P : Par} {μ dz : ℝ} (ht : 0 < P.ct) (hz : 0 < P.ct + dz) (hdz : dz ≠ 0)
    (hμ : 0 < μ) (hm : P.massA * P.R = μ * P.ct ^ P.n) (hs : P.sign * P.ood2a ≠ 0) :
    ∃ k, ood2 P dz = some k ∧
      (k = P.sign * P.ood2a / 2 * ∫ s in P.ct..P.ct + dz, 1 / (μ * s ^ P.n) ↔
        P.n = 1 ∨ 1e-2 ≤ |P.n - 1|) := by
  have hpos : ∀ s ∈ uIcc P.ct (P.ct + dz), 0 < s := by
    intro s hs
    rw [uIcc, mem_Icc] at hs
    exact lt_of_lt_of_le (lt_min ht hz) hs.1
  have p1 := Real.rpow_pos_of_pos ht P.n
  have hden : (2.0 : ℝ) * P.massA * P.R ≠ 0 := by
    rw [mul_assoc, hm]; positivity
  have hq : (1 + dz / P.ct) = (P.ct + dz) / P.ct := by field_simp
  have hq0 : 0 < (P.ct + dz) / P.ct := by positivity
  have hq1 : (P.ct + dz) / P.ct ≠ 1 := by
    rw [Ne, div_eq_one_iff_eq ht.ne']
    intro h; exact hdz (by linarith)
  have hL : Real.log ((P.ct + dz) / P.ct) ≠ 0 :=
    Real.log_ne_zero_of_pos_of_ne_one hq0 hq1
  -- the integral
  have hI1 : P.n = 1 → ∫ s in P.ct..P.ct + dz, 1 / (μ * s ^ P.n) =
      Real.log ((P.ct + dz) / P.ct) / μ := by
    intro h1
    have : ∀ s : ℝ, 1 / (μ * s ^ P.n) = μ⁻¹ * s⁻¹ := by
      intro s
      rw [h1, Real.rpow_one, one_div, mul_inv]
    simp only [this, intervalIntegral.integral_const_mul]
    rw [integral_inv (fun h0 => lt_irrefl _ (hpos 0 h0))]
    ring
  have hI2 : P.n ≠ 1 → ∫ s in P.ct..P.ct + dz, 1 / (μ * s ^ P.n) =
      P.ct / (P.n - 1) * (1 - ((P.ct + dz) / P.ct) ^ (-(P.n - 1))) / (μ * P.ct ^ P.n) := by
    intro h1
    have hn : 1 - P.n ≠ 0 := fun h => h1 (by linarith)
    have hn' : P.n - 1 ≠ 0 := fun h => h1 (by linarith)
    have e : ∀ s ∈ uIcc P.ct (P.ct + dz), 1 / (μ * s ^ P.n) = μ⁻¹ * s ^ (-P.n) := by
      intro s hs
      rw [one_div, mul_inv, Real.rpow_neg (hpos s hs).le]
    rw [intervalIntegral.integral_congr e, intervalIntegral.integral_const_mul,
      integral_rpow (Or.inr ⟨fun h => hn (by linarith), fun h0 => lt_irrefl _ (hpos 0 h0)⟩),
      Real.div_rpow hz.le ht.le, show -(P.n - 1) = -P.n + 1 by ring]
    have e2 : P.ct ^ (-P.n + 1) = P.ct / P.ct ^ P.n := by
      rw [Real.rpow_add_one ht.ne', Real.rpow_neg ht.le]
      field_simp
    have p3 := Real.rpow_pos_of_pos hz (-P.n + 1)
    rw [e2]
    generalize (P.ct + dz) ^ (-P.n + 1) = Y at *
    generalize P.ct ^ P.n = X at *
    rw [show -P.n + 1 = -(P.n - 1) by ring]
    have := ht.ne'
    field_simp
    ring
  have hq' : (1.0 : ℝ) + dz / P.ct = (P.ct + dz) / P.ct := by rw [← hq]; norm_num
  unfold ood2 dzp
  by_cases ha : |P.n - 1| < 1e-2
  · simp only [ha, if_true, quot, ht.ne', if_false, Option.map_some, Option.bind_some, hden, hq']
    refine ⟨_, rfl, ?_⟩
    have hk : P.sign * (P.ct * Real.log ((P.ct + dz) / P.ct)) * P.ood2a / (2.0 * P.massA * P.R) =
        P.sign * P.ood2a / 2 * (P.ct * Real.log ((P.ct + dz) / P.ct) / (μ * P.ct ^ P.n)) := by
      rw [← hm, mul_assoc 2.0, show (2.0 : ℝ) = 2 by norm_num]
      have : P.massA * P.R ≠ 0 := by rw [hm]; positivity
      field_simp
    rw [hk]
    by_cases h1 : P.n = 1
    · rw [hI1 h1, h1]
      simp only [Real.rpow_one, true_or, iff_true]
      congr 1
      have := ht.ne'
      field_simp
    · rw [hI2 h1]
      have hn : P.n - 1 ≠ 0 := fun h => h1 (by linarith)
      simp only [h1, false_or, not_le.2 ha, iff_false]
      intro heq
      have hs2 : P.sign * P.ood2a / 2 ≠ 0 := by positivity
      have h2 := mul_left_cancel₀ hs2 heq
      rw [div_left_inj' (by positivity), div_mul_eq_mul_div, mul_div_assoc] at h2
      have h3 := mul_left_cancel₀ ht.ne' h2
      rw [eq_div_iff hn, Real.rpow_def_of_pos hq0] at h3
      have hne : Real.log ((P.ct + dz) / P.ct) * -(P.n - 1) ≠ 0 := mul_ne_zero hL (neg_ne_zero.2 hn)
      have := Real.add_one_lt_exp hne
      linarith
  · simp only [ha, if_false, quot, ht.ne', hden]
    have h1 : P.n ≠ 1 := by
      intro h; apply ha; rw [h]; norm_num
    have hn : P.n - 1 ≠ 0 := fun h => h1 (by linarith)
    simp only [hn, if_false, Option.bind_eq_bind, Option.bind_some, Option.pure_def]
    refine ⟨_, rfl, ?_⟩
    rw [hI2 h1, hq]
    simp only [not_lt.1 ha, or_true, iff_true]
    rw [← hm, mul_assoc 2.0, show (2.0 : ℝ) = 2 by norm_num]
    have : P.massA * P.R ≠ 0 := by rw [hm]; positivity
    field_simp

/-! ### Areas -/

/-- `Σ (φ₁ ν₂ - ν₁ φ₂)` over the lattice. -/
noncomputable def area (Lx N : Nat) (F G : Lat ℝ) : ℝ :=
  total Lx N fun x y z => F.φ x y z * G.ν x y z - F.ν x y z * G.φ x y z

theorem sum_shift {N : Nat} (f : Int → ℝ) (h : ∀ x, f (x + N) = f x) (k : Nat) :
    ∑ x ∈ Finset.range N, f (x + k) = ∑ x ∈ Finset.range N, f x := by
  induction k with
  | zero => simp
  | succ k ih =>
    rw [← ih]
    have h1 := Finset.sum_range_succ' (fun x : Nat => f ((x : Int) + k)) N
    have h2 := Finset.sum_range_succ (fun x : Nat => f ((x : Int) + k)) N
    rw [h1] at h2
    have e : f ((N : Int) + k) = f (((0 : Nat) : Int) + k) := by
      rw [Int.add_comm (N : Int), h]
      simp
    rw [e] at h2
    have h3 := add_right_cancel h2
    rw [← h3]
    refine Finset.sum_congr rfl fun x _ => ?_
    congr 1
    push_cast
    ring

theorem total_shift_x {Lx N : Nat} {f : Int → Int → Int → ℝ} (h : Periodic3 Lx N f) (k : Nat) :
    total Lx N (fun x y z => f (x + k) y z) = total Lx N f := by
  unfold total
  exact sum_shift (fun x => ∑ y ∈ Finset.range Lx, ∑ z ∈ Finset.range N, f x y z)
    (fun x => by simp only [h.1]) k

theorem total_shift_y {Lx N : Nat} {f : Int → Int → Int → ℝ} (h : Periodic3 Lx N f) (k : Nat) :
    total Lx N (fun x y z => f x (y + k) z) = total Lx N f := by
  unfold total
  exact Finset.sum_congr rfl fun x _ => sum_shift (fun y => ∑ z ∈ Finset.range N, f x y z)
    (fun y => by simp only [h.2.1]) k

theorem total_shift_z {Lx N : Nat} {f : Int → Int → Int → ℝ} (h : Periodic3 Lx N f) (k : Nat) :
    total Lx N (fun x y z => f x y (z + k)) = total Lx N f := by
  unfold total
  exact Finset.sum_congr rfl fun x _ => Finset.sum_congr rfl fun y _ =>
    sum_shift (fun z => f x y z) (fun z => by simp only [h.2.2]) k

theorem total_add {Lx N : Nat} (f g : Int → Int → Int → ℝ) :
    total Lx N (fun x y z => f x y z + g x y z) = total Lx N f + total Lx N g := by
  unfold total
  simp only [Finset.sum_add_distrib]

theorem total_mul {Lx N : Nat} (c : ℝ) (f : Int → Int → Int → ℝ) :
    total Lx N (fun x y z => c * f x y z) = c * total Lx N f := by
  unfold total
  simp only [Finset.mul_sum]

theorem total_sum {Lx N NN : Nat} (f : Nat → Int → Int → Int → ℝ) :
    total Lx N (fun x y z => ∑ k ∈ Finset.range NN, f k x y z) =
      ∑ k ∈ Finset.range NN, total Lx N (f k) := by
  induction NN with
  | zero => simp [total]
  | succ NN ih => simp only [Finset.sum_range_succ, total_add, ih]

/-- The sum over the neighbours can be moved to the other factor. -/
theorem lap_adjoint {Lx N : Nat} (NN : Nat) (w : Nat → ℝ) {f g : Int → Int → Int → ℝ}
    (hf : Periodic3 Lx N f) (hg : Periodic3 Lx N g) :
    total Lx N (fun x y z => f x y z * laplacian w NN g x y z) =
      total Lx N (fun x y z => g x y z * laplacian w NN f x y z) := by
  have one : ∀ k : Nat, ∀ {f g : Int → Int → Int → ℝ}, Periodic3 Lx N f → Periodic3 Lx N g →
      total Lx N (fun x y z => f x y z * g (x - k) y z) =
        total Lx N (fun x y z => g x y z * f (x + k) y z) ∧
      total Lx N (fun x y z => f x y z * g x (y - k) z) =
        total Lx N (fun x y z => g x y z * f x (y + k) z) ∧
      total Lx N (fun x y z => f x y z * g x y (z - k)) =
        total Lx N (fun x y z => g x y z * f x y (z + k)) := by
    intro k f g hf hg
    refine ⟨?_, ?_, ?_⟩
    · rw [← total_shift_x (f := fun x y z => f x y z * g (x - k) y z) (k := k)]
      · simp only [add_sub_cancel_right]
        congr 1; funext x y z; ring
      · refine ⟨fun x y z => ?_, fun x y z => ?_, fun x y z => ?_⟩
        · simp only [hf.1, add_sub_right_comm, hg.1]
        · simp only [hf.2.1, hg.2.1]
        · simp only [hf.2.2, hg.2.2]
    · rw [← total_shift_y (f := fun x y z => f x y z * g x (y - k) z) (k := k)]
      · simp only [add_sub_cancel_right]
        congr 1; funext x y z; ring
      · refine ⟨fun x y z => ?_, fun x y z => ?_, fun x y z => ?_⟩
        · simp only [hf.1, hg.1]
        · simp only [hf.2.1, add_sub_right_comm, hg.2.1]
        · simp only [hf.2.2, hg.2.2]
    · rw [← total_shift_z (f := fun x y z => f x y z * g x y (z - k)) (k := k)]
      · simp only [add_sub_cancel_right]
        congr 1; funext x y z; ring
      · refine ⟨fun x y z => ?_, fun x y z => ?_, fun x y z => ?_⟩
        · simp only [hf.1, hg.1]
        · simp only [hf.2.1, hg.2.1]
        · simp only [hf.2.2, add_sub_right_comm, hg.2.2]
  have e : ∀ f g : Int → Int → Int → ℝ,
      total Lx N (fun x y z => f x y z * laplacian w NN g x y z) =
        ∑ k ∈ Finset.range NN, w k *
          (total Lx N (fun x y z => f x y z * g (x + (k + 1 : Nat)) y z) +
           total Lx N (fun x y z => f x y z * g (x - (k + 1 : Nat)) y z) +
           total Lx N (fun x y z => f x y z * g x (y + (k + 1 : Nat)) z) +
           total Lx N (fun x y z => f x y z * g x (y - (k + 1 : Nat)) z) +
           total Lx N (fun x y z => f x y z * g x y (z + (k + 1 : Nat))) +
           total Lx N (fun x y z => f x y z * g x y (z - (k + 1 : Nat))) +
           -6 * total Lx N (fun x y z => f x y z * g x y z)) := by
    intro f g
    simp only [← total_add, ← total_mul, ← total_sum]
    congr 1
    funext x y z
    simp only [laplacian, smul_eq_mul, Finset.mul_sum]
    refine Finset.sum_congr rfl fun k _ => ?_
    ring
  rw [e, e]
  refine Finset.sum_congr rfl fun k _ => ?_
  obtain ⟨a1, a2, a3⟩ := one (k + 1) hf hg
  obtain ⟨b1, b2, b3⟩ := one (k + 1) hg hf
  have c : total Lx N (fun x y z => f x y z * g x y z) = total Lx N (fun x y z => g x y z * f x y z) := by
    congr 1; funext x y z; ring
  rw [a1, a2, a3, b1, b2, b3, c]
  ring

/-- **C63** A Laplacian operation keeps the area spanned by any two fields. -/
theorem C63_kick_area {Lx N : Nat} (NN : Nat) (w : Nat → ℝ) (b : Bool) (k : ℝ) {F G : Lat ℝ}
    (h1 : Periodic3 Lx N F.φ) (h2 : Periodic3 Lx N F.ν) (h3 : Periodic3 Lx N G.φ)
    (h4 : Periodic3 Lx N G.ν) :
    area Lx N (Move.on NN w F (.kick b k)) (Move.on NN w G (.kick b k)) = area Lx N F G := by
  unfold area
  cases b
  · have := lap_adjoint NN w h2 h4
    simp only [Move.on]
    have e : (fun x y z => (F.φ x y z + k * laplacian w NN F.ν x y z) * G.ν x y z -
        F.ν x y z * (G.φ x y z + k * laplacian w NN G.ν x y z)) = fun x y z =>
        (F.φ x y z * G.ν x y z - F.ν x y z * G.φ x y z) +
          (k * (G.ν x y z * laplacian w NN F.ν x y z) + -k * (F.ν x y z * laplacian w NN G.ν x y z)) := by
      funext x y z; ring
    rw [e, total_add, total_add, total_mul, total_mul, this]
    ring
  · have := lap_adjoint NN w h1 h3
    simp only [Move.on]
    have e : (fun x y z => F.φ x y z * (G.ν x y z + k * laplacian w NN G.φ x y z) -
        (F.ν x y z + k * laplacian w NN F.φ x y z) * G.φ x y z) = fun x y z =>
        (F.φ x y z * G.ν x y z - F.ν x y z * G.φ x y z) +
          (k * (F.φ x y z * laplacian w NN G.φ x y z) + -k * (G.φ x y z * laplacian w NN F.φ x y z)) := by
      funext x y z; ring
    rw [e, total_add, total_add, total_mul, total_mul, this]
    ring

/-- The site `(p, q)` after a potential operation; `r` is the part of the angle from gravity. -/
noncomputable def turned (k r p q : ℝ) : ℝ × ℝ :=
  (Real.cos (k * (p ^ 2 + q ^ 2) + r) * p - Real.sin (k * (p ^ 2 + q ^ 2) + r) * q,
    Real.sin (k * (p ^ 2 + q ^ 2) + r) * p + Real.cos (k * (p ^ 2 + q ^ 2) + r) * q)

theorem turn_turned (NN : Nat) (w : Nat → ℝ) (k g : ℝ) (Φ : Int → Int → Int → ℝ) (F : Lat ℝ)
    (x y z : Int) :
    ((Move.on NN w F (.turn k g Φ)).φ x y z, (Move.on NN w F (.turn k g Φ)).ν x y z) =
      turned k (g * Φ x y z) (F.φ x y z) (F.ν x y z) := rfl

/-- **C63** A potential operation keeps areas in the plane of every site: its derivatives have
determinant one. -/
theorem C63_turn_area (k r p q : ℝ) :
    ∃ A B C D, HasDerivAt (fun s => (turned k r s q).1) A p ∧
      HasDerivAt (fun s => (turned k r p s).1) B q ∧
      HasDerivAt (fun s => (turned k r s q).2) C p ∧
      HasDerivAt (fun s => (turned k r p s).2) D q ∧ A * D - B * C = 1 := by
  have hp : HasDerivAt (fun s : ℝ => k * (s ^ 2 + q ^ 2) + r) (k * (2 * p)) p := by
    refine ((((hasDerivAt_id p).pow 2).add_const (q ^ 2)).const_mul k |>.add_const r).congr_deriv ?_
    simp
  have hq : HasDerivAt (fun s : ℝ => k * (p ^ 2 + s ^ 2) + r) (k * (2 * q)) q := by
    refine ((((hasDerivAt_id q).pow 2).const_add (p ^ 2)).const_mul k |>.add_const r).congr_deriv ?_
    simp
  refine ⟨_, _, _, _, (hp.cos.mul (hasDerivAt_id p)).sub (hp.sin.mul_const q),
    (hq.cos.mul_const p).sub (hq.sin.mul (hasDerivAt_id q)),
    (hp.sin.mul (hasDerivAt_id p)).add (hp.cos.mul_const q),
    (hq.sin.mul_const p).add (hq.cos.mul (hasDerivAt_id q)), ?_⟩
  simp only [id]
  have key := Real.sin_sq_add_cos_sq (k * (p ^ 2 + q ^ 2) + r)
  generalize Real.sin (k * (p ^ 2 + q ^ 2) + r) = s at *
  generalize Real.cos (k * (p ^ 2 + q ^ 2) + r) = c at *
  linear_combination key

/-! ### The step -/

theorem stages_time (B : Bg) (T : Integrator.Table ℝ) (dz : ℝ) (p : Nat) :
    ∀ (s : Nat) (z : ℝ) (l : List Call) (zf : ℝ), B.stages T dz p s z = some (l, zf) →
      zf = z + dz * ((T.d.drop s).take p).sum ∧
        ∃ ks : List (ℝ × ℝ), ks.length = p ∧
          l = ks.flatMap fun k => [.lap true k.1, .lap false k.2] := by
  induction p with
  | zero =>
    intro s z l zf h
    simp only [Bg.stages, Option.some.injEq, Prod.mk.injEq] at h
    exact ⟨by simp [h.2], [], rfl, by simp [← h.1]⟩
  | succ p ih =>
    intro s z l zf h
    simp only [Bg.stages, Option.bind_eq_bind, Option.bind_eq_some_iff, Option.pure_def,
      Option.some.injEq, Prod.mk.injEq] at h
    obtain ⟨c1, -, d1, hd, a, -, b, -, ⟨l', zf'⟩, hl, rfl, rfl⟩ := h
    obtain ⟨h1, ks, h2, rfl⟩ := ih _ _ _ _ hl
    refine ⟨?_, (a, b) :: ks, by simp [h2], by simp⟩
    obtain ⟨hs, rfl⟩ := List.getElem?_eq_some_iff.1 hd
    rw [h1, List.drop_eq_getElem_cons hs, List.take_succ_cons, List.sum_cons]
    ring

/-- **C63** A step is a half step of the potential, the stages, and a half step of the potential at
the final time; the final time is the initial time and the drift coefficients used. -/
theorem C63_step (B : Bg) (T : Integrator.Table ℝ) (hT : T.stage = .normal) (dz z zf : ℝ)
    (l : List Call) (h : B.pRun T dz z = some (l, zf)) :
    zf = z + dz * (T.d.take T.nStages).sum ∧
      ∃ (p q : Call) (ks : List (ℝ × ℝ)), B.half z dz = some p ∧ B.half zf dz = some q ∧
        ks.length = T.nStages ∧
        l = p :: (ks.flatMap fun k => [.lap true k.1, .lap false k.2]) ++ [q] := by
  unfold Bg.pRun Bg.last at h
  simp only [hT, ne_eq, not_true_eq_false, if_false, Option.bind_eq_bind, Option.bind_eq_some_iff,
    Option.pure_def, Option.some.injEq, Prod.mk.injEq] at h
  obtain ⟨p, h1, ⟨l', zf'⟩, h2, l'', h3, q, h4, rfl, rfl⟩ := h
  obtain ⟨e1, ks, e2, rfl⟩ := stages_time B T dz T.nStages 0 z l' zf' h2
  refine ⟨by simpa using e1, p, q, ks, h1, h4, e2, ?_⟩
  rw [← h3]
  simp

/-- **C63** With RKN4, the only integrator for which the step is defined, time advances by `dz`. -/
theorem C63_rkn4 (B : Bg) (dz z zf : ℝ) (l : List Call)
    (h : B.pRun (Integrator.table .rkn4) dz z = some (l, zf)) : zf = z + dz := by
  obtain ⟨h1, -⟩ := C63_step B (Integrator.table .rkn4) rfl dz z zf l h
  rw [h1]
  simp [Integrator.table, Integrator.rkn4]
  norm_num

/-- Finding: with every other integrator the step reads `c[nStages]`, which does not exist. -/
theorem C63_out_of_bounds (B : Bg) (i : Integrator.Name) (hi : i ≠ .rkn4) (dz z : ℝ) :
    B.pRun (Integrator.table i) dz z = none := by
  have h : B.last (Integrator.table i) dz = fun _ => none := by
    funext u
    cases i <;> first
      | exact absurd rfl hi
      | simp [Bg.last, Integrator.table, Integrator.leap, Integrator.mleap, Integrator.omelyan2,
          Integrator.omelyan4]
  unfold Bg.pRun
  rw [h]
  simp

/-! ### Cases -/

-- radiation era, `R = t`: `β/8 (1/t - 1/(t + dz))`
example : kkt ⟨2, 2, 1, 3, 1, 8, 0, 1, 1⟩ 2 = some (1 / 4) := by
  rw [kkt_anti (a := 1) ⟨by norm_num, one_ne_zero, by norm_num⟩ (by norm_num) (by norm_num)]
  norm_num

-- on a static background a site of unit density turns at the rate `β/8`
example (β : ℝ) : ∃ k, kkt ⟨1, 1, 1, 0, 0, β, 0, 1, 1⟩ 1 = some k ∧
    ∀ (F : Lat ℝ), F.φ 0 0 0 = Real.cos (β / 8 * 1) → F.ν 0 0 0 = Real.sin (β / 8 * 1) →
      (Move.on 1 (fun _ => 1) F (.turn k 0 fun _ _ _ => 0)).φ 0 0 0 = Real.cos (β / 8 * (1 + 1)) := by
  have ho : Obeys (fun t => 1 * β / 8 * (1 / (1 * t ^ (0 : ℝ)) ^ 2))
      (fun t => Real.cos (β / 8 * t)) (fun t => Real.sin (β / 8 * t)) 1 (1 + 1) := by
    intro t _
    have hl : HasDerivAt (fun t : ℝ => β / 8 * t) (β / 8) t := by
      simpa using (hasDerivAt_id t).const_mul (β / 8)
    refine ⟨hl.cos.congr_deriv ?_, hl.sin.congr_deriv ?_⟩
    · rw [add_comm (Real.cos _ ^ 2), Real.sin_sq_add_cos_sq]; simp only [Real.rpow_zero]; ring
    · rw [add_comm (Real.cos _ ^ 2), Real.sin_sq_add_cos_sq]; simp only [Real.rpow_zero]; ring
  obtain ⟨k, h1, h2⟩ := C63_turn_exact (P := ⟨1, 1, 1, 0, 0, β, 0, 1, 1⟩) (a := 1) (dz := 1)
    ⟨one_pos, one_ne_zero, by norm_num⟩ (by norm_num) (by norm_num) ho
  exact ⟨k, h1, fun F e1 e2 => (h2 1 (fun _ => 1) (fun _ _ _ => 0) F 0 0 0 e1 e2).1⟩

-- in the radiation era with coupling the two half steps miss the integral
example : ∃ k1 k2 g1 g2, Bg.half ⟨id, fun _ => 1, fun _ => 1, 1, 8, 0, 1⟩ 1 1 = some (.pot k1 g1) ∧
    Bg.half ⟨id, fun _ => 1, fun _ => 1, 1, 8, 0, 1⟩ (1 + 1) 1 = some (.pot k2 g2) ∧
    k1 + k2 ≠ 8 / 8 * ∫ s in (1 : ℝ)..1 + 1, 1 / (1 * s ^ (1 : ℝ)) ^ 2 := by
  obtain ⟨k1, k2, g1, g2, h1, h2, h3⟩ := C63_halves (B := ⟨id, fun _ => 1, fun _ => 1, 1, 8, 0, 1⟩)
    (a := 1) (t := 1) (h := 1) one_ne_zero one_pos one_pos (by norm_num) (by norm_num)
    (fun s => by simp)
  refine ⟨k1, k2, g1, g2, h1, h2, fun h => ?_⟩
  rcases h3.1 h with h | h <;> norm_num at h

-- mass growing as `t²`: exact; as `t^1.005`: not
example : ∃ k, ood2 ⟨1, 1, 1, 2, 1, 0, 0, 1, 1⟩ 1 = some k ∧
    k = 1 * 1 / 2 * ∫ s in (1 : ℝ)..1 + 1, 1 / (1 * s ^ (2 : ℝ)) := by
  obtain ⟨k, h1, h2⟩ := C63_ood2_iff (P := ⟨1, 1, 1, 2, 1, 0, 0, 1, 1⟩) (μ := 1) (dz := 1) one_pos
    (by norm_num) one_ne_zero one_pos (by norm_num) (by norm_num)
  exact ⟨k, h1, h2.2 (Or.inr (by norm_num))⟩

example : ∃ k, ood2 ⟨1, 1, 1, 1.005, 1, 0, 0, 1, 1⟩ 1 = some k ∧
    k ≠ 1 * 1 / 2 * ∫ s in (1 : ℝ)..1 + 1, 1 / (1 * s ^ (1.005 : ℝ)) := by
  obtain ⟨k, h1, h2⟩ := C63_ood2_iff (P := ⟨1, 1, 1, 1.005, 1, 0, 0, 1, 1⟩) (μ := 1) (dz := 1)
    one_pos (by norm_num) one_ne_zero one_pos (by norm_num) (by norm_num)
  refine ⟨k, h1, fun h => ?_⟩
  rcases h2.1 h with h | h
  · norm_num at h
  · norm_num [abs_of_pos] at h

-- the step is defined in the radiation era
example : ∃ l zf, Bg.pRun ⟨id, fun _ => 1, fun _ => 1, 1, 8, 0, 1⟩ (Integrator.table .rkn4) 1 1 =
    some (l, zf) := by
  simp [Bg.pRun, Bg.half, Bg.stages, Bg.last, Integrator.table, Integrator.rkn4, kkt, ood2, dzp, quot,
    Bg.par]
  norm_num

end Jaxions.Paxion
