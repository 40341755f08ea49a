import Verif.Model.Cosmos
import Verif.Model.Weights
import Verif.Spec.Laplacian
import Mathlib.Analysis.SpecialFunctions.Trigonometric.Basic
import Mathlib.Algebra.BigOperators.Fin
/-
C14: the automatic time step.
-/
namespace Jaxions.Cosmo
open Jaxions.Stencil Real

/-! ### Lattice modes -/

/-- Squared lattice momentum of the plane wave with phases `a`, `b`, `c` per site, spacing `δ`, for
the stencil of radius one. -/
noncomputable def k2 (δ a b c : ℝ) : ℝ :=
  (2 * (1 - cos a) + 2 * (1 - cos b) + 2 * (1 - cos c)) / δ ^ 2

/-- The plane waves are the modes of the lattice Laplacian of radius one. -/
theorem C14_mode (δ a b c d : ℝ) (x y z : Int) :
    laplacian (fun _ => 1 / δ ^ 2) 1 (fun x y z => cos (a * x + b * y + c * z + d)) x y z =
      - k2 δ a b c * cos (a * x + b * y + c * z + d) := by
  have two : ∀ t u : ℝ, cos (t + u) + cos (t - u) = 2 * cos u * cos t := by
    intro t u; rw [cos_add, cos_sub]; ring
  simp only [laplacian, Finset.sum_range_one, smul_eq_mul, k2]
  generalize hθ : a * x + b * y + c * z + d = θ
  have e1 : cos (a * ((x + ((0 + 1 : ℕ) : ℤ) : ℤ) : ℝ) + b * y + c * z + d) = cos (θ + a) := by
    congr 1; rw [← hθ]; push_cast; ring
  have e2 : cos (a * ((x - ((0 + 1 : ℕ) : ℤ) : ℤ) : ℝ) + b * y + c * z + d) = cos (θ - a) := by
    congr 1; rw [← hθ]; push_cast; ring
  have e3 : cos (a * x + b * ((y + ((0 + 1 : ℕ) : ℤ) : ℤ) : ℝ) + c * z + d) = cos (θ + b) := by
    congr 1; rw [← hθ]; push_cast; ring
  have e4 : cos (a * x + b * ((y - ((0 + 1 : ℕ) : ℤ) : ℤ) : ℝ) + c * z + d) = cos (θ - b) := by
    congr 1; rw [← hθ]; push_cast; ring
  have e5 : cos (a * x + b * y + c * ((z + ((0 + 1 : ℕ) : ℤ) : ℤ) : ℝ) + d) = cos (θ + c) := by
    congr 1; rw [← hθ]; push_cast; ring
  have e6 : cos (a * x + b * y + c * ((z - ((0 + 1 : ℕ) : ℤ) : ℤ) : ℝ) + d) = cos (θ - c) := by
    congr 1; rw [← hθ]; push_cast; ring
  rw [e1, e2, e3, e4, e5, e6]
  have s : cos (θ + a) + cos (θ - a) + cos (θ + b) + cos (θ - b) + cos (θ + c) + cos (θ - c) - 6 * cos θ
      = 2 * cos a * cos θ + 2 * cos b * cos θ + 2 * cos c * cos θ - 6 * cos θ := by
    rw [← two θ a, ← two θ b, ← two θ c]; ring
  rw [s]
  ring

theorem k2_bounds (δ a b c : ℝ) : 0 ≤ k2 δ a b c ∧ k2 δ a b c ≤ 12 / δ ^ 2 := by
  unfold k2
  have ha := cos_le_one a; have hb := cos_le_one b; have hc := cos_le_one c
  have ha' := neg_one_le_cos a; have hb' := neg_one_le_cos b; have hc' := neg_one_le_cos c
  have hd : 0 ≤ δ ^ 2 := sq_nonneg _
  constructor
  · apply div_nonneg _ hd; linarith
  · apply div_le_div_of_nonneg_right _ hd; linarith

/-! ### The step before the threshold test -/

/-- Circumstances in which the step is asked for. -/
structure Sane (c : Cosmos) (n1 wDz m2 zNow : ℝ) : Prop where
  n1 : 0 < n1
  size : 0 < c.lSize
  wDz : 0 < wDz
  mass : 0 ≤ m2
  R : 0 < c.R zNow
  lam : 0 ≤ c.lambdaP zNow

theorem k2_le (n1 L a b c : ℝ) (h1 : 0 < n1) (hL : 0 < L) :
    k2 (L / n1) a b c ≤ 12 * (n1 / L) * (n1 / L) := by
  have h := (k2_bounds (L / n1) a b c).2
  have e : 12 / (L / n1) ^ 2 = 12 * (n1 / L) * (n1 / L) := by field_simp
  rw [← e]; exact h

/-- **C14** The step is positive for every field type the function knows. -/
theorem C14_positive (c : Cosmos) (type : FType) (n1 wDz hub m2 zNow : ℝ) (h : Sane c n1 wDz m2 zNow)
    (ht : type ≠ .sxRd ∧ type ≠ .axRd ∧ type ≠ .axModRd ∧ type ≠ .faxion) :
    0 < dzBase c type n1 wDz hub m2 zNow := by
  have hk : 0 < n1 / c.lSize := div_pos h.n1 h.size
  have hk2 : 0 < 12 * (n1 / c.lSize) * (n1 / c.lSize) := by positivity
  have hw := h.wDz; have hm := h.mass; have hR := h.R; have hl := h.lam
  have hmR : 0 ≤ m2 * (c.R zNow * c.R zNow) := mul_nonneg hm (mul_nonneg hR.le hR.le)
  obtain ⟨t1, t2, t3, t4⟩ := ht
  cases type <;> simp only [dzBase]
  · apply div_pos hw
    apply lt_max_of_lt_right
    apply lt_max_of_lt_left
    exact sqrt_pos.mpr (by linarith)
  · exact div_pos hw (sqrt_pos.mpr (by nlinarith))
  · exact div_pos hw (sqrt_pos.mpr (by nlinarith))
  · exact div_pos hw (sqrt_pos.mpr (by nlinarith))
  · exact absurd rfl t1
  · exact absurd rfl t2
  · exact absurd rfl t3
  · apply div_pos hw
    apply div_pos hk2
    have : 0 < sqrt (12 * (n1 / c.lSize) * (n1 / c.lSize) + m2 * c.R zNow * c.R zNow) :=
      sqrt_pos.mpr (by nlinarith)
    have : 0 ≤ sqrt m2 * c.R zNow := mul_nonneg (sqrt_nonneg _) hR.le
    linarith
  · apply div_pos hw
    apply div_pos hk2
    have : 0 < sqrt (12 * (n1 / c.lSize) * (n1 / c.lSize) + m2 * c.R zNow * c.R zNow) :=
      sqrt_pos.mpr (by nlinarith)
    have : 0 ≤ sqrt m2 * c.R zNow := mul_nonneg (sqrt_nonneg _) hR.le
    linarith
  · exact absurd rfl t4

/-- A step `wDz / F` times a frequency below `F` is at most `wDz`. -/
theorem step_bound {wDz F ω : ℝ} (hw : 0 < wDz) (hF : 0 < F) (h : ω ≤ F) : wDz / F * ω ≤ wDz := by
  rw [div_mul_eq_mul_div, div_le_iff₀ hF]
  exact mul_le_mul_of_nonneg_left h hw.le

/-- **C14** Saxion: step times frequency stays below the safety factor, for every lattice mode of
the angular and of the radial field. -/
theorem C14_saxion_bound (c : Cosmos) (n1 wDz hub m2 zNow : ℝ) (h : Sane c n1 wDz m2 zNow)
    (a b d : ℝ) :
    dzBase c .saxion n1 wDz hub m2 zNow *
        sqrt (m2 * c.R zNow ^ 2 + k2 (c.lSize / n1) a b d) ≤ wDz ∧
    dzBase c .saxion n1 wDz hub m2 zNow *
        sqrt (c.saxionMass2 zNow * c.R zNow ^ 2 + k2 (c.lSize / n1) a b d) ≤ wDz := by
  have hk : 0 < n1 / c.lSize := div_pos h.n1 h.size
  have hk2 : 0 < 12 * (n1 / c.lSize) * (n1 / c.lSize) := by positivity
  have hw := h.wDz; have hm := h.mass; have hR := h.R; have hl := h.lam
  have hle := k2_le n1 c.lSize a b d h.n1 h.size
  have hmR : 0 ≤ m2 * (c.R zNow * c.R zNow) := mul_nonneg hm (mul_nonneg hR.le hR.le)
  have hlR : 0 ≤ c.lambdaP zNow * (c.R zNow * c.R zNow) := mul_nonneg hl (mul_nonneg hR.le hR.le)
  simp only [dzBase]
  constructor
  · apply step_bound hw
    · apply lt_max_of_lt_right
      apply lt_max_of_lt_left
      exact sqrt_pos.mpr (by linarith)
    · refine le_trans ?_ (le_max_right _ _)
      refine le_trans ?_ (le_max_left _ _)
      apply sqrt_le_sqrt
      nlinarith
  · apply step_bound hw
    · apply lt_max_of_lt_right
      apply lt_max_of_lt_left
      exact sqrt_pos.mpr (by linarith)
    · refine le_trans ?_ (le_max_left _ _)
      apply sqrt_le_sqrt
      unfold Cosmos.saxionMass2
      cases c.pq <;> simp <;> nlinarith

/-- **C14** Axion types. -/
theorem C14_axion_bound (c : Cosmos) (type : FType)
    (ht : type = .axion ∨ type = .axionMod ∨ type = .wkb)
    (n1 wDz hub m2 zNow : ℝ) (h : Sane c n1 wDz m2 zNow) (a b d : ℝ) :
    dzBase c type n1 wDz hub m2 zNow *
        sqrt (m2 * c.R zNow ^ 2 + k2 (c.lSize / n1) a b d) ≤ wDz := by
  have hk : 0 < n1 / c.lSize := div_pos h.n1 h.size
  have hk2 : 0 < 12 * ((n1 / c.lSize) * (n1 / c.lSize)) := by positivity
  have hw := h.wDz; have hm := h.mass; have hR := h.R
  have hle := k2_le n1 c.lSize a b d h.n1 h.size
  have hmR : 0 ≤ m2 * (c.R zNow * c.R zNow) := mul_nonneg hm (mul_nonneg hR.le hR.le)
  have e : dzBase c type n1 wDz hub m2 zNow =
      wDz / sqrt (m2 * (c.R zNow * c.R zNow) + 12 * ((n1 / c.lSize) * (n1 / c.lSize))) := by
    rcases ht with rfl | rfl | rfl <;> rfl
  rw [e]
  apply step_bound hw
  · exact sqrt_pos.mpr (by linarith)
  · apply sqrt_le_sqrt
    nlinarith

/-- **C14** Nonrelativistic types: the frequency is the energy without the mass. -/
theorem C14_paxion_bound (c : Cosmos) (type : FType) (ht : type = .naxion ∨ type = .paxion)
    (n1 wDz hub m2 zNow : ℝ) (h : Sane c n1 wDz m2 zNow) (a b d : ℝ) :
    dzBase c type n1 wDz hub m2 zNow *
        (sqrt (m2 * c.R zNow ^ 2 + k2 (c.lSize / n1) a b d) - sqrt m2 * c.R zNow) ≤ wDz := by
  have hk : 0 < n1 / c.lSize := div_pos h.n1 h.size
  have hK : 0 < 12 * (n1 / c.lSize) * (n1 / c.lSize) := by positivity
  have hw := h.wDz; have hm := h.mass; have hR := h.R
  have hle := k2_le n1 c.lSize a b d h.n1 h.size
  generalize hKd : 12 * (n1 / c.lSize) * (n1 / c.lSize) = K at *
  have hmR : 0 ≤ m2 * (c.R zNow * c.R zNow) := mul_nonneg hm (mul_nonneg hR.le hR.le)
  have e : dzBase c type n1 wDz hub m2 zNow =
      wDz / (K / (sqrt (K + m2 * c.R zNow * c.R zNow) + sqrt m2 * c.R zNow)) := by
    rw [← hKd]
    rcases ht with rfl | rfl <;> rfl
  rw [e]
  have hp : 0 < sqrt (K + m2 * c.R zNow * c.R zNow) := sqrt_pos.mpr (by nlinarith)
  have hq : 0 ≤ sqrt m2 * c.R zNow := mul_nonneg (sqrt_nonneg _) hR.le
  have hs1 : sqrt (K + m2 * c.R zNow * c.R zNow) ^ 2 = K + m2 * c.R zNow * c.R zNow :=
    sq_sqrt (by nlinarith)
  have hs2 : (sqrt m2 * c.R zNow) ^ 2 = m2 * c.R zNow * c.R zNow := by
    rw [mul_pow, sq_sqrt hm]; ring
  have hdiff : K / (sqrt (K + m2 * c.R zNow * c.R zNow) + sqrt m2 * c.R zNow) =
      sqrt (K + m2 * c.R zNow * c.R zNow) - sqrt m2 * c.R zNow := by
    rw [div_eq_iff (by linarith)]
    nlinarith
  apply step_bound hw
  · apply div_pos hK; linarith
  · rw [hdiff]
    apply sub_le_sub_right
    apply sqrt_le_sqrt
    nlinarith

/-- Finding: for the remaining field types the step is zero. -/
theorem C14_unknown_types (c : Cosmos) (n1 wDz hub m2 zNow : ℝ) (type : FType)
    (ht : type = .sxRd ∨ type = .axRd ∨ type = .axModRd ∨ type = .faxion) :
    dzBase c type n1 wDz hub m2 zNow = 0 := by
  rcases ht with rfl | rfl | rfl | rfl <;> rfl

/-! ### The step over the threshold -/

/-- **C14** With the power law scale factor the shortened step over the mass threshold is positive
and not longer than the step it replaces. -/
theorem C14_threshold (c : Cosmos) (type : FType) (n1 wDz hub m2 zNow : ℝ)
    (hu : c.ueCosm = false) (hg : ¬ (c.frw = 1 ∧ c.grav > 0)) (hz : 0 < zNow)
    (hpos : 0 < dzBase c type n1 wDz hub m2 zNow) :
    0 < dzSize c type n1 wDz hub m2 zNow ∧
    dzSize c type n1 wDz hub m2 zNow ≤ dzBase c type n1 wDz hub m2 zNow := by
  have hRr : ∀ t, c.R t = t ^ c.frw := by
    intro t; simp only [Cosmos.R, hu, Bool.false_eq_true, if_false, hg]
  unfold dzSize
  simp only
  generalize dzBase c type n1 wDz hub m2 zNow = dct at *
  split
  · rename_i hc
    obtain ⟨h1, h2, h3⟩ := hc
    rw [hRr] at h1 h2 ⊢
    have hf : 0 < c.frw := by
      rcases lt_or_gt_of_ne h3 with hneg | hp
      · exfalso
        have : (zNow + dct) ^ c.frw < zNow ^ c.frw :=
          Real.rpow_lt_rpow_of_neg hz (by linarith) hneg
        linarith
      · exact hp
    have hi : 0 < 1 / c.frw := by positivity
    have base0 : 0 < zNow ^ c.frw := Real.rpow_pos_of_pos hz _
    have low : zNow ^ c.frw < c.zThRes + 0.001 * ((zNow + dct) ^ c.frw - c.zThRes) := by
      nlinarith
    have high : c.zThRes + 0.001 * ((zNow + dct) ^ c.frw - c.zThRes) ≤ (zNow + dct) ^ c.frw := by
      nlinarith
    have back : ∀ t : ℝ, 0 < t → (t ^ c.frw) ^ (1 / c.frw) = t := by
      intro t ht
      rw [← Real.rpow_mul ht.le, mul_one_div, div_self h3, Real.rpow_one]
    have l2 := Real.rpow_lt_rpow base0.le low hi
    have h2' := Real.rpow_le_rpow (by linarith) high hi.le
    rw [back zNow hz] at l2
    rw [back (zNow + dct) (by linarith)] at h2'
    constructor <;> linarith
  · exact ⟨hpos, le_refl _⟩

/-- Finding: with the other form of the scale factor (`frw = 1`, `grav > 0`) the shortened step
inverts the wrong law and can be longer than the step it replaces. Here the stability bound asks
for 1/2 and the function returns more than 1.5. -/
theorem C14_threshold_grav :
    let c : Cosmos := ⟨sqrt 12, 1, 0, 1, 0, 0, 2.5, 100, 1, 4, .pq1, false, id, id⟩
    dzBase c .axion 1 0.5 0 0 1 = 0.5 ∧ dzSize c .axion 1 0.5 0 0 1 > 1.5 := by
  intro c
  have hR : ∀ t, c.R t = t * (1 + 0.25 * t * 4) := by
    intro t
    simp [Cosmos.R, c]
  have hb : dzBase c .axion 1 0.5 0 0 1 = 0.5 := by
    have : (12 : ℝ) * (1 / sqrt 12 * (1 / sqrt 12)) = 1 := by
      have h12 : sqrt (12 : ℝ) * sqrt 12 = 12 := mul_self_sqrt (by norm_num)
      have hne : sqrt (12 : ℝ) ≠ 0 := by positivity
      field_simp
      nlinarith
    simp only [dzBase, zero_mul, zero_add]
    show 0.5 / sqrt (12 * (1 / sqrt 12 * (1 / sqrt 12))) = 0.5
    rw [this, sqrt_one, div_one]
  refine ⟨hb, ?_⟩
  unfold dzSize
  simp only [hb, hR]
  have hz : c.zThRes = 2.5 := rfl
  have hf : c.frw = 1 := rfl
  rw [hz, hf]
  rw [if_pos (by norm_num)]
  norm_num

/-! ### Wider stencils -/

/-- Sum of the weights at odd distance. -/
noncomputable def oddSum (N : Nat) (w : Nat → ℝ) : ℝ :=
  ∑ k ∈ Finset.range N, if k % 2 = 0 then w k else 0

theorem cos_shift (θ : ℝ) (k : Nat) :
    cos (θ + (k + 1) * π) = (if k % 2 = 0 then -1 else 1) * cos θ ∧
    cos (θ - (k + 1) * π) = (if k % 2 = 0 then -1 else 1) * cos θ := by
  have h1 := cos_add_nat_mul_pi θ (k + 1)
  have h2 := cos_sub_nat_mul_pi θ (k + 1)
  push_cast at h1 h2
  have e : ((-1 : ℝ)) ^ (k + 1) = if k % 2 = 0 then -1 else 1 := by
    split
    · rename_i h; exact Odd.neg_one_pow (Nat.odd_iff.mpr (by omega))
    · exact Even.neg_one_pow (Nat.even_iff.mpr (by omega))
  rw [h1, h2, e]; exact ⟨rfl, rfl⟩

theorem stagger_mode (w : Nat → ℝ) (N : Nat) (x y z : Int) :
    laplacian w N (fun x y z => cos (π * x + π * y + π * z)) x y z =
      - (12 * oddSum N w) * cos (π * x + π * y + π * z) := by
  simp only [laplacian, smul_eq_mul, oddSum]
  rw [Finset.mul_sum, ← Finset.sum_neg_distrib, Finset.sum_mul]
  apply Finset.sum_congr rfl
  intro k _
  generalize hθ : π * (x : ℝ) + π * y + π * z = θ
  have h := cos_shift θ k
  have e1 : cos (π * ((x + ((k + 1 : ℕ) : ℤ) : ℤ) : ℝ) + π * y + π * z) = cos (θ + (k + 1) * π) := by
    congr 1; rw [← hθ]; push_cast; ring
  have e2 : cos (π * ((x - ((k + 1 : ℕ) : ℤ) : ℤ) : ℝ) + π * y + π * z) = cos (θ - (k + 1) * π) := by
    congr 1; rw [← hθ]; push_cast; ring
  have e3 : cos (π * x + π * ((y + ((k + 1 : ℕ) : ℤ) : ℤ) : ℝ) + π * z) = cos (θ + (k + 1) * π) := by
    congr 1; rw [← hθ]; push_cast; ring
  have e4 : cos (π * x + π * ((y - ((k + 1 : ℕ) : ℤ) : ℤ) : ℝ) + π * z) = cos (θ - (k + 1) * π) := by
    congr 1; rw [← hθ]; push_cast; ring
  have e5 : cos (π * x + π * y + π * ((z + ((k + 1 : ℕ) : ℤ) : ℤ) : ℝ)) = cos (θ + (k + 1) * π) := by
    congr 1; rw [← hθ]; push_cast; ring
  have e6 : cos (π * x + π * y + π * ((z - ((k + 1 : ℕ) : ℤ) : ℤ) : ℝ)) = cos (θ - (k + 1) * π) := by
    congr 1; rw [← hθ]; push_cast; ring
  rw [e1, e2, e3, e4, e5, e6, h.1, h.2]
  split <;> ring

theorem oddSum_gt (N : Nat) (h2 : 2 ≤ N) (h5 : N ≤ 5) (w : Nat → ℝ)
    (hw : ∀ k, k < N → (Weights.setCO N : List ℝ)[k]? = some (w k)) : 1 < oddSum N w := by
  obtain rfl | rfl | rfl | rfl : N = 2 ∨ N = 3 ∨ N = 4 ∨ N = 5 := by omega
  · have h0 := hw 0 (by omega)
    simp [Weights.setCO] at h0
    simp [oddSum, Finset.sum_range_succ, ← h0]; norm_num
  · have h0 := hw 0 (by omega); have h1 := hw 2 (by omega)
    simp [Weights.setCO] at h0 h1
    simp [oddSum, Finset.sum_range_succ, ← h0, ← h1]; norm_num
  · have h0 := hw 0 (by omega); have h1 := hw 2 (by omega)
    simp [Weights.setCO] at h0 h1
    simp [oddSum, Finset.sum_range_succ, ← h0, ← h1]; norm_num
  · have h0 := hw 0 (by omega); have h1 := hw 2 (by omega); have h3 := hw 4 (by omega)
    simp [Weights.setCO] at h0 h1 h3
    simp [oddSum, Finset.sum_range_succ, ← h0, ← h1, ← h3]; norm_num

/-- Finding: the function always uses the largest momentum of the radius one stencil. For the wider
stencils the staggered field is a mode with a larger frequency, so the step exceeds the bound
(massless axion, every spacing, every safety factor). -/
theorem C14_wide_stencil (N : Nat) (h2 : 2 ≤ N) (h5 : N ≤ 5) (w : Nat → ℝ)
    (hw : ∀ k, k < N → (Weights.setCO N : List ℝ)[k]? = some (w k))
    (c : Cosmos) (n1 wDz hub zNow : ℝ) (hn : 0 < n1) (hL : 0 < c.lSize) (hwd : 0 < wDz) :
    ∃ κ : ℝ, 0 < κ ∧
      (∀ x y z : Int, laplacian (fun k => w k * (1 / (c.lSize / n1) ^ 2)) N
        (fun x y z => cos (π * x + π * y + π * z)) x y z =
          - κ * cos (π * x + π * y + π * z)) ∧
      wDz < dzBase c .axion n1 wDz hub 0 zNow * sqrt κ := by
  have hS := oddSum_gt N h2 h5 w hw
  have hk : 0 < n1 / c.lSize := div_pos hn hL
  have hsum : oddSum N (fun k => w k * (1 / (c.lSize / n1) ^ 2)) =
      oddSum N w * ((n1 / c.lSize) * (n1 / c.lSize)) := by
    unfold oddSum
    rw [Finset.sum_mul]
    apply Finset.sum_congr rfl
    intro k _
    split
    · field_simp
    · simp
  have hpos : 0 < (n1 / c.lSize) * (n1 / c.lSize) := by positivity
  refine ⟨12 * (oddSum N w * ((n1 / c.lSize) * (n1 / c.lSize))), by nlinarith, ?_, ?_⟩
  · intro x y z
    rw [stagger_mode, hsum]
  · have hF : 0 < sqrt (0 * (c.R zNow * c.R zNow) + 12 * ((n1 / c.lSize) * (n1 / c.lSize))) :=
      sqrt_pos.mpr (by linarith)
    simp only [dzBase]
    rw [div_mul_eq_mul_div, lt_div_iff₀ hF]
    apply mul_lt_mul_of_pos_left _ hwd
    apply sqrt_lt_sqrt (by linarith)
    nlinarith

/-- The hypotheses are met: a universe with `frw = 1`, four sites, unit length. -/
example : Sane ⟨1, 1, 0, 1, 7, 0, 3, 100, 1, 0, .pq1, false, id, id⟩ 4 0.8 0.5 2 where
  n1 := by norm_num
  size := by norm_num
  wDz := by norm_num
  mass := by norm_num
  R := by simp [Cosmos.R]
  lam := by simp [Cosmos.lambdaP]

example : (∀ k, k < 2 → (Weights.setCO 2 : List ℝ)[k]? = some ((fun k : Nat => if k = 0 then (4/3 : ℝ) else -1/12) k)) := by
  intro k hk
  obtain rfl | rfl : k = 0 ∨ k = 1 := by omega
  · simp [Weights.setCO]
  · simp [Weights.setCO]

end Jaxions.Cosmo
