import Verif.Spec.RandConf
import Verif.Basic.DivMod
import Verif.Basic.Cells
import Mathlib.Tactic.Linarith
import Mathlib.Tactic.Ring
import Mathlib.Tactic.FieldSimp
import Mathlib.Tactic.NormNum
import Mathlib.Tactic.Positivity
import Mathlib.Analysis.SpecialFunctions.Trigonometric.Angle
import Mathlib.Topology.Instances.Complex
/-
Lemmas about the point based initial conditions.
-/
noncomputable section

namespace Jaxions.RandConf

theorem d12_nonneg (a ρ z : ℝ) : 0 ≤ (ρ + a) ^ 2 + z ^ 2 := by positivity

theorem share_eq (a ρ z : ℝ) : share a ρ z = 1 / 2 -
    ((ρ + a) * (ρ - a) + z * z) / (2 * Real.sqrt (((ρ + a) ^ 2 + z ^ 2) * ((ρ - a) ^ 2 + z ^ 2))) := by
  unfold share
  rw [Real.sqrt_mul (d12_nonneg a ρ z)]
  generalize Real.sqrt ((ρ + a) ^ 2 + z ^ 2) * Real.sqrt ((ρ - a) ^ 2 + z ^ 2) = q
  generalize (ρ + a) * (ρ - a) + z * z = p
  rw [sub_div, div_div, mul_comm q 2]

theorem gram (a ρ z : ℝ) : ((ρ + a) ^ 2 + z ^ 2) * ((ρ - a) ^ 2 + z ^ 2) =
    ((ρ + a) * (ρ - a) + z * z) ^ 2 + 4 * a ^ 2 * z ^ 2 := by ring

theorem prod_pos {a ρ z : ℝ} (ha : 0 < a) (h : ¬ (z = 0 ∧ |ρ| = a)) :
    0 < ((ρ + a) ^ 2 + z ^ 2) * ((ρ - a) ^ 2 + z ^ 2) := by
  by_cases hz : z = 0
  · subst hz
    have h1 : ρ + a ≠ 0 := fun hc => h ⟨rfl, by
      rw [show ρ = -a by linarith, abs_neg, abs_of_pos ha]⟩
    have h2 : ρ - a ≠ 0 := fun hc => h ⟨rfl, by rw [show ρ = a by linarith, abs_of_pos ha]⟩
    have : 0 < (ρ + a) ^ 2 := by positivity
    have : 0 < (ρ - a) ^ 2 := by positivity
    simp only [ne_eq, OfNat.ofNat_ne_zero, not_false_eq_true, zero_pow, add_zero]
    positivity
  · have : 0 < z ^ 2 := by positivity
    have : 0 ≤ (ρ + a) ^ 2 := by positivity
    have : 0 ≤ (ρ - a) ^ 2 := by positivity
    positivity

/-- The square root vanishes exactly on the circle. -/
theorem root_zero_iff {a ρ z : ℝ} (ha : 0 < a) :
    Real.sqrt (((ρ + a) ^ 2 + z ^ 2) * ((ρ - a) ^ 2 + z ^ 2)) = 0 ↔ z = 0 ∧ |ρ| = a := by
  constructor
  · intro h
    by_contra hc
    exact (Real.sqrt_pos.2 (prod_pos ha hc)).ne' h
  · rintro ⟨rfl, h⟩
    have h2 : ρ ^ 2 = a ^ 2 := by rw [← sq_abs, h]
    rw [gram, show (ρ + a) * (ρ - a) + 0 * 0 = ρ ^ 2 - a ^ 2 by ring, h2]
    simp

theorem share_between {a ρ z : ℝ} (ha : 0 < a) (hz : z ≠ 0) :
    0 < share a ρ z ∧ share a ρ z < 1 := by
  have hP := prod_pos (ρ := ρ) ha (fun h => hz h.1)
  have hq := Real.sqrt_pos.2 hP
  have hlt : |(ρ + a) * (ρ - a) + z * z| <
      Real.sqrt (((ρ + a) ^ 2 + z ^ 2) * ((ρ - a) ^ 2 + z ^ 2)) := by
    apply Real.lt_sqrt_of_sq_lt
    rw [sq_abs, gram]
    have : 0 < a ^ 2 * z ^ 2 := by positivity
    linarith
  rw [share_eq]
  generalize Real.sqrt (((ρ + a) ^ 2 + z ^ 2) * ((ρ - a) ^ 2 + z ^ 2)) = q at *
  generalize (ρ + a) * (ρ - a) + z * z = p at *
  obtain ⟨h1, h2⟩ := abs_lt.1 hlt
  have e : p / (2 * q) = p / q / 2 := by rw [div_div, mul_comm]
  have h3 : p / q < 1 := (div_lt_one hq).2 h2
  have h4 : -1 < p / q := by rw [lt_div_iff₀ hq]; linarith
  rw [e]
  constructor <;> linarith

theorem share_plane {a ρ : ℝ} : share a ρ 0 =
    1 / 2 - (ρ ^ 2 - a ^ 2) / (2 * |ρ ^ 2 - a ^ 2|) := by
  rw [share_eq, gram, show ((ρ + a) * (ρ - a) + 0 * 0) ^ 2 + 4 * a ^ 2 * (0 : ℝ) ^ 2 =
    (ρ ^ 2 - a ^ 2) ^ 2 by ring, Real.sqrt_sq_eq_abs,
    show (ρ + a) * (ρ - a) + 0 * 0 = ρ ^ 2 - a ^ 2 by ring]

theorem share_inside {a ρ : ℝ} (h : |ρ| < a) : share a ρ 0 = 1 := by
  have h2 : ρ ^ 2 - a ^ 2 < 0 := by
    have := sq_lt_sq' (by have := abs_nonneg ρ; linarith) h
    rw [sq_abs] at this
    linarith
  rw [share_plane, abs_of_neg h2]
  generalize ρ ^ 2 - a ^ 2 = d at *
  have : d ≠ 0 := h2.ne
  field_simp
  norm_num

theorem share_outside {a ρ : ℝ} (ha : 0 < a) (h : a < |ρ|) : share a ρ 0 = 0 := by
  have h2 : 0 < ρ ^ 2 - a ^ 2 := by
    have := sq_lt_sq' (by linarith) h
    rw [sq_abs] at this
    linarith
  rw [share_plane, abs_of_pos h2]
  generalize ρ ^ 2 - a ^ 2 = d at *
  have : d ≠ 0 := h2.ne'
  field_simp
  norm_num

theorem loopAngle_eq {a ρ z : ℝ} (ha : 0 < a) : loopAngle a ρ (z * z) =
    if z = 0 ∧ |ρ| = a then none else some (Real.pi * share a ρ z) := by
  unfold loopAngle
  dsimp only
  have e : ((ρ + a) * (ρ + a) + z * z) * ((ρ - a) * (ρ - a) + z * z) =
      ((ρ + a) ^ 2 + z ^ 2) * ((ρ - a) ^ 2 + z ^ 2) := by ring
  rw [e]
  by_cases h : z = 0 ∧ |ρ| = a
  · rw [if_pos h, if_pos ((root_zero_iff ha).2 h)]
  · have hq : Real.sqrt (((ρ + a) ^ 2 + z ^ 2) * ((ρ - a) ^ 2 + z ^ 2)) ≠ 0 :=
      fun hc => h ((root_zero_iff ha).1 hc)
    rw [if_neg h, if_neg hq, share_eq,
      show 4 * a * a - ((ρ + a) * (ρ + a) + z * z) - ((ρ - a) * (ρ - a) + z * z) =
        -2 * ((ρ + a) * (ρ - a) + z * z) by ring]
    congr 2
    generalize Real.sqrt (((ρ + a) ^ 2 + z ^ 2) * ((ρ - a) ^ 2 + z ^ 2)) = q at *
    generalize (ρ + a) * (ρ - a) + z * z = p
    rw [show (0.5 : ℝ) = 1 / 2 by norm_num]
    field_simp
    ring

theorem unit_norm (θ : ℝ) : ‖unit θ‖ = 1 := by
  have : unit θ = Complex.exp (θ * Complex.I) := by
    apply Complex.ext
    · simp [unit, Complex.exp_ofReal_mul_I_re]
    · simp [unit, Complex.exp_ofReal_mul_I_im]
  rw [this, Complex.norm_exp_ofReal_mul_I]

theorem unit_eq_iff (x y : ℝ) : unit x = unit y ↔ ∃ n : ℤ, x = y + 2 * Real.pi * n := by
  unfold unit
  rw [Complex.ext_iff]
  constructor
  · rintro ⟨h1, h2⟩
    have := Real.Angle.cos_sin_inj h1 h2
    obtain ⟨k, hk⟩ := Real.Angle.angle_eq_iff_two_pi_dvd_sub.1 this
    exact ⟨k, by linarith⟩
  · rintro ⟨n, rfl⟩
    rw [mul_comm (2 * Real.pi)]
    exact ⟨Real.cos_add_int_mul_two_pi y n, Real.sin_add_int_mul_two_pi y n⟩

theorem unit_neg_pi : unit (-Real.pi) = unit Real.pi := by simp [unit]

/-- Away from the circle the share is continuous. -/
theorem share_cont {a : ℝ} (ha : 0 < a) {q : ℝ × ℝ} (h : ¬ (q.2 = 0 ∧ |q.1| = a)) :
    ContinuousAt (fun q : ℝ × ℝ => share a q.1 q.2) q := by
  have e : (fun q : ℝ × ℝ => share a q.1 q.2) = fun q => 1 / 2 -
      ((q.1 + a) * (q.1 - a) + q.2 * q.2) /
        (2 * Real.sqrt (((q.1 + a) ^ 2 + q.2 ^ 2) * ((q.1 - a) ^ 2 + q.2 ^ 2))) :=
    funext fun q => share_eq a q.1 q.2
  rw [e]
  have hq := (Real.sqrt_pos.2 (prod_pos ha h)).ne'
  refine ContinuousAt.sub continuousAt_const (ContinuousAt.div ?_ ?_ (by positivity))
  · fun_prop
  · fun_prop

theorem loopField_re (a : ℝ) (q : ℝ × ℝ) :
    (loopField a q).re = Real.cos (Real.pi * share a q.1 q.2) := by
  unfold loopField unit
  split
  · rfl
  · exact Real.cos_neg _

theorem loopField_im_abs (a : ℝ) (q : ℝ × ℝ) :
    |(loopField a q).im| = |Real.sin (Real.pi * share a q.1 q.2)| := by
  unfold loopField unit
  split
  · rfl
  · dsimp only
    rw [Real.sin_neg, abs_neg]

theorem loopField_cont {a : ℝ} (ha : 0 < a) {q : ℝ × ℝ} (h : ¬ (q.2 = 0 ∧ |q.1| = a)) :
    ContinuousAt (loopField a) q := by
  have hs := share_cont ha h
  have hre : ContinuousAt (fun q => (loopField a q).re) q := by
    rw [show (fun q => (loopField a q).re) = fun q => Real.cos (Real.pi * share a q.1 q.2) from
      funext (loopField_re a)]
    exact Real.continuous_cos.continuousAt.comp (continuousAt_const.mul hs)
  have hsin : ContinuousAt (fun q : ℝ × ℝ => Real.sin (Real.pi * share a q.1 q.2)) q :=
    Real.continuous_sin.continuousAt.comp (continuousAt_const.mul hs)
  have him : ContinuousAt (fun q => (loopField a q).im) q := by
    rcases lt_trichotomy q.2 0 with hz | hz | hz
    · refine hsin.neg.congr ?_
      have : ∀ᶠ p : ℝ × ℝ in nhds q, p.2 < 0 :=
        continuous_snd.continuousAt.eventually (gt_mem_nhds hz)
      filter_upwards [this] with p hp
      unfold loopField unit
      rw [if_neg (not_lt.2 hp.le)]
      simp
    · have h0 : Real.sin (Real.pi * share a q.1 q.2) = 0 := by
        rcases lt_trichotomy |q.1| a with h1 | h1 | h1
        · rw [hz, share_inside h1]; simp
        · exact absurd ⟨hz, h1⟩ h
        · rw [hz, share_outside ha h1]; simp
      have him0 : (loopField a q).im = 0 := by
        have := loopField_im_abs a q
        rw [h0, abs_zero] at this
        exact abs_eq_zero.1 this
      unfold ContinuousAt at hsin ⊢
      dsimp only at hsin ⊢
      rw [h0] at hsin
      rw [him0, tendsto_zero_iff_abs_tendsto_zero]
      have h2 := (tendsto_zero_iff_abs_tendsto_zero _).1 hsin
      refine h2.congr fun p => ?_
      exact (loopField_im_abs a p).symm
    · refine hsin.congr ?_
      have : ∀ᶠ p : ℝ × ℝ in nhds q, 0 < p.2 :=
        continuous_snd.continuousAt.eventually (lt_mem_nhds hz)
      filter_upwards [this] with p hp
      unfold loopField unit
      rw [if_pos hp]
  have hsplit : loopField a = fun q => ((loopField a q).re : ℂ) + (loopField a q).im * Complex.I :=
    funext fun q => (Complex.re_add_im _).symm
  rw [hsplit]
  exact (Complex.continuous_ofReal.continuousAt.comp hre).add
    ((Complex.continuous_ofReal.continuousAt.comp him).mul continuousAt_const)

/-- In the plane the sign does not matter. -/
theorem unit_share_plane {a ρ : ℝ} (ha : 0 < a) (h : |ρ| ≠ a) :
    unit (-(Real.pi * share a ρ 0)) = unit (Real.pi * share a ρ 0) := by
  rcases lt_or_gt_of_ne h with h1 | h1
  · rw [share_inside h1, mul_one, unit_neg_pi]
  · rw [share_outside ha h1, mul_zero, neg_zero]

theorem u64_of {i : ℤ} (h0 : 0 ≤ i) (h1 : i < 2 ^ 64) : (u64 i : ℤ) = i := by
  unfold u64
  rw [Int.emod_eq_of_lt h0 h1, Int.toNat_of_nonneg h0]

theorem sq_half {n i : ℕ} (h : i < n) :
    ((i : ℤ) - (n / 2 : ℕ)) * ((i : ℤ) - (n / 2 : ℕ)) ≤ n * n := by
  have h1 : -(n : ℤ) ≤ (i : ℤ) - (n / 2 : ℕ) := by omega
  have h2 : (i : ℤ) - (n / 2 : ℕ) ≤ n := by omega
  nlinarith

theorem folded_nearest {n i : ℕ} (h : i < n) : Nearest n i (folded n i) := by
  unfold Nearest folded
  split
  · exact ⟨⟨-1, by ring⟩, by omega, by omega⟩
  · exact ⟨⟨0, by ring⟩, by omega, by omega⟩

theorem folded_sq {n i : ℕ} (h : i < n) : folded n i * folded n i ≤ n * n := by
  have h1 : -(n : ℤ) ≤ folded n i := by unfold folded; split <;> omega
  have h2 : folded n i ≤ n := by unfold folded; split <;> omega
  nlinarith

theorem sq_small {n : ℕ} (hn : n < 2 ^ 31) : 3 * ((n : ℤ) * n) < 2 ^ 64 := by
  have : (n : ℤ) ≤ 2 ^ 31 := by omega
  have h0 : (0 : ℤ) ≤ n := by omega
  nlinarith

theorem rho2XY_eq {b : Box} {x y : ℕ} (hn : b.Lx < 2 ^ 31) (hx : x < b.Lx) (hy : y < b.Lx) :
    (rho2XY b x y : ℝ) = ((x : ℝ) - (b.Lx / 2 : ℕ)) ^ 2 + ((y : ℝ) - (b.Lx / 2 : ℕ)) ^ 2 := by
  have h1 := sq_half hx
  have h2 := sq_half hy
  have h3 := sq_small hn
  have h4 := mul_self_nonneg ((x : ℤ) - (b.Lx / 2 : ℕ))
  have h5 := mul_self_nonneg ((y : ℤ) - (b.Lx / 2 : ℕ))
  have h6 : (rho2XY b x y : ℤ) = _ := u64_of (by linarith) (by linarith)
  clear h1 h2 h4 h5
  generalize b.Lx / 2 = c at *
  have : ((rho2XY b x y : ℤ) : ℝ) = _ := congrArg Int.cast h6
  push_cast at this ⊢
  rw [this]; ring

theorem centred2_eq {b : Box} {x y z : ℕ} (hn : b.Lx < 2 ^ 31) (hx : x < b.Lx) (hy : y < b.Lx)
    (hz : z < b.Lx) :
    (centred2 b x y z : ℝ) = ((x : ℝ) - (b.Lx / 2 : ℕ)) ^ 2 + ((y : ℝ) - (b.Lx / 2 : ℕ)) ^ 2 +
      (folded b.Lx z : ℝ) ^ 2 := by
  have h1 := sq_half hx
  have h2 := sq_half hy
  have h3 := sq_small hn
  have h4 := mul_self_nonneg ((x : ℤ) - (b.Lx / 2 : ℕ))
  have h5 := mul_self_nonneg ((y : ℤ) - (b.Lx / 2 : ℕ))
  have h7 := folded_sq hz
  have h8 := mul_self_nonneg (folded b.Lx z)
  have h6 : (centred2 b x y z : ℤ) = _ := u64_of (by linarith) (by linarith)
  clear h1 h2 h4 h5
  generalize b.Lx / 2 = c at *
  have : ((centred2 b x y z : ℤ) : ℝ) = _ := congrArg Int.cast h6
  push_cast at this ⊢
  rw [this]; ring

theorem rho2YZ_eq {b : Box} {y z : ℕ} (hn : b.Lx < 2 ^ 31) (hy : y < b.Lx) (hz : z < b.Lx) :
    (u64 (folded b.Lx z * folded b.Lx z +
      ((y : ℤ) - (b.Lx / 2 : ℕ)) * ((y : ℤ) - (b.Lx / 2 : ℕ))) : ℝ) =
      (folded b.Lx z : ℝ) ^ 2 + ((y : ℝ) - (b.Lx / 2 : ℕ)) ^ 2 := by
  have h2 := sq_half hy
  have h3 := sq_small hn
  have h5 := mul_self_nonneg ((y : ℤ) - (b.Lx / 2 : ℕ))
  have h7 := folded_sq hz
  have h8 := mul_self_nonneg (folded b.Lx z)
  have h6 := u64_of (i := folded b.Lx z * folded b.Lx z +
    ((y : ℤ) - (b.Lx / 2 : ℕ)) * ((y : ℤ) - (b.Lx / 2 : ℕ))) (by linarith) (by linarith)
  clear h2 h5
  generalize b.Lx / 2 = c at *
  have := congrArg (Int.cast (R := ℝ)) h6
  rw [Int.cast_natCast] at this
  rw [this]; push_cast; ring

theorem x2YZ_eq {b : Box} {x : ℕ} (hn : b.Lx < 2 ^ 31) (hx : x < b.Lx) :
    (u64 (((x : ℤ) - (b.Lx / 2 : ℕ)) * ((x : ℤ) - (b.Lx / 2 : ℕ))) : ℝ) =
      (((b.Lx / 2 : ℕ) : ℝ) - x) * (((b.Lx / 2 : ℕ) : ℝ) - x) := by
  have h2 := sq_half hx
  have h3 := sq_small hn
  have h5 := mul_self_nonneg ((x : ℤ) - (b.Lx / 2 : ℕ))
  have h6 := u64_of (i := ((x : ℤ) - (b.Lx / 2 : ℕ)) * ((x : ℤ) - (b.Lx / 2 : ℕ)))
    (by linarith) (by linarith)
  clear h2 h5
  generalize b.Lx / 2 = c at *
  have := congrArg (Int.cast (R := ℝ)) h6
  rw [Int.cast_natCast] at this
  rw [this]; push_cast; ring

theorem gauss_arg {b : Box} {ic : Ic} (d2 : ℝ) (r : ℝ) (hr : r ^ 2 = (b.L / b.Lx) ^ 2 * d2) :
    -d2 * kCri2 b ic = -r ^ 2 / (2 * ic.kcr ^ 2) := by
  rw [hr]
  unfold kCri2 Box.Sf
  push_cast
  rw [show (2 : ℝ) * (b.Lx * b.Lx) * ic.kcr * ic.kcr = (b.Lx : ℝ) ^ 2 * (2 * ic.kcr ^ 2) by ring,
    ← div_div, div_pow]
  ring

theorem pointVal_fixed {K : Sub} (h : nDraws K = 0) (b : Box) (ic : Ic) (x y z : ℕ)
    (u u' : ℕ → ℝ) : pointVal K b ic x y z u = pointVal K b ic x y z u' := by
  cases K <;> first | rfl | simp [nDraws] at h

theorem strR_pos (ic : Ic) : 0 < ic.strR := by
  unfold Ic.strR
  split
  · assumption
  · norm_num

/-- Coordinates of an address. -/
theorem coords {b : Box} {x y k rank : ℕ} (hx : x < b.Lx) (hy : y < b.Lx) :
    ixOf b (b.cell x y k) = x ∧ iyOf b (b.cell x y k) = y ∧
      izOf b rank (b.cell x y k) = k + rank * b.Lz := by
  have h1 : y * b.Lx + x < b.Sf := by
    unfold Box.Sf
    exact pair_lt hy hx
  have e : b.cell x y k = k * b.Sf + (y * b.Lx + x) := by unfold Box.cell; ring
  have h2 : b.cell x y k / b.Sf = k := by rw [e]; exact div_of h1
  have h3 : b.cell x y k % b.Sf = y * b.Lx + x := by rw [e]; exact mod_of h1
  unfold ixOf iyOf izOf
  rw [h2, h3]
  exact ⟨mod_of hx, div_of hx, rfl⟩

theorem cell_lt {b : Box} {x y k : ℕ} (hx : x < b.Lx) (hy : y < b.Lx) (hk : k < b.nz) :
    b.cell x y k < b.V := by
  have h1 : y * b.Lx + x < b.Sf := by
    unfold Box.Sf
    exact pair_lt hy hx
  have e : b.cell x y k = k * b.Sf + (y * b.Lx + x) := by unfold Box.cell; ring
  rw [e]
  unfold Box.V
  exact pair_lt hk h1

/-- The loop over the cells fills every cell. -/
theorem randConf_spec {p : Prec} {K : Sub} {b : Box} {ic : Ic} {rank : ℕ} {draws : ℕ → ℕ → ℝ}
    {L : List (ℕ × ℕ)} {s : Drawing (Option ℂ)} (hL : Schedule b.V L) (ha : b.Allocated s.mem) :
    ∃ s', randConf p K b ic rank draws L s = some s' ∧
      (∃ ticket : ℕ → ℕ × ℕ,
        (∀ idx < b.V, s'.mem idx = some (pointVal (inst p K) b ic (ixOf b idx) (iyOf b idx)
          (izOf b rank idx) fun i => draws (ticket idx).1
            (s.used (ticket idx).1 + nDraws (inst p K) * (ticket idx).2 + i))) ∧
        (∀ i < b.V, ∀ j < b.V, ticket i = ticket j → i = j)) ∧
      (∀ a, b.V ≤ a → s'.mem a = s.mem a) := by
  have hmem : ∀ i, i ∈ L.map Prod.snd ↔ i < b.V := fun i => by
    rw [hL.mem_iff, List.mem_range]
  obtain ⟨s', e1, ⟨tk, e2, e3⟩, e4, _⟩ := drawAll_spec (n := nDraws (inst p K))
    (val := fun idx u => pointVal (inst p K) b ic (ixOf b idx) (iyOf b idx) (izOf b rank idx) u)
    (addr := fun idx => idx) (draws := draws) (L := L) (s := s)
    (hL.nodup_iff.2 List.nodup_range) (fun _ _ _ _ h => h)
    (fun e he => ha _ ((hmem _).1 (List.mem_map_of_mem he)))
  exact ⟨s', e1, ⟨tk, fun i hi => e2 i ((hmem i).2 hi),
    fun i hi j hj h => e3 i ((hmem i).2 hi) j ((hmem j).2 hj) h⟩,
    fun a h => e4 a fun c hc hca => by have := (hmem c).1 hc; omega⟩

end Jaxions.RandConf
