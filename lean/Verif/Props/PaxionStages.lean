import Verif.Props.PaxionLaw
/-
C63, continued: the gravitational turn and the stages are pieces of one Schrödinger equation,
`i ψ' = -q(t) Δψ + m g Φ ψ - β|ψ|²ψ/(8R²)`.
-/
namespace Jaxions.Paxion

open Stencil Run Cosmo intervalIntegral Set

/-- **C63 (gravity).** Over the time of a call the gravitational turn is the exact evolution of a
site under `i ψ' = m g Φ ψ`. -/
theorem C63_gravity_exact (P : Par) (dz : ℝ) (NN : Nat) (w : Nat → ℝ) (Φ : Int → Int → Int → ℝ)
    (F : Lat ℝ) (x y z : Int) (φ ν : ℝ → ℝ)
    (hφ : ∀ t, HasDerivAt φ (P.massA * P.grav * Φ x y z * ν t) t)
    (hν : ∀ t, HasDerivAt ν (-(P.massA * P.grav * Φ x y z * φ t)) t)
    (e1 : F.φ x y z = φ P.ct) (e2 : F.ν x y z = ν P.ct) :
    (Move.on NN w F (.turn 0 (gravF P dz) Φ)).φ x y z = φ (P.ct + dz) ∧
      (Move.on NN w F (.turn 0 (gravF P dz) Φ)).ν x y z = ν (P.ct + dz) := by
  set q := P.massA * P.grav * Φ x y z with hq
  have ha : angle 0 (gravF P dz) Φ F x y z = -(q * dz) := by
    unfold angle gravF
    rw [hq]; ring
  have hT : ∀ t, HasDerivAt (fun t => q * (t - P.ct)) q t := by
    intro t
    refine (((hasDerivAt_id t).sub_const P.ct).const_mul q).congr_deriv ?_
    ring
  have hX := const_of_deriv (a := P.ct) (b := P.ct + dz)
    (f := fun t => Real.cos (q * (t - P.ct)) * φ t - Real.sin (q * (t - P.ct)) * ν t)
    (fun t _ => by
      refine (((hT t).cos.mul (hφ t)).sub ((hT t).sin.mul (hν t))).congr_deriv ?_
      ring)
  have hY := const_of_deriv (a := P.ct) (b := P.ct + dz)
    (f := fun t => Real.cos (q * (t - P.ct)) * ν t + Real.sin (q * (t - P.ct)) * φ t)
    (fun t _ => by
      refine (((hT t).cos.mul (hν t)).add ((hT t).sin.mul (hφ t))).congr_deriv ?_
      ring)
  simp only [sub_self, mul_zero, Real.cos_zero, Real.sin_zero, one_mul, zero_mul, add_zero,
    sub_zero, add_sub_cancel_left] at hX hY
  have key := Real.sin_sq_add_cos_sq (q * dz)
  simp only [Move.on, ha, e1, e2, Real.cos_neg, Real.sin_neg]
  generalize Real.cos (q * dz) = c at *
  generalize Real.sin (q * dz) = s at *
  constructor
  · linear_combination (-c) * hX - s * hY + φ (P.ct + dz) * key
  · linear_combination s * hX - c * hY + ν (P.ct + dz) * key

-- a site at rest in a potential
example : ∃ φ ν : ℝ → ℝ, (∀ t, HasDerivAt φ (2 * 3 * 5 * ν t) t) ∧
    (∀ t, HasDerivAt ν (-(2 * 3 * 5 * φ t)) t) ∧ φ 0 = 1 := by
  have hT : ∀ t : ℝ, HasDerivAt (fun t : ℝ => 2 * 3 * 5 * t) (2 * 3 * 5) t := fun t =>
    ((hasDerivAt_id t).const_mul _).congr_deriv (by ring)
  refine ⟨fun t => Real.cos (2 * 3 * 5 * t), fun t => -Real.sin (2 * 3 * 5 * t),
    fun t => (hT t).cos.congr_deriv (by ring), fun t => (hT t).sin.neg.congr_deriv (by ring), ?_⟩
  simp

/-- The kicks and drifts of `ψ' = i q(t) Δψ`, that is `ν' = q Δφ`, `φ' = -q Δν`, for pairs of
coefficients `(c, d)`: in every stage both start from the same time. -/
noncomputable def drifts (q : ℝ → ℝ) (dz : ℝ) : List (ℝ × ℝ) → ℝ → List Call
  | [], _ => []
  | (c, d) :: r, z =>
    .lap true (∫ s in z..z + dz * c, q s) :: .lap false (-∫ s in z..z + dz * d, q s) ::
      drifts q dz r (z + dz * d)

/-- All times at which `drifts` begins or ends are after the origin. -/
def After (dz : ℝ) : List (ℝ × ℝ) → ℝ → Prop
  | [], z => 0 < z
  | (c, d) :: r, z => 0 < z ∧ 0 < z + dz * c ∧ After dz r (z + dz * d)

theorem After.pos {dz z : ℝ} : ∀ {cd : List (ℝ × ℝ)}, After dz cd z → 0 < z
  | [], h => h
  | _ :: _, h => h.1

theorem ood2_integral {P : Par} {μ dz : ℝ} (ht : 0 < P.ct) (hz : 0 < P.ct + dz)
    (hμ : 0 < μ) (hm : P.massA * P.R = μ * P.ct ^ P.n) (hn : P.n = 1 ∨ 1e-2 ≤ |P.n - 1|) :
    ood2 P dz = some (P.sign * ∫ s in P.ct..P.ct + dz, P.ood2a / (2 * (μ * s ^ P.n))) := by
  have hI : P.sign * ∫ s in P.ct..P.ct + dz, P.ood2a / (2 * (μ * s ^ P.n)) =
      P.sign * P.ood2a / 2 * ∫ s in P.ct..P.ct + dz, 1 / (μ * s ^ P.n) := by
    rw [← intervalIntegral.integral_const_mul, ← intervalIntegral.integral_const_mul]
    congr 1
    funext s
    rw [mul_one_div, ← div_div, mul_div_assoc, mul_div_assoc]
  rw [hI]
  have hden : (2.0 : ℝ) * P.massA * P.R ≠ 0 := by
    have := Real.rpow_pos_of_pos ht P.n
    rw [mul_assoc, hm]; positivity
  by_cases h0 : dz = 0
  · subst h0
    simp only [add_zero, intervalIntegral.integral_same, mul_zero]
    unfold ood2 dzp
    by_cases ha : |P.n - 1| < 1e-2
    · simp only [ha, if_true, quot, ht.ne', if_false, Option.map_some, Option.bind_some, hden]
      norm_num
    · have : P.n - 1 ≠ 0 := by
        intro h; rw [h] at ha; norm_num at ha
      simp [ha, quot, ht.ne', hden, this]
  · by_cases hs : P.sign * P.ood2a = 0
    · rw [hs, zero_div, zero_mul]
      unfold ood2 dzp
      have hs' : ∀ d, P.sign * d * P.ood2a = 0 := fun d => by linear_combination d * hs
      by_cases ha : |P.n - 1| < 1e-2
      · simp [ha, quot, ht.ne', hden, hs']
      · have : P.n - 1 ≠ 0 := by
          intro h; rw [h] at ha; norm_num at ha
        simp [ha, quot, ht.ne', hden, hs', this]
    · obtain ⟨k, e, h⟩ := C63_ood2_iff ht hz h0 hμ hm hs
      rw [e, h.2 hn]

/-- **C63 (stages).** When `m_A R = μ t^n`, with `n` one or away from one, the stages of a step are
the kicks and drifts of `ψ' = i q(t) Δψ` with `q = ood2a / (2 m_A R)`. -/
theorem C63_stages (B : Bg) (T : Integrator.Table ℝ) (dz μ n : ℝ) (hμ : 0 < μ)
    (hm : ∀ t, 0 < t → B.massA t * B.R t = μ * t ^ n) (hn : ∀ t, B.n t = n)
    (h1 : n = 1 ∨ 1e-2 ≤ |n - 1|) (p s : Nat) (z : ℝ) (cd : List (ℝ × ℝ))
    (hc : (T.c.drop s).take p = cd.map Prod.fst) (hd : (T.d.drop s).take p = cd.map Prod.snd)
    (hl : cd.length = p) (ha : After dz cd z) :
    ∃ zf, B.stages T dz p s z =
      some (drifts (fun t => B.ood2a / (2 * (B.massA t * B.R t))) dz cd z, zf) := by
  induction p generalizing s z cd with
  | zero =>
    cases cd with
    | nil => exact ⟨z, rfl⟩
    | cons a r => simp at hl
  | succ p ih =>
    cases cd with
    | nil => simp at hl
    | cons a r =>
      obtain ⟨c, d⟩ := a
      obtain ⟨a1, a2, a3⟩ := ha
      have a4 := a3.pos
      have hget : ∀ {l : List ℝ} {x : ℝ} {m : List ℝ}, (l.drop s).take (p + 1) = x :: m →
          l[s]? = some x ∧ (l.drop (s + 1)).take p = m := by
        intro l x m h
        by_cases hs : s < l.length
        · rw [List.drop_eq_getElem_cons hs, List.take_succ_cons] at h
          injection h with e1 e2
          exact ⟨by rw [List.getElem?_eq_getElem hs, e1], e2⟩
        · rw [List.drop_eq_nil_of_le (by omega)] at h
          simp at h
      obtain ⟨c1, c2⟩ := hget hc
      obtain ⟨d1, d2⟩ := hget hd
      have hood : ∀ sg h, 0 < z + h → ood2 (B.par z sg) h =
          some (sg * ∫ t in z..z + h, B.ood2a / (2 * (B.massA t * B.R t))) := by
        intro sg h hh
        have := ood2_integral (P := B.par z sg) (μ := μ) (dz := h) a1 hh hμ
          (by simp only [Bg.par, hn]; exact hm z a1) (by simp only [Bg.par, hn]; exact h1)
        rw [this]
        simp only [Bg.par, hn]
        congr 2
        refine intervalIntegral.integral_congr fun t ht => ?_
        have ht0 : 0 < t := by
          rw [uIcc, mem_Icc] at ht
          exact lt_of_lt_of_le (lt_min a1 hh) ht.1
        simp only [hm t ht0]
      obtain ⟨zf, e⟩ := ih (s + 1) (z + dz * d) r c2 d2 (by simpa using hl) a3
      refine ⟨zf, ?_⟩
      simp only [Bg.stages, c1, d1, hood 1 _ a2, hood (-1) _ a4, e, Option.bind_eq_bind,
        Option.bind_some, Option.pure_def, drifts, one_mul, neg_mul]

/-- The coefficients of RKN4 in pairs. -/
theorem rkn4_pairs : ∃ cd : List (ℝ × ℝ), cd.length = 4 ∧
    ((Integrator.table .rkn4 : Integrator.Table ℝ).c.drop 0).take 4 = cd.map Prod.fst ∧
    ((Integrator.table .rkn4 : Integrator.Table ℝ).d.drop 0).take 4 = cd.map Prod.snd ∧
    After (1 / 10) cd 1 := by
  refine ⟨[(_, _), (_, _), (_, _), (_, _)], rfl, rfl, rfl, ?_⟩
  norm_num [After]

end Jaxions.Paxion
