import Verif.Model.Cosmos
import Mathlib.Analysis.SpecialFunctions.Pow.Continuity
/-
C19: the axion mass law.
-/
namespace Jaxions.Cosmo
open Set

/-- The mass law as a user would write it: a power of the scale factor that stops growing at `zT`
and, if `zR` is not before `zT`, starts again at `zR`. -/
noncomputable def law (A n nr zT zR R : ℝ) : ℝ :=
  A ^ 2 * (min R zT) ^ n * (if zT ≤ zR then (max 1 (R / zR)) ^ nr else 1)

/-- **C19** The mass is a well defined number at every time: no path leaves it uninitialised. -/
theorem C19_total (c : Cosmos) (ct : ℝ) : ∃ v, c.axionMass2 ct = some v := by
  unfold Cosmos.axionMass2
  by_cases hu : c.ueCosm = true
  · exact ⟨c.schi ct, by simp only [hu, if_true]⟩
  · simp only [hu]
    by_cases hz : c.zThRes ≤ c.zRestore
    · simp only [hz, if_true]
      by_cases h1 : c.R ct > c.zRestore
      · exact ⟨_, by simp only [h1, if_true]; rfl⟩
      · by_cases h2 : c.R ct < c.zThRes
        · have h3 : ¬ (c.R ct ≥ c.zThRes ∧ c.R ct ≤ c.zRestore) := by
            rintro ⟨h, _⟩; linarith
          exact ⟨_, by simp only [h1, h2, h3, if_false, if_true]; rfl⟩
        · have h3 : c.R ct ≥ c.zThRes ∧ c.R ct ≤ c.zRestore := ⟨not_lt.mp h2, not_lt.mp h1⟩
          exact ⟨_, by simp only [h1, h3, if_false]; rfl⟩
    · simp only [hz, if_false]
      by_cases h2 : c.R ct < c.zThRes
      · exact ⟨_, by simp only [h2, if_true]; rfl⟩
      · exact ⟨_, by simp only [h2, if_false]; rfl⟩

/-- **C19** In the analytic cosmology the mass is the law above, for every positive scale factor and
every ordering of the two thresholds. -/
theorem C19_is_law (c : Cosmos) (hu : c.ueCosm = false) (ct : ℝ) (hT : 0 < c.zThRes) :
    c.axionMass2 ct = some (law c.indi3 c.nQcd c.nQcdr c.zThRes c.zRestore (c.R ct)) := by
  unfold Cosmos.axionMass2 law
  simp only [hu, Bool.false_eq_true, if_false]
  by_cases hz : c.zThRes ≤ c.zRestore
  · have hR0 : 0 < c.zRestore := lt_of_lt_of_le hT hz
    simp only [hz, if_true]
    by_cases h1 : c.R ct > c.zRestore
    · have hle : c.zThRes ≤ c.R ct := le_trans hz (le_of_lt h1)
      have h1' : 1 ≤ c.R ct / c.zRestore := by
        rw [le_div_iff₀ hR0]; linarith
      simp only [h1, if_true, min_eq_right hle, max_eq_right h1', sq]
    · have h1' : c.R ct / c.zRestore ≤ 1 := by
        rw [div_le_iff₀ hR0]; linarith
      simp only [h1, if_false, max_eq_left h1', Real.one_rpow, mul_one]
      by_cases h2 : c.R ct < c.zThRes
      · have h3 : ¬ (c.R ct ≥ c.zThRes ∧ c.R ct ≤ c.zRestore) := by
          rintro ⟨h, _⟩; linarith
        simp only [h2, h3, if_false, if_true, min_eq_left (le_of_lt h2), sq]
      · have h3 : c.R ct ≥ c.zThRes ∧ c.R ct ≤ c.zRestore := ⟨not_lt.mp h2, not_lt.mp h1⟩
        simp only [h3, if_true, and_self, min_eq_right (not_lt.mp h2), sq]
  · simp only [hz, if_false, mul_one]
    by_cases h2 : c.R ct < c.zThRes
    · simp only [h2, if_true, min_eq_left (le_of_lt h2), sq]
    · simp only [h2, if_false, min_eq_right (not_lt.mp h2), sq]

/-- **C19** Nonnegative. -/
theorem C19_nonneg (A n nr zT zR R : ℝ) (hT : 0 < zT) (hR : 0 < R) : 0 ≤ law A n nr zT zR R := by
  unfold law
  have h1 : 0 < min R zT := lt_min hR hT
  have h2 : 0 ≤ if zT ≤ zR then (max 1 (R / zR)) ^ nr else 1 := by
    split
    · exact Real.rpow_nonneg (le_trans zero_le_one (le_max_left _ _)) _
    · exact zero_le_one
  exact mul_nonneg (mul_nonneg (sq_nonneg _) (Real.rpow_nonneg h1.le _)) h2

/-- **C19** Continuous in the scale factor, in particular across both thresholds. -/
theorem C19_continuous (A n nr zT zR : ℝ) (hT : 0 < zT) :
    ContinuousOn (law A n nr zT zR) (Ioi 0) := by
  unfold law
  apply ContinuousOn.mul
  · apply ContinuousOn.mul continuousOn_const
    apply ContinuousOn.rpow_const
    · exact (continuous_id.min continuous_const).continuousOn
    · intro x hx
      left
      exact ne_of_gt (lt_min hx hT)
  · split
    · apply ContinuousOn.rpow_const
      · exact (continuous_const.max (continuous_id.div_const _)).continuousOn
      · intro x _
        left
        exact ne_of_gt (lt_of_lt_of_le zero_lt_one (le_max_left _ _))
    · exact continuousOn_const

/-- **C19** Never decreasing with the scale factor for nonnegative exponents. -/
theorem C19_monotone (A n nr zT zR : ℝ) (hn : 0 ≤ n) (hnr : 0 ≤ nr) (hT : 0 < zT) :
    MonotoneOn (law A n nr zT zR) (Ioi 0) := by
  intro x hx y hy hxy
  unfold law
  have hx0 : 0 < x := hx
  have h1 : 0 < min x zT := lt_min hx0 hT
  apply mul_le_mul
  · apply mul_le_mul_of_nonneg_left _ (sq_nonneg _)
    exact Real.rpow_le_rpow h1.le (min_le_min_right _ hxy) hn
  · split
    · rename_i hz
      have hR0 : 0 < zR := lt_of_lt_of_le hT hz
      apply Real.rpow_le_rpow (le_trans zero_le_one (le_max_left _ _)) _ hnr
      exact max_le_max_left _ (div_le_div_of_nonneg_right hxy hR0.le)
    · exact le_refl _
  · split
    · exact Real.rpow_nonneg (le_trans zero_le_one (le_max_left _ _)) _
    · exact zero_le_one
  · exact mul_nonneg (sq_nonneg _) (Real.rpow_nonneg (le_of_lt (lt_min hy hT)) _)

theorem R_pos (c : Cosmos) (hu : c.ueCosm = false) {ct : ℝ} (h : 0 < ct) : 0 < c.R ct := by
  unfold Cosmos.R
  simp only [hu, Bool.false_eq_true, if_false]
  split
  · rename_i hg
    have := hg.2
    positivity
  · exact Real.rpow_pos_of_pos h _

theorem R_continuous (c : Cosmos) (hu : c.ueCosm = false) : ContinuousOn c.R (Ioi 0) := by
  have : c.R = fun ct => if c.frw = 1 ∧ c.grav > 0 then ct * (1 + 0.25 * ct * c.grav) else ct ^ c.frw := by
    funext ct
    simp [Cosmos.R, hu]
  rw [this]
  by_cases hg : c.frw = 1 ∧ c.grav > 0
  · simp only [hg, if_true, and_self]
    fun_prop
  · simp only [hg, if_false]
    apply ContinuousOn.rpow_const continuousOn_id
    intro x hx
    left
    exact ne_of_gt hx

/-- **C19** As a function of time: the mass follows a function that is continuous and nonnegative at
all positive times, for both forms of the scale factor. -/
theorem C19_in_time (c : Cosmos) (hu : c.ueCosm = false) (hT : 0 < c.zThRes) :
    ∃ f : ℝ → ℝ, ContinuousOn f (Ioi 0) ∧ (∀ ct, 0 < ct → 0 ≤ f ct) ∧
      ∀ ct, c.axionMass2 ct = some (f ct) := by
  refine ⟨fun ct => law c.indi3 c.nQcd c.nQcdr c.zThRes c.zRestore (c.R ct), ?_, ?_, ?_⟩
  · exact (C19_continuous _ _ _ _ _ hT).comp (R_continuous c hu) (fun ct h => R_pos c hu h)
  · intro ct h
    exact C19_nonneg _ _ _ _ _ _ hT (R_pos c hu h)
  · intro ct
    exact C19_is_law c hu ct hT

/-- **C19** Never decreasing in time in an expanding universe. -/
theorem C19_monotone_in_time (c : Cosmos) (hu : c.ueCosm = false) (hT : 0 < c.zThRes)
    (hf : 0 ≤ c.frw) (hn : 0 ≤ c.nQcd) (hnr : 0 ≤ c.nQcdr) (s t : ℝ) (hs : 0 < s) (hst : s ≤ t)
    (a b : ℝ) (ha : c.axionMass2 s = some a) (hb : c.axionMass2 t = some b) : a ≤ b := by
  rw [C19_is_law c hu _ hT, Option.some.injEq] at ha hb
  subst ha hb
  have ht : 0 < t := lt_of_lt_of_le hs hst
  apply C19_monotone _ _ _ _ _ hn hnr hT (R_pos c hu hs) (R_pos c hu ht)
  unfold Cosmos.R
  simp only [hu, Bool.false_eq_true, if_false]
  split
  · rename_i hg
    have := hg.2
    have h2 : s * s ≤ t * t := mul_le_mul hst hst hs.le ht.le
    nlinarith
  · exact Real.rpow_le_rpow hs.le hst hf

-- restore mode: threshold 3, restoration at 5, exponents 7 and 2, evaluated at R = 10
example : law 2 7 2 3 5 10 = 2 ^ 2 * (3 : ℝ) ^ (7 : ℝ) * (2 : ℝ) ^ (2 : ℝ) := by
  unfold law
  rw [min_eq_right (by norm_num), if_pos (by norm_num), max_eq_right (by norm_num)]
  norm_num

end Jaxions.Cosmo
