import Verif.Lemmas.MassRate
/-
C62: rates of change and time integrals of the scale factor and the axion mass.

`m` is always the mass as the code itself reports it, `c.axionMass2 t = some (m t)`.
-/
namespace Jaxions.Cosmo
open Set Filter Topology

/-- `m` is the mass squared reported by the code at every positive time. -/
def IsMass (c : Cosmos) (m : ℝ → ℝ) : Prop := ∀ t, 0 < t → c.axionMass2 t = some (m t)

/-- Away from the two changes of the mass law. -/
def Smooth (c : Cosmos) (ct : ℝ) : Prop :=
  c.R ct ≠ c.zThRes ∧ (c.zThRes ≤ c.zRestore → c.R ct ≠ c.zRestore)

theorem IsMass.eq {c : Cosmos} {m : ℝ → ℝ} (h : IsMass c m) (hu : c.ueCosm = false)
    (hT : 0 < c.zThRes) (t : ℝ) (ht : 0 < t) :
    m t = law c.indi3 c.nQcd c.nQcdr c.zThRes c.zRestore (c.R t) := by
  have := h t ht
  rw [C19_is_law c hu t hT] at this
  exact (Option.some.inj this).symm

theorem IsMass.deriv {c : Cosmos} {m : ℝ → ℝ} (h : IsMass c m) (hu : c.ueCosm = false)
    (hT : 0 < c.zThRes) (ct : ℝ) (hct : 0 < ct) (hs : Smooth c ct) (r : ℝ)
    (hr : HasDerivAt c.R r ct) :
    HasDerivAt m (slope c.nQcd c.nQcdr c.zThRes c.zRestore (c.R ct) * m ct / c.R ct * r) ct := by
  have hR := R_pos c hu hct
  have hd := (law_deriv c.indi3 c.nQcd c.nQcdr c.zThRes c.zRestore (c.R ct) hT hR hs.1 hs.2).comp
    ct hr
  rw [h.eq hu hT ct hct]
  refine hd.congr_of_eventuallyEq ?_
  filter_upwards [Ioi_mem_nhds hct] with t ht
  exact h.eq hu hT t ht

/-- **C62** Without the matter term, `Rp` and `Rpp` are the rate of the scale factor and the rate of
its rate, both over the scale factor. -/
theorem C62_scale (c : Cosmos) (hu : c.ueCosm = false) (hg : ¬ (c.frw = 1 ∧ c.grav > 0)) (ct : ℝ)
    (hct : 0 < ct) :
    ∃ p R', c.Rp ct = some p ∧ (∀ t, 0 < t → HasDerivAt c.R (R' t) t) ∧ R' ct = p * c.R ct ∧
      HasDerivAt R' (c.Rpp ct * c.R ct) ct := by
  refine ⟨c.frw / ct, fun t => c.frw / t * c.R t, ?_, fun t ht => R_deriv c hu hg t ht, rfl, ?_⟩
  · unfold Cosmos.Rp quot
    simp only [hu, Bool.false_eq_true, if_false, hct.ne']
  · have h1 : HasDerivAt (fun t : ℝ => c.frw / t) (-c.frw / ct ^ 2) ct := by
      have := (hasDerivAt_inv hct.ne').const_mul c.frw
      refine (this.congr_of_eventuallyEq (Eventually.of_forall fun t => ?_)).congr_deriv ?_
      · exact div_eq_mul_inv _ _
      · ring
    refine (h1.mul (R_deriv c hu hg ct hct)).congr_deriv ?_
    unfold Cosmos.Rpp
    field_simp
    ring

/-- **C62** With the matter term (`frw = 1`, `grav > 0`) both are wrong at every time: `Rp` is too
small, and `Rpp` is zero while the expansion accelerates in conformal time. -/
theorem C62_scale_grav (c : Cosmos) (hu : c.ueCosm = false) (hf : c.frw = 1) (hg : 0 < c.grav)
    (ct : ℝ) (hct : 0 < ct) :
    ∃ p R', c.Rp ct = some p ∧ (∀ t, 0 < t → HasDerivAt c.R (R' t) t) ∧ p * c.R ct < R' ct ∧
      c.Rpp ct = 0 ∧ HasDerivAt R' (c.grav / 2) ct := by
  refine ⟨1 / ct, fun t => 1 + 0.5 * t * c.grav, ?_, fun t _ => R_grav_deriv c hu hf hg t, ?_, ?_,
    ?_⟩
  · unfold Cosmos.Rp quot
    simp only [hu, Bool.false_eq_true, if_false, hct.ne', hf]
  · rw [R_grav c hu hf hg]
    have : 1 / ct * (ct * (1 + 0.25 * ct * c.grav)) = 1 + 0.25 * ct * c.grav := by
      field_simp
    simp only [this]
    have := mul_pos hct hg
    linarith
  · unfold Cosmos.Rpp
    rw [hf]
    simp
  · have := (((hasDerivAt_id ct).const_mul (0.5 : ℝ)).mul_const c.grav).const_add 1
    refine this.congr_deriv ?_
    ring

/-- **C62** Without the matter term, `DAxionMass2Dct` is the rate of the mass squared at every time
other than the two changes of the law. -/
theorem C62_mass_rate (c : Cosmos) (hu : c.ueCosm = false) (hg : ¬ (c.frw = 1 ∧ c.grav > 0))
    (hT : 0 < c.zThRes) (m : ℝ → ℝ) (hm : IsMass c m) (ct : ℝ) (hct : 0 < ct)
    (hs : Smooth c ct) :
    ∃ d, c.dAxionMass2Dct ct = some d ∧ HasDerivAt m d ct := by
  refine ⟨_, dAxionMass2_val c hu ct hct hT, ?_⟩
  refine (hm.deriv hu hT ct hct hs _ (R_deriv c hu hg ct hct)).congr_deriv ?_
  have hR := R_pos c hu hct
  rw [hm.eq hu hT ct hct]
  field_simp

/-- **C62** With the matter term the reported rate is right exactly where the mass does not change:
elsewhere it is too small by the factor `(1 + ct·grav/4)/(1 + ct·grav/2)`. -/
theorem C62_mass_rate_grav (c : Cosmos) (hu : c.ueCosm = false) (hf : c.frw = 1) (hg : 0 < c.grav)
    (hT : 0 < c.zThRes) (m : ℝ → ℝ) (hm : IsMass c m) (ct : ℝ) (hct : 0 < ct) (hs : Smooth c ct) :
    ∃ d d', c.dAxionMass2Dct ct = some d ∧ HasDerivAt m d' ct ∧
      d' * (1 + ct * c.grav / 4) = d * (1 + ct * c.grav / 2) ∧ (d = d' ↔ d' = 0) := by
  have hR := R_pos c hu hct
  refine ⟨_, _, dAxionMass2_val c hu ct hct hT,
    hm.deriv hu hT ct hct hs _ (R_grav_deriv c hu hf hg ct), ?_⟩
  have hx : 0 < ct * c.grav := mul_pos hct hg
  have hRe : c.R ct = ct * (1 + 0.25 * ct * c.grav) := by rw [R_grav c hu hf hg]
  have h4 : (0 : ℝ) < 1 + ct * c.grav / 4 := by linarith
  rw [← hm.eq hu hT ct hct, hf]
  generalize slope c.nQcd c.nQcdr c.zThRes c.zRestore (c.R ct) = s
  have key : s * m ct / c.R ct * (1 + 0.5 * ct * c.grav) * (1 + ct * c.grav / 4) =
      s * 1 * m ct / ct * (1 + ct * c.grav / 2) := by
    rw [hRe]
    have h4' : (1 + 0.25 * ct * c.grav) ≠ 0 := by
      have : 1 + 0.25 * ct * c.grav = 1 + ct * c.grav / 4 := by ring
      rw [this]; exact h4.ne'
    field_simp
    ring
  refine ⟨key, ?_⟩
  generalize s * m ct / c.R ct * (1 + 0.5 * ct * c.grav) = d' at key ⊢
  generalize s * 1 * m ct / ct = d at key ⊢
  constructor
  · intro h
    rw [h] at key
    have : d' * (ct * c.grav) = 0 := by linarith
    rcases mul_eq_zero.1 this with h | h
    · exact h
    · exact absurd h hx.ne'
  · intro h
    rw [h, zero_mul] at key
    rcases mul_eq_zero.1 key.symm with h' | h'
    · rw [h', h]
    · linarith

/-- **C62** Without the matter term, `DlogMARDlogct` is the rate of `log (m_A R)` per `log ct`. -/
theorem C62_log_rate (c : Cosmos) (hu : c.ueCosm = false) (hg : ¬ (c.frw = 1 ∧ c.grav > 0))
    (hT : 0 < c.zThRes) (m : ℝ → ℝ) (hm : IsMass c m) (ct : ℝ) (hct : 0 < ct)
    (hs : Smooth c ct) (hpos : m ct ≠ 0) :
    ∃ d, c.dlogMAR ct = some d ∧
      HasDerivAt (fun t => Real.log (Real.sqrt (m t) * c.R t)) (d / ct) ct := by
  refine ⟨_, dlogMAR_val c hu ct, ?_⟩
  have hR := R_pos c hu hct
  have hm0 : 0 < m ct := by
    refine lt_of_le_of_ne ?_ (Ne.symm hpos)
    rw [hm.eq hu hT ct hct]
    exact C19_nonneg _ _ _ _ _ _ hT hR
  have hq : 0 < Real.sqrt (m ct) := Real.sqrt_pos.2 hm0
  have hRd := R_deriv c hu hg ct hct
  have hmd := (hm.deriv hu hT ct hct hs _ hRd).sqrt hm0.ne'
  have := (hmd.mul hRd).log (mul_pos hq hR).ne'
  refine this.congr_deriv ?_
  simp only [Pi.mul_apply]
  generalize slope c.nQcd c.nQcdr c.zThRes c.zRestore (c.R ct) = s
  have hsq : Real.sqrt (m ct) * Real.sqrt (m ct) = m ct := Real.mul_self_sqrt hm0.le
  generalize hx : Real.sqrt (m ct) = x at *
  rw [← hsq]
  field_simp

/-- **C62** With tabulated functions the logarithmic rate is the central difference
`ct (f(ct+e) − f(ct−e)) / (2 e f(ct))`, `f = m_A R`, only at `ct = 1`: the factor `ct` is applied to
the first term alone, and for `ct ≠ 1` the error is `(ct − 1) f(ct−e) / (2 e f(ct))`. -/
theorem C62_log_rate_table (c : Cosmos) (hu : c.ueCosm = true) (ct : ℝ)
    (f : ℝ → ℝ) (hf : ∀ t, f t = Real.sqrt (c.schi t) * c.sR t) (h0 : f ct ≠ 0)
    (h1 : f (ct - 1e-6) ≠ 0) :
    ∃ d, c.dlogMAR ct = some d ∧
      d - ct * (f (ct + 1e-6) - f (ct - 1e-6)) / (2 * 1e-6 * f ct) =
        (ct - 1) * f (ct - 1e-6) / (2 * 1e-6 * f ct) ∧
      (d = ct * (f (ct + 1e-6) - f (ct - 1e-6)) / (2 * 1e-6 * f ct) ↔ ct = 1) := by
  have hR : ∀ t, c.R t = c.sR t := fun t => by unfold Cosmos.R; simp only [hu, if_true]
  have hden : (2 * 1e-6 * Real.sqrt (c.schi ct) * c.sR ct : ℝ) = 2 * 1e-6 * f ct := by
    rw [hf]; ring
  have hne : (2 * 1e-6 * f ct : ℝ) ≠ 0 := mul_ne_zero (by norm_num) h0
  have hval : c.dlogMAR ct =
      some ((ct * f (ct + 1e-6) - f (ct - 1e-6)) / (2 * 1e-6 * f ct)) := by
    unfold Cosmos.dlogMAR quot
    simp only [hu, if_true, hR, hden, hne, if_false]
    rw [hf (ct + 1e-6), hf (ct - 1e-6)]
    congr 2
    ring
  have herr : (ct * f (ct + 1e-6) - f (ct - 1e-6)) / (2 * 1e-6 * f ct) -
      ct * (f (ct + 1e-6) - f (ct - 1e-6)) / (2 * 1e-6 * f ct) =
        (ct - 1) * f (ct - 1e-6) / (2 * 1e-6 * f ct) := by
    rw [← sub_div]; congr 1; ring
  refine ⟨_, hval, herr, ?_⟩
  rw [← sub_eq_zero, herr, div_eq_zero_iff]
  constructor
  · rintro (h | h)
    · rcases mul_eq_zero.1 h with h | h
      · linarith
      · exact absurd h h1
    · exact absurd h hne
  · intro h
    left
    rw [h, sub_self, zero_mul]

/-- A standard radiation background with a mass that saturates at `R = 2`. -/
noncomputable def demo : Cosmos :=
  { lSize := 4, lambda := 100, lz2e := 0, indi3 := 1, nQcd := 6, nQcdr := 2, zThRes := 2,
    zRestore := 5, frw := 1, grav := 0, pq := .pq1, ueCosm := false, sR := id, schi := id }

theorem demo_R (t : ℝ) : demo.R t = t := by
  unfold Cosmos.R demo
  simp

noncomputable def demoM : ℝ → ℝ := fun t => (demo.axionMass2 t).getD 0

theorem demo_isMass (c : Cosmos) : IsMass c fun t => (c.axionMass2 t).getD 0 := by
  intro t _
  obtain ⟨v, h⟩ := C19_total c t
  simp only [h, Option.getD_some]

/-- The hypotheses of `C62_mass_rate` and `C62_log_rate` at a time in each of the three regimes. -/
example : demo.ueCosm = false ∧ ¬ (demo.frw = 1 ∧ demo.grav > 0) ∧ 0 < demo.zThRes ∧
    IsMass demo demoM ∧ Smooth demo 1 ∧ Smooth demo 3 ∧ Smooth demo 6 := by
  refine ⟨rfl, ?_, ?_, demo_isMass _, ?_, ?_, ?_⟩
  · norm_num [demo]
  · norm_num [demo]
  all_goals
    simp only [Smooth, demo_R]
    norm_num [demo]

/-- and the matter term. -/
example : let c := { demo with grav := 1 }
    c.ueCosm = false ∧ c.frw = 1 ∧ 0 < c.grav ∧ 0 < c.zThRes ∧ Smooth c 1 := by
  refine ⟨rfl, rfl, ?_, ?_, ?_⟩ <;> norm_num [demo, Smooth, Cosmos.R]

end Jaxions.Cosmo
