import Verif.Spec.Relax
import Mathlib.Tactic.Linarith
import Mathlib.Tactic.Ring
import Mathlib.Tactic.FieldSimp
import Mathlib.Tactic.Positivity

/-!
# C90: strings thin out before the start until the number asked for
-/

namespace Jaxions.Relax

variable {σ : Type} {E : Env σ}

/-! ### The aim -/

theorem goal_eq (hd : 0 < E.delta) :
    StartField.goal E.zInit E.msa E.delta = wanted E.msa E.zInit := by
  have h2 : Real.exp (-2 * E.zInit) = (Real.exp E.zInit ^ 2)⁻¹ := by
    rw [← Real.exp_nat_mul, ← Real.exp_neg]
    congr 1
    push_cast
    ring
  have h3 : E.delta / (E.delta * Real.exp E.zInit / E.msa) = E.msa / Real.exp E.zInit := by
    rw [div_div_eq_mul_div, mul_div_mul_left _ _ hd.ne']
  unfold StartField.goal StartField.xit wanted xi
  rw [h2, h3, div_pow]
  ring

theorem aim_eq (hd : 0 < E.delta) : aim E = limit E := by
  unfold aim limit
  rw [goal_eq hd]

/-! ### Relaxation with damping -/

theorem clamp_step {s : ℕ → St σ} (h : Path E (cta E) s) (k : ℕ) :
    clamp E (step E (s k)) = s (k + 1) := by
  have h1 := h.field k
  have h2 := h.clock k
  have h3 := h.scale k
  have ext : ∀ a b : St σ, a.f = b.f → a.z = b.z → a.R = b.R → a = b := by
    rintro ⟨_, _, _⟩ ⟨_, _, _⟩ rfl rfl rfl; rfl
  unfold clamp step
  dsimp only
  by_cases hc : (s k).z + E.dz (s k) > cta E
  · rw [if_pos hc]
    rw [min_eq_right hc.le] at h2
    exact ext _ _ h1.symm h2.symm (by rw [h3, h2])
  · rw [if_neg hc]
    rw [min_eq_left (not_lt.1 hc)] at h2
    exact ext _ _ h1.symm h2.symm (by rw [h3, h2])

theorem relaxLoop_iff {s : ℕ → St σ} (h : Path E (cta E) s) (k fuel : ℕ) (t : ℝ) (idx : ℕ)
    (r : St σ × ℕ) :
    relaxLoop E fuel t idx (s k) = some r ↔
      ∃ m, m ≤ fuel ∧ r = (s (k + m), if E.icstudy then idx + m else idx) ∧
        (if m = 0 then t else trala E (s (k + m - 1))) ≤ aim E ∧
        ∀ j < m, aim E < if j = 0 then t else trala E (s (k + j - 1)) := by
  induction fuel generalizing k t idx with
  | zero =>
    unfold relaxLoop
    by_cases ht : t > aim E
    · rw [if_pos ht]
      constructor
      · intro h; cases h
      · rintro ⟨m, hm, -, h1, -⟩
        obtain rfl : m = 0 := by omega
        rw [if_pos rfl] at h1
        exact absurd h1 (not_le.2 ht)
    · rw [if_neg ht]
      constructor
      · intro h
        refine ⟨0, le_rfl, ?_, by rw [if_pos rfl]; exact not_lt.1 ht, fun j hj => by omega⟩
        rw [← Option.some.inj h]
        cases E.icstudy <;> rfl
      · rintro ⟨m, hm, rfl, -, -⟩
        obtain rfl : m = 0 := by omega
        cases E.icstudy <;> rfl
  | succ fuel ih =>
    unfold relaxLoop
    by_cases ht : t > aim E
    · rw [if_pos ht, clamp_step h, ih]
      constructor
      · rintro ⟨m, hm, hr, h1, h2⟩
        refine ⟨m + 1, by omega, ?_, ?_, ?_⟩
        · rw [hr, show k + 1 + m = k + (m + 1) by omega]
          cases E.icstudy
          · rfl
          · simp only [if_true]; rw [show idx + 1 + m = idx + (m + 1) by omega]
        · rw [if_neg (by omega)]
          by_cases h0 : m = 0
          · subst h0
            rw [if_pos rfl] at h1
            exact h1
          · rw [if_neg h0] at h1
            rwa [show k + (m + 1) - 1 = k + 1 + m - 1 by omega]
        · intro j hj
          by_cases h0 : j = 0
          · rw [if_pos h0]; exact ht
          · rw [if_neg h0]
            have := h2 (j - 1) (by omega)
            by_cases h1 : j = 1
            · subst h1
              rw [if_pos rfl] at this
              exact this
            · rw [if_neg (by omega)] at this
              rwa [show k + 1 + (j - 1) - 1 = k + j - 1 by omega] at this
      · rintro ⟨m, hm, hr, h1, h2⟩
        by_cases h0 : m = 0
        · subst h0
          rw [if_pos rfl] at h1
          exact absurd h1 (not_le.2 ht)
        · obtain ⟨m, rfl⟩ := Nat.exists_eq_succ_of_ne_zero h0
          refine ⟨m, by omega, ?_, ?_, ?_⟩
          · rw [hr, show k + 1 + m = k + (m + 1) by omega]
            cases E.icstudy
            · rfl
            · simp only [if_true]; rw [show idx + 1 + m = idx + (m + 1) by omega]
          · rw [if_neg h0] at h1
            by_cases h3 : m = 0
            · subst h3
              rw [if_pos rfl]
              exact h1
            · rw [if_neg h3]
              rwa [show k + m.succ - 1 = k + 1 + m - 1 by omega] at h1
          · intro j hj
            have := h2 (j + 1) (by omega)
            rw [if_neg (by omega)] at this
            by_cases h3 : j = 0
            · subst h3
              rw [if_pos rfl]
              exact this
            · rw [if_neg h3]
              rwa [show k + (j + 1) - 1 = k + 1 + j - 1 by omega] at this
    · rw [if_neg ht]
      constructor
      · intro h
        refine ⟨0, by omega, ?_, by rw [if_pos rfl]; exact not_lt.1 ht, fun j hj => by omega⟩
        rw [← Option.some.inj h]
        cases E.icstudy <;> rfl
      · rintro ⟨m, hm, rfl, -, h2⟩
        by_cases h0 : m = 0
        · subst h0
          cases E.icstudy <;> rfl
        · have := h2 0 (by omega)
          rw [if_pos rfl] at this
          exact absurd this ht

theorem trala_le (ht : 0 < E.total) (s : St σ) (a : ℝ) :
    trala E s ≤ a ↔ (seen E s.f : ℝ) ≤ a * E.total := by
  unfold trala
  rw [div_le_iff₀ (by exact_mod_cast ht)]

theorem rest_ne (m : BitVec 32) :
    (if m &&& map3D ≠ 0 then m ^^^ map3D else m) ≠ 0 ↔ m ≠ 0 ∧ m ≠ 4096 := by
  have e : map3D = 4096 := rfl
  by_cases h3 : m &&& map3D ≠ 0
  · rw [if_pos h3]
    constructor
    · intro h
      refine ⟨?_, ?_⟩
      · rintro rfl; exact h3 (by decide)
      · rintro rfl; exact h (by decide)
    · rintro ⟨-, h⟩ h4
      exact h (by rw [← e]; exact BitVec.xor_eq_zero_iff.1 h4)
  · rw [if_neg h3]
    refine ⟨fun h => ⟨h, ?_⟩, fun h => h.1⟩
    rintro rfl
    exact h3 (by decide)

theorem seen_eq (h : Counts E) (f : σ) : seen E f = E.den f := by
  unfold seen
  cases hi : E.icstudy
  · rfl
  · simp only [if_true]
    exact if_pos ((rest_ne E.meas).2 (h hi))

theorem seen_zero (h : ¬ Counts E) (f : σ) : seen E f = 0 := by
  unfold Counts at h
  push Not at h
  obtain ⟨hi, h⟩ := h
  unfold seen
  rw [if_pos hi]
  exact if_neg fun h1 => ((rest_ne E.meas).1 h1).2 (h ((rest_ne E.meas).1 h1).1)

/-- **C90** The relaxation ends after `k` steps exactly if no step is needed because every plaquette
may be pierced, or if the field before the last step is the first with no more pierced plaquettes
than asked for.  So there is one step more than needed. -/
theorem C90_relax (hd : 0 < E.delta) (ht : 0 < E.total) (hc : Counts E) {s : ℕ → St σ}
    (h : Path E (cta E) s) (e : St σ) (i : ℕ) :
    (∃ fuel, relaxrho E fuel (s 0) = some (e, i)) ↔
      ∃ k, e = s k ∧ i = (if E.icstudy then k else 0) ∧
        ((k = 0 ∧ 1 ≤ limit E) ∨
          (0 < k ∧ limit E < 1 ∧ (E.den (s (k - 1)).f : ℝ) ≤ limit E * E.total ∧
            ∀ j < k - 1, limit E * E.total < E.den (s j).f)) := by
  unfold relaxrho
  simp only [relaxLoop_iff h, aim_eq hd, Nat.zero_add]
  constructor
  · rintro ⟨fuel, m, -, hr, h1, h2⟩
    obtain ⟨rfl, rfl⟩ := Prod.mk.inj hr
    refine ⟨m, rfl, rfl, ?_⟩
    by_cases h0 : m = 0
    · rw [if_pos h0] at h1
      exact Or.inl ⟨h0, h1⟩
    · rw [if_neg h0, trala_le ht, seen_eq hc] at h1
      refine Or.inr ⟨by omega, ?_, h1, fun j hj => ?_⟩
      · have := h2 0 (by omega)
        rwa [if_pos rfl] at this
      · have := h2 (j + 1) (by omega)
        rw [if_neg (by omega), ← not_le, trala_le ht, seen_eq hc, not_le] at this
        exact this
  · rintro ⟨k, rfl, rfl, h3⟩
    refine ⟨k, k, le_rfl, rfl, ?_⟩
    rcases h3 with ⟨rfl, h3⟩ | ⟨h0, h1, h2, h3⟩
    · exact ⟨by rwa [if_pos rfl], fun j hj => by omega⟩
    · refine ⟨?_, fun j hj => ?_⟩
      · rwa [if_neg (by omega), trala_le ht, seen_eq hc]
      · by_cases hj0 : j = 0
        · rwa [if_pos hj0]
        · rw [if_neg hj0, ← not_le, trala_le ht, seen_eq hc, not_le]
          exact h3 (j - 1) (by omega)

/-- **C90** It never ends exactly if more plaquettes than asked for stay pierced for ever. -/
theorem C90_never (hd : 0 < E.delta) (ht : 0 < E.total) (hc : Counts E) {s : ℕ → St σ}
    (h : Path E (cta E) s) :
    (∀ fuel, relaxrho E fuel (s 0) = none) ↔
      limit E < 1 ∧ ∀ k, limit E * E.total < E.den (s k).f := by
  constructor
  · intro hn
    have hno : ∀ e i, ¬ ∃ fuel, relaxrho E fuel (s 0) = some (e, i) := by
      rintro e i ⟨fuel, hf⟩
      rw [hn fuel] at hf
      cases hf
    have h1 : limit E < 1 := by
      by_contra hge
      exact hno (s 0) _ ((C90_relax hd ht hc h _ _).2 ⟨0, rfl, rfl, Or.inl ⟨rfl, not_lt.1 hge⟩⟩)
    refine ⟨h1, fun k => ?_⟩
    induction k using Nat.strong_induction_on with
    | _ k ih =>
      by_contra hge
      exact hno (s (k + 1)) _ ((C90_relax hd ht hc h _ _).2
        ⟨k + 1, rfl, rfl, Or.inr ⟨by omega, h1, not_lt.1 hge, fun j hj => ih j (by omega)⟩⟩)
  · rintro ⟨h1, h2⟩ fuel
    rcases hr : relaxrho E fuel (s 0) with _ | ⟨e, i⟩
    · rfl
    · obtain ⟨k, -, -, h3⟩ := (C90_relax hd ht hc h e i).1 ⟨fuel, hr⟩
      rcases h3 with ⟨-, h3⟩ | ⟨-, -, h3, -⟩
      · exact absurd h3 (not_le.2 h1)
      · exact absurd h3 (not_le.2 (h2 _))

/-- **C90** The clock: after any step it shows at most the time whose logarithm of `m_s/H` was asked
for, the scale factor is that of the clock, and with steps that do not become arbitrarily small
the clock shows exactly this time from some step on. -/
theorem C90_clock (hd : 0 < E.delta) (hm : 0 < E.msa) {s : ℕ → St σ} (h : Path E (cta E) s) :
    Real.log (E.msa / E.delta * cta E) = E.zInit ∧
    (∀ k, 0 < k → (s k).z ≤ cta E ∧ (s k).R = E.Rf (s k).z) ∧
    ∀ ε : ℝ, 0 < ε → (∀ k, ε ≤ E.dz (s k)) → ∃ K, ∀ k ≥ K, (s k).z = cta E := by
  refine ⟨?_, ?_, ?_⟩
  · have : E.msa / E.delta * cta E = Real.exp E.zInit := by
      unfold cta
      field_simp
    rw [this, Real.log_exp]
  · intro k hk
    obtain ⟨k, rfl⟩ := Nat.exists_eq_succ_of_ne_zero hk.ne'
    exact ⟨by rw [h.clock]; exact min_le_right _ _, h.scale k⟩
  · intro ε hε hs
    have key : ∀ k : ℕ, min ((s 0).z + k * ε) (cta E) ≤ (s k).z := by
      intro k
      induction k with
      | zero => simp
      | succ k ih =>
        rw [h.clock]
        refine le_min ?_ (min_le_right _ _)
        have h1 := hs k
        rcases min_le_iff.1 ih with h2 | h2
        · refine (min_le_left _ _).trans ?_
          push_cast
          linarith
        · refine (min_le_right _ _).trans ?_
          linarith
    obtain ⟨K, hK⟩ := exists_nat_ge ((cta E - (s 0).z) / ε)
    refine ⟨K + 1, fun k hk => le_antisymm ?_ ?_⟩
    · obtain ⟨k, rfl⟩ := Nat.exists_eq_succ_of_ne_zero (show k ≠ 0 by omega)
      rw [h.clock]
      exact min_le_right _ _
    · have h1 : (cta E - (s 0).z) / ε ≤ k := hK.trans (by exact_mod_cast (by omega : K ≤ k))
      rw [div_le_iff₀ hε] at h1
      have := key k
      rwa [min_eq_right (by linarith)] at this

/-- **C90** With `--icstudy` and nothing to measure, or only the whole configuration, the loop
takes exactly one step, however many strings there are. -/
theorem C90_study (hd : 0 < E.delta) (ht : 0 < E.total) (hc : ¬ Counts E) {s : ℕ → St σ}
    (h : Path E (cta E) s) (h0 : 0 ≤ limit E) (h1 : limit E < 1) (e : St σ) (i : ℕ) :
    (∃ fuel, relaxrho E fuel (s 0) = some (e, i)) ↔ e = s 1 ∧ i = 1 := by
  have hi : E.icstudy = true := by
    by_contra hi
    exact hc fun h => absurd h hi
  have hz : ∀ k, trala E (s k) ≤ limit E := by
    intro k
    rw [trala_le ht, seen_zero hc]
    push_cast
    positivity
  unfold relaxrho
  simp only [relaxLoop_iff h, aim_eq hd, Nat.zero_add, hi, if_true]
  constructor
  · rintro ⟨fuel, m, -, hr, h2, h3⟩
    obtain ⟨rfl, rfl⟩ := Prod.mk.inj hr
    have hm : i = 1 := by
      by_contra hne
      by_cases hm0 : i = 0
      · rw [if_pos hm0] at h2
        linarith
      · have := h3 1 (by omega)
        rw [if_neg (by omega)] at this
        exact absurd (hz _) (not_le.2 this)
    exact ⟨by rw [hm], hm⟩
  · rintro ⟨rfl, rfl⟩
    refine ⟨1, 1, le_rfl, rfl, ?_, ?_⟩
    · rw [if_neg (by omega)]
      exact hz _
    · intro j hj
      obtain rfl : j = 0 := by omega
      rwa [if_pos rfl]

/-! ### Evolution without damping -/

theorem free_step {s : ℕ → St σ} (h : Free E s) (k : ℕ) : step E (s k) = s (k + 1) := by
  have h1 := h.field k
  have h2 := h.clock k
  have h3 := h.scale k
  have ext : ∀ a b : St σ, a.f = b.f → a.z = b.z → a.R = b.R → a = b := by
    rintro ⟨_, _, _⟩ ⟨_, _, _⟩ rfl rfl rfl; rfl
  exact ext _ _ h1.symm h2.symm (by rw [h3, h2]; rfl)

theorem prepLoop_iff {s : ℕ → St σ} (h : Free E s) (stop : ℝ) (k fuel idx : ℕ) (r : St σ × ℕ) :
    prepLoop E stop fuel idx (s k) = some r ↔
      ∃ m, m ≤ fuel ∧ r = (s (k + m), if E.icstudy then idx + m else idx) ∧
        (stop ≤ (s (k + m)).z ∨
          0 < m ∧ trala E (s (k + m - 1)) < StartField.goal E.zInit E.msa E.delta) ∧
        ∀ j < m, (s (k + j)).z < stop ∧
          (0 < j → StartField.goal E.zInit E.msa E.delta ≤ trala E (s (k + j - 1))) := by
  induction fuel generalizing k idx with
  | zero =>
    unfold prepLoop
    by_cases hz : (s k).z < stop
    · rw [if_pos hz]
      constructor
      · intro h; cases h
      · rintro ⟨m, hm, -, h1, -⟩
        obtain rfl : m = 0 := by omega
        rcases h1 with h1 | ⟨h1, -⟩
        · exact absurd h1 (not_le.2 hz)
        · omega
    · rw [if_neg hz]
      constructor
      · intro h
        refine ⟨0, le_rfl, ?_, Or.inl (not_lt.1 hz), fun j hj => by omega⟩
        rw [← Option.some.inj h]
        cases E.icstudy <;> rfl
      · rintro ⟨m, hm, rfl, -, -⟩
        obtain rfl : m = 0 := by omega
        cases E.icstudy <;> rfl
  | succ fuel ih =>
    unfold prepLoop
    by_cases hz : (s k).z < stop
    · rw [if_pos hz]
      by_cases hg : trala E (s k) < StartField.goal E.zInit E.msa E.delta
      · rw [if_pos hg, free_step h]
        constructor
        · intro h
          refine ⟨1, by omega, (Option.some.inj h).symm, Or.inr ⟨by omega, hg⟩, fun j hj => ?_⟩
          obtain rfl : j = 0 := by omega
          exact ⟨hz, fun h => by omega⟩
        · rintro ⟨m, hm, rfl, h1, h2⟩
          have : m = 1 := by
            by_contra hne
            by_cases h0 : m = 0
            · subst h0
              rcases h1 with h1 | ⟨h1, -⟩
              · exact absurd h1 (not_le.2 hz)
              · omega
            · exact absurd hg (not_lt.2 ((h2 1 (by omega)).2 (by omega)))
          subst this
          rfl
      · rw [if_neg hg, free_step h, ih]
        constructor
        · rintro ⟨m, hm, hr, h1, h2⟩
          refine ⟨m + 1, by omega, ?_, ?_, ?_⟩
          · rw [hr, show k + 1 + m = k + (m + 1) by omega]
            cases E.icstudy
            · rfl
            · simp only [if_true]; rw [show idx + 1 + m = idx + (m + 1) by omega]
          · rw [show k + (m + 1) = k + 1 + m by omega]
            exact h1.imp id fun h => ⟨by omega, h.2⟩
          · intro j hj
            by_cases h0 : j = 0
            · subst h0
              exact ⟨hz, fun h => by omega⟩
            · obtain ⟨h3, h4⟩ := h2 (j - 1) (by omega)
              rw [show k + 1 + (j - 1) = k + j by omega] at h3 h4
              refine ⟨h3, fun _ => ?_⟩
              by_cases h5 : j = 1
              · subst h5
                exact not_lt.1 hg
              · exact h4 (by omega)
        · rintro ⟨m, hm, hr, h1, h2⟩
          by_cases h0 : m = 0
          · subst h0
            rcases h1 with h1 | ⟨h1, -⟩
            · exact absurd h1 (not_le.2 hz)
            · omega
          · obtain ⟨m, rfl⟩ := Nat.exists_eq_succ_of_ne_zero h0
            refine ⟨m, by omega, ?_, ?_, ?_⟩
            · rw [hr, show k + 1 + m = k + (m + 1) by omega]
              cases E.icstudy
              · rfl
              · simp only [if_true]; rw [show idx + 1 + m = idx + (m + 1) by omega]
            · rw [show k + 1 + m = k + m.succ by omega]
              refine h1.imp id fun h => ⟨?_, h.2⟩
              by_contra hm0
              obtain rfl : m = 0 := by omega
              exact hg h.2
            · intro j hj
              obtain ⟨h3, h4⟩ := h2 (j + 1) (by omega)
              rw [show k + 1 + j = k + (j + 1) by omega]
              exact ⟨h3, fun _ => h4 (by omega)⟩
    · rw [if_neg hz]
      constructor
      · intro h
        refine ⟨0, by omega, ?_, Or.inl (not_lt.1 hz), fun j hj => by omega⟩
        rw [← Option.some.inj h]
        cases E.icstudy <;> rfl
      · rintro ⟨m, hm, rfl, -, h2⟩
        by_cases h0 : m = 0
        · subst h0
          cases E.icstudy <;> rfl
        · exact absurd (h2 0 (by omega)).1 hz

theorem lt_trala (ht : 0 < E.total) (s : St σ) (a : ℝ) :
    trala E s < a ↔ (seen E s.f : ℝ) < a * E.total := by
  unfold trala
  rw [div_lt_iff₀ (by exact_mod_cast ht)]

/-- **C90** Without damping, the evolution ends after `k` steps exactly if the clock has come to
1.2 times the estimated time or the field before the last step had fewer pierced plaquettes than
asked for, and neither was so before. -/
theorem C90_prep (hd : 0 < E.delta) (ht : 0 < E.total) (hc : Counts E) {s : ℕ → St σ}
    (h : Free E s) (ct2 : ℝ) (e : St σ) (i : ℕ) :
    (∃ fuel, prepropa E ct2 fuel (s 0) = some (e, i)) ↔
      ∃ k, e = s k ∧ i = (if E.icstudy then k else 0) ∧
        (6 / 5 * ct2 ≤ (s k).z ∨
          0 < k ∧ (E.den (s (k - 1)).f : ℝ) < wanted E.msa E.zInit * E.total) ∧
        ∀ j < k, (s j).z < 6 / 5 * ct2 ∧
          (0 < j → wanted E.msa E.zInit * E.total ≤ E.den (s (j - 1)).f) := by
  unfold prepropa
  have h12 : (1.2 : ℝ) = 6 / 5 := by norm_num
  simp only [prepLoop_iff h, goal_eq hd, Nat.zero_add, h12]
  have key : ∀ k, wanted E.msa E.zInit ≤ trala E (s k) ↔
      wanted E.msa E.zInit * E.total ≤ E.den (s k).f := by
    intro k
    rw [← not_lt, lt_trala ht, seen_eq hc, not_lt]
  simp only [key, lt_trala ht, seen_eq hc]
  constructor
  · rintro ⟨fuel, m, -, hr, h1⟩
    obtain ⟨rfl, rfl⟩ := Prod.mk.inj hr
    exact ⟨m, rfl, rfl, h1⟩
  · rintro ⟨k, rfl, rfl, h1⟩
    exact ⟨k, k, le_rfl, rfl, h1⟩

/-- **C90** It always ends if the steps do not become arbitrarily small. -/
theorem C90_prep_ends {s : ℕ → St σ} (h : Free E s) (ct2 ε : ℝ) (hε : 0 < ε)
    (hs : ∀ k, ε ≤ E.dz (s k)) : ∃ fuel r, prepropa E ct2 fuel (s 0) = some r := by
  have key : ∀ k : ℕ, (s 0).z + k * ε ≤ (s k).z := by
    intro k
    induction k with
    | zero => simp
    | succ k ih =>
      rw [h.clock]
      have := hs k
      push_cast
      linarith
  obtain ⟨K, hK⟩ := exists_nat_ge ((1.2 * ct2 - (s 0).z) / ε)
  rw [div_le_iff₀ hε] at hK
  have hex : ∃ m, 1.2 * ct2 ≤ (s m).z ∨
      0 < m ∧ trala E (s (m - 1)) < StartField.goal E.zInit E.msa E.delta :=
    ⟨K, Or.inl (by have := key K; linarith)⟩
  classical
  refine ⟨Nat.find hex, (s (Nat.find hex), if E.icstudy then 0 + Nat.find hex else 0), ?_⟩
  unfold prepropa
  rw [prepLoop_iff h]
  refine ⟨Nat.find hex, le_rfl, by rw [Nat.zero_add], ?_, ?_⟩
  · simpa using Nat.find_spec hex
  · intro j hj
    have := Nat.find_min hex hj
    push Not at this
    rw [Nat.zero_add]
    exact ⟨this.1, this.2⟩

/-- **C90** Also here `--icstudy` with nothing to measure leaves one step only. -/
theorem C90_prep_study (hd : 0 < E.delta) (ht : 0 < E.total) (hc : ¬ Counts E) {s : ℕ → St σ}
    (h : Free E s) (h0 : 0 < wanted E.msa E.zInit) (ct2 : ℝ) (hz : (s 0).z < 6 / 5 * ct2)
    (e : St σ) (i : ℕ) :
    (∃ fuel, prepropa E ct2 fuel (s 0) = some (e, i)) ↔ e = s 1 ∧ i = 1 := by
  have hi : E.icstudy = true := by
    by_contra hi
    exact hc fun h => absurd h hi
  have h12 : (1.2 : ℝ) = 6 / 5 := by norm_num
  have hlow : ∀ k, trala E (s k) < wanted E.msa E.zInit := by
    intro k
    rw [lt_trala ht, seen_zero hc]
    have : (0 : ℝ) < E.total := by exact_mod_cast ht
    push_cast
    positivity
  unfold prepropa
  simp only [prepLoop_iff h, goal_eq hd, Nat.zero_add, hi, if_true, h12]
  constructor
  · rintro ⟨fuel, m, -, hr, h2, h3⟩
    obtain ⟨rfl, rfl⟩ := Prod.mk.inj hr
    have hm : i = 1 := by
      by_contra hne
      by_cases hm0 : i = 0
      · subst hm0
        rcases h2 with h2 | ⟨h2, -⟩
        · linarith
        · omega
      · exact absurd (hlow 0) (not_lt.2 ((h3 1 (by omega)).2 (by omega)))
    exact ⟨by rw [hm], hm⟩
  · rintro ⟨rfl, rfl⟩
    refine ⟨1, 1, le_rfl, rfl, Or.inr ⟨by omega, hlow 0⟩, ?_⟩
    intro j hj
    obtain rfl : j = 0 := by omega
    exact ⟨hz, fun h => by omega⟩

/-! ### Examples -/

/-- A field that is the number of pierced plaquettes itself, halved by each step; a lattice of
1000 sites, steps of 1. -/
noncomputable def toy (study : Bool) (meas : BitVec 32) : Env ℕ :=
  ⟨id, fun _ => 1, fun s _ => s.f / 2, fun t => t, 1000, 0, 1, 1, 0, 1, study, meas⟩

noncomputable def toyPath : ℕ → St ℕ
  | 0 => ⟨800, 1 / 4, 1 / 4⟩
  | k + 1 => ⟨(toyPath k).f / 2, 1, 1⟩

theorem toy_cta (b : Bool) (m : BitVec 32) : cta (toy b m) = 1 := by
  simp [cta, toy]

theorem toyPath_path (b : Bool) (m : BitVec 32) : Path (toy b m) (cta (toy b m)) toyPath := by
  rw [toy_cta]
  refine ⟨fun k => rfl, fun k => ?_, fun k => rfl⟩
  cases k with
  | zero => show (1 : ℝ) = min (1 / 4 + 1) 1; norm_num
  | succ k => show (1 : ℝ) = min (1 + 1) 1; norm_num

theorem toy_limit (b : Bool) (m : BitVec 32) : limit (toy b m) = 6 * (249.48 / 21775.3) := by
  simp [limit, wanted, xi, toy]

/-- The share asked for is 0.0687: 800, 400, 200, 100, 50 plaquettes, and one step more. -/
example : ∃ fuel, relaxrho (toy false 0) fuel (toyPath 0) = some (toyPath 5, 0) := by
  rw [C90_relax (by simp [toy]) (by simp [toy]) (by simp [Counts, toy]) (toyPath_path _ _)]
  refine ⟨5, rfl, rfl, Or.inr ⟨by omega, ?_, ?_, ?_⟩⟩
  · rw [toy_limit]; norm_num
  · rw [toy_limit]
    simp only [toyPath, toy, id]
    norm_num
  · intro j hj
    rw [toy_limit]
    have : j = 0 ∨ j = 1 ∨ j = 2 ∨ j = 3 := by omega
    rcases this with rfl | rfl | rfl | rfl <;> simp only [toyPath, toy, id] <;> norm_num

/-- The same with `--icstudy` and nothing to measure: 400 plaquettes are left. -/
example : ∃ fuel, relaxrho (toy true 0) fuel (toyPath 0) = some (toyPath 1, 1) := by
  rw [C90_study (by simp [toy]) (by simp [toy]) (by simp [Counts, toy]) (toyPath_path _ _)
    (by rw [toy_limit]; norm_num) (by rw [toy_limit]; norm_num)]
  exact ⟨rfl, rfl⟩

/-- Without damping. -/
example : ∃ fuel r, prepropa (toy false 0) 10 fuel ⟨800, 0, 0⟩ = some r := by
  have h : Free (toy false 0) fun k => ⟨800 / 2 ^ k, k, k⟩ :=
    ⟨fun k => by show 800 / 2 ^ (k + 1) = 800 / 2 ^ k / 2; rw [pow_succ, Nat.div_div_eq_div_mul],
      fun k => by show ((k + 1 : ℕ) : ℝ) = k + 1; push_cast; rfl, fun k => rfl⟩
  have := C90_prep_ends h 10 1 one_pos fun k => le_rfl
  simpa using this

end Jaxions.Relax
