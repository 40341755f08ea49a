import Verif.Spec.Derived
import Mathlib.Analysis.SpecialFunctions.Log.Basic
import Mathlib.Tactic.FieldSimp
import Mathlib.Tactic.Ring
import Mathlib.Tactic.Linarith
import Mathlib.Tactic.Positivity
/-
C34: self coupling, core resolution and initial time derived from the options.
-/
noncomputable section

namespace Jaxions.Derived

/-! ### Helpers -/

theorem lastOf_append {α : Type} (f : Opt → Option α) (l : List Opt) (o : Opt) :
    lastOf f (l ++ [o]) = match f o with
      | some x => some x
      | none => lastOf f l := by
  unfold lastOf
  rw [List.filterMap_append]
  cases h : f o with
  | none => simp [h]
  | some x => simp [h]

/-- What the loop over the options leaves in the variables. -/
structure Read (opts : List Opt) (b : Vars) : Prop where
  msa : b.msa = (lastOf Opt.msa? opts).getD 1.5
  uMsa : b.uMsa = (lastOf Opt.msa? opts).isSome
  LL : b.LL = (lastOf Opt.llcf? opts).getD 25000
  logi : b.logi = (lastOf Opt.logi? opts).getD 0
  uLogi : b.uLogi = (lastOf Opt.logi? opts).isSome
  zi : b.zi = (lastOf Opt.zi? opts).getD 0.5
  zf : b.zf = (lastOf Opt.zf? opts).getD 1
  N : b.sizeN = (lastOf Opt.size? opts).getD 128
  L : b.sizeL = (lastOf Opt.lsize? opts).getD 4
  lz2e : b.lz2e = (lastOf Opt.exponent? opts).getD 0
  frw : b.frw = (lastOf Opt.expansion? opts).getD 1
  mink : b.mink = true ↔ Opt.mink ∈ opts
  z2 : b.uMsa = false → b.z2 = false
  posN : 2 ≤ b.sizeN
  posL : 0 < b.sizeL
  posLL : 0 < b.LL
  posM : 0 < b.msa

theorem read_of (opts : List Opt) : ∀ b, opts.foldlM turn {} = some b → Read opts b := by
  induction opts using List.reverseRecOn with
  | nil =>
    intro b h
    simp only [List.foldlM_nil, Option.pure_def, Option.some.injEq] at h
    subst h
    constructor <;> first | rfl | norm_num
  | append_singleton l o ih =>
    intro b h
    rw [List.foldlM_append] at h
    obtain ⟨a, ha, h⟩ := Option.bind_eq_some_iff.1 h
    rw [List.foldlM_cons] at h
    obtain ⟨b', hb, h⟩ := Option.bind_eq_some_iff.1 h
    cases h
    have r := ih a ha
    obtain ⟨r1, r2, r3, r4, r5, r6, r7, r8, r9, r10, r11, r12, r13, r14, r15, r16, r17⟩ := r
    cases o <;> simp only [turn] at hb
    · split at hb
      · exact absurd hb (by simp)
      · rename_i hc
        cases hb
        have hc := Nat.not_lt.1 hc
        constructor <;> first
          | exact hc
          | simp_all [lastOf_append, Opt.msa?, Opt.llcf?, Opt.logi?, Opt.zi?, Opt.zf?,
             Opt.size?, Opt.lsize?, Opt.exponent?, Opt.expansion?]
    all_goals
      first
      | (split at hb
         · exact absurd hb (by simp)
         · rename_i hc
           cases hb
           constructor <;> simp_all [lastOf_append, Opt.msa?, Opt.llcf?, Opt.logi?, Opt.zi?, Opt.zf?,
             Opt.size?, Opt.lsize?, Opt.exponent?, Opt.expansion?])
      | (cases hb
         constructor <;> simp_all [lastOf_append, Opt.msa?, Opt.llcf?, Opt.logi?, Opt.zi?, Opt.zf?,
             Opt.size?, Opt.lsize?, Opt.exponent?, Opt.expansion?])

theorem Vars.area_eq (a : Vars) : a.area = (a.sizeL / a.sizeN) ^ 2 := by
  unfold Vars.area
  push_cast
  rw [div_pow]
  ring

/-- The power law gives the core ratio as one power of time. -/
theorem core_power {l f e ct L : ℝ} {N : ℕ} (hl : 0 < l) (hct : 0 < ct) (hL : 0 < L) (hN : 0 < N) :
    coreRatio (l / (ct ^ f) ^ e) (ct ^ f) L N = Real.sqrt (2 * l * (L / N) ^ 2 * ct ^ (f * (2 - e))) := by
  have hNr : (0 : ℝ) < N := by exact_mod_cast hN
  have h1 : 0 < ct ^ f := Real.rpow_pos_of_pos hct _
  have h2 : 0 < L / N := by positivity
  have h3 : 0 ≤ ct ^ f * (L / N) := by positivity
  unfold coreRatio
  rw [← Real.sqrt_sq h3, ← Real.sqrt_mul (by positivity)]
  congr 1
  rw [← Real.rpow_mul hct.le, mul_pow, ← Real.rpow_natCast (ct ^ f) 2, ← Real.rpow_mul hct.le]
  rw [show f * (2 - e) = f * ((2 : ℕ) : ℝ) - f * e by push_cast; ring, Real.rpow_sub hct]
  ring

theorem log_power {l f e ct : ℝ} (hl : 0 < l) (hct : 0 < ct) :
    logCore (l / (ct ^ f) ^ e) (ct ^ f) ct = 1 / 2 * Real.log (2 * l * ct ^ (2 + 2 * f - f * e)) := by
  have h1 : 0 < ct ^ f := Real.rpow_pos_of_pos hct _
  have h3 : 0 ≤ ct ^ f * ct := by positivity
  unfold logCore
  rw [← Real.sqrt_sq h3, ← Real.sqrt_mul (by positivity), Real.log_sqrt (by positivity)]
  rw [one_div, inv_mul_eq_div]
  congr 2
  rw [← Real.rpow_mul hct.le, mul_pow, ← Real.rpow_natCast (ct ^ f) 2, ← Real.rpow_mul hct.le,
    ← Real.rpow_natCast ct 2]
  rw [show 2 + 2 * f - f * e = f * ((2 : ℕ) : ℝ) + ((2 : ℕ) : ℝ) - f * e by push_cast; ring,
    Real.rpow_sub hct, Real.rpow_add hct]
  ring

/-- Expansion law of the run is the one the parameters were derived with. -/
def Consistent (a : Vars) : Prop := (a.mink = true → a.frw = 0) ∧ ¬ (a.frw = 1 ∧ 0 < a.grav)

theorem R_of {a : Vars} (h : Consistent a) (ct : ℝ) : (cosmos a).R ct = ct ^ a.frw := by
  obtain ⟨h1, h2⟩ := h
  cases hm : a.mink with
  | false => simp [cosmos, Cosmos.R, hm, h2]
  | true => simp [cosmos, Cosmos.R, hm, h1 hm]

theorem msa_core (c : Cosmos) (N : ℕ) (ct : ℝ) :
    c.Msa N ct = coreRatio (c.LambdaP ct) (c.R ct) c.lSize N := by
  unfold Cosmos.Msa coreRatio
  ring

/-- Fields the derivation does not touch. -/
theorem derive_keeps (b : Vars) : (derive b).sizeN = b.sizeN ∧ (derive b).sizeL = b.sizeL ∧
    (derive b).zf = b.zf ∧ (derive b).frw = b.frw ∧ (derive b).lz2e = b.lz2e ∧
    (derive b).mink = b.mink ∧ (derive b).grav = b.grav ∧ (derive b).uMsa = b.uMsa ∧
    (derive b).uLogi = b.uLogi := by
  unfold derive
  dsimp only
  split_ifs <;> exact ⟨rfl, rfl, rfl, rfl, rfl, rfl, rfl, rfl, rfl⟩

theorem derive_msa {b : Vars} (h : b.uMsa = true) : (derive b).msa = b.msa ∧ (derive b).z2 = true := by
  unfold derive
  rw [if_pos h]
  dsimp only
  split_ifs <;> exact ⟨rfl, rfl⟩

/-- The time at which the resolution is imposed. -/
def refTime (a : Vars) : ℝ := if a.lz2e ≤ 2 then a.zf else a.zi

theorem derive_LL {b : Vars} (h : b.uMsa = true) :
    (derive b).LL = b.msa * b.msa / (2 * b.area * (refTime (derive b)) ^ (b.frw * (2 - b.lz2e))) := by
  unfold derive refTime
  rw [if_pos h]
  dsimp only
  by_cases hu : b.uLogi = true
  · by_cases he : b.lz2e ≤ 2
    · simp only [hu, he, if_true]
      rfl
    · simp only [hu, he, if_true, if_false]
      rfl
  · by_cases he : b.lz2e ≤ 2
    · simp only [hu, he, if_true, if_false, Bool.false_eq_true]
      rfl
    · simp only [hu, he, if_false, Bool.false_eq_true]
      rfl

/-! ### C34 -/

/-- **C34** The variables the derivation starts from are the values of the options, for every list
of options the program accepts: the last one counts; `--msa` sets the exponent of the self coupling
to two unless `--lz2e` comes later, `--mink` the expansion to zero unless `--frw` comes later. -/
theorem C34_options (opts : List Opt) (a : Vars) (h : parse opts = some a) :
    ∃ b, a = derive b ∧ Read opts b := by
  unfold parse at h
  obtain ⟨b, hb, rfl⟩ := Option.map_eq_some_iff.1 h
  exact ⟨b, rfl, read_of opts b hb⟩

/-- **C34** With `--msa x`: the resolution the simulation reports is `x` at the reference time, that
is at the end, or at the beginning if the exponent of the self coupling is larger than two. -/
theorem C34_msa (opts : List Opt) (a : Vars) (h : parse opts = some a) (x : ℝ)
    (hx : lastOf Opt.msa? opts = some x) (hc : Consistent a) (ht : 0 < refTime a) :
    (cosmos a).lz2e = a.lz2e ∧ (cosmos a).Msa a.sizeN (refTime a) = x := by
  obtain ⟨b, rfl, r⟩ := C34_options opts a h
  have hu : b.uMsa = true := by rw [r.uMsa, hx]; rfl
  have hmx : b.msa = x := by rw [r.msa, hx]; rfl
  obtain ⟨k1, k2, k3, k4, k5, k6, k7, -, -⟩ := derive_keeps b
  obtain ⟨d1, d2⟩ := derive_msa hu
  have hN : 0 < b.sizeN := by have := r.posN; omega
  have hNr : (0 : ℝ) < b.sizeN := by exact_mod_cast hN
  have hL := r.posL
  have hA : 0 < b.area := by rw [Vars.area_eq]; positivity
  have hp := Real.rpow_pos_of_pos ht (b.frw * (2 - b.lz2e))
  have hm := r.posM
  have hLL : 0 < (derive b).LL := by rw [derive_LL hu]; positivity
  have e1 : (cosmos (derive b)).lz2e = (derive b).lz2e := by simp [cosmos, d2]
  refine ⟨e1, ?_⟩
  rw [msa_core, Cosmos.LambdaP, R_of hc, e1, show (cosmos (derive b)).lambda = (derive b).LL from rfl,
    show (cosmos (derive b)).lSize = (derive b).sizeL from rfl,
    core_power hLL ht (by rw [k2]; exact hL) (by rw [k1]; exact hN)]
  have : 2 * (derive b).LL * ((derive b).sizeL / (derive b).sizeN) ^ 2 *
      refTime (derive b) ^ ((derive b).frw * (2 - (derive b).lz2e)) = x ^ 2 := by
    rw [derive_LL hu, k1, k2, k4, k5, ← Vars.area_eq, hmx]
    field_simp
  rw [this, Real.sqrt_sq (by rw [← hmx]; exact hm.le)]

/-- **C34** The value given with `--msa` is the coarsest resolution of the whole run. -/
theorem C34_msa_max (opts : List Opt) (a : Vars) (h : parse opts = some a) (x : ℝ)
    (hx : lastOf Opt.msa? opts = some x) (hc : Consistent a) (hf : 0 ≤ a.frw) (hzi : 0 < a.zi)
    (ct : ℝ) (h1 : a.zi ≤ ct) (h2 : ct ≤ a.zf) : (cosmos a).Msa a.sizeN ct ≤ x := by
  have hct : 0 < ct := lt_of_lt_of_le hzi h1
  have ht : 0 < refTime a := by
    unfold refTime
    split_ifs
    · exact lt_of_lt_of_le hct h2
    · exact hzi
  obtain ⟨he, hm⟩ := C34_msa opts a h x hx hc ht
  obtain ⟨b, rfl, r⟩ := C34_options opts a h
  have hu : b.uMsa = true := by rw [r.uMsa, hx]; rfl
  obtain ⟨k1, k2, k3, k4, k5, k6, k7, -, -⟩ := derive_keeps b
  have hN : 0 < b.sizeN := by have := r.posN; omega
  have hNr : (0 : ℝ) < b.sizeN := by exact_mod_cast hN
  have hL := r.posL
  have hA : 0 < b.area := by rw [Vars.area_eq]; positivity
  have hp := Real.rpow_pos_of_pos ht (b.frw * (2 - b.lz2e))
  have hmp := r.posM
  have hLL : 0 < (derive b).LL := by rw [derive_LL hu]; positivity
  rw [← hm]
  have key : ∀ t, 0 < t → (cosmos (derive b)).Msa (derive b).sizeN t =
      Real.sqrt (2 * (derive b).LL * ((derive b).sizeL / (derive b).sizeN) ^ 2 *
        t ^ ((derive b).frw * (2 - (derive b).lz2e))) := by
    intro t ht'
    rw [msa_core, Cosmos.LambdaP, R_of hc, he,
      show (cosmos (derive b)).lambda = (derive b).LL from rfl,
      show (cosmos (derive b)).lSize = (derive b).sizeL from rfl,
      core_power hLL ht' (by rw [k2]; exact hL) (by rw [k1]; exact hN)]
  rw [key _ hct, key _ ht]
  apply Real.sqrt_le_sqrt
  apply mul_le_mul_of_nonneg_left _ (by positivity)
  unfold refTime
  split_ifs with hl
  · exact Real.rpow_le_rpow hct.le h2 (mul_nonneg hf (by linarith))
  · exact Real.rpow_le_rpow_of_nonpos hzi h1 (mul_nonpos_of_nonneg_of_nonpos hf (by linarith))

/-- **C34** With `--msa` the stored logarithm is the logarithm of horizon over core at the stored
initial time, whether time or logarithm was given. -/
theorem C34_logi (opts : List Opt) (a : Vars) (h : parse opts = some a) (x : ℝ)
    (hx : lastOf Opt.msa? opts = some x) (hc : Consistent a) (hf : 0 ≤ a.frw)
    (hzf : 0 < a.zf) (hzi : 0 < a.zi) :
    logCore ((cosmos a).LambdaP a.zi) ((cosmos a).R a.zi) a.zi = a.logi ∧
    (∀ y, lastOf Opt.logi? opts = some y → a.logi = y) ∧
    (lastOf Opt.logi? opts = none → a.zi = (lastOf Opt.zi? opts).getD 0.5) := by
  have ht : 0 < refTime a := by
    unfold refTime
    split_ifs
    · exact hzf
    · exact hzi
  obtain ⟨he, -⟩ := C34_msa opts a h x hx hc ht
  obtain ⟨b, rfl, r⟩ := C34_options opts a h
  have hu : b.uMsa = true := by rw [r.uMsa, hx]; rfl
  obtain ⟨k1, k2, k3, k4, k5, k6, k7, -, -⟩ := derive_keeps b
  have hN : 0 < b.sizeN := by have := r.posN; omega
  have hNr : (0 : ℝ) < b.sizeN := by exact_mod_cast hN
  have hL := r.posL
  have hA : 0 < b.area := by rw [Vars.area_eq]; positivity
  have hp := Real.rpow_pos_of_pos ht (b.frw * (2 - b.lz2e))
  have hmp := r.posM
  have hLL : 0 < (derive b).LL := by rw [derive_LL hu]; positivity
  rw [Cosmos.LambdaP, R_of hc, he, show (cosmos (derive b)).lambda = (derive b).LL from rfl,
    log_power hLL hzi]
  have hfb : 0 ≤ b.frw := by rw [← k4]; exact hf
  rw [k4, k5]
  by_cases hl : b.uLogi = true
  · have hlog : (derive b).logi = b.logi := by
      unfold derive
      rw [if_pos hu]
      dsimp only
      rw [if_pos hl]
      split_ifs <;> rfl
    refine ⟨?_, ?_, ?_⟩
    · rw [hlog]
      by_cases hb : b.lz2e ≤ 2
      · have hz : (derive b).zi = (Real.exp (2 * b.logi) / (2 * (derive b).LL)) ^
            (1 / (2 + b.frw * (2 - b.lz2e))) := by
          unfold derive
          simp only [hu, hl, hb, if_true]
        have hq : 2 + b.frw * (2 - b.lz2e) ≠ 0 := by
          have := mul_nonneg hfb (show 0 ≤ 2 - b.lz2e by linarith)
          linarith
        have hpow : (derive b).zi ^ (2 + 2 * b.frw - b.frw * b.lz2e) =
            Real.exp (2 * b.logi) / (2 * (derive b).LL) := by
          rw [hz, ← Real.rpow_mul (by positivity),
            show 1 / (2 + b.frw * (2 - b.lz2e)) * (2 + 2 * b.frw - b.frw * b.lz2e) = 1 by
              rw [show 2 + 2 * b.frw - b.frw * b.lz2e = 2 + b.frw * (2 - b.lz2e) by ring]
              field_simp, Real.rpow_one]
        rw [hpow, show 2 * (derive b).LL * (Real.exp (2 * b.logi) / (2 * (derive b).LL)) =
          Real.exp (2 * b.logi) by field_simp, Real.log_exp]
        ring
      · have hz : (derive b).zi = Real.exp b.logi * b.sizeL / b.sizeN / b.msa := by
          unfold derive
          simp only [hu, hl, hb, if_true, if_false]
        have hr : refTime (derive b) = (derive b).zi := by
          unfold refTime
          rw [if_neg (by rw [k5]; exact hb)]
        have e2 : 2 * (derive b).LL * (derive b).zi ^ (2 + 2 * b.frw - b.frw * b.lz2e) =
            Real.exp (2 * b.logi) := by
          rw [derive_LL hu, hr]
          have hpz := Real.rpow_pos_of_pos hzi (b.frw * (2 - b.lz2e))
          rw [show 2 + 2 * b.frw - b.frw * b.lz2e = ((2 : ℕ) : ℝ) + b.frw * (2 - b.lz2e) by
            push_cast; ring, Real.rpow_add hzi, Real.rpow_natCast,
            show 2 * b.logi = b.logi + b.logi by ring, Real.exp_add, Vars.area_eq]
          have : (derive b).zi ^ 2 = (Real.exp b.logi * b.sizeL / b.sizeN / b.msa) ^ 2 := by rw [hz]
          rw [this]
          field_simp
        rw [e2, Real.log_exp]
        ring
    · intro y hy
      rw [hlog, r.logi, hy]
      rfl
    · intro hn
      rw [r.uLogi, hn] at hl
      exact absurd hl (by simp)
  · have hlog : (derive b).logi = 1 / 2 * Real.log (2 * (derive b).LL *
        (derive b).zi ^ (2 + 2 * b.frw - b.frw * b.lz2e)) := by
      unfold derive
      simp only [hu, hl, if_true, if_false, Bool.false_eq_true]
    refine ⟨hlog.symm, ?_, ?_⟩
    · intro y hy
      rw [r.uLogi, hy] at hl
      exact absurd rfl hl
    · intro _
      have : (derive b).zi = b.zi := by
        unfold derive
        simp only [hu, hl, if_true, if_false, Bool.false_eq_true]
      rw [this, r.zi]

/-- **C34** Without `--msa` the self coupling does not depend on time whatever `--lz2e` says, and
with `--logi y` the initial logarithm is `y` plus a term that vanishes exactly if the exponent given
with `--lz2e` or the expansion is zero or the initial time is one. -/
theorem C34_llcf_exact (opts : List Opt) (a : Vars) (h : parse opts = some a)
    (hx : lastOf Opt.msa? opts = none) (hc : Consistent a) (hzi : 0 < a.zi) :
    (cosmos a).lz2e = 0 ∧ (cosmos a).lambda = (lastOf Opt.llcf? opts).getD 25000 ∧
    ∀ y, lastOf Opt.logi? opts = some y → 2 + a.frw * (2 - a.lz2e) ≠ 0 →
      a.logi = y ∧ logCore ((cosmos a).LambdaP a.zi) ((cosmos a).R a.zi) a.zi =
        y + a.frw * a.lz2e / 2 * Real.log a.zi := by
  obtain ⟨b, rfl, r⟩ := C34_options opts a h
  have hu : b.uMsa = false := by rw [r.uMsa, hx]; rfl
  have hd : derive b = { b with
      zi := if b.uLogi then (Real.exp (2 * b.logi) / (2 * b.LL)) ^ (1 / (2 + b.frw * (2 - b.lz2e)))
        else b.zi
      msa := Real.sqrt (2 * b.LL) * b.sizeL / b.sizeN *
        (if b.uLogi then (Real.exp (2 * b.logi) / (2 * b.LL)) ^ (1 / (2 + b.frw * (2 - b.lz2e)))
          else b.zi) ^ (b.frw * (1 - b.lz2e / 2)) } := by
    unfold derive
    rw [hu]
    rfl
  have hz2 : (derive b).z2 = false := by rw [hd]; exact r.z2 hu
  have hLd : (derive b).LL = b.LL := by rw [hd]
  have e1 : (cosmos (derive b)).lz2e = 0 := by simp [cosmos, hz2]
  refine ⟨e1, ?_, ?_⟩
  · show (derive b).LL = _
    rw [hLd, r.LL]
  · intro y hy hq
    have hl : b.uLogi = true := by rw [r.uLogi, hy]; rfl
    have hb : b.logi = y := by rw [r.logi, hy]; rfl
    have k4 : (derive b).frw = b.frw := by rw [hd]
    have k5 : (derive b).lz2e = b.lz2e := by rw [hd]
    have hlog : (derive b).logi = y := by rw [hd]; exact hb
    refine ⟨hlog, ?_⟩
    have hLL := r.posLL
    rw [Cosmos.LambdaP, R_of hc, e1, show (cosmos (derive b)).lambda = b.LL from hLd,
      log_power hLL hzi]
    rw [k4, k5] at hq
    rw [k4, k5]
    have hz : (derive b).zi = (Real.exp (2 * y) / (2 * b.LL)) ^
        (1 / (2 + b.frw * (2 - b.lz2e))) := by
      rw [hd]
      simp only [hl, if_true, hb]
    have hpow : (derive b).zi ^ (2 + b.frw * (2 - b.lz2e)) = Real.exp (2 * y) / (2 * b.LL) := by
      rw [hz, ← Real.rpow_mul (by positivity), one_div, inv_mul_cancel₀ hq, Real.rpow_one]
    rw [show 2 + 2 * b.frw - b.frw * 0 = (2 + b.frw * (2 - b.lz2e)) + b.frw * b.lz2e by ring,
      Real.rpow_add hzi, hpow, show 2 * b.LL * (Real.exp (2 * y) / (2 * b.LL) *
        (derive b).zi ^ (b.frw * b.lz2e)) = Real.exp (2 * y) * (derive b).zi ^ (b.frw * b.lz2e) by
        field_simp, Real.log_mul (Real.exp_ne_zero _) (Real.rpow_pos_of_pos hzi _).ne', Real.log_exp,
      Real.log_rpow hzi]
    ring

/-- **C34** Without `--msa` and with the exponent left at zero the stored resolution is the one of the
initial time, and the stored initial time the one given with `--zi`, unless `--logi` is given. -/
theorem C34_llcf_msa (opts : List Opt) (a : Vars) (h : parse opts = some a)
    (hx : lastOf Opt.msa? opts = none) (he : lastOf Opt.exponent? opts = none)
    (hc : Consistent a) (hzi : 0 < a.zi) :
    (cosmos a).Msa a.sizeN a.zi = a.msa ∧
    (lastOf Opt.logi? opts = none → a.zi = (lastOf Opt.zi? opts).getD 0.5) := by
  obtain ⟨e1, -, -⟩ := C34_llcf_exact opts a h hx hc hzi
  obtain ⟨b, rfl, r⟩ := C34_options opts a h
  have hu : b.uMsa = false := by rw [r.uMsa, hx]; rfl
  obtain ⟨k1, k2, k3, k4, k5, k6, k7, -, -⟩ := derive_keeps b
  have hb : b.lz2e = 0 := by rw [r.lz2e, he]; rfl
  have hLd : (derive b).LL = b.LL := by unfold derive; rw [hu]; rfl
  have hm : (derive b).msa = Real.sqrt (2 * b.LL) * b.sizeL / b.sizeN *
      (derive b).zi ^ (b.frw * (1 - b.lz2e / 2)) := by unfold derive; rw [hu]; rfl
  constructor
  · rw [Cosmos.Msa, Cosmos.LambdaP, R_of hc, e1, show (cosmos (derive b)).lambda = b.LL from hLd,
      show (cosmos (derive b)).lSize = (derive b).sizeL from rfl, hm, k1, k2, k4, hb, Real.rpow_zero,
      div_one, show b.frw * (1 - 0 / 2) = b.frw by ring]
    ring
  · intro hn
    have hl : b.uLogi = false := by rw [r.uLogi, hn]; rfl
    rw [← r.zi]
    unfold derive
    rw [hu]
    simp only [hl, if_false, Bool.false_eq_true]

/-- **C34** A logarithm given with `--logi` is not the one of the run if `--lz2e` is given without
`--msa`, the initial time is not one and the universe expands. -/
theorem C34_logi_missed (opts : List Opt) (a : Vars) (h : parse opts = some a)
    (hx : lastOf Opt.msa? opts = none) (hc : Consistent a) (hzi : 0 < a.zi) (y : ℝ)
    (hy : lastOf Opt.logi? opts = some y) (hq : 2 + a.frw * (2 - a.lz2e) ≠ 0) :
    logCore ((cosmos a).LambdaP a.zi) ((cosmos a).R a.zi) a.zi = y ↔
      a.frw = 0 ∨ a.lz2e = 0 ∨ a.zi = 1 := by
  obtain ⟨-, -, h3⟩ := C34_llcf_exact opts a h hx hc hzi
  rw [(h3 y hy hq).2]
  constructor
  · intro e
    have : a.frw * a.lz2e / 2 * Real.log a.zi = 0 := by linarith
    rcases mul_eq_zero.1 this with h1 | h1
    · rcases mul_eq_zero.1 (by linarith : a.frw * a.lz2e = 0) with h2 | h2
      · exact Or.inl h2
      · exact Or.inr (Or.inl h2)
    · exact Or.inr (Or.inr (Real.eq_one_of_pos_of_log_eq_zero hzi h1))
  · rintro (h1 | h1 | h1) <;> rw [h1] <;> simp

/-- **C34** The order of `--lz2e` and `--msa` matters: the run gets the exponent two if `--msa` comes
last, whatever was asked for. -/
theorem C34_order (x e : ℝ) (hx : 0 < x) :
    (∃ a, parse [.lz2e e, .msa x] = some a ∧ (cosmos a).lz2e = 2) ∧
    (∃ a, parse [.msa x, .lz2e e] = some a ∧ (cosmos a).lz2e = e) := by
  constructor
  · refine ⟨_, by simp [parse, turn, not_le.2 hx]; rfl, ?_⟩
    simp only [derive, cosmos]
    norm_num
  · refine ⟨_, by simp [parse, turn, not_le.2 hx]; rfl, ?_⟩
    simp only [derive, cosmos]
    simp only [if_true, if_false, Bool.false_eq_true]

/-- **C34** `--frw` after `--mink` enters the derived parameters but not the run: the resolution at
the end is not the one asked for. -/
theorem C34_mink_then_frw (x : ℝ) (hx : 0 < x) :
    ∃ a, parse [.mink, .frw 1, .msa x, .lz2e 0, .zf 2] = some a ∧
      (cosmos a).Msa a.sizeN a.zf = x / 2 := by
  refine ⟨_, by simp [parse, turn, not_le.2 hx]; rfl, ?_⟩
  simp only [derive, cosmos, Cosmos.Msa, Cosmos.LambdaP, Cosmos.R, Vars.area]
  norm_num
  have h1 : √2 * √128 = (16 : ℝ) := by
    rw [← Real.sqrt_mul (by norm_num), show (2 : ℝ) * 128 = 16 * 16 by norm_num,
      Real.sqrt_mul_self (by norm_num)]
  rw [Real.sqrt_mul_self hx.le, show √2 * (x * √128) * 4 / 128 = √2 * √128 * x * 4 / 128 by ring, h1]
  ring

/-- **C34** With the second kind of Peccei-Quinn potential the mass of the radial mode in units of
the lattice is twice the stored resolution, with the others equal to it. -/
theorem C34_saxion_mass (c : Cosmos) (N : ℕ) (ct : ℝ) :
    Real.sqrt (c.SaxionMass2 true ct) * c.R ct * c.lSize / N = 2 * c.Msa N ct ∧
    Real.sqrt (c.SaxionMass2 false ct) * c.R ct * c.lSize / N = c.Msa N ct := by
  unfold Cosmos.SaxionMass2 Cosmos.Msa
  constructor
  · rw [if_pos rfl, show c.LambdaP ct * 8 = 2 ^ 2 * (2 * c.LambdaP ct) by ring,
      Real.sqrt_mul (by norm_num), Real.sqrt_sq (by norm_num)]
    ring
  · rw [if_neg (by simp), mul_comm (c.LambdaP ct) 2]

/-- Two lists of options that meet the hypotheses above, with a given logarithm and exponents other
than the default. -/
example : ∃ a, parse [.size 256, .lsize 6, .zf 4, .lz2e 3, .msa 1.2, .lz2e 1, .logi 3] = some a ∧
    Consistent a ∧ 0 ≤ a.frw ∧ 0 < a.zf ∧ 0 < a.zi ∧ 0 < refTime a := by
  refine ⟨_, by norm_num [parse, turn]; rfl, ?_⟩
  simp only [derive, Consistent, refTime, Vars.area]
  norm_num
  positivity

example : ∃ a, parse [.llcf 100, .lz2e 1, .logi 3] = some a ∧ Consistent a ∧ 0 < a.zi ∧
    2 + a.frw * (2 - a.lz2e) ≠ 0 := by
  refine ⟨_, by norm_num [parse, turn]; rfl, ?_⟩
  simp only [derive, Consistent]
  norm_num
  positivity

end Jaxions.Derived
