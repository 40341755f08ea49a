import Verif.Model.Integrator
import Mathlib.Tactic.NormNum
import Mathlib.Tactic.Ring
import Mathlib.Tactic.FieldSimp
import Mathlib.Tactic.LinearCombination
/-
C11: time advance of a propagation step.  C45: every kick uses the parameters of its own time.
-/
namespace Jaxions.Integrator

variable {K : Type}

/-- Kick coefficient of a kernel call. -/
def Act.kickPart [Field K] : Act K → K
  | .drift _ => 0
  | .sub c _ _ _ => c
/-- Drift coefficient of a kernel call. -/
def Act.driftPart : Act K → K
  | .drift d => d
  | .sub _ d _ _ => d

/-- A step is faithful to the request: the call is defined, the clock moves by `dz`, the fields
drift for a total of `dz` and are kicked for a total of `dz` (coefficients add up to one). -/
def Advances [Field K] (run : Option (List (Act K) × K)) (dz z0 : K) : Prop :=
  match run with
  | none => False
  | some (acts, z) => z = z0 + dz ∧ (acts.map Act.driftPart).sum = 1 ∧ (acts.map Act.kickPart).sum = 1

/-- **C11** Position space propagators (Saxion and Axion on the CPU, both on the GPU, low memory
Axion on the GPU) with every integrator: time, drifts and kicks advance by exactly `dz`. -/
theorem C11_base_methods [Field K] [CharZero K] (i : Name) (dz z0 : K) :
    Advances (sRunCpu (table i) dz z0) dz z0 ∧ Advances (tRunCpu (table i) dz z0) dz z0 ∧
    Advances (tlowGpu (table i) dz z0) dz z0 := by
  cases i <;> refine ⟨?_, ?_, ?_⟩ <;>
    simp [Advances, table, leap, mleap, omelyan2, omelyan4, rkn4, sRunCpu, tRunCpu, tlowGpu, sLoop,
      tLoop, oneLoop, firstDrift, lastKick, Act.driftPart, Act.kickPart] <;>
    refine ⟨?_, ?_, ?_⟩ <;> ring

/-- **C11** Spectral, Naxion, Paxion and fully spectral propagators: exact with RKN4, the only
integrator among the five that needs no extra stage. -/
theorem C11_other_methods_partial [Field K] [CharZero K] (dz z0 : K) :
    Advances (specCpu (table .rkn4) dz z0) dz z0 ∧ Advances (nRunCpu (table .rkn4) dz z0) dz z0 ∧
    Advances (fspecCpu (table .rkn4) dz z0) dz z0 := by
  refine ⟨?_, ?_, ?_⟩ <;>
    simp [Advances, table, rkn4, specCpu, nRunCpu, fspecCpu, sLoop, oneLoop, Act.driftPart, Act.kickPart] <;>
    refine ⟨?_, ?_, ?_⟩ <;> ring

/-- Finding: with any of the other four integrators the spectral, Naxion, Paxion and low memory
Saxion methods read `c[nStages]`, which is outside the array: undefined behaviour. -/
theorem C11_spectral_out_of_bounds [Field K] (i : Name) (hi : i ≠ .rkn4) (dz z0 : K) :
    specCpu (table i) dz z0 = none ∧ nRunCpu (table i) dz z0 = none ∧ lowCpu (table i) dz z0 = none := by
  cases i <;> first
    | exact absurd rfl hi
    | (refine ⟨?_, ?_, ?_⟩ <;>
        simp [table, leap, mleap, omelyan2, omelyan4, lowCpu, specCpu, nRunCpu, sLoop, oneLoop])

/-- Finding: with those integrators the fully spectral methods are defined but the last drift is
skipped, so the clock advances by `dz (1 - d_last)` only: 3/4 of the step for the leapfrog, 7/8
for the multiple leapfrog. -/
theorem C11_full_spectral_falls_short [Field K] [CharZero K] (dz z0 : K) :
    (fspecCpu (leap : Table K) dz z0).map Prod.snd = some (z0 + dz * (3/4)) ∧
    (fspecCpu (mleap : Table K) dz z0).map Prod.snd = some (z0 + dz * (7/8)) ∧
    (dz ≠ 0 → ∀ i : Name, i ≠ .rkn4 → ¬ Advances (fspecCpu (table i) dz z0) dz z0) := by
  refine ⟨?_, ?_, ?_⟩
  · simp [leap, fspecCpu, oneLoop]; ring
  · simp [mleap, fspecCpu, oneLoop]; ring
  · intro hdz i hi h
    cases i <;> first
      | exact absurd rfl hi
      | (simp [Advances, table, leap, mleap, omelyan2, omelyan4, fspecCpu, oneLoop, Act.driftPart,
          Act.kickPart] at h
         obtain ⟨_, h, _⟩ := h
         norm_num at h)

/-- Finding: the low memory Saxion method on the CPU advances the clock but never moves the field:
the drifts of all its kernel calls are zero. -/
theorem C11_lowmem_never_drifts [Field K] [CharZero K] (dz z0 : K) :
    ∃ acts, lowCpu (table .rkn4) dz z0 = some (acts, z0 + dz) ∧ (acts.map Act.driftPart).sum = 0 := by
  simp [table, rkn4, lowCpu, specCpu, oneLoop, Act.driftPart]
  ring

-- concrete: one leapfrog step of size 1/10 from time 2
example : (sRunCpu (leap : Table Rat) (1/10) 2).map Prod.snd = some (21/10) := by
  simp [leap, sRunCpu, sLoop, firstDrift, lastKick]; norm_num

/-! ### C45 -/

/-- Time reached after some kernel calls. -/
def timeAfter [Field K] (z0 dz : K) (acts : List (Act K)) : K := z0 + dz * (acts.map Act.driftPart).sum

/-- Every kick of the list uses mass and scale factor evaluated at the time of the kick. -/
def KicksOnTime [Field K] (z0 dz : K) (acts : List (Act K)) : Prop :=
  ∀ pre c d zm zr post, acts = pre ++ Act.sub c d zm zr :: post →
    zm = timeAfter z0 dz pre ∧ zr = timeAfter z0 dz pre

theorem kicksOnTime_nil [Field K] (z0 dz : K) : KicksOnTime z0 dz [] := by
  intro pre c d zm zr post h
  cases pre <;> simp at h

theorem kicksOnTime_drift [Field K] (z0 dz d : K) (acts : List (Act K)) :
    KicksOnTime z0 dz (.drift d :: acts) ↔ KicksOnTime (z0 + dz * d) dz acts := by
  constructor
  · intro h pre c d' zm zr post e
    have := h (.drift d :: pre) c d' zm zr post (by rw [e]; rfl)
    simp only [timeAfter, List.map_cons, List.sum_cons, Act.driftPart] at this ⊢
    rw [this.1, this.2]
    constructor <;> ring
  · intro h pre c d' zm zr post e
    cases pre with
    | nil => simp at e
    | cons a pre =>
      simp only [List.cons_append, List.cons.injEq] at e
      have := h pre c d' zm zr post e.2
      simp only [timeAfter, List.map_cons, List.sum_cons, ← e.1, Act.driftPart] at this ⊢
      rw [this.1, this.2]
      constructor <;> ring

theorem kicksOnTime_sub [Field K] (z0 dz c d zm zr : K) (acts : List (Act K)) :
    KicksOnTime z0 dz (.sub c d zm zr :: acts) ↔
      (zm = z0 ∧ zr = z0) ∧ KicksOnTime (z0 + dz * d) dz acts := by
  constructor
  · intro h
    refine ⟨?_, ?_⟩
    · have := h [] c d zm zr acts rfl
      simpa [timeAfter] using this
    · intro pre c' d' zm' zr' post e
      have := h (.sub c d zm zr :: pre) c' d' zm' zr' post (by rw [e]; rfl)
      simp only [timeAfter, List.map_cons, List.sum_cons, Act.driftPart] at this ⊢
      rw [this.1, this.2]
      constructor <;> ring
  · rintro ⟨⟨h1, h2⟩, h⟩ pre c' d' zm' zr' post e
    cases pre with
    | nil =>
      simp only [List.nil_append, List.cons.injEq, Act.sub.injEq] at e
      obtain ⟨⟨_, _, rfl, rfl⟩, _⟩ := e
      simp [timeAfter, h1, h2]
    | cons a pre =>
      simp only [List.cons_append, List.cons.injEq] at e
      have := h pre c' d' zm' zr' post e.2
      simp only [timeAfter, List.map_cons, List.sum_cons, ← e.1, Act.driftPart] at this ⊢
      rw [this.1, this.2]
      constructor <;> ring

theorem sLoop_onTime [Field K] (T : Table K) (off : Nat) (dz : K) (p s : Nat) (z zf : K)
    (l : List (Act K)) (h : sLoop T off dz p s z = some (l, zf)) (post : List (Act K))
    (hpost : KicksOnTime zf dz post) : KicksOnTime z dz (l ++ post) := by
  induction p generalizing s z l with
  | zero =>
    simp only [sLoop, Option.some.injEq, Prod.mk.injEq] at h
    obtain ⟨rfl, rfl⟩ := h
    exact hpost
  | succ p ih =>
    simp only [sLoop, Option.bind_eq_bind, Option.bind_eq_some_iff, Option.pure_def,
      Option.some.injEq, Prod.mk.injEq] at h
    obtain ⟨c1, _, c2, _, d1, _, d2, _, ⟨l', zf'⟩, hl, rfl, rfl⟩ := h
    simp only [List.cons_append, kicksOnTime_sub]
    exact ⟨⟨trivial, trivial⟩, ⟨trivial, trivial⟩, ih _ _ _ hl⟩

/-- **C45** The Saxion propagator (and the GPU ones) evaluates mass and scale factor at the time of
each kick, for every coefficient table. -/
theorem C45_saxion_on_time [Field K] (T : Table K) (dz z0 zf : K) (acts : List (Act K))
    (h : sRunCpu T dz z0 = some (acts, zf)) : KicksOnTime z0 dz acts := by
  simp only [sRunCpu, Option.bind_eq_bind, Option.bind_eq_some_iff, Option.pure_def,
    Option.some.injEq, Prod.mk.injEq] at h
  obtain ⟨⟨pre, z, off⟩, hpre, ⟨l, z'⟩, hl, post, hpost, rfl, rfl⟩ := h
  have hp : KicksOnTime z' dz post := by
    simp only [lastKick] at hpost
    split at hpost
    · simp only [Option.map_eq_some_iff] at hpost
      obtain ⟨c0, _, rfl⟩ := hpost
      rw [kicksOnTime_sub]
      exact ⟨⟨rfl, rfl⟩, kicksOnTime_nil _ _⟩
    · cases hpost; exact kicksOnTime_nil _ _
  have hl' := sLoop_onTime T off dz _ _ _ _ _ hl post hp
  simp only [firstDrift] at hpre
  split at hpre
  · simp only [Option.map_eq_some_iff, Prod.mk.injEq] at hpre
    obtain ⟨d0, _, rfl, rfl, rfl⟩ := hpre
    rw [List.append_assoc, List.singleton_append, kicksOnTime_drift]
    exact hl'
  · simp only [Option.some.injEq, Prod.mk.injEq] at hpre
    obtain ⟨rfl, rfl, rfl⟩ := hpre
    exact hl'

/-- Finding: the Axion propagator on the CPU does not: for every integrator on offer and every
nonzero step some kick uses a mass or scale factor of an earlier time. -/
theorem C45_axion_late [Field K] [CharZero K] (i : Name) (dz z0 : K) (hdz : dz ≠ 0) :
    ∃ acts, (tRunCpu (table i) dz z0).map Prod.fst = some acts ∧ ¬ KicksOnTime z0 dz acts := by
  cases i <;>
    (simp [table, leap, mleap, omelyan2, omelyan4, rkn4, tRunCpu, tLoop, firstDrift, lastKick, kicksOnTime_drift,
      kicksOnTime_sub]
     try norm_num [hdz])

end Jaxions.Integrator
