import Verif.Lemmas.FullSpecRun
import Verif.Lemmas.FullSpecSax
import Verif.Props.SpecLap
import Mathlib.Analysis.SpecialFunctions.Integrals.Basic
/-
C83: the full spectral propagators.
-/
namespace Jaxions.FullSpec

open Gravity WKB
open SpecLap (CPlan modeFull formulaCPlan formulaCPlan_exact)
open SaxKernel (IsForce comoving Vpq pq_isForce isForce_unique pqSite)

/-! ### Axion -/

section
variable {g : Gravity.Geo} [NeZero g.Lx] [NeZero g.Tz]

/-- **C83** In single precision, with a library that keeps the modes, any number of stages of the
propagator of an Axion gives the field that kicks and exact free waves give. -/
theorem C83_axion (ok : g.Ok) {L : Lib} (hL : L.Keeps g) (bad : ℂ × ℂ) {Ng Q step : ℕ} (hs : 0 < step)
    (hQ : g.lines * (g.Lx + 2) + 2 * step ≤ Q) (hQ' : g.Lx * g.Lx * Ng + g.vol ≤ Q)
    (ss : List (Par × (ℕ → Orders))) (hss : ∀ q ∈ ss, q.1.ℓ ≠ 0 ∧ ∀ r < g.n, (q.2 r).Ok g step)
    {s : (Torus g.Lx g.Tz → ℝ) × (Torus g.Lx g.Tz → ℝ)} {w : ℕ → Mem} (H : Shows g Ng Q s w) :
    ∃ w' s', tRun g Ng Q L false bad ss w = some w' ∧ Shows g Ng Q s' w' ∧
      Steps AxionStage (ss.map Prod.fst) s s' := by
  obtain ⟨w1, e1, h1⟩ := toModes_spec ok hL.plan (by omega) H
  obtain ⟨w2, s2, e2, h2, hst⟩ := tStages_spec ok hL bad hs hQ ss hss s w1 h1
  obtain ⟨w3, e3, h3⟩ := fromModes_spec ok hL.plan (Ng := Ng) (by omega) hQ'
    (fun r h ha => by rw [hL.left]; exact ha) (coef_real s2.1) (coef_real s2.2) h2
  simp only [synth_coefR] at h3
  refine ⟨w3, s2, ?_, h3, hst⟩
  unfold tRun
  rw [e1]
  simp only [Option.bind_eq_bind, Option.bind_some]
  rw [e2]
  exact e3

/-- The result of the stages is unique. -/
theorem C83_unique {L T : ℕ} [NeZero L] [NeZero T] (ps : List Par) :
    ∀ s s' s'' : (Torus L T → ℝ) × (Torus L T → ℝ), Steps AxionStage ps s s' → Steps AxionStage ps s s'' →
      s' = s'' := by
  induction ps with
  | nil => rintro s s' s'' rfl rfl; rfl
  | cons p ps ih =>
    rintro s s' s'' ⟨t, h1, h2⟩ ⟨t', h1', h2'⟩
    have : t = t' := wave_unique_real h1 h1'
    subst this
    exact ih t s' s'' h2 h2'

/-- Free waves over a time and then another are free waves over the sum. -/
theorem wave_trans {L T : ℕ} [NeZero L] [NeZero T] {ℓ σ σ' : ℝ}
    {s s' s'' : (Torus L T → ℝ) × (Torus L T → ℝ)} (h : Wave (lapR ℓ) (fun _ => (0 : ℝ)) σ s s')
    (h' : Wave (lapR ℓ) (fun _ => (0 : ℝ)) σ' s' s'') : Wave (lapR ℓ) (fun _ => (0 : ℝ)) (σ + σ') s s'' := by
  obtain ⟨U, W, u1, u2, u3, u4⟩ := h
  have hsh : Wave (lapR ℓ) (fun _ => (0 : ℝ)) σ' s' (U (σ + σ'), W (σ + σ')) :=
    ⟨fun t => U (σ + t), fun t => W (σ + t), fun t x => (u1 (σ + t) x).comp_const_add σ t,
      fun t x => (u2 (σ + t) x).comp_const_add σ t, by simpa using u4, rfl⟩
  exact ⟨U, W, u1, u2, u3, wave_unique_real hsh h'⟩

/-- Amplitudes of a real field. -/
noncomputable def amp {L T : ℕ} [NeZero L] [NeZero T] (f : Torus L T → ℝ) (k : Torus L T) : ℂ :=
  dft (fun x => (f x : ℂ)) k * (1 / (L * L * T : ℂ))

theorem amp_neg {L T : ℕ} [NeZero L] [NeZero T] (f : Torus L T → ℝ) (k : Torus L T) :
    amp f (-k) = starRingEnd ℂ (amp f k) := by
  unfold amp
  rw [dft_real, map_mul]
  simp

theorem synth_amp {L T : ℕ} [NeZero L] [NeZero T] (f : Torus L T → ℝ) (x : Torus L T) :
    (synth (amp f) x).re = f x := by
  have hN := card_ne (L := L) (T := T)
  have e : synth (amp f) x = (1 / (L * L * T : ℂ)) * synth (dft fun x => (f x : ℂ)) x := by
    unfold synth amp
    rw [Finset.mul_sum]
    exact Finset.sum_congr rfl fun k _ => by ring
  rw [e, synth_dft, ← mul_assoc, one_div_mul_cancel hN, one_mul, Complex.ofReal_re]

/-- Free waves exist from any field and velocity, for any time. -/
theorem wave_exists {L T : ℕ} [NeZero L] [NeZero T] {ℓ : ℝ} (hℓ : ℓ ≠ 0) (σ : ℝ)
    (s : (Torus L T → ℝ) × (Torus L T → ℝ)) : ∃ s', Wave (lapR ℓ) (fun _ => (0 : ℝ)) σ s s' := by
  have h := wave_modes_real hℓ (amp_neg s.1) (amp_neg s.2) σ
  simp only [synth_amp] at h
  exact ⟨_, h⟩

/-- The sum of the drifts. -/
def total (ps : List Par) : ℝ := (ps.map fun p => p.dz * p.d).sum

/-- **C83** Without mass and without expansion term the stages are exact: however the time is divided
into stages, the result is the free field at the end. -/
theorem C83_free {L T : ℕ} [NeZero L] [NeZero T] {ℓ : ℝ} (hℓ : ℓ ≠ 0) (ps : List Par)
    (hp : ∀ p ∈ ps, p.ℓ = ℓ ∧ p.mA2 = 0 ∧ p.Rpp = 0) :
    ∀ s s' : (Torus L T → ℝ) × (Torus L T → ℝ), Steps AxionStage ps s s' ↔
      Wave (lapR ℓ) (fun _ => (0 : ℝ)) (total ps) s s' := by
  have zero : ∀ s : (Torus L T → ℝ) × (Torus L T → ℝ), Wave (lapR ℓ) (fun _ => (0 : ℝ)) 0 s s := by
    intro s
    obtain ⟨s', U, W, u1, u2, u3, -⟩ := wave_exists hℓ 0 s
    exact ⟨U, W, u1, u2, u3, u3⟩
  have one : ∀ p ∈ ps, ∀ s s' : (Torus L T → ℝ) × (Torus L T → ℝ), AxionStage p s s' ↔
      Wave (lapR ℓ) (fun _ => (0 : ℝ)) (p.dz * p.d) s s' := by
    intro p hp' s s'
    obtain ⟨h1, h2, h3⟩ := hp p hp'
    unfold AxionStage kick
    rw [h1, h2, h3]
    simp
  clear hp
  induction ps with
  | nil =>
    intro s s'
    constructor
    · rintro rfl
      simpa [total] using zero s
    · intro h
      have h : Wave (lapR ℓ) (fun _ => (0 : ℝ)) 0 s s' := by simpa [total] using h
      exact wave_unique_real (zero s) h
  | cons p ps ih =>
    intro s s'
    have ih := ih (fun q hq => one q (by simp [hq]))
    have et : total (p :: ps) = p.dz * p.d + total ps := by simp [total]
    constructor
    · rintro ⟨t, h1, h2⟩
      rw [et]
      exact wave_trans ((one p (by simp) s t).1 h1) ((ih t s').1 h2)
    · intro h
      obtain ⟨t, ht⟩ := wave_exists hℓ (p.dz * p.d) s
      obtain ⟨t', ht'⟩ := wave_exists hℓ (total ps) t
      have := wave_trans ht ht'
      rw [et] at h
      have e := wave_unique_real this h
      subst e
      exact ⟨t, (one p (by simp) s t).2 ht, (ih t t').2 ht'⟩

/-- **C83** In double precision the stages do nothing. -/
theorem C83_double (ok : g.Ok) {L : Lib} (hL : L.Keeps g) (bad : ℂ × ℂ) {Ng Q step : ℕ} (hs : 0 < step)
    (hQ : g.lines * (g.Lx + 2) + 2 * step ≤ Q) (hQ' : g.Lx * g.Lx * Ng + g.vol ≤ Q)
    (ss : List (Par × (ℕ → Orders))) (hss : ∀ q ∈ ss, ∀ r < g.n, (q.2 r).Ok g step)
    {s : (Torus g.Lx g.Tz → ℝ) × (Torus g.Lx g.Tz → ℝ)} {w : ℕ → Mem} (H : Shows g Ng Q s w) :
    ∃ w', tRun g Ng Q L true bad ss w = some w' ∧ Shows g Ng Q s w' := by
  obtain ⟨w1, e1, h1⟩ := toModes_spec ok hL.plan (by omega) H
  have hst : ∀ (ss : List (Par × (ℕ → Orders))), (∀ q ∈ ss, ∀ r < g.n, (q.2 r).Ok g step) → ∀ w1,
      InModes g Q (coefR s.1) (coefR s.2) w1 →
      ∃ w2, tStages g Q L true bad ss w1 = some w2 ∧ InModes g Q (coefR s.1) (coefR s.2) w2 := by
    intro ss
    induction ss with
    | nil => exact fun _ w h => ⟨w, rfl, h⟩
    | cons q ss ih =>
      intro hss w1 h1
      obtain ⟨m3, m4, m5, m6, e3, e4, e5, e6, h6⟩ := tForce_spec ok hL.plan (p := q.1) hs hQ
        (hss q (by simp)) (coef_real s.1) (m := fun r => (w1 r).m) (m2 := fun r => (w1 r).m2) h1.a2 h1.m
      obtain ⟨w2, e2, h2⟩ := ih (fun q' hq' => hss q' (by simp [hq']))
        (fun r => ⟨L.left r (w1 r).m, (w1 r).v, m6 r⟩)
        ⟨fun r hr => by dsimp only; rw [hL.left]; exact h1.am r hr, h1.av, fun r hr => (h6 r hr).1,
          fun r hr i hi => by dsimp only; rw [hL.left]; exact h1.m r hr i hi, h1.v⟩
      refine ⟨w2, ?_, h2⟩
      unfold tStages tStage
      simp only [Option.bind_eq_bind]
      rw [e3]
      simp only [Option.bind_some]
      rw [e4]
      simp only [Option.bind_some]
      rw [e5]
      simp only [Option.bind_some]
      rw [e6]
      simp only [Option.bind_some, if_true]
      exact e2
  obtain ⟨w2, e2, h2⟩ := hst ss hss w1 h1
  obtain ⟨w3, e3, h3⟩ := fromModes_spec ok hL.plan (Ng := Ng) (by omega) hQ'
    (fun r h ha => by rw [hL.left]; exact ha) (coef_real s.1) (coef_real s.2) h2
  simp only [synth_coefR] at h3
  refine ⟨w3, ?_, h3⟩
  unfold tRun
  rw [e1]
  simp only [Option.bind_eq_bind, Option.bind_some]
  rw [e2]
  exact e3

/-- A library with the same transforms that overwrites the modes. -/
noncomputable def wiping (P : Plan) : Lib := ⟨P, fun _ h a => (h a).map fun _ => 0⟩

/-- **C83** The plans allow the library to destroy the modes when it transforms them.  If it does, the
first stage loses the field: any field at rest that feels no force becomes zero. -/
theorem C83_not_kept (ok : g.Ok) {P : Plan} (hP : P.Exact g) (bad : ℂ × ℂ) {Ng Q step : ℕ} (hs : 0 < step)
    (hQ : g.lines * (g.Lx + 2) + 2 * step ≤ Q) (hQ' : g.Lx * g.Lx * Ng + g.vol ≤ Q) {p : Par}
    (hℓ : p.ℓ ≠ 0) (hm : p.mA2 = 0) (hR : p.Rpp = 0) {o : ℕ → Orders} (ho : ∀ r < g.n, (o r).Ok g step)
    {f : Torus g.Lx g.Tz → ℝ} {w : ℕ → Mem} (H : Shows g Ng Q (f, 0) w) :
    ∃ w', tRun g Ng Q (wiping P) false bad [(p, o)] w = some w' ∧ Shows g Ng Q (0, 0) w' := by
  have wl : ∀ {h : Heap ℕ ℝ}, WKB.Alloc Q h → WKB.Alloc Q (fun a => (h a).map fun _ => 0) := by
    intro h ha a haq
    simpa using ha a haq
  have hc0 : coefR (g := g) 0 = 0 := by
    funext k
    show dft _ k * _ = 0
    have : dft (fun x : Torus g.Lx g.Tz => (((0 : Torus g.Lx g.Tz → ℝ) x : ℝ) : ℂ)) k = 0 :=
      Finset.sum_eq_zero fun x _ => by simp
    rw [this, zero_mul]
  obtain ⟨w1, e1, h1⟩ := toModes_spec ok hP (by omega) H
  obtain ⟨w2, s2, e2, h2, hw⟩ := tStage_left ok (L := wiping P) hP hℓ bad hs hQ ho (f := 0) h1
    (fun r hr => wl (h1.am r hr))
    (fun r hr i hi => by
      have hM := SpecLap.modes_le g
      obtain ⟨x, hx⟩ := Option.isSome_iff_exists.1 (h1.am r hr (2 * i) (by omega))
      obtain ⟨y, hy⟩ := Option.isSome_iff_exists.1 (h1.am r hr (2 * i + 1) (by omega))
      rw [hc0]
      unfold load wiping
      dsimp only
      rw [Nat.zero_add, hx, hy]
      rfl)
  have ek : (kick (fun (φ : Torus g.Lx g.Tz → ℝ) x => p.Rpp * φ x - p.mA2 * p.R ^ 3 * Real.sin (φ x / p.R))
      (p.dz * p.c) (f, 0)).2 = 0 := by
    funext x
    simp [kick, hm, hR]
  rw [ek] at hw
  have hz : Wave (lapR p.ℓ) (fun _ => (0 : ℝ)) (p.dz * p.d) ((0 : Torus g.Lx g.Tz → ℝ), 0) (0, 0) := by
    refine ⟨fun _ => 0, fun _ => 0, fun t x => hasDerivAt_const t 0, fun t x => ?_, rfl, rfl⟩
    refine (hasDerivAt_const t (0 : ℝ)).congr_deriv ?_
    unfold lapR
    have := SpecLap.lapS_const (L := g.Lx) (T := g.Tz) p.ℓ 0 x
    simp only [Pi.zero_apply, Complex.ofReal_zero]
    rw [this]
    simp
  have es := wave_unique_real hw hz
  subst es
  obtain ⟨w3, e3, h3⟩ := fromModes_spec ok (L := wiping P) hP (Ng := Ng) (by omega) hQ'
    (fun r h ha => wl ha) (coef_real (0 : Torus g.Lx g.Tz → ℝ)) (coef_real 0) h2
  simp only [synth_coefR] at h3
  refine ⟨w3, ?_, h3⟩
  unfold tRun tStages tStages
  rw [show (wiping P).plan = P from rfl, e1]
  simp only [Option.bind_eq_bind, Option.bind_some]
  rw [e2]
  exact e3

/-! ### Saxion -/

/-- **C83** In single precision any number of stages of the propagator of a Saxion gives the field that
kicks with the force of the PQ potential and exact waves with the force of the axion potential give. -/
theorem C83_saxion (ok : g.Ok) {P : CPlan} (hP : P.Exact g) (bad : ℂ × ℂ) {Q step : ℕ} (hs : 0 < step)
    (he : 2 ∣ g.Lx) (hd : step ∣ g.Lx / 2) (hQ : g.Lx * g.Lx + g.vol ≤ Q) (ss : List (SIn × (ℝ → ℝ)))
    (hss : ∀ x ∈ ss, x.1.par.ℓ ≠ 0 ∧ x.1.Ok g step ∧ x.1.Driven x.2)
    {s : (Torus g.Lx g.Tz → ℂ) × (Torus g.Lx g.Tz → ℂ)} {w : ℕ → CMem} (H : CShows g Q s w) :
    ∃ w' s', sRun g 1 Q P .pq1 bad step (ss.map Prod.fst) w = some w' ∧ CShows g Q s' w' ∧
      Steps SaxionStage (ss.map fun x => (x.1.par, x.2)) s s' := by
  obtain ⟨w1, e1, h1⟩ := sToModes_spec ok hP hQ H
  have hst : ∀ (ss : List (SIn × (ℝ → ℝ))),
      (∀ x ∈ ss, x.1.par.ℓ ≠ 0 ∧ x.1.Ok g step ∧ x.1.Driven x.2) →
      ∀ (s : (Torus g.Lx g.Tz → ℂ) × (Torus g.Lx g.Tz → ℂ)) w1,
      CInModes g Q (coef g s.1) (coef g s.2) w1 →
      ∃ w2 s', sStages g 1 Q P .pq1 bad step (ss.map Prod.fst) w1 = some w2 ∧
        CInModes g Q (coef g s'.1) (coef g s'.2) w2 ∧
        Steps SaxionStage (ss.map fun x => (x.1.par, x.2)) s s' := by
    intro ss
    induction ss with
    | nil => exact fun _ s w h => ⟨w, s, rfl, h, rfl⟩
    | cons x ss ih =>
      intro hss s w1 h1
      obtain ⟨k1, k2, k3⟩ := hss x (by simp)
      obtain ⟨w2, s2, e2, h2, hw⟩ := sStage_wave ok hP (sw := .pq1)
        (acc := fun y => (x.1.par.LL * (x.1.par.R ^ 2 - ‖y‖ ^ 2)) • y) bad hs he hd hQ k1
        (fun y => by
          unfold sAcc
          dsimp only
          congr 1
          rw [Complex.real_smul, ← Complex.normSq_eq_norm_sq, Complex.normSq_apply]
          push_cast
          ring) k2 k3 h1
      obtain ⟨w3, s3, e3, h3, hs3⟩ := ih (fun y hy => hss y (by simp [hy])) s2 w2 h2
      refine ⟨w3, s3, ?_, h3, s2, hw, hs3⟩
      rw [List.map_cons]
      unfold sStages
      rw [e2]
      exact e3
  obtain ⟨w2, s2, e2, h2, hst2⟩ := hst ss hss s w1 h1
  obtain ⟨w3, e3, h3⟩ := sFromModes_spec ok hP hQ h2
  have q1 : synth (coef g s2.1) = s2.1 := funext (synth_coef s2.1)
  have q2 : synth (coef g s2.2) = s2.2 := funext (synth_coef s2.2)
  rw [q1, q2] at h3
  refine ⟨w3, s2, ?_, h3, hst2⟩
  unfold sRun
  rw [e1]
  simp only [Option.bind_eq_bind, Option.bind_some]
  rw [e2]
  exact e3

/-- The result of the stages is unique. -/
theorem C83_unique_saxion {L T : ℕ} [NeZero L] [NeZero T] (ps : List (Par × (ℝ → ℝ))) :
    ∀ s s' s'' : (Torus L T → ℂ) × (Torus L T → ℂ), Steps SaxionStage ps s s' →
      Steps SaxionStage ps s s'' → s' = s'' := by
  induction ps with
  | nil => rintro s s' s'' rfl rfl; rfl
  | cons p ps ih =>
    rintro s s' s'' ⟨t, h1, h2⟩ ⟨t', h1', h2'⟩
    have : t = t' := wave_unique h1 h1'
    subst this
    exact ih t s' s'' h2 h2'

end

/-- **C83** A plane wave with `|k|²` periods squared in the box oscillates with the frequency
`2π|k|/ℓ`. -/
theorem C83_ripple {L T : ℕ} [NeZero L] [NeZero T] (ℓ : ℝ) (k : Torus L T) (c : ℂ) (σ : ℝ) :
    let ω := 2 * Real.pi / ℓ * Real.sqrt (ksq k : ℝ)
    Wave (lapS (2 * Real.pi / ℓ)) (fun _ => 0) σ (fun x => c * wave k x, fun _ => 0)
      (fun x => (Real.cos (ω * σ)) • (c * wave k x), fun x => (-ω * Real.sin (ω * σ)) • (c * wave k x)) := by
  intro ω
  have hs : ∀ (b : ℂ) (x : Torus L T), synth (fun k' => if k' = k then b else 0) x = b * wave k x := by
    intro b x
    unfold synth
    rw [Finset.sum_eq_single k]
    · dsimp only; rw [if_pos rfl]
    · intro k' _ hk; dsimp only; rw [if_neg hk, zero_mul]
    · intro h; exact absurd (Finset.mem_univ _) h
  have hlap : ∀ (b : ℂ) (x : Torus L T), lapS (2 * Real.pi / ℓ) (fun x => b * wave k x) x =
      -((ω : ℝ) : ℂ) ^ 2 * (b * wave k x) := by
    intro b x
    have e : (fun x => b * wave k x) = synth (fun k' => if k' = k then b else 0) :=
      funext fun x => (hs b x).symm
    rw [e, lapS_synth]
    unfold synth
    rw [Finset.sum_eq_single k]
    · dsimp only
      rw [if_pos rfl]
      show -((freq (2 * Real.pi / ℓ) k : ℝ) : ℂ) ^ 2 * b * wave k x = _
      unfold freq
      ring
    · intro k' _ hk; dsimp only; rw [if_neg hk, mul_zero, zero_mul]
    · intro h; exact absurd (Finset.mem_univ _) h
  have hid : ∀ t : ℝ, HasDerivAt (fun t : ℝ => ω * t) ω t := fun t => by
    simpa using (hasDerivAt_id t).const_mul ω
  refine ⟨fun t x => (Real.cos (ω * t)) • (c * wave k x),
    fun t x => (-ω * Real.sin (ω * t)) • (c * wave k x), ?_, ?_, ?_, rfl⟩
  · intro t x
    refine ((hid t).cos.smul_const (c * wave k x)).congr_deriv ?_
    congr 1
    ring
  · intro t x
    refine (((hid t).sin.const_mul (-ω)).smul_const (c * wave k x)).congr_deriv ?_
    have e : (fun y => (Real.cos (ω * t)) • (c * wave k y)) =
        fun y => ((Real.cos (ω * t) : ℂ) * c) * wave k y := by
      funext y; rw [Complex.real_smul]; ring
    dsimp only
    rw [e, hlap, Complex.real_smul]
    push_cast
    ring
  · refine Prod.ext (funext fun x => ?_) (funext fun x => ?_) <;> simp

/-- **C83** The kick of the first case is the force of the potential `V_PQ1`. -/
theorem C83_force (p : Par) (hR : 0 < p.R) (φ : ℂ) :
    ∃ F, sAcc p .pq1 φ = some F ∧ IsForce (comoving (Vpq p.LL .pq1) p.R) φ.re φ.im F.re F.im := by
  refine ⟨_, rfl, ?_⟩
  have h := pq_isForce p.LL hR .pq1 φ.re φ.im
  have e1 : (φ * (((p.R * p.R - (φ.re * φ.re + φ.im * φ.im)) * p.LL : ℝ) : ℂ)).re =
      -(φ.re * pqSite p.LL p.R .pq1 (φ.re ^ 2 + φ.im ^ 2)) := by
    simp only [pqSite, Complex.mul_re, Complex.ofReal_re, Complex.ofReal_im]; ring
  have e2 : (φ * (((p.R * p.R - (φ.re * φ.re + φ.im * φ.im)) * p.LL : ℝ) : ℂ)).im =
      -(φ.im * pqSite p.LL p.R .pq1 (φ.re ^ 2 + φ.im ^ 2)) := by
    simp only [pqSite, Complex.mul_im, Complex.ofReal_re, Complex.ofReal_im]; ring
  rw [e1, e2]
  exact h

/-- **C83** The kick of the second case lacks a factor `|φ|²`: it is the force of `V_PQ2` at the origin,
on the circle of the vacua and on the unit circle only. -/
theorem C83_not_pq2 (p : Par) (hR : 0 < p.R) (hl : p.LL ≠ 0) (φ : ℂ) :
    ∃ F, sAcc p .pq2 φ = some F ∧
      (IsForce (comoving (Vpq p.LL .pq2) p.R) φ.re φ.im F.re F.im ↔ φ = 0 ∨ ‖φ‖ = 1 ∨ ‖φ‖ = p.R) := by
  refine ⟨_, rfl, ?_⟩
  have h := pq_isForce p.LL hR .pq2 φ.re φ.im
  set t := φ.re ^ 2 + φ.im ^ 2 with ht
  have hn : ‖φ‖ ^ 2 = t := by rw [← Complex.normSq_eq_norm_sq, Complex.normSq_apply, ht]; ring
  have e1 : (φ * (((p.R * p.R * (p.R * p.R) - (φ.re * φ.re + φ.im * φ.im) *
      (φ.re * φ.re + φ.im * φ.im)) * (p.LL * 2 / (p.R * p.R * (p.R * p.R))) : ℝ) : ℂ)).re =
      -(φ.re * ((t ^ 2 - p.R ^ 4) * (p.LL * 2 / p.R ^ 4))) := by
    simp only [Complex.mul_re, Complex.ofReal_re, Complex.ofReal_im, ht]; ring
  have e2 : (φ * (((p.R * p.R * (p.R * p.R) - (φ.re * φ.re + φ.im * φ.im) *
      (φ.re * φ.re + φ.im * φ.im)) * (p.LL * 2 / (p.R * p.R * (p.R * p.R))) : ℝ) : ℂ)).im =
      -(φ.im * ((t ^ 2 - p.R ^ 4) * (p.LL * 2 / p.R ^ 4))) := by
    simp only [Complex.mul_im, Complex.ofReal_re, Complex.ofReal_im, ht]; ring
  rw [e1, e2]
  have key : ∀ a : ℝ, -(a * ((t ^ 2 - p.R ^ 4) * (p.LL * 2 / p.R ^ 4))) =
      -(a * pqSite p.LL p.R .pq2 t) ↔ a = 0 ∨ t = 1 ∨ t = p.R ^ 2 := by
    intro a
    have hR4 : p.R ^ 4 ≠ 0 := (pow_pos hR 4).ne'
    have hc : p.LL * 2 / p.R ^ 4 ≠ 0 := div_ne_zero (mul_ne_zero hl two_ne_zero) hR4
    have ht0 : 0 ≤ t := by rw [ht]; positivity
    unfold pqSite
    dsimp only
    constructor
    · intro h
      have h1 : a * ((t - 1) * ((t - p.R ^ 2) * (t + p.R ^ 2))) * (p.LL * 2 / p.R ^ 4) = 0 := by
        linear_combination h
      rcases mul_eq_zero.1 h1 with h1 | h1
      · rcases mul_eq_zero.1 h1 with h1 | h1
        · exact Or.inl h1
        · rcases mul_eq_zero.1 h1 with h1 | h1
          · exact Or.inr (Or.inl (by linarith))
          · rcases mul_eq_zero.1 h1 with h1 | h1
            · exact Or.inr (Or.inr (by linarith))
            · have : 0 < p.R ^ 2 := by positivity
              exact absurd h1 (by linarith)
      · exact absurd h1 hc
    · rintro (h | h | h)
      · rw [h]; ring
      · rw [h]; ring
      · rw [h]; ring
  have en : ∀ c : ℝ, 0 ≤ c → (‖φ‖ = c ↔ t = c ^ 2) := by
    intro c hc
    rw [← hn, sq_eq_sq₀ (norm_nonneg _) hc]
  rw [en 1 zero_le_one, en p.R hR.le, one_pow]
  constructor
  · intro h'
    obtain ⟨u1, u2⟩ := isForce_unique h' h
    rcases (key _).1 u1 with h1 | h1
    · rcases (key _).1 u2 with h2 | h2
      · exact Or.inl (Complex.ext h1 h2)
      · exact Or.inr h2
    · exact Or.inr h1
  · rintro (h' | h')
    · have h1 : φ.re = 0 := by rw [h']; rfl
      have h2 : φ.im = 0 := by rw [h']; rfl
      rw [(key φ.re).2 (Or.inl h1), (key φ.im).2 (Or.inl h2)]
      exact h
    · rw [(key φ.re).2 (Or.inr h'), (key φ.im).2 (Or.inr h')]
      exact h

theorem foldlM_none {α β : Type} {f : β → α → Option β} (hf : ∀ b a, f b a = none) {l : List α} (hl : l ≠ [])
    (b : β) : l.foldlM f b = none := by
  cases l with
  | nil => exact absurd rfl hl
  | cons a l => rw [List.foldlM_cons, hf]; rfl

theorem ranks_none {σ : Type} {n : ℕ} (hn : 0 < n) {f : ℕ → σ → Option σ} (hf : ∀ h, f 0 h = none)
    (w : ℕ → σ) : ranks n f w = none := by
  obtain ⟨m, rfl⟩ := Nat.exists_eq_succ_of_ne_zero hn.ne'
  unfold ranks
  induction m with
  | zero => simp [loop, hf]
  | succ m ih => rw [loop_succ, ih (Nat.succ_pos m)]; rfl

/-- **C83** With `V_QCDV_PQ1` every stage uses a variable that is not set. -/
theorem C83_unset (g : Gravity.Geo) (hn : 0 < g.n) (Q : ℕ) (P : CPlan) (bad : ℂ × ℂ) (step : ℕ) (s : SIn)
    (ss : List SIn) (h0 : s.acc 0 ≠ []) (w : ℕ → CMem) :
    sRun g 1 Q P .vpq1 bad step (s :: ss) w = none := by
  have hst : ∀ w, sStage g 1 Q P .vpq1 bad step s w = none := by
    intro w
    unfold sStage
    cases cBck g P (start g 1) 0 (fun r => (w r).m) fun r => (w r).m2 with
    | none => rfl
    | some m2 =>
      simp only [Option.bind_eq_bind, Option.bind_some]
      rw [ranks_none hn (fun h => foldlM_none (fun b a => by
        unfold sAccCell
        cases b a with
        | none => rfl
        | some x => rfl) h0 h)]
      rfl
  unfold sRun
  cases sToModes g 1 Q P w with
  | none => rfl
  | some w1 =>
    simp only [Option.bind_eq_bind, Option.bind_some]
    unfold sStages
    rw [hst]
    rfl

/-- **C83** The wave numbers of a vector are wrapped together.  If a line has whole vectors and half a
line has not, some mode gets a wrong frequency. -/
theorem C83_not_narrow {g : Gravity.Geo} (ok : g.Ok) {step : ℕ} (hs : 3 ≤ step) (hd : step ∣ g.Lx)
    (he : 2 ∣ g.Lx) (hn : ¬ step ∣ g.Lx / 2) {r : ℕ} (hr : r < g.n) :
    ∃ o ∈ sLanes g step, sK2 g step r o ≠ ksq (modeFull g r (sIdx g o)) := by
  have hs0 : 0 < step := by omega
  set h := g.Lx / 2 with hh
  have hL : g.Lx = 2 * h := (Nat.mul_div_cancel' he).symm
  have hmod : 0 < h % step := Nat.pos_of_ne_zero fun h0 => hn (Nat.dvd_of_mod_eq_zero h0)
  have hlt := Nat.mod_lt h hs0
  have hsplit : h / step * step + h % step = h := div_mul_add_mod h step
  have hne : h % step ≠ step - 1 := by
    intro h1
    have h2 : step ∣ 2 * h + 2 := by
      have : 2 * h + 2 = step * (2 * (h / step) + 2) := by
        calc 2 * h + 2 = 2 * (h / step * step + (step - 1)) + 2 := by rw [← h1, hsplit]
          _ = 2 * (h / step * step) + 2 * step := by omega
          _ = _ := by ring
      exact ⟨_, this⟩
    rw [hL] at hd
    have := Nat.le_of_dvd (by omega) ((Nat.dvd_add_right hd).1 h2)
    omega
  have hox : (h / step * step + (step - 1)) / step * step = h / step * step := by
    rw [div_of (show step - 1 < step by omega)]
  have hiL : h / step * step + (step - 1) < g.Lx := by
    obtain ⟨q, hq⟩ := hd
    have h1 : h / step < q := by
      rw [Nat.div_lt_iff_lt_mul hs0, Nat.mul_comm, ← hq]; omega
    have : (h / step + 1) * step ≤ q * step := Nat.mul_le_mul_right _ h1
    rw [Nat.add_mul, Nat.one_mul] at this
    rw [hq, Nat.mul_comm step q]
    omega
  have ho : (0, 0, h / step * step + (step - 1)) ∈ SpecLap.iterations g false := by
    rw [SpecLap.mem_iterations]
    exact ⟨ok.part_pos, ok.Tz_pos, hiL⟩
  refine ⟨(0, 0, h / step * step + (step - 1)), (sLanes_perm hs0 hd).mem_iff.2 ho, ?_⟩
  have hp := SpecLap.p2_eq ok false hr ho
  rw [SpecLap.modeW_full] at hp
  rw [sIdx_eq, ← hp]
  unfold sK2 SpecLap.p2 SpecLap.wrap SpecLap.Ly
  dsimp only
  rw [hox, ← hh, if_neg (show ¬ h ≤ h / step * step by omega)]
  rw [if_pos (show ((h / step * step + (step - 1) : ℕ) : ℤ) > (h : ℤ) by omega)]
  generalize h / step * step = a at *
  have e : ((a : ℕ) : ℤ) + ((a + (step - 1) - a : ℕ) : ℤ) = ((a + (step - 1) : ℕ) : ℤ) := by omega
  rw [e]
  generalize (if ((0 + g.Lx / g.n * r : ℕ) : ℤ) > (h : ℤ) then ((0 + g.Lx / g.n * r : ℕ) : ℤ) - g.Lx
    else ((0 + g.Lx / g.n * r : ℕ) : ℤ)) = y
  generalize (if ((0 : ℕ) : ℤ) > ((g.Tz / 2 : ℕ) : ℤ) then ((0 : ℕ) : ℤ) - g.Tz else ((0 : ℕ) : ℤ)) = z
  intro hc
  have hi : (h : ℤ) < ((a + (step - 1) : ℕ) : ℤ) := by omega
  generalize ((a + (step - 1) : ℕ) : ℤ) = i at hc hi
  have hL' : (g.Lx : ℤ) = 2 * h := by rw [hL]; push_cast; ring
  rw [hL'] at hc
  have hpos : (0 : ℤ) < h := by omega
  nlinarith

/-! ### Examples -/

section

/-- Threads that run the loops in order. -/
def plain (g : Gravity.Geo) (step : ℕ) : Orders := ⟨lanes (g.lines * (g.Lx + 2)) (2 * step), lanes g.modes step⟩

/-- Arrays of an Axion with a given field and velocity. -/
def holding (g : Gravity.Geo) (Ng : ℕ) (s : (Torus g.Lx g.Tz → ℝ) × (Torus g.Lx g.Tz → ℝ)) (r : ℕ) : Mem :=
  ⟨fun i => some (s.1 (siteOf g (r * g.vol + (i - g.Lx * g.Lx * Ng)))),
    fun i => some (s.2 (siteOf g (r * g.vol + i))), fun _ => some 7⟩

theorem holding_shows (g : Gravity.Geo) (Ng Q : ℕ) (s : (Torus g.Lx g.Tz → ℝ) × (Torus g.Lx g.Tz → ℝ)) :
    Shows g Ng Q s (holding g Ng s) where
  m r i _ _ := by simp [holding]
  v r i _ _ := rfl
  room _ _ _ _ := ⟨rfl, rfl, rfl⟩

/-- A library that keeps the modes. -/
noncomputable def keeping (g : Gravity.Geo) [NeZero g.Lx] [NeZero g.Tz] : Lib :=
  ⟨formulaPlan g, fun _ h => h⟩

/-- Two ranks with four by four by two sites each, vectors of eight modes, two stages with mass, a field
after two ghost slices. -/
example (p q : Par) (hp : p.ℓ ≠ 0) (hq : q.ℓ ≠ 0) (s : (Torus 4 4 → ℝ) × (Torus 4 4 → ℝ)) :
    ∃ w' s', tRun ⟨2, 4, 2⟩ 2 64 (keeping ⟨2, 4, 2⟩) false (0, 0)
        [(p, fun _ => plain ⟨2, 4, 2⟩ 8), (q, fun _ => plain ⟨2, 4, 2⟩ 8)] (holding ⟨2, 4, 2⟩ 2 s) = some w' ∧
      Shows ⟨2, 4, 2⟩ 2 64 s' w' ∧ Steps (AxionStage (L := 4) (T := 4)) [p, q] s s' :=
  C83_axion (g := ⟨2, 4, 2⟩) demo_ok (L := keeping ⟨2, 4, 2⟩) ⟨formulaPlan_exact demo_ok, fun _ _ => rfl⟩
    (0, 0) (step := 8) (by decide) (by decide) (by decide)
    [(p, fun _ => plain ⟨2, 4, 2⟩ 8), (q, fun _ => plain ⟨2, 4, 2⟩ 8)]
    (by
      intro x hx
      rcases List.mem_cons.1 hx with rfl | hx
      · exact ⟨hp, fun r _ => ⟨.refl _, .refl _⟩⟩
      · rw [List.mem_singleton.1 hx]
        exact ⟨hq, fun r _ => ⟨.refl _, .refl _⟩⟩)
    (holding_shows ⟨2, 4, 2⟩ 2 64 s)

/-- Half a time and then the other half, or all the time at once. -/
example (s s' : (Torus 4 4 → ℝ) × (Torus 4 4 → ℝ)) :
    Steps AxionStage [⟨6, 1, 0, 0, 1, 1, 0.5, 0.5⟩, ⟨6, 1, 0, 0, 1, 1, 0.5, 0.5⟩] s s' ↔
      Steps AxionStage [⟨6, 1, 0, 0, 1, 1, 0, 1⟩] s s' := by
  rw [C83_free (ℓ := 6) (by norm_num) [⟨6, 1, 0, 0, 1, 1, 0.5, 0.5⟩, ⟨6, 1, 0, 0, 1, 1, 0.5, 0.5⟩]
      (by
        intro p hp
        rcases List.mem_cons.1 hp with rfl | hp
        · exact ⟨rfl, rfl, rfl⟩
        · rw [List.mem_singleton.1 hp]; exact ⟨rfl, rfl, rfl⟩),
    C83_free (ℓ := 6) (by norm_num) [⟨6, 1, 0, 0, 1, 1, 0, 1⟩]
      (by intro p hp; rw [List.mem_singleton.1 hp]; exact ⟨rfl, rfl, rfl⟩)]
  have e : total [⟨6, 1, 0, 0, 1, 1, 0.5, 0.5⟩, ⟨6, 1, 0, 0, 1, 1, 0.5, 0.5⟩] =
      total [⟨6, 1, 0, 0, 1, 1, 0, 1⟩] := by
    unfold total; norm_num
  rw [e]

/-- In double precision a stage leaves the field as it was, whatever the force. -/
example (p : Par) (s : (Torus 4 4 → ℝ) × (Torus 4 4 → ℝ)) :
    ∃ w', tRun ⟨2, 4, 2⟩ 2 64 (keeping ⟨2, 4, 2⟩) true (0, 0) [(p, fun _ => plain ⟨2, 4, 2⟩ 8)]
        (holding ⟨2, 4, 2⟩ 2 s) = some w' ∧ Shows ⟨2, 4, 2⟩ 2 64 s w' :=
  C83_double (g := ⟨2, 4, 2⟩) demo_ok (L := keeping ⟨2, 4, 2⟩) ⟨formulaPlan_exact demo_ok, fun _ _ => rfl⟩
    (0, 0) (step := 8) (by decide) (by decide) (by decide) [(p, fun _ => plain ⟨2, 4, 2⟩ 8)]
    (by intro x hx r _; rw [List.mem_singleton.1 hx]; exact ⟨.refl _, .refl _⟩)
    (holding_shows ⟨2, 4, 2⟩ 2 64 s)

/-- A uniform field of one becomes zero when the library overwrites the modes. -/
example : ∃ w', tRun ⟨2, 4, 2⟩ 2 64 (wiping (formulaPlan ⟨2, 4, 2⟩)) false (0, 0)
      [(⟨6, 1, 0, 0, 1, 1, 1, 1⟩, fun _ => plain ⟨2, 4, 2⟩ 8)]
      (holding ⟨2, 4, 2⟩ 2 (fun _ => 1, 0)) = some w' ∧ Shows ⟨2, 4, 2⟩ 2 64 (0, 0) w' :=
  C83_not_kept (g := ⟨2, 4, 2⟩) demo_ok (formulaPlan_exact demo_ok) (0, 0) (step := 8) (by decide)
    (by decide) (by decide) (by norm_num) rfl rfl (fun r _ => ⟨.refl _, .refl _⟩)
    (holding_shows ⟨2, 4, 2⟩ 2 64 _)

/-- Arrays of a Saxion. -/
def cHolding (g : Gravity.Geo) (s : (Torus g.Lx g.Tz → ℂ) × (Torus g.Lx g.Tz → ℂ)) (r : ℕ) : CMem :=
  ⟨fun i => some (s.1 (siteOf g (r * g.vol + (i - g.Lx * g.Lx)))),
    fun i => some (s.2 (siteOf g (r * g.vol + i))), fun _ => some 7⟩

theorem cHolding_shows (g : Gravity.Geo) (Q : ℕ) (s : (Torus g.Lx g.Tz → ℂ) × (Torus g.Lx g.Tz → ℂ)) :
    CShows g Q s (cHolding g s) where
  m r i _ _ := by simp [cHolding]
  v r i _ _ := rfl
  room _ _ _ _ := ⟨rfl, rfl, rfl⟩

/-- A stage for a Saxion with a constant axion mass. -/
noncomputable def steady (g : Gravity.Geo) (step : ℕ) (p : Par) (m : ℝ) : SIn where
  par := p
  I1 := (p.dz * p.d) * m
  I2 := (p.dz * p.d) ^ 2 / 2 * m
  acc _ := lanes g.vol step
  modes _ := sLanes g step

theorem steady_driven (g : Gravity.Geo) (step : ℕ) (p : Par) (m : ℝ) :
    (steady g step p m).Driven fun _ => m where
  cont := continuous_const
  one := by simp [steady]
  two := by simp [steady, integral_id]

/-- The same lattice with vectors of two modes, any coupling and axion mass. -/
example (p : Par) (hp : p.ℓ ≠ 0) (m : ℝ) (s : (Torus 4 4 → ℂ) × (Torus 4 4 → ℂ)) :
    ∃ w' s', sRun ⟨2, 4, 2⟩ 1 64 (formulaCPlan ⟨2, 4, 2⟩) .pq1 (0, 0) 2 [steady ⟨2, 4, 2⟩ 2 p m]
        (cHolding ⟨2, 4, 2⟩ s) = some w' ∧
      CShows ⟨2, 4, 2⟩ 64 s' w' ∧ Steps (SaxionStage (L := 4) (T := 4)) [(p, fun _ => m)] s s' :=
  C83_saxion (g := ⟨2, 4, 2⟩) demo_ok (formulaCPlan_exact demo_ok) (0, 0) (step := 2) (by decide) (by decide)
    (by decide) (by decide) [(steady ⟨2, 4, 2⟩ 2 p m, fun _ => m)]
    (by
      intro x hx
      rw [List.mem_singleton.1 hx]
      exact ⟨hp, ⟨fun _ _ => .refl _, fun _ _ => .refl _⟩, steady_driven _ _ _ _⟩)
    (cHolding_shows ⟨2, 4, 2⟩ 64 s)

/-- One period along `x` on the demo lattice. -/
example (c : ℂ) : Wave (lapS (L := 4) (T := 4) (2 * Real.pi / 2)) (fun _ => 0) 1
    (fun x => c * wave (1, 0, 0) x, fun _ => 0)
    (fun x => (-1 : ℝ) • (c * wave (1, 0, 0) x), fun x => (0 : ℝ) • (c * wave (1, 0, 0) x)) := by
  have h := C83_ripple (L := 4) (T := 4) 2 (1, 0, 0) c 1
  have e : (ksq ((1, 0, 0) : Torus 4 4) : ℝ) = 1 := by
    have : ksq ((1, 0, 0) : Torus 4 4) = 1 := by decide
    rw [this]; norm_num
  simpa [e] using h

/-- The force of the second case is wrong at `φ = 1/2`, where the vacua are at `|φ| = 2`. -/
example (F : ℂ) (h : sAcc ⟨1, 2, 0, 0, 1, 1, 1, 1⟩ .pq2 (1 / 2) = some F) :
    ¬ IsForce (comoving (Vpq 1 .pq2) 2) (1 / 2 : ℂ).re (1 / 2 : ℂ).im F.re F.im := by
  obtain ⟨F', e, hF⟩ := C83_not_pq2 ⟨1, 2, 0, 0, 1, 1, 1, 1⟩ (by norm_num) (by norm_num) (1 / 2)
  rw [h] at e
  cases e
  intro hc
  have hn : ‖(1 / 2 : ℂ)‖ = 1 / 2 := by norm_num
  rcases hF.1 hc with h' | h' | h'
  · norm_num at h'
  · rw [hn] at h'; norm_num at h'
  · rw [hn] at h'; norm_num at h'

/-- The potential whose force is not written. -/
example (p : Par) (m : ℝ) (s : (Torus 4 4 → ℂ) × (Torus 4 4 → ℂ)) :
    sRun ⟨2, 4, 2⟩ 1 64 (formulaCPlan ⟨2, 4, 2⟩) .vpq1 (0, 0) 2 [steady ⟨2, 4, 2⟩ 2 p m]
      (cHolding ⟨2, 4, 2⟩ s) = none :=
  C83_unset ⟨2, 4, 2⟩ (by decide) 64 _ (0, 0) 2 _ [] (show lanes 32 2 ≠ [] by decide) _

/-- Vectors of four modes on lines of four. -/
example : ∃ o ∈ sLanes ⟨2, 4, 2⟩ 4, sK2 ⟨2, 4, 2⟩ 4 1 o ≠ ksq (modeFull ⟨2, 4, 2⟩ 1 (sIdx ⟨2, 4, 2⟩ o)) :=
  C83_not_narrow demo_ok (by decide) (by decide) (by decide) (by decide) (by decide)

end

end Jaxions.FullSpec
