import Verif.Lemmas.SmoothFourier
import Mathlib.Analysis.SpecialFunctions.Sqrt
/-
Lemmas for C85: the whole function.
-/
namespace Jaxions.SmoothF

open Finset Gravity WKB ComplexConjugate

/-- The factor of the loop is the window over the number of sites. -/
theorem weight_eq {k0 R k2 nrm : ℝ} (hk0 : 0 ≤ k0) (hR : 0 ≤ R) (hk2 : 0 ≤ k2) (f : Filter) (c : ℂ) :
    weight f nrm (k0 * R) k2 c = c * ((nrm * window f (k0 * Real.sqrt k2 * R) : ℝ) : ℂ) := by
  have hs := Real.sqrt_nonneg k2
  have hsq := Real.mul_self_sqrt hk2
  have hq : 0 ≤ k0 * Real.sqrt k2 * R := mul_nonneg (mul_nonneg hk0 hs) hR
  cases f with
  | gauss =>
    unfold weight window
    dsimp only
    have e : -(0.5 * (k0 * R) * (k0 * R)) * k2 = -((k0 * Real.sqrt k2 * R) ^ 2 / 2) := by
      have : (k0 * Real.sqrt k2 * R) ^ 2 = k0 * R * (k0 * R) * (Real.sqrt k2 * Real.sqrt k2) := by ring
      rw [this, hsq]; ring
    rw [e, mul_comm nrm]
  | tophat =>
    unfold weight window
    dsimp only
    have e : k0 * R * Real.sqrt k2 = k0 * Real.sqrt k2 * R := by ring
    rw [e]
    generalize k0 * Real.sqrt k2 * R = q at hq
    by_cases h : q = 0
    · rw [if_neg (by rw [h]; exact lt_irrefl _), if_pos h]
      congr 2; ring
    · rw [if_pos (lt_of_le_of_ne hq (Ne.symm h)), if_neg h]
      congr 2
      field_simp
  | sharpk =>
    unfold weight window
    dsimp only
    have e : k0 * R * (k0 * R) * k2 = (k0 * Real.sqrt k2 * R) ^ 2 := by
      rw [← hsq]
      rw [Real.sqrt_mul_self hs]; ring
    rw [e]
    generalize k0 * Real.sqrt k2 * R = q at hq
    by_cases h : 1 < q
    · rw [if_pos (one_lt_pow₀ h two_ne_zero), if_pos h]; simp
    · rw [if_neg (not_lt.2 (pow_le_one₀ hq (not_lt.1 h))), if_neg h, mul_one]

section
variable {L T : ℕ} [NeZero L] [NeZero T]

/-- The amplitudes of the smoothed density. -/
noncomputable def amp (k0 : ℝ) (f : Filter) (R : ℝ) (ρ : Torus L T → ℝ) (k : Torus L T) : ℂ :=
  ((1 / ((L * L * T : ℕ) : ℝ) * window f (k0 * Real.sqrt (ksq k) * R) : ℝ) : ℂ) * dft (fun y => (ρ y : ℂ)) k

theorem amp_real (k0 : ℝ) (f : Filter) (R : ℝ) (ρ : Torus L T → ℝ) (k : Torus L T) :
    amp k0 f R ρ (-k) = conj (amp k0 f R ρ k) := by
  unfold amp
  rw [map_mul, Complex.conj_ofReal, dft_real, ksq_neg]

theorem synth_amp (k0 : ℝ) (f : Filter) (R : ℝ) (ρ : Torus L T → ℝ) (x : Torus L T) :
    (smoothed k0 f R ρ x : ℂ) = synth (amp k0 f R ρ) x := by
  have e : (1 / (L * L * T : ℂ)) * ∑ k : Torus L T, (window f (k0 * Real.sqrt (ksq k) * R) : ℂ) *
      dft (fun y => (ρ y : ℂ)) k * wave k x = synth (amp k0 f R ρ) x := by
    unfold synth amp
    rw [mul_sum]
    refine sum_congr rfl fun k _ => ?_
    push_cast
    ring
  unfold smoothed
  rw [e]
  exact Complex.conj_eq_iff_re.1 (synth_real (amp_real k0 f R ρ) x)

omit [NeZero L] [NeZero T] in
theorem ksq_nonneg (k : Torus L T) : (0 : ℝ) ≤ (ksq k : ℝ) := by
  have : 0 ≤ ksq k := by unfold ksq; positivity
  exact_mod_cast this

end

variable {g : Geo} [NeZero g.Lx] [NeZero g.Tz]

theorem modes_shift {ρ : Torus g.Lx g.Tz → ℝ} {w w' : ℕ → Heap ℕ ℝ} {o o' : ℕ} (hm : Modes g o ρ w)
    (h : ∀ r < g.n, ∀ i < total g, w' r (o' + i) = w r (o + i)) : Modes g o' ρ w' := by
  intro r i hr hi
  have := modes_le (g := g)
  rw [← hm r i hr hi]
  exact load_at (n := total g) (by omega) (h r hr)

/-- `toHalf` with the transform in `m2`. -/
theorem toHalf_modes {Ng : ℕ} (hNg : g.Lz ≤ Ng * g.Lx) {ρ : Torus g.Lx g.Tz → ℝ} {w : ℕ → Heap ℕ ℝ}
    (ha : Allocated g Ng w) (hm : Modes g 0 ρ w) :
    ∃ w', toHalf g Ng w = some w' ∧ Modes g 0 ρ w' ∧ Modes g (v3 g Ng) ρ w' ∧ Allocated g Ng w' := by
  obtain ⟨w', e, p⟩ := toHalf_spec hNg ha
  have hle := total_le hNg
  refine ⟨w', e, modes_shift hm fun r hr i hi => (p r hr).2.1 _ (by omega),
    modes_shift hm fun r hr i hi => by rw [(p r hr).1 i hi, Nat.zero_add], fun r hr => (p r hr).2.2⟩

/-- Padding, transform and copy. -/
theorem transform_modes (ok : g.Ok) {Ng : ℕ} (hNg : g.Lz ≤ Ng * g.Lx) {P : Plan} (hP : P.Exact g)
    {ρ : Torus g.Lx g.Tz → ℝ} {w : ℕ → Heap ℕ ℝ} (ha : ∀ r < g.n, WKB.Alloc (v3 g Ng + total g) (w r))
    (hρ : Rows g ρ w) :
    ∃ w', (forward g P w).bind (toHalf g Ng) = some w' ∧ Modes g 0 ρ w' ∧ Modes g (v3 g Ng) ρ w' ∧
      Allocated g Ng w' := by
  have hml := modes_le (g := g)
  obtain ⟨w1, e1, p1⟩ := forward_spec ok hP (N := v3 g Ng + total g) (by omega) ρ ha hρ
  obtain ⟨w2, e2, q⟩ := toHalf_modes hNg (w := w1) (fun r hr => (p1 r hr).2.1)
    (fun r i hr hi => (p1 r hr).1 i hi)
  exact ⟨w2, by rw [e1]; exact e2, q⟩

omit [NeZero g.Lx] [NeZero g.Tz] in
theorem pad_same (ok : g.Ok) {Ng : ℕ} {ρ : Torus g.Lx g.Tz → ℝ} {w : ℕ → Heap ℕ ℝ} (o : Orders)
    (ha : Allocated g Ng w) (hNg : g.Lz ≤ Ng * g.Lx) (hρ : Bare g 0 ρ w) :
    ∃ w', ranks g.n (fun r h => Pad.pad (lay g Ng) .M2 .M2 (o.lines r) h) w = some w' ∧ Rows g ρ w' ∧
      ∀ r < g.n, WKB.Alloc (v3 g Ng + total g) (w' r) := by
  have hle := total_le hNg
  have hlines : g.lines * g.Lx ≤ total g := by
    rw [total_eq]; exact Nat.mul_le_mul_left _ (by omega)
  have hll : (lay g Ng).lines = g.lines := by unfold Pad.Lay.lines lay Geo.lines; exact Nat.mul_comm _ _
  obtain ⟨w', e, p⟩ := ranks_spec (n := g.n) (w := w)
    (f := fun r h => Pad.pad (lay g Ng) .M2 .M2 (o.lines r) h)
    (Q := fun r h => (∀ i < g.vol, h (rowIx g.Lx i) = some (ρ (siteOf g (r * g.vol + i)))) ∧
      WKB.Alloc (v3 g Ng + total g) h)
    (by
      intro r hr
      obtain ⟨h', e, p1, p2⟩ := Pad.C27_pad (lay g Ng) .M2 .M2 (o.lines r) (w r) (Or.inl rfl)
        (by
          rw [hll]
          exact flat_room (N := v3 g Ng + total g) (fun a h => by rw [show (lay g Ng).base .M2 + a = a from Nat.zero_add a]; exact ha r hr a h)
            (show g.lines * g.Lx ≤ _ by omega))
        (by rw [hll]; exact row_room (ha r hr) (show g.lines * (g.Lx + 2) ≤ _ by rw [← total_eq]; omega))
      rw [hll] at p1 p2
      exact ⟨h', e, padded_rows ok (ha r hr) (hρ r · hr) p1 p2⟩)
  exact ⟨w', e, fun r i hr hi => (p r hr).1 i hi, fun r hr => (p r hr).2⟩

omit [NeZero g.Lx] [NeZero g.Tz] in
theorem pad_half (ok : g.Ok) {Ng : ℕ} {ρ : Torus g.Lx g.Tz → ℝ} {w : ℕ → Heap ℕ ℝ} {o : Orders}
    (ho : o.Ok g) (ha : Allocated g Ng w) (hNg : g.Lz ≤ Ng * g.Lx) (hρ : Bare g (v3 g Ng) ρ w) :
    ∃ w', ranks g.n (fun r h => Pad.pad (lay g Ng) .M2H .M2 (o.lines r) h) w = some w' ∧ Rows g ρ w' ∧
      ∀ r < g.n, WKB.Alloc (v3 g Ng + total g) (w' r) := by
  have hle := total_le hNg
  have hlines : g.lines * g.Lx ≤ total g := by
    rw [total_eq]; exact Nat.mul_le_mul_left _ (by omega)
  have hll : (lay g Ng).lines = g.lines := by unfold Pad.Lay.lines lay Geo.lines; exact Nat.mul_comm _ _
  have hb : (lay g Ng).base .M2H = v3 g Ng := Nat.zero_add _
  obtain ⟨w', e, p⟩ := ranks_spec (n := g.n) (w := w)
    (f := fun r h => Pad.pad (lay g Ng) .M2H .M2 (o.lines r) h)
    (Q := fun r h => (∀ i < g.vol, h (rowIx g.Lx i) = some (ρ (siteOf g (r * g.vol + i)))) ∧
      WKB.Alloc (v3 g Ng + total g) h)
    (by
      intro r hr
      obtain ⟨h', e, p1, p2⟩ := Pad.C27_pad_apart (lay g Ng) .M2H .M2 (o.lines r)
        (by rw [hll]; exact ho.lines r hr) (w r)
        (by
          rw [hll, hb]
          intro t ht i hi u hu j hj
          have h1 : t * (g.Lx + 2) + i < g.lines * (g.Lx + 2) :=
            pair_lt ht (show i < g.Lx + 2 from Nat.lt_add_right 2 hi)
          rw [← total_eq] at h1
          show 0 + t * (g.Lx + 2) + i ≠ v3 g Ng + u * g.Lx + j
          omega)
        (by
          rw [hll, hb]
          exact flat_room (N := total g) (fun a h => ha r hr _ (by omega)) hlines)
        (by rw [hll]; exact row_room (ha r hr) (show g.lines * (g.Lx + 2) ≤ _ by rw [← total_eq]; omega))
      rw [hll, hb] at p1
      rw [hll] at p2
      exact ⟨h', e, padded_rows ok (ha r hr) (hρ r · hr) p1 p2⟩)
  exact ⟨w', e, fun r i hr hi => (p r hr).1 i hi, fun r hr => (p r hr).2⟩

theorem prepare_spec (ok : g.Ok) {Ng : ℕ} (hNg : g.Lz ≤ Ng * g.Lx) {P : Plan} (hP : P.Exact g)
    {o : Orders} (ho : o.Ok g) {ρ : Torus g.Lx g.Tz → ℝ} {s : State} (ha : Allocated g Ng s.m2)
    (hs : Available g Ng ρ s) :
    ∃ w, prepare g Ng P o s = some (true, ⟨w, .fft, .fft⟩) ∧ Modes g 0 ρ w ∧ Modes g (v3 g Ng) ρ w ∧
      Allocated g Ng w := by
  obtain ⟨m, st, sth⟩ := s
  unfold prepare
  cases hs with
  | both h1 h2 h3 h4 =>
    dsimp only at h1 h2 h3 h4 ⊢
    subst h1 h2
    exact ⟨m, by rw [if_pos ⟨rfl, rfl⟩], h3, h4, ha⟩
  | m2 h1 h2 h3 =>
    dsimp only at h1 h2 h3 ⊢
    subst h1
    obtain ⟨w, e, q⟩ := toHalf_modes hNg ha h3
    exact ⟨w, by rw [if_neg fun h => h2 h.2, if_pos rfl, e]; rfl, q⟩
  | half h1 h2 h3 =>
    dsimp only at h1 h2 h3 ⊢
    subst h2
    obtain ⟨w, e, q⟩ := fromHalf_spec hNg ha
    have hle := total_le hNg
    refine ⟨w, by rw [if_neg fun h => h1 h.1, if_neg h1, if_pos rfl, e]; rfl,
      modes_shift h3 fun r hr i hi => by rw [Nat.zero_add]; exact (q r hr).1 i hi,
      modes_shift h3 fun r hr i hi => (q r hr).2.1 _ (by omega), fun r hr => (q r hr).2.2⟩
  | energy h1 h2 h3 =>
    dsimp only at h1 h2 h3 ⊢
    subst h1
    obtain ⟨w1, e1, q1, q2⟩ := pad_same ok o ha hNg h3
    obtain ⟨w2, e2, q⟩ := transform_modes ok hNg hP q2 q1
    refine ⟨w2, ?_, q⟩
    rw [if_neg fun h => h2 h.2, if_neg (by decide), if_neg h2, if_pos rfl, e1]
    simp only [Option.bind_eq_bind, Option.bind_some]
    rw [← Option.bind_assoc, e2]
    rfl
  | energyHalf h1 h2 h3 h4 =>
    dsimp only at h1 h2 h3 h4 ⊢
    subst h3
    obtain ⟨w1, e1, q1, q2⟩ := pad_half ok ho ha hNg h4
    obtain ⟨w2, e2, q⟩ := transform_modes ok hNg hP q2 q1
    refine ⟨w2, ?_, q⟩
    rw [if_neg fun h => h1 h.1, if_neg h1, if_neg (by decide), if_neg h2, if_pos rfl, e1]
    simp only [Option.bind_eq_bind, Option.bind_some]
    rw [← Option.bind_assoc, e2]
    rfl

theorem filterAll_spec (ok : g.Ok) {Ng : ℕ} {o : Orders} (ho : o.Ok g) {k0 R : ℝ} (hk0 : 0 ≤ k0)
    (hR : 0 ≤ R) (f : Filter) {ρ : Torus g.Lx g.Tz → ℝ} {w : ℕ → Heap ℕ ℝ} (ha : Allocated g Ng w)
    (hm : Modes g 0 ρ w) :
    ∃ w', filterAll g k0 R f o w = some w' ∧ ∀ r < g.n, WKB.Alloc (v3 g Ng + total g) (w' r) ∧
      (∀ i < g.modes, load (w' r) 0 i = some (amp k0 f R ρ (modeOf g r i))) ∧
      ∀ a, total g ≤ a → w' r a = w r a := by
  have hml := modes_le (g := g)
  refine ranks_spec (n := g.n) (w := w)
    (Q := fun r h => WKB.Alloc (v3 g Ng + total g) h ∧
      (∀ i < g.modes, load h 0 i = some (amp k0 f R ρ (modeOf g r i))) ∧
      ∀ a, total g ≤ a → h a = w r a) ?_
  intro r hr
  obtain ⟨h', e, p1, p2, p3⟩ := filter_rank ok (f := f) (nrm := 1 / ((g.Lx * g.Lx * g.Tz : ℕ) : ℝ))
    (k0R := k0 * R) hr (N := v3 g Ng + total g) (by omega) (ho.modes r hr) (ha r hr)
    (H := dft fun x => (ρ x : ℂ)) (hm r · hr)
  refine ⟨h', e, p1, fun i hi => ?_, fun a h => p3 a (by omega)⟩
  rw [p2 i hi, weight_eq hk0 hR (ksq_nonneg _), amp, mul_comm]

end Jaxions.SmoothF
