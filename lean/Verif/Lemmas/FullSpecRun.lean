import Verif.Lemmas.FullSpecStage
/-
Helper lemmas for C83: a run of an Axion.
-/
namespace Jaxions.FullSpec

open Gravity WKB

section
variable {g : Gravity.Geo} [NeZero g.Lx] [NeZero g.Tz]

omit [NeZero g.Lx] [NeZero g.Tz] in
theorem pad_spec (ok : g.Ok) {Q o : ℕ} (hQ : g.lines * (g.Lx + 2) ≤ Q) {w m2 : ℕ → Heap ℕ ℝ}
    {f : Torus g.Lx g.Tz → ℝ} (a2 : ∀ r < g.n, WKB.Alloc Q (m2 r))
    (hw : ∀ r i, r < g.n → i < g.vol → w r (o + i) = some (f (siteOf g (r * g.vol + i)))) :
    ∃ m2', pad g o w m2 = some m2' ∧ ∀ r < g.n, WKB.Alloc Q (m2' r) ∧
      ∀ i < g.vol, m2' r (rowIx g.Lx i) = some (f (siteOf g (r * g.vol + i))) := by
  unfold pad
  refine ranks_spec (n := g.n) (w := m2)
    (Q := fun r (h : Heap ℕ ℝ) => WKB.Alloc Q h ∧
      ∀ i < g.vol, h (rowIx g.Lx i) = some (f (siteOf g (r * g.vol + i)))) ?_
  intro r hr
  obtain ⟨d, e, p1, p2, -⟩ := copyLines_spec (ss := g.lines) ok.side (List.Perm.refl _) (src := w r)
    (o := o) (fun i hi => by rw [hw r i hr (by rw [vol_eq]; exact hi)]; rfl) (a2 r hr) hQ
  refine ⟨d, e, p2, ?_⟩
  intro i hi
  rw [p1 i (by rw [← vol_eq]; exact hi), hw r i hr hi]

omit [NeZero g.Lx] [NeZero g.Tz] in
theorem unpad_spec (ok : g.Ok) {Q o : ℕ} (hQ : o + g.vol ≤ Q) {w m2 : ℕ → Heap ℕ ℝ}
    {f : Torus g.Lx g.Tz → ℝ} (a : ∀ r < g.n, WKB.Alloc Q (w r))
    (hm : ∀ r i, r < g.n → i < g.vol → m2 r (rowIx g.Lx i) = some (f (siteOf g (r * g.vol + i)))) :
    ∃ w', unpad g o m2 w = some w' ∧ ∀ r < g.n, WKB.Alloc Q (w' r) ∧
      ∀ i < g.vol, w' r (o + i) = some (f (siteOf g (r * g.vol + i))) := by
  unfold unpad
  refine ranks_spec (n := g.n) (w := w)
    (Q := fun r (h : Heap ℕ ℝ) => WKB.Alloc Q h ∧
      ∀ i < g.vol, h (o + i) = some (f (siteOf g (r * g.vol + i)))) ?_
  intro r hr
  obtain ⟨d, e, p1, p2⟩ := backLines_spec (ss := g.lines) (Q := Q) ok.side (src := m2 r) (dst := w r)
    (o := o) (fun i hi => by rw [hm r i hr (by rw [vol_eq]; exact hi)]; rfl) (a r hr)
    (by rw [← vol_eq]; exact hQ)
  refine ⟨d, e, p2, ?_⟩
  intro i hi
  rw [p1 i (by rw [← vol_eq]; exact hi), hm r i hr hi]

/-- Amplitudes of a real field. -/
noncomputable abbrev coefR (f : Torus g.Lx g.Tz → ℝ) : Torus g.Lx g.Tz → ℂ := coef g fun x => (f x : ℂ)

theorem toModes_spec (ok : g.Ok) {P : Plan} (hP : P.Exact g) {Ng Q : ℕ}
    (hQ : g.lines * (g.Lx + 2) ≤ Q) {s : (Torus g.Lx g.Tz → ℝ) × (Torus g.Lx g.Tz → ℝ)} {w : ℕ → Mem}
    (H : Shows g Ng Q s w) :
    ∃ w', toModes g Ng Q P w = some w' ∧ InModes g Q (coefR s.1) (coefR s.2) w' := by
  have hM := SpecLap.modes_le g
  obtain ⟨m2, e1, h1⟩ := pad_spec ok (Q := Q) (o := start g Ng) hQ (w := fun r => (w r).m)
    (m2 := fun r => (w r).m2) (f := s.1) (fun r hr a ha => (H.room r a hr ha).2.2) H.m
  obtain ⟨m, e2, h2⟩ := fwdTo_spec ok hP (N := Q) (by omega) (src := m2) (dst := fun r => (w r).m) s.1
    (fun r hr a ha => (H.room r a hr ha).1) (fun r i hr hi => (h1 r hr).2 i hi)
  obtain ⟨m', e3, h3⟩ := scale_modes (g := g) (Q := Q) (norm g) (n := g.modes) (by omega)
    (fun r hr => (h2 r hr).2) (H := fun r i => dft (fun x => (s.1 x : ℂ)) (modeOf g r i))
    (fun r hr i hi => (h2 r hr).1 i hi)
  obtain ⟨m2', e4, h4⟩ := pad_spec ok (Q := Q) (o := 0) hQ (w := fun r => (w r).v)
    (m2 := m2) (f := s.2) (fun r hr => (h1 r hr).1)
    (fun r i hr hi => by rw [Nat.zero_add]; exact H.v r i hr hi)
  obtain ⟨v, e5, h5⟩ := fwdTo_spec ok hP (N := Q) (by omega) (src := m2') (dst := fun r => (w r).v) s.2
    (fun r hr a ha => (H.room r a hr ha).2.1) (fun r i hr hi => (h4 r hr).2 i hi)
  obtain ⟨v', e6, h6⟩ := scale_modes (g := g) (Q := Q) (norm g) (n := g.modes) (by omega)
    (fun r hr => (h5 r hr).2) (H := fun r i => dft (fun x => (s.2 x : ℂ)) (modeOf g r i))
    (fun r hr i hi => (h5 r hr).1 i hi)
  refine ⟨fun r => ⟨m' r, v' r, m2' r⟩, ?_, fun r hr => (h3 r hr).1, fun r hr => (h6 r hr).1,
    fun r hr => (h4 r hr).1, fun r hr i hi => (h3 r hr).2 i hi, fun r hr i hi => (h6 r hr).2 i hi⟩
  unfold toModes
  simp only [Option.bind_eq_bind]
  rw [e1]
  simp only [Option.bind_some]
  rw [e2]
  simp only [Option.bind_some]
  rw [e3]
  simp only [Option.bind_some]
  rw [e4]
  simp only [Option.bind_some]
  rw [e5]
  simp only [Option.bind_some]
  rw [e6]
  rfl

theorem fromModes_spec (ok : g.Ok) {L : Lib} (hP : L.plan.Exact g) {Ng Q : ℕ}
    (hQ : g.lines * (g.Lx + 2) ≤ Q) (hQ' : start g Ng + g.vol ≤ Q)
    (hl : ∀ r h, WKB.Alloc Q h → WKB.Alloc Q (L.left r h))
    {A B : Torus g.Lx g.Tz → ℂ} (hA : ∀ k, A (-k) = starRingEnd ℂ (A k))
    (hB : ∀ k, B (-k) = starRingEnd ℂ (B k)) {w : ℕ → Mem} (H : InModes g Q A B w) :
    ∃ w', fromModes g Ng L w = some w' ∧
      Shows g Ng Q (fun x => (synth A x).re, fun x => (synth B x).re) w' := by
  obtain ⟨m2, e1, h1⟩ := bckTo_spec ok hP (N := Q) hQ (src := fun r => (w r).m)
    (dst := fun r => (w r).m2) hA H.a2 (fun r i hr hi => H.m r hr i hi)
  obtain ⟨m, e2, h2⟩ := unpad_spec ok (Q := Q) (o := start g Ng) hQ' (w := fun r => L.left r (w r).m)
    (m2 := m2) (f := fun x => (synth A x).re) (fun r hr => hl r _ (H.am r hr))
    (fun r i hr hi => (h1 r hr).1 i hi)
  obtain ⟨m2', e3, h3⟩ := bckTo_spec ok hP (N := Q) hQ (src := fun r => (w r).v)
    (dst := m2) hB (fun r hr => (h1 r hr).2) (fun r i hr hi => H.v r hr i hi)
  obtain ⟨v, e4, h4⟩ := unpad_spec ok (Q := Q) (o := 0) (by omega) (w := fun r => L.left r (w r).v)
    (m2 := m2') (f := fun x => (synth B x).re) (fun r hr => hl r _ (H.av r hr))
    (fun r i hr hi => (h3 r hr).1 i hi)
  refine ⟨fun r => ⟨m r, v r, m2' r⟩, ?_, fun r i hr hi => (h2 r hr).2 i hi, fun r i hr hi => ?_,
    fun r a hr ha => ⟨(h2 r hr).1 a ha, (h4 r hr).1 a ha, (h3 r hr).2 a ha⟩⟩
  · unfold fromModes
    simp only [Option.bind_eq_bind]
    rw [e1]
    simp only [Option.bind_some]
    rw [e2]
    simp only [Option.bind_some]
    rw [e3]
    simp only [Option.bind_some]
    rw [e4]
    rfl
  · have := (h4 r hr).2 i hi
    rw [Nat.zero_add] at this
    exact this

theorem coefR_re {A : Torus g.Lx g.Tz → ℂ} (hA : ∀ k, A (-k) = starRingEnd ℂ (A k)) :
    coefR (fun x => (synth A x).re) = A := by
  have : (fun x => (((synth A x).re : ℝ) : ℂ)) = synth A := funext fun x => synth_re hA x
  unfold coefR
  rw [this, coef_synth]

theorem synth_coefR (f : Torus g.Lx g.Tz → ℝ) (x : Torus g.Lx g.Tz) : (synth (coefR f) x).re = f x := by
  unfold coefR
  rw [synth_coef, Complex.ofReal_re]

theorem tAcc_eq (p : Par) (x : ℝ) :
    tAcc p x = p.Rpp * x - p.mA2 * p.R ^ 3 * Real.sin (x / p.R) := by
  unfold tAcc
  dsimp only
  rw [mul_one_div]
  ring

/-- The velocity after the kick. -/
theorem kicked (p : Par) (s : (Torus g.Lx g.Tz → ℝ) × (Torus g.Lx g.Tz → ℝ)) :
    (fun k => coefR s.2 k + coef g (fun x => ((tAcc p (synth (coefR s.1) x).re : ℝ) : ℂ)) k *
      ((p.dz * p.c : ℝ) : ℂ)) =
    coefR (kick (fun φ x => p.Rpp * φ x - p.mA2 * p.R ^ 3 * Real.sin (φ x / p.R)) (p.dz * p.c) s).2 := by
  funext k
  unfold coefR kick
  rw [← coef_add]
  congr 1
  funext x
  dsimp only
  rw [show (synth (coef g fun x => (s.1 x : ℂ)) x).re = s.1 x from synth_coefR s.1 x, tAcc_eq, smul_eq_mul]
  push_cast
  ring

/-- A stage that starts from `s`, where the library leaves the amplitudes of `f` instead of those of
the field. -/
theorem tStage_left (ok : g.Ok) {L : Lib} (hP : L.plan.Exact g) {p : Par} (hℓ : p.ℓ ≠ 0)
    (bad : ℂ × ℂ) {Q step : ℕ} (hs : 0 < step)
    (hQ : g.lines * (g.Lx + 2) + 2 * step ≤ Q) {o : ℕ → Orders} (ho : ∀ r < g.n, (o r).Ok g step)
    {s : (Torus g.Lx g.Tz → ℝ) × (Torus g.Lx g.Tz → ℝ)} {f : Torus g.Lx g.Tz → ℝ} {w : ℕ → Mem}
    (H : InModes g Q (coefR s.1) (coefR s.2) w) (hl : ∀ r < g.n, WKB.Alloc Q (L.left r (w r).m))
    (hl' : ∀ r < g.n, ∀ i < g.modes, load (L.left r (w r).m) 0 i = some (coefR f (modeOf g r i))) :
    ∃ w' s', tStage g Q L false bad p o w = some w' ∧ InModes g Q (coefR s'.1) (coefR s'.2) w' ∧
      Wave (lapR p.ℓ) (fun _ => (0 : ℝ)) (p.dz * p.d)
        (f, (kick (fun φ x => p.Rpp * φ x - p.mA2 * p.R ^ 3 * Real.sin (φ x / p.R))
          (p.dz * p.c) s).2) s' := by
  obtain ⟨w', e, h⟩ := tStage_spec ok hP hℓ bad hs hQ ho (coef_real s.1) H hl hl'
  rw [kicked p s] at h
  have hB := coef_real (kick (fun φ x => p.Rpp * φ x - p.mA2 * p.R ^ 3 * Real.sin (φ x / p.R))
    (p.dz * p.c) s).2
  have hn := fun k => sol_neg (k₀ := 2 * Real.pi / p.ℓ) (I := 0) (J := 0) (coef_real f) hB (p.dz * p.d) k
  have hw := wave_modes_real hℓ (coef_real f) hB (p.dz * p.d)
  simp only [synth_coefR] at hw
  refine ⟨w', _, e, ?_, hw⟩
  rw [coefR_re (fun k => by rw [hn k]), coefR_re (fun k => by rw [hn k])]
  exact h

theorem tStages_spec (ok : g.Ok) {L : Lib} (hL : L.Keeps g) (bad : ℂ × ℂ) {Q step : ℕ} (hs : 0 < step)
    (hQ : g.lines * (g.Lx + 2) + 2 * step ≤ Q) (ss : List (Par × (ℕ → Orders)))
    (hss : ∀ q ∈ ss, q.1.ℓ ≠ 0 ∧ ∀ r < g.n, (q.2 r).Ok g step) :
    ∀ (s : (Torus g.Lx g.Tz → ℝ) × (Torus g.Lx g.Tz → ℝ)) (w : ℕ → Mem),
      InModes g Q (coefR s.1) (coefR s.2) w →
      ∃ w' s', tStages g Q L false bad ss w = some w' ∧ InModes g Q (coefR s'.1) (coefR s'.2) w' ∧
        Steps AxionStage (ss.map Prod.fst) s s' := by
  induction ss with
  | nil => exact fun s w H => ⟨w, s, rfl, H, rfl⟩
  | cons q ss ih =>
    intro s w H
    obtain ⟨h1, h2⟩ := hss q (by simp)
    obtain ⟨w1, s1, e1, H1, hw⟩ := tStage_left ok hL.plan h1 bad hs hQ h2 (f := s.1) H
      (fun r hr => by rw [hL.left]; exact H.am r hr) (fun r hr i hi => by rw [hL.left]; exact H.m r hr i hi)
    obtain ⟨w2, s2, e2, H2, hs2⟩ := ih (fun q' hq' => hss q' (by simp [hq'])) s1 w1 H1
    refine ⟨w2, s2, ?_, H2, s1, hw, hs2⟩
    unfold tStages
    rw [e1]
    exact e2

end

end Jaxions.FullSpec
