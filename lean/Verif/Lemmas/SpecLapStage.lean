import Verif.Lemmas.SpecLapModes
import Verif.Lemmas.SpecLapWaves
/-
Helper lemmas for C82: the arrays of a stage.
-/
namespace Jaxions.SpecLap

open Gravity WKB

variable {g : Gravity.Geo} [NeZero g.Lx] [NeZero g.Tz]

omit [NeZero g.Lx] [NeZero g.Tz] in
theorem modeW_half (r i : ℕ) : modeW g (width g true) r i = modeOf g r i := rfl

omit [NeZero g.Lx] [NeZero g.Tz] in
theorem modeW_full (r i : ℕ) : modeW g (width g false) r i = modeFull g r i := rfl

/-- The weighted spectrum. -/
noncomputable def weighted (f : Torus g.Lx g.Tz → ℂ) (k : Torus g.Lx g.Tz) : ℂ :=
  dft f k * (ksq k : ℂ)

theorem weighted_real (ρ : Torus g.Lx g.Tz → ℝ) (k : Torus g.Lx g.Tz) :
    weighted (fun x => (ρ x : ℂ)) (-k) = starRingEnd ℂ (weighted (fun x => (ρ x : ℂ)) k) := by
  unfold weighted
  rw [dft_real, ksq_neg, map_mul, map_intCast]

theorem fMom_synth (ℓ : ℝ) (f : Torus g.Lx g.Tz → ℂ) (x : Torus g.Lx g.Tz) :
    (fMom g ℓ : ℂ) * synth (weighted f) x = lapS (2 * Real.pi / ℓ) f x := by
  have hN := card_ne (L := g.Lx) (T := g.Tz)
  unfold lapS synth weighted
  rw [Finset.mul_sum, Finset.mul_sum]
  refine Finset.sum_congr rfl fun k _ => ?_
  unfold fMom
  push_cast
  rw [div_pow, neg_div, ← div_div]
  by_cases hℓ : (ℓ : ℂ) = 0
  · rw [hℓ]; simp
  · field_simp
    ring

theorem modes_le (g : Gravity.Geo) : 2 * g.modes ≤ g.lines * (g.Lx + 2) := by
  unfold Geo.modes Geo.lines Geo.hLx
  have : 2 * (g.Lx / 2 + 1) ≤ g.Lx + 2 := by omega
  calc 2 * (g.Lx * (g.Lx / 2 + 1) * g.Lz) = g.Lz * g.Lx * (2 * (g.Lx / 2 + 1)) := by ring
    _ ≤ _ := Nat.mul_le_mul_left _ this

theorem tLap_spec (ok : g.Ok) {P : Plan} (hP : P.Exact g) {N : ℕ} (hN : g.lines * (g.Lx + 2) ≤ N)
    {order : ℕ → List (ℕ × ℕ × ℕ)} (ho : ∀ r < g.n, (order r).Perm (iterations g true))
    {m2 : ℕ → Heap ℕ ℝ} (ρ : Torus g.Lx g.Tz → ℝ) (ha : ∀ r, r < g.n → WKB.Alloc N (m2 r))
    (hρ : ∀ r i, r < g.n → i < g.vol → m2 r (rowIx g.Lx i) = some (ρ (siteOf g (r * g.vol + i)))) :
    ∃ m2', tLap g P order m2 = some m2' ∧ ∀ r, r < g.n →
      (∀ i, i < g.vol → m2' r (rowIx g.Lx i) =
        some (synth (weighted fun x => (ρ x : ℂ)) (siteOf g (r * g.vol + i))).re) ∧
      WKB.Alloc N (m2' r) := by
  have hM : 2 * g.modes ≤ N := (modes_le g).trans hN
  obtain ⟨w1, e1, h1⟩ := forward_spec ok hP hM ρ ha hρ
  obtain ⟨w2, e2, h2⟩ := ranks_spec (n := g.n) (w := w1)
    (f := fun r h => weigh pairsOf g true r (order r) h)
    (Q := fun r h => WKB.Alloc N h ∧ ∀ i < count g true, pairsOf.load h i =
      some (weighted (fun x => (ρ x : ℂ)) (modeOf g r i)))
    (by
      intro r hr
      obtain ⟨h', e, p1, p2⟩ := weigh_spec ok true
        (lawful_pairs (N := N) (n := count g true) (by rw [count_half ok]; exact hM)) hr (ho r hr)
        (h := w1 r) (h1 r hr).2.1 (H := dft fun x => (ρ x : ℂ))
        (fun i hi => (h1 r hr).1 i (by rw [← count_half ok]; exact hi))
      exact ⟨h', e, p1, p2⟩)
  obtain ⟨w3, e3, h3⟩ := backward_spec ok hP hN (w := w2)
    (H := weighted fun x => (ρ x : ℂ)) (weighted_real ρ) (fun r hr => (h2 r hr).1)
    (fun r i hr hi => (h2 r hr).2 i (by rw [count_half ok]; exact hi))
  refine ⟨w3, ?_, h3⟩
  unfold tLap
  rw [e1]
  simp only [Option.bind_eq_bind, Option.bind_some]
  rw [e2]
  exact e3

theorem rowIx_padIx (Lx i : ℕ) : Spectral.padIx Lx i = rowIx Lx i := by
  unfold Spectral.padIx rowIx; omega

theorem withM2_m {K : Type} (x : Heap ℕ K) (h : Heap Loc K) (i : ℕ) :
    withM2 x h ⟨.m, i⟩ = h ⟨.m, i⟩ := by simp [withM2]

theorem withM2_v {K : Type} (x : Heap ℕ K) (h : Heap Loc K) (i : ℕ) :
    withM2 x h ⟨.v, i⟩ = h ⟨.v, i⟩ := by simp [withM2]

theorem withM2_m2 {K : Type} (x : Heap ℕ K) (h : Heap Loc K) (i : ℕ) :
    withM2 x h ⟨.m2, i⟩ = x i := by simp [withM2]

omit [NeZero g.Lx] [NeZero g.Tz] in
/-- The last loop of a stage, both kinds of field. -/
theorem kernel_shows {K : Type} (upd : Spectral.Upd K) {step : ℕ} (hs : 0 < step) (hd : step ∣ g.vol)
    (m2ix : ℕ → ℕ) (lanes : ℕ → List (ℕ × ℕ))
    (ho : ∀ r < g.n, (lanes r).Perm (Spectral.lanes (g.Lx * g.Lx) (g.vol + g.Lx * g.Lx) step)) {N : ℕ}
    {s : (Torus g.Lx g.Tz → K) × (Torus g.Lx g.Tz → K)} {w : ℕ → Heap Loc K} (H : Shows g N s w)
    {m2 : ℕ → Heap ℕ K} (ha : ∀ r i, r < g.n → i < N → (m2 r i).isSome) (C : Torus g.Lx g.Tz → K)
    (hC : ∀ r i, r < g.n → i < g.vol → m2 r (m2ix (i / step * step) + i % step) =
      some (C (siteOf g (r * g.vol + i)))) :
    ∃ w', ranks g.n (fun r h => Spectral.kernel upd (g.Lx * g.Lx) m2ix (lanes r) (withM2 (m2 r) h)) w =
        some w' ∧
      Shows g N (fun x => (upd (s.1 x) (s.2 x) (C x)).1, fun x => (upd (s.1 x) (s.2 x) (C x)).2) w' := by
  obtain ⟨w', e, hw⟩ := ranks_spec (n := g.n) (w := w)
    (f := fun r h => Spectral.kernel upd (g.Lx * g.Lx) m2ix (lanes r) (withM2 (m2 r) h))
    (Q := fun r h => (∀ i, i < g.vol → h ⟨.m, g.Lx * g.Lx + i⟩ =
        some (upd (s.1 (siteOf g (r * g.vol + i))) (s.2 (siteOf g (r * g.vol + i)))
          (C (siteOf g (r * g.vol + i)))).1) ∧
      (∀ i, i < g.vol → h ⟨.v, i⟩ =
        some (upd (s.1 (siteOf g (r * g.vol + i))) (s.2 (siteOf g (r * g.vol + i)))
          (C (siteOf g (r * g.vol + i)))).2) ∧
      ∀ i, i < N → (h ⟨.m2, i⟩).isSome)
    (by
      intro r hr
      obtain ⟨h', k1, k2, k3, k4⟩ := Spectral.kernel_spec upd (g.Lx * g.Lx) g.vol step hs hd m2ix
        (ho r hr) (withM2 (m2 r) (w r)) (fun i => s.1 (siteOf g (r * g.vol + i)))
        (fun i => s.2 (siteOf g (r * g.vol + i))) (fun i => C (siteOf g (r * g.vol + i)))
        (fun i hi => by rw [withM2_m]; exact H.m r i hr hi)
        (fun i hi => by rw [withM2_v]; exact H.v r i hr hi)
        (fun i hi => by rw [withM2_m2]; exact hC r i hr hi)
      refine ⟨h', k1, k2, k3, ?_⟩
      intro i hi
      rw [k4 _ (fun j _ => ⟨by simp, by simp⟩), withM2_m2]
      exact ha r i hr hi)
  exact ⟨w', e, fun r i hr hi => (hw r hr).1 i hi, fun r i hr hi => (hw r hr).2.1 i hi,
    fun r i hr hi => (hw r hr).2.2 i hi⟩

/-! ### Saxion -/

theorem cForward_spec (ok : g.Ok) {P : CPlan} (hP : P.Exact g) {N : ℕ} (hN : g.vol ≤ N)
    {m m2 : ℕ → Heap ℕ ℂ} (f : Torus g.Lx g.Tz → ℂ) (ha : ∀ r i, r < g.n → i < N → (m2 r i).isSome)
    (hm : ∀ r i, r < g.n → i < g.vol → m r (1 * (g.Lx * g.Lx) + i) =
      some (f (siteOf g (r * g.vol + i)))) :
    ∃ m2', cForward g 1 P m m2 = some m2' ∧ ∀ r, r < g.n →
      (∀ i, i < g.vol → m2' r i = some (dft f (modeFull g r i))) ∧
      ∀ i, i < N → (m2' r i).isSome := by
  have hv := vol_pos ok
  have hread := readAll_map (g.n * g.vol) (fun i => (i / g.vol, 1 * (g.Lx * g.Lx) + i % g.vol))
    (fun i => f (siteOf g i)) (fun p : ℕ × ℕ => m p.1 p.2)
    (by
      intro i hi
      have hr : i / g.vol < g.n := (Nat.div_lt_iff_lt_mul hv).2 hi
      have hm' : i % g.vol < g.vol := Nat.mod_lt _ hv
      dsimp only
      rw [hm _ _ hr hm', div_mul_add_mod])
  unfold cForward
  rw [hread]
  simp only [Option.bind_eq_bind, Option.bind_some]
  refine ranks_spec (n := g.n) (w := m2)
    (Q := fun r (h : Heap ℕ ℂ) => (∀ i, i < g.vol → h i = some (dft f (modeFull g r i))) ∧
      ∀ i, i < N → (h i).isSome) ?_
  intro r hr
  obtain ⟨h', e, p1, p2⟩ := writeAll_spec ((List.range g.vol).map fun i =>
      (i, P.fwd ((List.range (g.n * g.vol)).map fun i => f (siteOf g i)) r i)) (m2 r)
    (by
      intro p hp
      obtain ⟨i, hi, rfl⟩ := List.mem_map.1 hp
      exact ha r i hr ((List.mem_range.1 hi).trans_le hN))
    (by
      rw [List.map_map]
      exact List.Nodup.map (fun _ _ h => h) List.nodup_range)
  refine ⟨h', e, ?_, ?_⟩
  · intro i hi
    rw [← hP.fwd f r i hr hi]
    exact p1 (i, _) (List.mem_map.2 ⟨i, List.mem_range.2 hi, rfl⟩)
  · intro i hi
    rw [writeAll_isSome _ e i]
    exact ha r i hr hi

theorem sLap_spec (ok : g.Ok) {P : CPlan} (hP : P.Exact g) {N : ℕ} (hN : g.vol ≤ N)
    {order : ℕ → List (ℕ × ℕ × ℕ)} (ho : ∀ r < g.n, (order r).Perm (iterations g false))
    {m m2 : ℕ → Heap ℕ ℂ} (f : Torus g.Lx g.Tz → ℂ) (ha : ∀ r i, r < g.n → i < N → (m2 r i).isSome)
    (hm : ∀ r i, r < g.n → i < g.vol → m r (1 * (g.Lx * g.Lx) + i) =
      some (f (siteOf g (r * g.vol + i)))) :
    ∃ m2', sLap g 1 P order m m2 = some m2' ∧ ∀ r, r < g.n →
      (∀ i, i < g.vol → m2' r i = some (synth (weighted f) (siteOf g (r * g.vol + i)))) ∧
      ∀ i, i < N → (m2' r i).isSome := by
  obtain ⟨w1, e1, h1⟩ := cForward_spec ok hP hN f ha hm
  obtain ⟨w2, e2, h2⟩ := ranks_spec (n := g.n) (w := w1)
    (f := fun r h => weigh single g false r (order r) h)
    (Q := fun r h => (∀ i, i < N → (h i).isSome) ∧ ∀ i < count g false, single.load h i =
      some (weighted f (modeFull g r i)))
    (by
      intro r hr
      obtain ⟨h', e, p1, p2⟩ := weigh_spec ok false
        (lawful_single (N := N) (n := count g false) (by rw [count_full ok]; exact hN)) hr (ho r hr)
        (h := w1 r) (h1 r hr).2 (H := dft f)
        (fun i hi => (h1 r hr).1 i (by rw [← count_full ok]; exact hi))
      exact ⟨h', e, p1, p2⟩)
  obtain ⟨F, eF, hF⟩ := hP.bck (fun r i => w2 r i) (weighted f)
    (fun r i hr hi => (h2 r hr).2 i (by rw [count_full ok]; exact hi))
  have e3 : ∃ w3, cBackward g P w2 = some w3 ∧ ∀ r, r < g.n →
      (∀ i, i < g.vol → w3 r i = some (synth (weighted f) (siteOf g (r * g.vol + i)))) ∧
      ∀ i, i < N → (w3 r i).isSome := by
    unfold cBackward
    rw [eF]
    simp only [Option.bind_eq_bind, Option.bind_some]
    refine ranks_spec (n := g.n) (w := w2)
      (Q := fun r (h : Heap ℕ ℂ) => (∀ i, i < g.vol →
        h i = some (synth (weighted f) (siteOf g (r * g.vol + i)))) ∧
        ∀ i, i < N → (h i).isSome) ?_
    intro r hr
    obtain ⟨h', e, p1, p2⟩ := writeAll_spec ((List.range g.vol).map fun i =>
        (i, F (r * g.vol + i))) (w2 r)
      (by
        intro p hp
        obtain ⟨i, hi, rfl⟩ := List.mem_map.1 hp
        exact (h2 r hr).1 i ((List.mem_range.1 hi).trans_le hN))
      (by
        rw [List.map_map]
        exact List.Nodup.map (fun _ _ h => h) List.nodup_range)
    refine ⟨h', e, ?_, ?_⟩
    · intro i hi
      rw [← hF (r * g.vol + i) (pair_lt hr hi)]
      exact p1 (i, _) (List.mem_map.2 ⟨i, List.mem_range.2 hi, rfl⟩)
    · intro i hi
      rw [writeAll_isSome _ e i]
      exact (h2 r hr).1 i hi
  obtain ⟨w3, e3, h3⟩ := e3
  refine ⟨w3, ?_, h3⟩
  unfold sLap
  rw [e1]
  simp only [Option.bind_eq_bind, Option.bind_some]
  rw [e2]
  exact e3

end Jaxions.SpecLap
