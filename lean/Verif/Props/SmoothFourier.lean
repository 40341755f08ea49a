import Verif.Lemmas.SmoothFourierRun
/-
**C85** Smoothing of the energy map in Fourier space: what `smoothFourier` leaves in memory.

The transform library is taken to be exact (`Gravity.Plan.Exact`).
-/
namespace Jaxions.SmoothF

open Finset Gravity WKB

variable {g : Geo} [NeZero g.Lx] [NeZero g.Tz]

/-- C85.  Wherever the density is found (bare or transformed, in `m2` or in `m2half`), on any number of
ranks and in any order of the threads, a call leaves the smoothed density in the rows of `m2` and the
transform of the original in `m2half`, and the status says so. -/
theorem C85_smooth (ok : g.Ok) {Ng : ℕ} (hNg : g.Lz ≤ Ng * g.Lx) {P : Plan} (hP : P.Exact g)
    {k0 R : ℝ} (hk0 : 0 ≤ k0) (hR : 0 ≤ R) (f : Filter) {o : Orders} (ho : o.Ok g)
    {ρ : Torus g.Lx g.Tz → ℝ} {s : State} (ha : Allocated g Ng s.m2) (hs : Available g Ng ρ s) :
    ∃ s', smoothFourier g Ng P k0 R f o s = some s' ∧ Rows g (smoothed k0 f R ρ) s'.m2 ∧
      Modes g (v3 g Ng) ρ s'.m2 ∧ Allocated g Ng s'.m2 ∧ s'.st = .smooth ∧ s'.sth = .fft := by
  obtain ⟨w1, e1, p1, p2, p3⟩ := prepare_spec ok hNg hP ho ha hs
  obtain ⟨w2, e2, q⟩ := filterAll_spec ok ho hk0 hR f p3 p1
  have hle := total_le hNg
  obtain ⟨w3, e3, t⟩ := backward_frame ok hP (N := v3 g Ng + total g) (by rw [← total_eq]; omega)
    (amp_real k0 f R ρ) (fun r hr => (q r hr).1) (fun r i hr hi => (q r hr).2.1 i hi)
  refine ⟨⟨w3, .smooth, .fft⟩, ?_, ?_, ?_, fun r hr => (t r hr).2.1, rfl, rfl⟩
  · unfold smoothFourier
    rw [e1]
    simp only [Option.bind_eq_bind, Option.bind_some]
    rw [if_pos trivial, e2]
    simp only [Option.bind_some]
    rw [e3]
    rfl
  · intro r i hr hi
    show w3 r _ = _
    rw [(t r hr).1 i hi, ← synth_amp, Complex.ofReal_re]
  · refine modes_shift p2 fun r hr i hi => ?_
    show w3 r _ = _
    rw [(t r hr).2.2 _ (by rw [← total_eq]; omega), (q r hr).2.2 _ (by omega)]

/-- C85.  Any sequence of calls, with any lengths and filters, and with any other use of `m2` in
between: every call smooths the original density, not the result of the call before. -/
theorem C85_calls (ok : g.Ok) {Ng : ℕ} (hNg : g.Lz ≤ Ng * g.Lx) {P : Plan} (hP : P.Exact g)
    {k0 : ℝ} (hk0 : 0 ≤ k0) {R : ℕ → ℝ} (hR : ∀ j, 0 ≤ R j) (f : ℕ → Filter) {o : ℕ → Orders}
    (ho : ∀ j, (o j).Ok g) {ρ : Torus g.Lx g.Tz → ℝ} {s s' : ℕ → State}
    (ha : Allocated g Ng (s 0).m2) (hs : Available g Ng ρ (s 0))
    (call : ∀ j, smoothFourier g Ng P k0 (R j) (f j) (o j) (s j) = some (s' j))
    (kept : ∀ j, Kept g Ng (s' j) (s (j + 1))) (j : ℕ) :
    Rows g (smoothed k0 (f j) (R j) ρ) (s' j).m2 := by
  have inv : ∀ j, Allocated g Ng (s j).m2 ∧ Available g Ng ρ (s j) := by
    intro j
    induction j with
    | zero => exact ⟨ha, hs⟩
    | succ j ih =>
      obtain ⟨t, e, _, p2, _, _, p5⟩ := C85_smooth ok hNg hP hk0 (hR j) (f j) (ho j) ih.1 ih.2
      rw [call j] at e
      obtain rfl := Option.some.inj e
      have k := kept j
      refine ⟨k.alloc, .half k.st (k.sth.trans p5) ?_⟩
      exact modes_shift p2 fun r hr i _ => k.half r hr _ (Nat.le_add_right _ _)
  obtain ⟨t, e, p1, _⟩ := C85_smooth ok hNg hP hk0 (hR j) (f j) (ho j) (inv j).1 (inv j).2
  rw [call j] at e
  obtain rfl := Option.some.inj e
  exact p1

omit [NeZero g.Lx] [NeZero g.Tz] in
/-- C85.  The `unpad(PFIELD_M2,PFIELD_M2)` between the calls of /repo/lib/meas/measa.cpp:344-371 leaves
the smoothed density without padding, and is one of the uses of `m2` allowed in `C85_calls`. -/
theorem C85_unpad (ok : g.Ok) {Ng : ℕ} (hNg : g.Lz ≤ Ng * g.Lx) {σ : Torus g.Lx g.Tz → ℝ} {s : State}
    (ha : Allocated g Ng s.m2) (hσ : Rows g σ s.m2) (sched : ℕ → List ℕ) :
    ∃ w, ranks g.n (fun r h => Pad.unpad (lay g Ng) .M2 .M2 (sched r) h) s.m2 = some w ∧ Bare g 0 σ w ∧
      Kept g Ng s ⟨w, .smooth, s.sth⟩ := by
  have hle := total_le hNg
  have hlines : g.lines * g.Lx ≤ total g := by
    rw [total_eq]; exact Nat.mul_le_mul_left _ (by omega)
  have hll : (lay g Ng).lines = g.lines := by unfold Pad.Lay.lines lay Geo.lines; exact Nat.mul_comm _ _
  obtain ⟨w, e, p⟩ := ranks_spec (n := g.n) (w := s.m2)
    (f := fun r h => Pad.unpad (lay g Ng) .M2 .M2 (sched r) h)
    (Q := fun r h => (∀ i < g.vol, h (0 + i) = some (σ (siteOf g (r * g.vol + i)))) ∧
      (∀ a, v3 g Ng ≤ a → h a = s.m2 r a) ∧ WKB.Alloc (v3 g Ng + total g) h)
    (by
      intro r hr
      obtain ⟨h', e, p1, p2⟩ := Pad.C27_unpad (lay g Ng) .M2 .M2 (sched r) (s.m2 r) (Or.inl rfl)
        (by rw [hll]; exact row_room (ha r hr) (show g.lines * (g.Lx + 2) ≤ _ by rw [← total_eq]; omega))
        (by
          rw [hll]
          exact flat_room (N := v3 g Ng + total g) (fun a h => by
            rw [show (lay g Ng).base .M2 + a = a from Nat.zero_add a]; exact ha r hr a h)
            (show g.lines * g.Lx ≤ _ by omega))
      rw [hll] at p1 p2
      have inside : ∀ t < g.lines, ∀ i < g.Lx, t * g.Lx + i < total g := fun t ht i hi =>
        (pair_lt ht hi).trans_le hlines
      have key : ∀ i < g.vol, h' (0 + i) = some (σ (siteOf g (r * g.vol + i))) := by
        intro i hi
        have h1 : i / g.Lx < g.lines := (Nat.div_lt_iff_lt_mul ok.side).2 (by rw [← vol_eq]; exact hi)
        have h2 := Nat.mod_lt i ok.side
        have h3 := p1 _ h1 _ h2
        have h4 := hσ r i hr hi
        unfold rowIx at h4
        rw [← h4]
        have e1 : (lay g Ng).base .M2 + i / g.Lx * (lay g Ng).Ly + i % g.Lx = 0 + i := by
          show 0 + i / g.Lx * g.Lx + i % g.Lx = 0 + i
          rw [Nat.zero_add, Nat.zero_add, Nat.div_add_mod']
        rw [← e1, h3]
        show s.m2 r (0 + i / g.Lx * (g.Lx + 2) + i % g.Lx) = _
        rw [Nat.zero_add]
      refine ⟨h', e, key, ?_, ?_⟩
      · intro a h
        refine p2 a fun t ht i hi => ?_
        have := inside t ht i hi
        show a ≠ 0 + t * g.Lx + i
        omega
      · intro a h
        by_cases hc : ∃ t < g.lines, ∃ i < g.Lx, a = 0 + t * g.Lx + i
        · obtain ⟨t, ht, i, hi, rfl⟩ := hc
          rw [Nat.add_assoc, key _ (by rw [vol_eq]; exact pair_lt ht hi)]; rfl
        · rw [p2 a fun t ht i hi h => hc ⟨t, ht, i, hi, h⟩]
          exact ha r hr a h)
  exact ⟨w, e, fun r i hr hi => (p r hr).1 i hi,
    ⟨fun r hr => (p r hr).2.1, fun r hr => (p r hr).2.2, by simp, rfl⟩⟩

omit [NeZero g.Lx] [NeZero g.Tz] in
/-- C85.  Without a density or a transform nothing happens. -/
theorem C85_nothing (Ng : ℕ) (P : Plan) (k0 R : ℝ) (f : Filter) (o : Orders) {s : State}
    (h1 : s.st ≠ .fft) (h2 : s.sth ≠ .fft) (h3 : s.st ≠ .energy) (h4 : s.sth ≠ .energy) :
    smoothFourier g Ng P k0 R f o s = some s := by
  unfold smoothFourier prepare
  rw [if_neg fun h => h1 h.1, if_neg h1, if_neg h2, if_neg h3, if_neg h4]
  rfl

omit [NeZero g.Lx] [NeZero g.Tz] in
/-- C85.  Why the condition on the depth is there.  When the padded rows are longer than the distance
from `m2` to `m2half`, the copy to `m2half` overwrites modes in `m2` before they are filtered: the mode
half a `v3` from the beginning becomes the zero mode. -/
theorem C85_deep {Ng : ℕ} (hv : 2 ∣ v3 g Ng) (hdeep : v3 g Ng + 2 ≤ total g) {P : Plan} {o : Orders}
    {s : State} (ha : Allocated g Ng s.m2) (h1 : s.st = .fft) (h2 : s.sth ≠ .fft) :
    ∃ w, prepare g Ng P o s = some (true, ⟨w, .fft, .fft⟩) ∧ ∀ r < g.n,
      load (w r) 0 (v3 g Ng / 2) = load (s.m2 r) 0 0 := by
  obtain ⟨w, e, p⟩ := ranks_spec (n := g.n) (w := s.m2)
    (f := fun _ h => memmove (fun i => v3 g Ng + i) (fun i => i) (total g) h)
    (Q := fun r h => ∀ i < total g, h (v3 g Ng + i) = s.m2 r i)
    (by
      intro r hr
      obtain ⟨h', e, p1, _⟩ := memmove_spec (fun i => v3 g Ng + i) (fun i => i) (total g) (s.m2 r)
        (fun i hi => ha r hr _ (by omega)) (fun i hi => ha r hr _ (by omega)) (fun i _ j _ h => by omega)
      exact ⟨h', e, p1⟩)
  refine ⟨w, ?_, fun r hr => ?_⟩
  · unfold prepare
    rw [if_neg fun h => h2 h.2, if_pos h1, h1]
    unfold toHalf
    rw [e]
    rfl
  · have hd : 2 * (v3 g Ng / 2) = v3 g Ng := Nat.mul_div_cancel' hv
    unfold load
    rw [hd, Nat.zero_add, Nat.zero_add, Nat.mul_zero, p r hr 1 (by omega), ← p r hr 0 (by omega), Nat.add_zero]

/-! ### Cases -/

local instance : NeZero (⟨2, 4, 2⟩ : Geo).Lx := ⟨by decide⟩
local instance : NeZero (⟨2, 4, 2⟩ : Geo).Tz := ⟨by decide⟩

/-- Two ranks, 4 × 4 × 4 sites, one ghost slice. -/
def demoOrders : Orders := ⟨fun _ => (List.range 8).reverse, fun _ => (List.range 24).reverse⟩

theorem demoOrders_ok : demoOrders.Ok ⟨2, 4, 2⟩ :=
  ⟨fun _ _ => List.reverse_perm _, fun _ _ => List.reverse_perm _⟩

/-- A density in `m2half`. -/
noncomputable def demoState (ρ : Torus 4 4 → ℝ) : State where
  m2 r a := if a < 112 then some (if 64 ≤ a then ρ (siteOf ⟨2, 4, 2⟩ (r * 32 + (a - 64))) else 0) else none
  st := .other
  sth := .energy

theorem demo_alloc (ρ : Torus 4 4 → ℝ) : Allocated ⟨2, 4, 2⟩ 1 (demoState ρ).m2 := by
  intro r _ a ha
  have : a < 112 := ha
  unfold demoState
  dsimp only
  rw [if_pos this]
  rfl

theorem demo_available (ρ : Torus 4 4 → ℝ) : Available ⟨2, 4, 2⟩ 1 ρ (demoState ρ) := by
  refine .energyHalf (show M2.other ≠ M2.fft by decide) (show M2.other ≠ M2.energy by decide) rfl ?_
  intro r i _ hi
  have hi' : i < 32 := hi
  show (if 64 + i < 112 then some (if 64 ≤ 64 + i then ρ (siteOf ⟨2, 4, 2⟩ (r * 32 + (64 + i - 64))) else 0)
    else none) = _
  rw [if_pos (by omega), if_pos (by omega), Nat.add_sub_cancel_left]
  rfl

example (ρ : Torus 4 4 → ℝ) :
    ∃ s', smoothFourier ⟨2, 4, 2⟩ 1 (formulaPlan ⟨2, 4, 2⟩) 1 2 .tophat demoOrders (demoState ρ) = some s' ∧
      Rows ⟨2, 4, 2⟩ (smoothed 1 .tophat 2 ρ) s'.m2 := by
  obtain ⟨s', e, p, _⟩ := C85_smooth (g := ⟨2, 4, 2⟩) demo_ok (Ng := 1) (by decide)
    (formulaPlan_exact demo_ok) zero_le_one zero_le_two .tophat demoOrders_ok (demo_alloc ρ)
    (demo_available ρ)
  exact ⟨s', e, p⟩

/-- A call, the array unpadded, and a call with another filter. -/
example (ρ : Torus 4 4 → ℝ) :
    ∃ s₁ w s₂, smoothFourier ⟨2, 4, 2⟩ 1 (formulaPlan ⟨2, 4, 2⟩) 1 2 .tophat demoOrders (demoState ρ) = some s₁ ∧
      ranks 2 (fun _ h => Pad.unpad (lay ⟨2, 4, 2⟩ 1) .M2 .M2 [] h) s₁.m2 = some w ∧
      Bare ⟨2, 4, 2⟩ 0 (smoothed 1 .tophat 2 ρ) w ∧
      smoothFourier ⟨2, 4, 2⟩ 1 (formulaPlan ⟨2, 4, 2⟩) 1 3 .gauss demoOrders ⟨w, .smooth, s₁.sth⟩ = some s₂ ∧
      Rows ⟨2, 4, 2⟩ (smoothed 1 .gauss 3 ρ) s₂.m2 := by
  obtain ⟨s₁, e₁, p₁, p₂, p₃, _, p₅⟩ := C85_smooth (g := ⟨2, 4, 2⟩) demo_ok (Ng := 1) (by decide)
    (formulaPlan_exact demo_ok) zero_le_one zero_le_two .tophat demoOrders_ok (demo_alloc ρ)
    (demo_available ρ)
  obtain ⟨w, ew, q, k⟩ := C85_unpad (g := ⟨2, 4, 2⟩) demo_ok (Ng := 1) (by decide) p₃ p₁ (fun _ => [])
  obtain ⟨s₂, e₂, t, _⟩ := C85_smooth (g := ⟨2, 4, 2⟩) demo_ok (Ng := 1) (by decide)
    (formulaPlan_exact demo_ok) zero_le_one zero_le_three .gauss demoOrders_ok (s := ⟨w, .smooth, s₁.sth⟩)
    k.alloc (.half (by simp) p₅ (modes_shift p₂ fun r hr i _ => k.half r hr _ (Nat.le_add_right _ _)))
  exact ⟨s₁, w, s₂, e₁, ew, q, e₂, t⟩

/-- A box three times as deep as wide, one rank and one ghost slice. -/
example : v3 ⟨1, 4, 12⟩ 1 + 2 ≤ total ⟨1, 4, 12⟩ ∧ 2 ∣ v3 ⟨1, 4, 12⟩ 1 := by decide

end Jaxions.SmoothF
