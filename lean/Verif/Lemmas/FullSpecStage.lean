import Verif.Lemmas.FullSpec
import Verif.Lemmas.SpecLapStage
/-
Helper lemmas for C83: a stage of an Axion.
-/
namespace Jaxions.FullSpec

open Gravity WKB

/-- The arrays hold the amplitudes `A` and `B` of field and velocity. -/
structure InModes (g : Gravity.Geo) (Q : ℕ) (A B : Torus g.Lx g.Tz → ℂ) (w : ℕ → Mem) : Prop where
  am : ∀ r < g.n, WKB.Alloc Q (w r).m
  av : ∀ r < g.n, WKB.Alloc Q (w r).v
  a2 : ∀ r < g.n, WKB.Alloc Q (w r).m2
  m : ∀ r < g.n, ∀ i < g.modes, load (w r).m 0 i = some (A (modeOf g r i))
  v : ∀ r < g.n, ∀ i < g.modes, load (w r).v 0 i = some (B (modeOf g r i))

theorem load_alloc {Q : ℕ} {h : Heap ℕ ℝ} (ha : WKB.Alloc Q h) {i : ℕ} (hi : 2 * i + 2 ≤ Q) :
    ∃ c, load h 0 i = some c := by
  obtain ⟨x, hx⟩ := Option.isSome_iff_exists.1 (ha (2 * i) (by omega))
  obtain ⟨y, hy⟩ := Option.isSome_iff_exists.1 (ha (2 * i + 1) (by omega))
  refine ⟨⟨x, y⟩, ?_⟩
  unfold load
  rw [Nat.zero_add, hx, hy]
  rfl

theorem tModes_spec (g : Gravity.Geo) (p : Par) (bad : ℂ × ℂ) (r : ℕ) {Q : ℕ} {order : List ℕ}
    (hnd : order.Nodup) (hlt : ∀ i ∈ order, 2 * i + 2 ≤ Q) {w : Mem} (am : WKB.Alloc Q w.m)
    (av : WKB.Alloc Q w.v) (a2 : WKB.Alloc Q w.m2) :
    ∃ w', order.foldlM (tMode g p bad r) w = some w' ∧ w'.m2 = w.m2 ∧ WKB.Alloc Q w'.m ∧
      WKB.Alloc Q w'.v ∧ ∀ i ∈ order, ∀ M V F, load w.m 0 i = some M → load w.v 0 i = some V →
        load w.m2 0 i = some F →
        load w'.m 0 i = some (turn p bad (tK2 g r i : ℝ) M V F).1 ∧
        load w'.v 0 i = some (turn p bad (tK2 g r i : ℝ) M V F).2 := by
  obtain ⟨w', e, p1, p2, p3, p4, -⟩ := foldlM_inv (f := tMode g p bad r) (s := w) order
    (P := fun pre t => t.m2 = w.m2 ∧ WKB.Alloc Q t.m ∧ WKB.Alloc Q t.v ∧
      (∀ i ∈ pre, ∀ M V F, load w.m 0 i = some M → load w.v 0 i = some V → load w.m2 0 i = some F →
        load t.m 0 i = some (turn p bad (tK2 g r i : ℝ) M V F).1 ∧
        load t.v 0 i = some (turn p bad (tK2 g r i : ℝ) M V F).2) ∧
      ∀ i, i ∉ pre → load t.m 0 i = load w.m 0 i ∧ load t.v 0 i = load w.v 0 i)
    ⟨rfl, am, av, by simp, fun _ _ => ⟨rfl, rfl⟩⟩
    (by
      rintro pre j post hsplit t ⟨t1, t2, t3, t4, t5⟩
      have hj : 2 * j + 2 ≤ Q := hlt j (by rw [hsplit]; simp)
      have hnot : j ∉ pre := by
        rw [hsplit] at hnd
        intro hc
        exact (List.nodup_append.1 hnd).2.2 j hc j (by simp) rfl
      obtain ⟨M, hM⟩ := load_alloc t2 hj
      obtain ⟨V, hV⟩ := load_alloc t3 hj
      obtain ⟨F, hF⟩ := load_alloc a2 hj
      obtain ⟨v', ev, v1, v2, v3⟩ := store_spec t3 hj (turn p bad (tK2 g r j : ℝ) M V F).2
      obtain ⟨m', em, m1, m2, m3⟩ := store_spec t2 hj (turn p bad (tK2 g r j : ℝ) M V F).1
      refine ⟨{ t with m := m', v := v' }, ?_, t1, m2, v2, ?_, ?_⟩
      · unfold tMode
        rw [t1, hF, hV, hM]
        simp only [Option.bind_eq_bind, Option.bind_some]
        rw [ev]
        simp only [Option.bind_some]
        rw [em]
        rfl
      · intro i hi M' V' F' hM' hV' hF'
        by_cases hij : i = j
        · subst hij
          have q := t5 i hnot
          rw [← q.1, hM] at hM'
          rw [← q.2, hV] at hV'
          rw [hF] at hF'
          cases hM'; cases hV'; cases hF'
          exact ⟨m1, v1⟩
        · rcases List.mem_append.1 hi with hi | hi
          · have q := t4 i hi M' V' F' hM' hV' hF'
            rw [← q.1, ← q.2]
            exact ⟨load_congr (m3 _ (by omega) (by omega)) (m3 _ (by omega) (by omega)),
              load_congr (v3 _ (by omega) (by omega)) (v3 _ (by omega) (by omega))⟩
          · exact absurd (List.mem_singleton.1 hi) hij
      · intro i hi
        rw [List.mem_append, List.mem_singleton, not_or] at hi
        have q := t5 i hi.1
        rw [← q.1, ← q.2]
        have := hi.2
        exact ⟨load_congr (m3 _ (by omega) (by omega)) (m3 _ (by omega) (by omega)),
          load_congr (v3 _ (by omega) (by omega)) (v3 _ (by omega) (by omega))⟩)
  exact ⟨w', e, p1, p2, p3, p4⟩

section
variable {g : Gravity.Geo} [NeZero g.Lx] [NeZero g.Tz]

omit [NeZero g.Lx] [NeZero g.Tz] in
theorem tK2_eq (ok : g.Ok) {r i : ℕ} (hr : r < g.n) (hi : i < g.modes) :
    tK2 g r i = ksq (modeOf g r i) := by
  unfold tK2
  rw [number_eq ok hr hi]
  unfold ksq
  ring

theorem turn_sol' {p : Par} (hℓ : p.ℓ ≠ 0) (bad : ℂ × ℂ) (I J : ℝ → ℝ) (A B F : Torus g.Lx g.Tz → ℂ)
    {k : Torus g.Lx g.Tz} (hk : k ≠ 0) :
    turn p bad (ksq k : ℝ) (A k) (B k) (F k) =
      sol (2 * Real.pi / p.ℓ) I J A (fun k => B k + F k * ((p.dz * p.c : ℝ) : ℂ)) (p.dz * p.d) k := by
  have h0 : 2 * Real.pi / p.ℓ ≠ 0 := div_ne_zero (by positivity) hℓ
  have hf : freq (2 * Real.pi / p.ℓ) k ≠ 0 := fun h => hk ((freq_eq_zero h0 k).1 h)
  unfold turn sol osc
  dsimp only
  have e : 2 * Real.pi / p.ℓ * Real.sqrt (ksq k : ℝ) = freq (2 * Real.pi / p.ℓ) k := rfl
  rw [e, if_neg hf, if_neg hf]

theorem zeroMode_sol (p : Par) (I J : ℝ → ℝ) (A B F : Torus g.Lx g.Tz → ℂ) (k₀ : ℝ) :
    zeroMode p (I (p.dz * p.d)) (J (p.dz * p.d)) (A 0) (B 0) (F 0) =
      sol k₀ I J A (fun k => B k + F k * ((p.dz * p.c : ℝ) : ℂ)) (p.dz * p.d) 0 := by
  have hf : freq k₀ (0 : Torus g.Lx g.Tz) = 0 := by
    unfold freq; rw [(ksq_eq_zero 0).2 rfl]; simp
  unfold zeroMode sol osc
  rw [if_pos hf]

/-- Amplitudes of a field. -/
noncomputable def coef (g : Gravity.Geo) [NeZero g.Lx] [NeZero g.Tz] (f : Torus g.Lx g.Tz → ℂ)
    (k : Torus g.Lx g.Tz) : ℂ := dft f k * (norm g : ℂ)

theorem norm_mul (g : Gravity.Geo) [NeZero g.Lx] [NeZero g.Tz] :
    (norm g : ℂ) * (g.Lx * g.Lx * g.Tz : ℂ) = 1 := by
  have hN := card_ne (L := g.Lx) (T := g.Tz)
  unfold norm
  push_cast
  exact one_div_mul_cancel hN

theorem synth_coef (f : Torus g.Lx g.Tz → ℂ) (x : Torus g.Lx g.Tz) : synth (coef g f) x = f x := by
  have e : synth (coef g f) x = (norm g : ℂ) * synth (dft f) x := by
    unfold synth coef
    rw [Finset.mul_sum]
    exact Finset.sum_congr rfl fun k _ => by ring
  rw [e, synth_dft, ← mul_assoc, norm_mul, one_mul]

theorem coef_synth (A : Torus g.Lx g.Tz → ℂ) : coef g (synth A) = A := by
  funext k
  unfold coef
  rw [dft_synth]
  linear_combination A k * norm_mul g

theorem coef_real (f : Torus g.Lx g.Tz → ℝ) (k : Torus g.Lx g.Tz) :
    coef g (fun x => (f x : ℂ)) (-k) = starRingEnd ℂ (coef g (fun x => (f x : ℂ)) k) := by
  unfold coef
  rw [dft_real, map_mul, Complex.conj_ofReal]

theorem coef_add (f h : Torus g.Lx g.Tz → ℂ) (c : ℂ) (k : Torus g.Lx g.Tz) :
    coef g (fun x => f x + c * h x) k = coef g f k + coef g h k * c := by
  have e : dft (fun x => f x + c * h x) k = dft f k + c * dft h k := by
    unfold dft
    rw [Finset.mul_sum, ← Finset.sum_add_distrib]
    exact Finset.sum_congr rfl fun x _ => by ring
  unfold coef
  rw [e]
  ring

/-- The kernel of a rank. -/
theorem tKernel_spec (ok : g.Ok) {p : Par} (hℓ : p.ℓ ≠ 0) (bad : ℂ × ℂ) {Q step : ℕ} (hs : 0 < step)
    (hQ : g.lines * (g.Lx + 2) + 2 * step ≤ Q) {r : ℕ} (hr : r < g.n) {order : List ℕ}
    (ho : order.Perm (lanes g.modes step)) {A B F : Torus g.Lx g.Tz → ℂ} {w : Mem}
    (am : WKB.Alloc Q w.m) (av : WKB.Alloc Q w.v) (a2 : WKB.Alloc Q w.m2)
    (hm : ∀ i < g.modes, load w.m 0 i = some (A (modeOf g r i)))
    (hv : ∀ i < g.modes, load w.v 0 i = some (B (modeOf g r i)))
    (hf : ∀ i < g.modes, load w.m2 0 i = some (F (modeOf g r i))) :
    ∃ w', tKernel g p bad r order w = some w' ∧ WKB.Alloc Q w'.m ∧ WKB.Alloc Q w'.v ∧
      WKB.Alloc Q w'.m2 ∧ ∀ i < g.modes,
        load w'.m 0 i = some (sol (2 * Real.pi / p.ℓ) 0 0 A
          (fun k => B k + F k * ((p.dz * p.c : ℝ) : ℂ)) (p.dz * p.d) (modeOf g r i)).1 ∧
        load w'.v 0 i = some (sol (2 * Real.pi / p.ℓ) 0 0 A
          (fun k => B k + F k * ((p.dz * p.c : ℝ) : ℂ)) (p.dz * p.d) (modeOf g r i)).2 := by
  have hM := SpecLap.modes_le g
  obtain ⟨w1, e1, q1, q2, q3, q4⟩ := tModes_spec g p bad r (Q := Q)
    (ho.nodup_iff.2 lanes_nodup)
    (fun i hi => by have := lane_lt hs (ho.mem_iff.1 hi); omega) am av a2
  have hgen : ∀ i < g.modes, ¬ (r = 0 ∧ i = 0) →
      load w1.m 0 i = some (sol (2 * Real.pi / p.ℓ) 0 0 A
        (fun k => B k + F k * ((p.dz * p.c : ℝ) : ℂ)) (p.dz * p.d) (modeOf g r i)).1 ∧
      load w1.v 0 i = some (sol (2 * Real.pi / p.ℓ) 0 0 A
        (fun k => B k + F k * ((p.dz * p.c : ℝ) : ℂ)) (p.dz * p.d) (modeOf g r i)).2 := by
    intro i hi h0
    have q := q4 i (ho.mem_iff.2 (lane_ge hs hi)) _ _ _ (hm i hi) (hv i hi) (hf i hi)
    rw [tK2_eq ok hr hi, turn_sol' hℓ bad 0 0 A B F (fun h => h0 ((modeOf_eq_zero ok hr hi).1 h))] at q
    exact q
  unfold tKernel
  by_cases h0 : r = 0
  · rw [if_pos h0]
    have hpos : 0 < g.modes := by
      rw [ok.modes_eq]
      exact Nat.mul_pos (Nat.mul_pos ok.part_pos ok.Tz_pos) (by unfold Geo.hLx; omega)
    have z0 : modeOf g r 0 = 0 := (modeOf_eq_zero ok hr hpos).2 ⟨h0, rfl⟩
    obtain ⟨m', em, m1, m2, m3⟩ := store_spec q2 (i := 0) (by omega)
      (zeroMode p 0 0 (A 0) (B 0) (F 0)).1
    obtain ⟨v', ev, v1, v2, v3⟩ := store_spec q3 (i := 0) (by omega)
      (zeroMode p 0 0 (A 0) (B 0) (F 0)).2
    refine ⟨{ w1 with m := m', v := v' }, ?_, m2, v2, by rw [q1]; exact a2, ?_⟩
    · rw [hm 0 hpos, hv 0 hpos, z0]
      simp only [Option.bind_eq_bind, Option.bind_some]
      rw [e1]
      simp only [Option.bind_some]
      rw [q1, hf 0 hpos, z0]
      simp only [Option.bind_some]
      rw [em]
      simp only [Option.bind_some]
      rw [ev]
      rfl
    · intro i hi
      by_cases hi0 : i = 0
      · subst hi0
        rw [z0, ← zeroMode_sol p 0 0 A B F]
        exact ⟨m1, v1⟩
      · have q := hgen i hi (fun h => hi0 h.2)
        rw [← q.1, ← q.2]
        exact ⟨load_congr (m3 _ (by omega) (by omega)) (m3 _ (by omega) (by omega)),
          load_congr (v3 _ (by omega) (by omega)) (v3 _ (by omega) (by omega))⟩
  · rw [if_neg h0]
    exact ⟨w1, e1, q2, q3, by rw [q1]; exact a2, fun i hi => hgen i hi (fun h => h0 h.1)⟩

/-- What `m2` holds before the kernel. -/
theorem tForce_spec (ok : g.Ok) {L : Lib} (hP : L.plan.Exact g) {p : Par} {Q step : ℕ} (hs : 0 < step)
    (hQ : g.lines * (g.Lx + 2) + 2 * step ≤ Q) {o : ℕ → Orders} (ho : ∀ r < g.n, (o r).Ok g step)
    {A : Torus g.Lx g.Tz → ℂ} (hA : ∀ k, A (-k) = starRingEnd ℂ (A k)) {m m2 : ℕ → Heap ℕ ℝ}
    (a2 : ∀ r < g.n, WKB.Alloc Q (m2 r))
    (hm : ∀ r < g.n, ∀ i < g.modes, load (m r) 0 i = some (A (modeOf g r i))) :
    ∃ m3 m4 m5 m6, bckTo g L.plan m m2 = some m3 ∧
      ranks g.n (fun r h => (o r).acc.foldlM (updCell (tAcc p) fun i => i) h) m3 = some m4 ∧
      forward g L.plan m4 = some m5 ∧ scale g Q (norm g) m5 = some m6 ∧
      ∀ r < g.n, WKB.Alloc Q (m6 r) ∧ ∀ i < g.modes, load (m6 r) 0 i =
        some (coef g (fun x => ((tAcc p (synth A x).re : ℝ) : ℂ)) (modeOf g r i)) := by
  have hM := SpecLap.modes_le g
  obtain ⟨m3, e3, h3⟩ := bckTo_spec ok hP (N := Q) (by omega) hA a2 (fun r i hr hi => hm r hr i hi)
  obtain ⟨m4, e4, h4⟩ := ranks_spec (n := g.n) (w := m3)
    (f := fun r h => (o r).acc.foldlM (updCell (tAcc p) fun i => i) h)
    (Q := fun r (h : Heap ℕ ℝ) => (∀ i < g.vol, h (rowIx g.Lx i) =
      some (tAcc p (synth A (siteOf g (r * g.vol + i))).re)) ∧ WKB.Alloc Q h)
    (by
      intro r hr
      obtain ⟨h', e, q1, q2⟩ := updCell_order (f := tAcc p) (Q := Q)
        ((ho r hr).acc.nodup_iff.2 lanes_nodup)
        (fun i hi => by
          have := lane_lt (by omega : 0 < 2 * step) ((ho r hr).acc.mem_iff.1 hi); omega) (h3 r hr).2
      refine ⟨h', e, ?_, q2⟩
      intro i hi
      have hrow : rowIx g.Lx i < g.lines * (g.Lx + 2) := by
        rw [vol_eq] at hi
        unfold rowIx
        exact pair_lt ((Nat.div_lt_iff_lt_mul ok.side).2 hi)
          ((Nat.mod_lt _ ok.side).trans (by omega))
      rw [q1 _ ((ho r hr).acc.mem_iff.2 (lane_ge (by omega) hrow)), (h3 r hr).1 i hi]
      rfl)
  obtain ⟨m5, e5, h5⟩ := forward_spec ok hP (N := Q) (by omega)
    (fun x => tAcc p (synth A x).re) (fun r hr => (h4 r hr).2) (fun r i hr hi => (h4 r hr).1 i hi)
  obtain ⟨m6, e6, h6⟩ := scale_modes (g := g) (Q := Q) (norm g) (n := g.modes) (by omega)
    (fun r hr => (h5 r hr).2.1)
    (H := fun r i => dft (fun x => ((tAcc p (synth A x).re : ℝ) : ℂ)) (modeOf g r i))
    (fun r hr i hi => (h5 r hr).1 i hi)
  exact ⟨m3, m4, m5, m6, e3, e4, e5, e6, h6⟩

/-- A stage, where the library leaves the amplitudes `A'` of the field. -/
theorem tStage_spec (ok : g.Ok) {L : Lib} (hP : L.plan.Exact g) {p : Par} (hℓ : p.ℓ ≠ 0)
    (bad : ℂ × ℂ) {Q step : ℕ} (hs : 0 < step)
    (hQ : g.lines * (g.Lx + 2) + 2 * step ≤ Q) {o : ℕ → Orders} (ho : ∀ r < g.n, (o r).Ok g step)
    {A A' B : Torus g.Lx g.Tz → ℂ} (hA : ∀ k, A (-k) = starRingEnd ℂ (A k)) {w : ℕ → Mem}
    (H : InModes g Q A B w) (hl : ∀ r < g.n, WKB.Alloc Q (L.left r (w r).m))
    (hl' : ∀ r < g.n, ∀ i < g.modes, load (L.left r (w r).m) 0 i = some (A' (modeOf g r i))) :
    ∃ w', tStage g Q L false bad p o w = some w' ∧
      InModes g Q
        (fun k => (sol (2 * Real.pi / p.ℓ) 0 0 A' (fun k => B k +
          coef g (fun x => ((tAcc p (synth A x).re : ℝ) : ℂ)) k * ((p.dz * p.c : ℝ) : ℂ)) (p.dz * p.d) k).1)
        (fun k => (sol (2 * Real.pi / p.ℓ) 0 0 A' (fun k => B k +
          coef g (fun x => ((tAcc p (synth A x).re : ℝ) : ℂ)) k * ((p.dz * p.c : ℝ) : ℂ)) (p.dz * p.d) k).2)
        w' := by
  obtain ⟨m3, m4, m5, m6, e3, e4, e5, e6, h6⟩ := tForce_spec ok hP (p := p) hs hQ ho hA
    (m := fun r => (w r).m) (m2 := fun r => (w r).m2) H.a2 H.m
  obtain ⟨w', e7, h7⟩ := ranks_spec (n := g.n)
    (w := fun r => ({ w r with m := L.left r (w r).m, m2 := m6 r } : Mem))
    (f := fun r w => tKernel g p bad r (o r).modes w)
    (Q := fun r w' => WKB.Alloc Q w'.m ∧ WKB.Alloc Q w'.v ∧
      WKB.Alloc Q w'.m2 ∧ ∀ i < g.modes,
        load w'.m 0 i = some (sol (2 * Real.pi / p.ℓ) 0 0 A'
          (fun k => B k + coef g (fun x => ((tAcc p (synth A x).re : ℝ) : ℂ)) k *
            ((p.dz * p.c : ℝ) : ℂ)) (p.dz * p.d) (modeOf g r i)).1 ∧
        load w'.v 0 i = some (sol (2 * Real.pi / p.ℓ) 0 0 A'
          (fun k => B k + coef g (fun x => ((tAcc p (synth A x).re : ℝ) : ℂ)) k *
            ((p.dz * p.c : ℝ) : ℂ)) (p.dz * p.d) (modeOf g r i)).2)
    (fun r hr => tKernel_spec ok hℓ bad hs hQ hr (ho r hr).modes (hl r hr) (H.av r hr) (h6 r hr).1
      (hl' r hr) (H.v r hr) (h6 r hr).2)
  refine ⟨w', ?_, fun r hr => (h7 r hr).1, fun r hr => (h7 r hr).2.1, fun r hr => (h7 r hr).2.2.1,
    fun r hr i hi => ((h7 r hr).2.2.2 i hi).1, fun r hr i hi => ((h7 r hr).2.2.2 i hi).2⟩
  unfold tStage
  simp only [Option.bind_eq_bind]
  rw [e3]
  simp only [Option.bind_some]
  rw [e4]
  simp only [Option.bind_some]
  rw [e5]
  simp only [Option.bind_some]
  rw [e6]
  simp only [Option.bind_some, Bool.false_eq_true, if_false]
  exact e7

end

end Jaxions.FullSpec
