import Verif.Lemmas.FullSpecStage
import Mathlib.MeasureTheory.Integral.IntervalIntegral.FundThmCalculus
/-
Helper lemmas for C83: a run of a Saxion.
-/
namespace Jaxions.FullSpec

open Gravity WKB
open SpecLap (CPlan modeFull iterations idx mem_iterations)

/-- `Q` numbers are there. -/
def Room (Q : ℕ) (h : Heap ℕ ℂ) : Prop := ∀ a, a < Q → (h a).isSome

section
variable {g : Gravity.Geo} [NeZero g.Lx] [NeZero g.Tz]

theorem cFwd_spec (ok : g.Ok) {P : CPlan} (hP : P.Exact g) {Q o : ℕ} (hQ : o + g.vol ≤ Q)
    {w : ℕ → Heap ℕ ℂ} (f : Torus g.Lx g.Tz → ℂ) (ha : ∀ r < g.n, Room Q (w r))
    (hw : ∀ r i, r < g.n → i < g.vol → w r (o + i) = some (f (siteOf g (r * g.vol + i)))) :
    ∃ w', cFwd g P o w = some w' ∧ ∀ r < g.n, Room Q (w' r) ∧
      ∀ i < g.vol, w' r (o + i) = some (dft f (modeFull g r i)) := by
  have hv := vol_pos ok
  have hread := readAll_map (g.n * g.vol) (fun i => (i / g.vol, o + i % g.vol))
    (fun i => f (siteOf g i)) (fun p : ℕ × ℕ => w p.1 p.2)
    (by
      intro i hi
      have hr : i / g.vol < g.n := (Nat.div_lt_iff_lt_mul hv).2 hi
      have hm' : i % g.vol < g.vol := Nat.mod_lt _ hv
      dsimp only
      rw [hw _ _ hr hm', div_mul_add_mod])
  unfold cFwd
  rw [hread]
  simp only [Option.bind_eq_bind, Option.bind_some]
  refine ranks_spec (n := g.n) (w := w)
    (Q := fun r (h : Heap ℕ ℂ) => Room Q h ∧ ∀ i < g.vol, h (o + i) = some (dft f (modeFull g r i))) ?_
  intro r hr
  obtain ⟨h', e, p1, p2⟩ := writeAll_spec ((List.range g.vol).map fun i =>
      (o + i, P.fwd ((List.range (g.n * g.vol)).map fun i => f (siteOf g i)) r i)) (w r)
    (by
      intro p hp
      obtain ⟨i, hi, rfl⟩ := List.mem_map.1 hp
      have := List.mem_range.1 hi
      exact ha r hr (o + i) (by omega))
    (by
      rw [List.map_map]
      exact List.Nodup.map (fun _ _ h => by simpa using h) List.nodup_range)
  refine ⟨h', e, ?_, ?_⟩
  · intro i hi
    rw [writeAll_isSome _ e i]
    exact ha r hr i hi
  · intro i hi
    rw [← hP.fwd f r i hr hi]
    exact p1 (o + i, _) (List.mem_map.2 ⟨i, List.mem_range.2 hi, rfl⟩)

theorem cBck_spec (_ok : g.Ok) {P : CPlan} (hP : P.Exact g) {Q o o' : ℕ} (hQ : o' + g.vol ≤ Q)
    {src dst : ℕ → Heap ℕ ℂ} (A : Torus g.Lx g.Tz → ℂ) (ha : ∀ r < g.n, Room Q (dst r))
    (hw : ∀ r < g.n, ∀ i < g.vol, src r (o + i) = some (A (modeFull g r i))) :
    ∃ w', cBck g P o o' src dst = some w' ∧ ∀ r < g.n, Room Q (w' r) ∧
      ∀ i < g.vol, w' r (o' + i) = some (synth A (siteOf g (r * g.vol + i))) := by
  obtain ⟨F, eF, hF⟩ := hP.bck (fun r i => src r (o + i)) A (fun r i hr hi => hw r hr i hi)
  unfold cBck
  rw [eF]
  simp only [Option.bind_eq_bind, Option.bind_some]
  refine ranks_spec (n := g.n) (w := dst)
    (Q := fun r (h : Heap ℕ ℂ) => Room Q h ∧
      ∀ i < g.vol, h (o' + i) = some (synth A (siteOf g (r * g.vol + i)))) ?_
  intro r hr
  obtain ⟨h', e, p1, p2⟩ := writeAll_spec ((List.range g.vol).map fun i =>
      (o' + i, F (r * g.vol + i))) (dst r)
    (by
      intro p hp
      obtain ⟨i, hi, rfl⟩ := List.mem_map.1 hp
      have := List.mem_range.1 hi
      exact ha r hr (o' + i) (by omega))
    (by
      rw [List.map_map]
      exact List.Nodup.map (fun _ _ h => by simpa using h) List.nodup_range)
  refine ⟨h', e, ?_, ?_⟩
  · intro i hi
    rw [writeAll_isSome _ e i]
    exact ha r hr i hi
  · intro i hi
    rw [← hF (r * g.vol + i) (pair_lt hr hi)]
    exact p1 (o' + i, _) (List.mem_map.2 ⟨i, List.mem_range.2 hi, rfl⟩)

omit [NeZero g.Lx] [NeZero g.Tz] in
theorem cScale_spec {Q : ℕ} (c : ℝ) {w : ℕ → Heap ℕ ℂ} (ha : ∀ r < g.n, Room Q (w r)) :
    ∃ w', cScale g Q c w = some w' ∧ ∀ r < g.n, Room Q (w' r) ∧
      ∀ a < Q, ∀ x, w r a = some x → w' r a = some (x * (c : ℂ)) := by
  unfold cScale
  refine ranks_spec (n := g.n) (w := w)
    (Q := fun r (h : Heap ℕ ℂ) => Room Q h ∧ ∀ a < Q, ∀ x, w r a = some x → h a = some (x * (c : ℂ))) ?_
  intro r hr
  obtain ⟨h', e, p1, p2⟩ := updCells_spec (fun x => x * (c : ℂ)) (fun i => i) Q (w r) (ha r hr)
    (fun _ _ _ _ h => h)
  refine ⟨h', e, ?_, ?_⟩
  · intro a haq
    rw [p1 a haq]
    simpa using ha r hr a haq
  · intro a haq x hx
    rw [p1 a haq, hx]
    rfl

/-- Transform to momentum space of one array. -/
theorem cModes_spec (ok : g.Ok) {P : CPlan} (hP : P.Exact g) {Q o : ℕ} (hQ : o + g.vol ≤ Q)
    {w : ℕ → Heap ℕ ℂ} (f : Torus g.Lx g.Tz → ℂ) (ha : ∀ r < g.n, Room Q (w r))
    (hw : ∀ r i, r < g.n → i < g.vol → w r (o + i) = some (f (siteOf g (r * g.vol + i)))) :
    ∃ w1 w', cFwd g P o w = some w1 ∧ cScale g Q (norm g) w1 = some w' ∧ ∀ r < g.n, Room Q (w' r) ∧
      ∀ i < g.vol, w' r (o + i) = some (coef g f (modeFull g r i)) := by
  obtain ⟨w1, e1, h1⟩ := cFwd_spec ok hP hQ f ha hw
  obtain ⟨w2, e2, h2⟩ := cScale_spec (g := g) (norm g) (fun r hr => (h1 r hr).1)
  exact ⟨w1, w2, e1, e2, fun r hr => ⟨(h2 r hr).1,
    fun i hi => (h2 r hr).2 (o + i) (by omega) _ ((h1 r hr).2 i hi)⟩⟩

omit [NeZero g.Lx] [NeZero g.Tz] in
theorem sAccCells_spec {p : Par} {sw : Switch} {acc : ℂ → ℂ} (hacc : ∀ x, sAcc p sw x = some (acc x))
    {Q : ℕ} {order : List ℕ} (hnd : order.Nodup) (hlt : ∀ i ∈ order, i < Q) {h : Heap ℕ ℂ}
    (ha : Room Q h) :
    ∃ h', order.foldlM (sAccCell p sw) h = some h' ∧ (∀ i ∈ order, h' i = (h i).map acc) ∧ Room Q h' := by
  obtain ⟨h', e, p1, p2, p3⟩ := foldlM_inv (f := sAccCell p sw) (s := h) order
    (P := fun pre t => (∀ i ∈ pre, t i = (h i).map acc) ∧ (∀ i, i ∉ pre → t i = h i) ∧ Room Q t)
    ⟨by simp, fun _ _ => rfl, ha⟩
    (by
      rintro pre j post hsplit t ⟨t1, t2, t3⟩
      have hj : j < Q := hlt j (by rw [hsplit]; simp)
      have hnot : j ∉ pre := by
        rw [hsplit] at hnd
        intro hc
        exact (List.nodup_append.1 hnd).2.2 j hc j (by simp) rfl
      obtain ⟨x, hx⟩ := Option.isSome_iff_exists.1 (t3 j hj)
      have hx' : h j = some x := by rw [← t2 j hnot]; exact hx
      refine ⟨fun b => if b = j then some (acc x) else t b, ?_, ?_, ?_, ?_⟩
      · unfold sAccCell
        rw [hx]
        simp only [Option.bind_eq_bind, Option.bind_some]
        rw [hacc]
        exact write_eq t _ _ (by rw [hx]; rfl)
      · intro i hi
        dsimp only
        by_cases hij : i = j
        · rw [hij, if_pos rfl, hx']; rfl
        · rw [if_neg hij]
          rcases List.mem_append.1 hi with hi | hi
          · exact t1 i hi
          · exact absurd (List.mem_singleton.1 hi) hij
      · intro i hi
        rw [List.mem_append, List.mem_singleton, not_or] at hi
        dsimp only
        rw [if_neg hi.2]
        exact t2 i hi.1
      · intro a ha'
        dsimp only
        split
        · rfl
        · exact t3 a ha')
  exact ⟨h', e, p1, p3⟩

omit [NeZero g.Lx] [NeZero g.Tz] in
theorem mem_lanes_dvd {V step : ℕ} (hs : 0 < step) (hd : step ∣ V) {i : ℕ} : i ∈ lanes V step ↔ i < V := by
  obtain ⟨q, rfl⟩ := hd
  rw [mem_lanes hs]
  have : (step * q + (step - 1)) / step = q := by
    rw [Nat.mul_add_div hs, Nat.div_eq_of_lt (by omega), Nat.add_zero]
  rw [this, Nat.mul_comm]

omit [NeZero g.Lx] [NeZero g.Tz] in
/-- With whole vectors in a line the loops run over all modes. -/
theorem sLanes_perm {step : ℕ} (hs : 0 < step) (hd : step ∣ g.Lx) :
    (sLanes g step).Perm (iterations g false) := by
  refine (List.perm_ext_iff_of_nodup ?_ (SpecLap.iterations_nodup false)).2 ?_
  · unfold sLanes
    rw [List.nodup_flatMap]
    refine ⟨fun oy _ => ?_, ?_⟩
    · rw [List.nodup_flatMap]
      refine ⟨fun oz _ => ?_, ?_⟩
      · exact List.Nodup.map (fun _ _ h => by simpa using h) lanes_nodup
      · refine List.nodup_range.imp ?_
        intro a b hab x hx hy
        simp only [List.mem_map] at hx hy
        obtain ⟨c, -, rfl⟩ := hx
        obtain ⟨d, -, e⟩ := hy
        simp only [Prod.mk.injEq] at e
        exact hab e.2.1.symm
    · refine List.nodup_range.imp ?_
      intro a b hab x hx hy
      simp only [List.mem_flatMap, List.mem_map] at hx hy
      obtain ⟨_, -, c, -, rfl⟩ := hx
      obtain ⟨_, -, d, -, e⟩ := hy
      simp only [Prod.mk.injEq] at e
      exact hab e.1.symm
  · rintro ⟨a, b, c⟩
    rw [mem_iterations]
    simp only [sLanes, List.mem_flatMap, List.mem_map, List.mem_range, Prod.mk.injEq, mem_lanes_dvd hs hd]
    constructor
    · rintro ⟨oy, h1, oz, h2, ox, h3, rfl, rfl, rfl⟩
      exact ⟨h1, h2, h3⟩
    · rintro ⟨h1, h2, h3⟩
      exact ⟨a, h1, b, h2, c, h3, rfl, rfl, rfl⟩

omit [NeZero g.Lx] [NeZero g.Tz] in
theorem sIdx_eq (o : ℕ × ℕ × ℕ) : sIdx g o = idx g false o := by
  unfold sIdx idx SpecLap.width
  simp only [Bool.false_eq_true, if_false]
  ring

omit [NeZero g.Lx] [NeZero g.Tz] in
theorem sK2_eq (ok : g.Ok) {step r : ℕ} (hs : 0 < step) (he : 2 ∣ g.Lx) (hd : step ∣ g.Lx / 2)
    (hr : r < g.n) {o : ℕ × ℕ × ℕ} (ho : o ∈ iterations g false) :
    sK2 g step r o = ksq (modeFull g r (idx g false o)) := by
  have h := SpecLap.p2_eq ok false hr ho
  rw [SpecLap.modeW_full] at h
  rw [← h]
  unfold sK2 SpecLap.p2 SpecLap.wrap
  dsimp only
  have hle : o.2.2 / step * step ≤ o.2.2 := Nat.div_mul_le_self _ _
  have hiff : g.Lx / 2 ≤ o.2.2 / step * step ↔ g.Lx / 2 ≤ o.2.2 := by
    constructor
    · exact fun h => h.trans hle
    · intro h'
      obtain ⟨q, hq⟩ := hd
      rw [hq] at h' ⊢
      have : q ≤ o.2.2 / step := (Nat.le_div_iff_mul_le hs).2 (by rw [Nat.mul_comm]; exact h')
      calc step * q = q * step := Nat.mul_comm _ _
        _ ≤ _ := Nat.mul_le_mul_right _ this
  have hx : (if g.Lx / 2 ≤ o.2.2 / step * step then ((o.2.2 / step * step : ℕ) : ℤ) - g.Lx
      else ((o.2.2 / step * step : ℕ) : ℤ)) + ((o.2.2 - o.2.2 / step * step : ℕ) : ℤ) =
      if g.Lx / 2 ≤ o.2.2 then (o.2.2 : ℤ) - g.Lx else o.2.2 := by
    by_cases h' : g.Lx / 2 ≤ o.2.2
    · rw [if_pos (hiff.2 h'), if_pos h']
      omega
    · rw [if_neg (fun h'' => h' (hiff.1 h'')), if_neg h']
      omega
  rw [hx]
  have hsq : (if g.Lx / 2 ≤ o.2.2 then (o.2.2 : ℤ) - g.Lx else o.2.2) *
      (if g.Lx / 2 ≤ o.2.2 then (o.2.2 : ℤ) - g.Lx else o.2.2) =
      (if ((o.2.2 : ℕ) : ℤ) > ((g.Lx / 2 : ℕ) : ℤ) then (o.2.2 : ℤ) - g.Lx else o.2.2) *
      (if ((o.2.2 : ℕ) : ℤ) > ((g.Lx / 2 : ℕ) : ℤ) then (o.2.2 : ℤ) - g.Lx else o.2.2) := by
    rcases Nat.lt_trichotomy o.2.2 (g.Lx / 2) with h' | h' | h'
    · rw [if_neg (by omega), if_neg (by omega)]
    · rw [if_pos (by omega), if_neg (by omega)]
      have : (g.Lx : ℤ) = 2 * o.2.2 := by omega
      rw [this]; ring
    · rw [if_pos (by omega), if_pos (by omega)]
  rw [hsq]
  unfold SpecLap.Ly
  ring

omit [NeZero g.Lx] [NeZero g.Tz] in
theorem modeFull_eq_zero (ok : g.Ok) {r i : ℕ} (hr : r < g.n) (hi : i < g.vol) :
    modeFull g r i = 0 ↔ r = 0 ∧ i = 0 := by
  constructor
  · intro h
    obtain ⟨o, ho, rfl⟩ := SpecLap.idx_surj ok false (by rw [SpecLap.count_full ok]; exact hi)
    obtain ⟨h1, h2, h3⟩ := mem_iterations.1 ho
    rw [← SpecLap.modeW_full] at h
    unfold SpecLap.modeW at h
    rw [SpecLap.idx_mod ho, SpecLap.idx_y ho, SpecLap.idx_z ho, Prod.mk_eq_zero, Prod.mk_eq_zero] at h
    have hy : r * (g.Lx / g.n) + o.1 < g.Lx := by
      calc _ < g.n * (g.Lx / g.n) := pair_lt hr h1
        _ = g.Lx := Nat.mul_div_cancel' ok.dvd
    have h3' : o.2.2 < g.Lx := by simpa [SpecLap.width] using h3
    obtain ⟨q1, q2, q3⟩ := h
    rw [ZMod.natCast_eq_zero_iff] at q1 q2 q3
    have e1 := Nat.eq_zero_of_dvd_of_lt q1 h3'
    have e2 := Nat.eq_zero_of_dvd_of_lt q2 hy
    have e3 := Nat.eq_zero_of_dvd_of_lt q3 h2
    have hp := ok.part_pos
    have e4 : o.1 = 0 := by omega
    have e5 : r = 0 := by
      rw [e4, Nat.add_zero] at e2
      rcases Nat.mul_eq_zero.1 e2 with h | h
      · exact h
      · omega
    refine ⟨e5, ?_⟩
    rw [SpecLap.idx_eq, e1, e3, e4]
    simp
  · rintro ⟨rfl, rfl⟩
    unfold modeFull
    simp

/-- The arrays hold the amplitudes `A` and `B` of field and velocity. -/
structure CInModes (g : Gravity.Geo) (Q : ℕ) (A B : Torus g.Lx g.Tz → ℂ) (w : ℕ → CMem) : Prop where
  am : ∀ r < g.n, Room Q (w r).m
  av : ∀ r < g.n, Room Q (w r).v
  a2 : ∀ r < g.n, Room Q (w r).m2
  m : ∀ r < g.n, ∀ i < g.vol, (w r).m (g.Lx * g.Lx + i) = some (A (modeFull g r i))
  v : ∀ r < g.n, ∀ i < g.vol, (w r).v i = some (B (modeFull g r i))

omit [NeZero g.Lx] [NeZero g.Tz] in
theorem sModes_spec (p : Par) (bad : ℂ × ℂ) (step r : ℕ) {order : List (ℕ × ℕ × ℕ)}
    (hnd : order.Nodup) (hmem : ∀ o ∈ order, o ∈ iterations g false) {w : CMem} {M V F : ℕ → ℂ} {N Q : ℕ}
    (hN : ∀ o ∈ order, sIdx g o < N) (am : Room Q w.m) (av : Room Q w.v)
    (hm : ∀ i < N, w.m (i + g.Lx * g.Lx) = some (M i)) (hv : ∀ i < N, w.v i = some (V i))
    (hf : ∀ i < N, w.m2 i = some (F i)) :
    ∃ w', order.foldlM (sMode g p bad step r) w = some w' ∧ w'.m2 = w.m2 ∧ Room Q w'.m ∧ Room Q w'.v ∧
      ∀ o ∈ order, w'.m (sIdx g o + g.Lx * g.Lx) =
          some (turn p bad (sK2 g step r o : ℝ) (M (sIdx g o)) (V (sIdx g o)) (F (sIdx g o))).1 ∧
        w'.v (sIdx g o) =
          some (turn p bad (sK2 g step r o : ℝ) (M (sIdx g o)) (V (sIdx g o)) (F (sIdx g o))).2 := by
  obtain ⟨w', e, p1, p2, p3, p4, -⟩ := foldlM_inv (f := sMode g p bad step r) (s := w) order
    (P := fun pre t => t.m2 = w.m2 ∧ Room Q t.m ∧ Room Q t.v ∧
      (∀ o ∈ pre, t.m (sIdx g o + g.Lx * g.Lx) =
          some (turn p bad (sK2 g step r o : ℝ) (M (sIdx g o)) (V (sIdx g o)) (F (sIdx g o))).1 ∧
        t.v (sIdx g o) =
          some (turn p bad (sK2 g step r o : ℝ) (M (sIdx g o)) (V (sIdx g o)) (F (sIdx g o))).2) ∧
      ∀ i, (∀ o ∈ pre, sIdx g o ≠ i) → t.m (i + g.Lx * g.Lx) = w.m (i + g.Lx * g.Lx) ∧ t.v i = w.v i)
    ⟨rfl, am, av, by simp, fun _ _ => ⟨rfl, rfl⟩⟩
    (by
      rintro pre j post hsplit t ⟨t1, t2, t3, t4, t5⟩
      have hj : j ∈ order := by rw [hsplit]; simp
      have hpre : ∀ o ∈ pre, sIdx g o ≠ sIdx g j := by
        intro o ho h
        rw [sIdx_eq, sIdx_eq] at h
        have ho' : o ∈ order := by rw [hsplit]; simp [ho]
        have := SpecLap.idx_inj (hmem o ho') (hmem j hj) h
        subst this
        rw [hsplit] at hnd
        exact (List.nodup_append.1 hnd).2.2 o ho o (by simp) rfl
      have hjN := hN j hj
      have q := t5 (sIdx g j) hpre
      have hM := hm _ hjN
      have hV := hv _ hjN
      have hF := hf _ hjN
      rw [← q.1] at hM
      rw [← q.2] at hV
      refine ⟨{ t with
        m := fun b => if b = sIdx g j + g.Lx * g.Lx then
          some (turn p bad (sK2 g step r j : ℝ) (M (sIdx g j)) (V (sIdx g j)) (F (sIdx g j))).1 else t.m b
        v := fun b => if b = sIdx g j then
          some (turn p bad (sK2 g step r j : ℝ) (M (sIdx g j)) (V (sIdx g j)) (F (sIdx g j))).2
          else t.v b }, ?_, t1, ?_, ?_, ?_, ?_⟩
      · unfold sMode
        dsimp only
        rw [t1, hF, hV, hM]
        simp only [Option.bind_eq_bind, Option.bind_some]
        rw [write_eq t.v _ _ (by rw [hV]; rfl)]
        simp only [Option.bind_some]
        rw [write_eq t.m _ _ (by rw [hM]; rfl)]
        rfl
      · intro a ha
        dsimp only
        split
        · rfl
        · exact t2 a ha
      · intro a ha
        dsimp only
        split
        · rfl
        · exact t3 a ha
      · intro o ho
        rcases List.mem_append.1 ho with ho | ho
        · have hne := hpre o ho
          dsimp only
          rw [if_neg (by omega), if_neg hne]
          exact t4 o ho
        · rw [List.mem_singleton.1 ho]
          dsimp only
          rw [if_pos rfl, if_pos rfl]
          exact ⟨rfl, rfl⟩
      · intro i hi
        have h1 : sIdx g j ≠ i := hi j (by simp)
        have h2 := t5 i (fun o ho => hi o (by simp [ho]))
        dsimp only
        rw [if_neg (by omega), if_neg (fun h => h1 h.symm)]
        exact h2)
  exact ⟨w', e, p1, p2, p3, p4⟩

/-- The kernel of a rank. -/
theorem sKernel_spec (ok : g.Ok) {p : Par} (hℓ : p.ℓ ≠ 0) (bad : ℂ × ℂ) {Q step : ℕ} (hs : 0 < step)
    (he : 2 ∣ g.Lx) (hd : step ∣ g.Lx / 2) (hQ : g.Lx * g.Lx + g.vol ≤ Q) {r : ℕ} (hr : r < g.n)
    {order : List (ℕ × ℕ × ℕ)} (ho : order.Perm (sLanes g step)) (I J : ℝ → ℝ)
    {A B F : Torus g.Lx g.Tz → ℂ} {w : CMem} (am : Room Q w.m) (av : Room Q w.v) (a2 : Room Q w.m2)
    (hm : ∀ i < g.vol, w.m (g.Lx * g.Lx + i) = some (A (modeFull g r i)))
    (hv : ∀ i < g.vol, w.v i = some (B (modeFull g r i)))
    (hf : ∀ i < g.vol, w.m2 i = some (F (modeFull g r i))) :
    ∃ w', sKernel g p (I (p.dz * p.d)) (J (p.dz * p.d)) bad step r order w = some w' ∧ Room Q w'.m ∧
      Room Q w'.v ∧ Room Q w'.m2 ∧ ∀ i < g.vol,
        w'.m (g.Lx * g.Lx + i) = some (sol (2 * Real.pi / p.ℓ) I J A
          (fun k => B k + F k * ((p.dz * p.c : ℝ) : ℂ)) (p.dz * p.d) (modeFull g r i)).1 ∧
        w'.v i = some (sol (2 * Real.pi / p.ℓ) I J A
          (fun k => B k + F k * ((p.dz * p.c : ℝ) : ℂ)) (p.dz * p.d) (modeFull g r i)).2 := by
  have hpos := vol_pos ok
  have hdx : step ∣ g.Lx := hd.trans (Nat.div_dvd_of_dvd he)
  have hit := ho.trans (sLanes_perm hs hdx)
  have hcount := SpecLap.count_full ok
  obtain ⟨w1, e1, q1, q2, q3, q4⟩ := sModes_spec (g := g) p bad step r (order := order) (N := g.vol) (Q := Q)
    (hit.nodup_iff.2 (SpecLap.iterations_nodup false)) (fun o h => hit.mem_iff.1 h)
    (fun o h => by
      rw [sIdx_eq, ← hcount]
      exact SpecLap.idx_lt (hit.mem_iff.1 h)) am av
    (fun i hi => by rw [Nat.add_comm]; exact hm i hi) hv hf
  have hgen : ∀ i < g.vol, ¬ (r = 0 ∧ i = 0) →
      w1.m (g.Lx * g.Lx + i) = some (sol (2 * Real.pi / p.ℓ) I J A
        (fun k => B k + F k * ((p.dz * p.c : ℝ) : ℂ)) (p.dz * p.d) (modeFull g r i)).1 ∧
      w1.v i = some (sol (2 * Real.pi / p.ℓ) I J A
        (fun k => B k + F k * ((p.dz * p.c : ℝ) : ℂ)) (p.dz * p.d) (modeFull g r i)).2 := by
    intro i hi h0
    obtain ⟨o, ho', rfl⟩ := SpecLap.idx_surj ok false (by rw [hcount]; exact hi)
    have q := q4 o (hit.mem_iff.2 ho')
    rw [sK2_eq ok hs he hd hr ho', sIdx_eq, turn_sol' hℓ bad I J A B F
      (fun h => h0 ((modeFull_eq_zero ok hr hi).1 h)), Nat.add_comm] at q
    exact q
  unfold sKernel
  by_cases h0 : r = 0
  · rw [if_pos h0]
    have z0 : modeFull g r 0 = 0 := (modeFull_eq_zero ok hr hpos).2 ⟨h0, rfl⟩
    have hm0 := hm 0 hpos
    have hv0 := hv 0 hpos
    have hf0 := hf 0 hpos
    rw [Nat.add_zero] at hm0
    rw [z0] at hm0 hv0 hf0
    refine ⟨{ w1 with
      m := fun b => if b = g.Lx * g.Lx then
        some (zeroMode p (I (p.dz * p.d)) (J (p.dz * p.d)) (A 0) (B 0) (F 0)).1 else w1.m b
      v := fun b => if b = 0 then
        some (zeroMode p (I (p.dz * p.d)) (J (p.dz * p.d)) (A 0) (B 0) (F 0)).2 else w1.v b },
      ?_, ?_, ?_, ?_, ?_⟩
    · rw [hm0, hv0]
      simp only [Option.bind_eq_bind, Option.bind_some]
      rw [e1]
      simp only [Option.bind_some]
      rw [q1, hf0]
      simp only [Option.bind_some]
      rw [write_eq w1.m _ _ (q2 _ (by omega))]
      simp only [Option.bind_some]
      rw [write_eq w1.v _ _ (q3 _ (by omega))]
      rfl
    · intro a ha
      dsimp only
      split
      · rfl
      · exact q2 a ha
    · intro a ha
      dsimp only
      split
      · rfl
      · exact q3 a ha
    · dsimp only
      rw [q1]; exact a2
    · intro i hi
      dsimp only
      by_cases hi0 : i = 0
      · subst hi0
        rw [Nat.add_zero, z0, ← zeroMode_sol p I J A B F, if_pos rfl, if_pos rfl]
        exact ⟨rfl, rfl⟩
      · rw [if_neg (by omega), if_neg hi0]
        exact hgen i hi (fun h => hi0 h.2)
  · rw [if_neg h0]
    exact ⟨w1, e1, q2, q3, by rw [q1]; exact a2, fun i hi => hgen i hi (fun h => h0 h.1)⟩

/-- A stage. -/
theorem sStage_spec (ok : g.Ok) {P : CPlan} (hP : P.Exact g) {sw : Switch} {acc : ℂ → ℂ}
    (bad : ℂ × ℂ) {Q step : ℕ} (hs : 0 < step) (he : 2 ∣ g.Lx) (hd : step ∣ g.Lx / 2)
    (hQ : g.Lx * g.Lx + g.vol ≤ Q) {s : SIn} (hℓ : s.par.ℓ ≠ 0) (hacc : ∀ x, sAcc s.par sw x = some (acc x))
    (hok : s.Ok g step) {I J : ℝ → ℝ} (hI : s.I1 = I (s.par.dz * s.par.d))
    (hJ : s.I2 = J (s.par.dz * s.par.d)) {A B : Torus g.Lx g.Tz → ℂ} {w : ℕ → CMem}
    (H : CInModes g Q A B w) :
    ∃ w', sStage g 1 Q P sw bad step s w = some w' ∧
      CInModes g Q
        (fun k => (sol (2 * Real.pi / s.par.ℓ) I J A (fun k => B k +
          coef g (fun x => acc (synth A x)) k * ((s.par.dz * s.par.c : ℝ) : ℂ)) (s.par.dz * s.par.d) k).1)
        (fun k => (sol (2 * Real.pi / s.par.ℓ) I J A (fun k => B k +
          coef g (fun x => acc (synth A x)) k * ((s.par.dz * s.par.c : ℝ) : ℂ)) (s.par.dz * s.par.d) k).2)
        w' := by
  have hdx : step ∣ g.Lx := hd.trans (Nat.div_dvd_of_dvd he)
  have hdv : step ∣ g.vol := by
    rw [vol_eq]; exact Nat.dvd_mul_left_of_dvd hdx _
  have hst : start g 1 = g.Lx * g.Lx := by unfold start; simp
  obtain ⟨m3, e3, h3⟩ := cBck_spec ok hP (Q := Q) (o := g.Lx * g.Lx) (o' := 0) (by omega)
    (src := fun r => (w r).m) (dst := fun r => (w r).m2) A H.a2 H.m
  obtain ⟨m4, e4, h4⟩ := ranks_spec (n := g.n) (w := m3)
    (f := fun r h => (s.acc r).foldlM (sAccCell s.par sw) h)
    (Q := fun r (h : Heap ℕ ℂ) => Room Q h ∧
      ∀ i < g.vol, h i = some (acc (synth A (siteOf g (r * g.vol + i)))))
    (by
      intro r hr
      obtain ⟨h', e, q1, q2⟩ := sAccCells_spec hacc (Q := Q)
        ((hok.acc r hr).nodup_iff.2 lanes_nodup)
        (fun i hi => by
          have := (mem_lanes_dvd hs hdv).1 ((hok.acc r hr).mem_iff.1 hi); omega) (h3 r hr).1
      refine ⟨h', e, q2, ?_⟩
      intro i hi
      have := (h3 r hr).2 i hi
      rw [Nat.zero_add] at this
      rw [q1 i ((hok.acc r hr).mem_iff.2 ((mem_lanes_dvd hs hdv).2 hi)), this]
      rfl)
  obtain ⟨m5, m6, e5, e6, h6⟩ := cModes_spec ok hP (Q := Q) (o := 0) (by omega) (w := m4)
    (fun x => acc (synth A x)) (fun r hr => (h4 r hr).1)
    (fun r i hr hi => by rw [Nat.zero_add]; exact (h4 r hr).2 i hi)
  obtain ⟨w', e7, h7⟩ := ranks_spec (n := g.n)
    (w := fun r => ({ w r with m2 := m6 r } : CMem))
    (f := fun r w => sKernel g s.par s.I1 s.I2 bad step r (s.modes r) w)
    (Q := fun r w' => Room Q w'.m ∧ Room Q w'.v ∧ Room Q w'.m2 ∧ ∀ i < g.vol,
        w'.m (g.Lx * g.Lx + i) = some (sol (2 * Real.pi / s.par.ℓ) I J A
          (fun k => B k + coef g (fun x => acc (synth A x)) k *
            ((s.par.dz * s.par.c : ℝ) : ℂ)) (s.par.dz * s.par.d) (modeFull g r i)).1 ∧
        w'.v i = some (sol (2 * Real.pi / s.par.ℓ) I J A
          (fun k => B k + coef g (fun x => acc (synth A x)) k *
            ((s.par.dz * s.par.c : ℝ) : ℂ)) (s.par.dz * s.par.d) (modeFull g r i)).2)
    (fun r hr => by
      rw [hI, hJ]
      exact sKernel_spec ok hℓ bad hs he hd hQ hr (hok.modes r hr) I J (H.am r hr) (H.av r hr)
        (h6 r hr).1 (H.m r hr) (H.v r hr)
        (fun i hi => by have := (h6 r hr).2 i hi; rw [Nat.zero_add] at this; exact this))
  refine ⟨w', ?_, fun r hr => (h7 r hr).1, fun r hr => (h7 r hr).2.1, fun r hr => (h7 r hr).2.2.1,
    fun r hr i hi => ((h7 r hr).2.2.2 i hi).1, fun r hr i hi => ((h7 r hr).2.2.2 i hi).2⟩
  unfold sStage
  simp only [Option.bind_eq_bind]
  rw [hst, e3]
  simp only [Option.bind_some]
  rw [e4]
  simp only [Option.bind_some]
  rw [e5]
  simp only [Option.bind_some]
  rw [e6]
  simp only [Option.bind_some]
  exact e7

theorem sToModes_spec (ok : g.Ok) {P : CPlan} (hP : P.Exact g) {Q : ℕ} (hQ : g.Lx * g.Lx + g.vol ≤ Q)
    {s : (Torus g.Lx g.Tz → ℂ) × (Torus g.Lx g.Tz → ℂ)} {w : ℕ → CMem} (H : CShows g Q s w) :
    ∃ w', sToModes g 1 Q P w = some w' ∧ CInModes g Q (coef g s.1) (coef g s.2) w' := by
  have hst : start g 1 = g.Lx * g.Lx := by unfold start; simp
  obtain ⟨m1, m2, e1, e2, h2⟩ := cModes_spec ok hP (Q := Q) (o := g.Lx * g.Lx) hQ
    (w := fun r => (w r).m) s.1 (fun r hr a ha => (H.room r a hr ha).1) H.m
  obtain ⟨v1, v2, f1, f2, k2⟩ := cModes_spec ok hP (Q := Q) (o := 0) (by omega)
    (w := fun r => (w r).v) s.2 (fun r hr a ha => (H.room r a hr ha).2.1)
    (fun r i hr hi => by rw [Nat.zero_add]; exact H.v r i hr hi)
  refine ⟨fun r => ⟨m2 r, v2 r, (w r).m2⟩, ?_, fun r hr => (h2 r hr).1, fun r hr => (k2 r hr).1,
    fun r hr a ha => (H.room r a hr ha).2.2, fun r hr => (h2 r hr).2, fun r hr i hi => ?_⟩
  · unfold sToModes
    simp only [Option.bind_eq_bind]
    rw [hst, e1]
    simp only [Option.bind_some]
    rw [e2]
    simp only [Option.bind_some]
    rw [f1]
    simp only [Option.bind_some]
    rw [f2]
    rfl
  · have := (k2 r hr).2 i hi
    rw [Nat.zero_add] at this
    exact this

theorem sFromModes_spec (ok : g.Ok) {P : CPlan} (hP : P.Exact g) {Q : ℕ} (hQ : g.Lx * g.Lx + g.vol ≤ Q)
    {A B : Torus g.Lx g.Tz → ℂ} {w : ℕ → CMem} (H : CInModes g Q A B w) :
    ∃ w', sFromModes g 1 P w = some w' ∧ CShows g Q (synth A, synth B) w' := by
  have hst : start g 1 = g.Lx * g.Lx := by unfold start; simp
  obtain ⟨m1, e1, h1⟩ := cBck_spec ok hP (Q := Q) (o := g.Lx * g.Lx) (o' := g.Lx * g.Lx) hQ
    (src := fun r => (w r).m) (dst := fun r => (w r).m) A H.am H.m
  obtain ⟨v1, f1, k1⟩ := cBck_spec ok hP (Q := Q) (o := 0) (o' := 0) (by omega)
    (src := fun r => (w r).v) (dst := fun r => (w r).v) B H.av
    (fun r hr i hi => by rw [Nat.zero_add]; exact H.v r hr i hi)
  refine ⟨fun r => ⟨m1 r, v1 r, (w r).m2⟩, ?_, fun r i hr hi => (h1 r hr).2 i hi, fun r i hr hi => ?_,
    fun r a hr ha => ⟨(h1 r hr).1 a ha, (k1 r hr).1 a ha, H.a2 r hr a ha⟩⟩
  · unfold sFromModes
    simp only [Option.bind_eq_bind]
    rw [hst, e1]
    simp only [Option.bind_some]
    rw [f1]
    rfl
  · have := (k1 r hr).2 i hi
    rw [Nat.zero_add] at this
    exact this

/-- A stage in configuration space, with any force `acc`. -/
theorem sStage_wave (ok : g.Ok) {P : CPlan} (hP : P.Exact g) {sw : Switch} {acc : ℂ → ℂ}
    (bad : ℂ × ℂ) {Q step : ℕ} (hs : 0 < step) (he : 2 ∣ g.Lx) (hd : step ∣ g.Lx / 2)
    (hQ : g.Lx * g.Lx + g.vol ≤ Q) {x : SIn} (hℓ : x.par.ℓ ≠ 0) (hacc : ∀ y, sAcc x.par sw y = some (acc y))
    (hok : x.Ok g step) {q : ℝ → ℝ} (hq : x.Driven q)
    {s : (Torus g.Lx g.Tz → ℂ) × (Torus g.Lx g.Tz → ℂ)} {w : ℕ → CMem}
    (H : CInModes g Q (coef g s.1) (coef g s.2) w) :
    ∃ w' s', sStage g 1 Q P sw bad step x w = some w' ∧ CInModes g Q (coef g s'.1) (coef g s'.2) w' ∧
      Wave (lapS (2 * Real.pi / x.par.ℓ)) (fun t => (q t : ℂ)) (x.par.dz * x.par.d)
        (kick (fun φ y => acc (φ y)) (x.par.dz * x.par.c) s) s' := by
  have hk : 2 * Real.pi / x.par.ℓ ≠ 0 := div_ne_zero (by positivity) hℓ
  have hIc : Continuous fun t => ∫ y in (0 : ℝ)..t, q y :=
    intervalIntegral.continuous_primitive (fun a b => hq.cont.intervalIntegrable a b) 0
  obtain ⟨w', e, h⟩ := sStage_spec ok hP bad hs he hd hQ hℓ hacc hok
    (I := fun t => ∫ y in (0 : ℝ)..t, q y) (J := fun t => ∫ z in (0 : ℝ)..t, ∫ y in (0 : ℝ)..z, q y)
    hq.one hq.two H
  have ekick : (fun k => coef g s.2 k + coef g (fun y => acc (synth (coef g s.1) y)) k *
      ((x.par.dz * x.par.c : ℝ) : ℂ)) =
      coef g (kick (fun φ y => acc (φ y)) (x.par.dz * x.par.c) s).2 := by
    funext k
    unfold kick
    rw [← coef_add]
    congr 1
    funext y
    dsimp only
    rw [synth_coef, Complex.real_smul]
  rw [ekick] at h
  have hw := wave_modes (coef g s.1) (coef g (kick (fun φ y => acc (φ y)) (x.par.dz * x.par.c) s).2) hk
    (fun t => hq.cont.integral_hasStrictDerivAt 0 t |>.hasDerivAt)
    (fun t => hIc.integral_hasStrictDerivAt 0 t |>.hasDerivAt)
    intervalIntegral.integral_same intervalIntegral.integral_same (x.par.dz * x.par.d)
  have e1 : synth (coef g s.1) = s.1 := funext (synth_coef s.1)
  have e2 : synth (coef g (kick (fun φ y => acc (φ y)) (x.par.dz * x.par.c) s).2) =
      (kick (fun φ y => acc (φ y)) (x.par.dz * x.par.c) s).2 := funext (synth_coef _)
  rw [e1, e2] at hw
  refine ⟨w', _, e, ?_, hw⟩
  rw [coef_synth, coef_synth]
  exact h

end

end Jaxions.FullSpec
