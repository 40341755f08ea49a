import Verif.Spec.SmoothFourier
import Verif.Lemmas.FieldSpectrum
import Verif.Props.Pad
import Verif.Props.Gravity
/-
Lemmas for C85: the arrays.
-/
namespace Jaxions.SmoothF

open Finset Gravity WKB

section
variable {g : Geo}

theorem total_eq : total g = g.lines * (g.Lx + 2) := by unfold total Geo.lines; ring

theorem modes_le : 2 * g.modes ≤ total g := by
  have h : 2 * g.hLx ≤ g.Lx + 2 := by unfold Geo.hLx; omega
  have e : 2 * g.modes = 2 * g.hLx * (g.Lx * g.Lz) := by unfold Geo.modes; ring
  have e2 : total g = (g.Lx + 2) * (g.Lx * g.Lz) := by unfold total; ring
  rw [e, e2]
  exact Nat.mul_le_mul_right _ h

theorem total_le {Ng : ℕ} (hNg : g.Lz ≤ Ng * g.Lx) : total g ≤ v3 g Ng := by
  have e : total g = g.Lx * g.Lx * g.Lz + 2 * (g.Lx * g.Lz) := by unfold total; ring
  have e2 : v3 g Ng = g.Lx * g.Lx * g.Lz + 2 * (g.Lx * (Ng * g.Lx)) := by unfold v3; ring
  rw [e, e2]
  have := Nat.mul_le_mul_left g.Lx hNg
  omega

theorem toHalf_spec {Ng : ℕ} (hNg : g.Lz ≤ Ng * g.Lx) {w : ℕ → Heap ℕ ℝ} (ha : Allocated g Ng w) :
    ∃ w', toHalf g Ng w = some w' ∧ ∀ r < g.n, (∀ i < total g, w' r (v3 g Ng + i) = w r i) ∧
      (∀ a < v3 g Ng, w' r a = w r a) ∧ WKB.Alloc (v3 g Ng + total g) (w' r) := by
  have hle := total_le hNg
  refine ranks_spec (n := g.n) (w := w)
    (Q := fun r h => (∀ i < total g, h (v3 g Ng + i) = w r i) ∧ (∀ a < v3 g Ng, h a = w r a) ∧
      WKB.Alloc (v3 g Ng + total g) h) ?_
  intro r hr
  obtain ⟨h', e, p1, p2⟩ := memmove_spec (fun i => v3 g Ng + i) (fun i => i) (total g) (w r)
    (fun i hi => ha r hr _ (by omega)) (fun i hi => ha r hr _ (by omega)) (fun i _ j _ h => by omega)
  refine ⟨h', e, p1, fun a h => p2 a fun i _ => by omega, fun a h => ?_⟩
  by_cases hc : v3 g Ng ≤ a
  · obtain ⟨i, rfl⟩ := Nat.exists_eq_add_of_le hc
    rw [p1 i (by omega)]
    exact ha r hr _ (by omega)
  · rw [p2 a fun i _ => by omega]
    exact ha r hr _ h

theorem fromHalf_spec {Ng : ℕ} (hNg : g.Lz ≤ Ng * g.Lx) {w : ℕ → Heap ℕ ℝ} (ha : Allocated g Ng w) :
    ∃ w', fromHalf g Ng w = some w' ∧ ∀ r < g.n, (∀ i < total g, w' r i = w r (v3 g Ng + i)) ∧
      (∀ a, total g ≤ a → w' r a = w r a) ∧ WKB.Alloc (v3 g Ng + total g) (w' r) := by
  have hle := total_le hNg
  refine ranks_spec (n := g.n) (w := w)
    (Q := fun r h => (∀ i < total g, h i = w r (v3 g Ng + i)) ∧ (∀ a, total g ≤ a → h a = w r a) ∧
      WKB.Alloc (v3 g Ng + total g) h) ?_
  intro r hr
  obtain ⟨h', e, p1, p2⟩ := memmove_spec (fun i => i) (fun i => v3 g Ng + i) (total g) (w r)
    (fun i hi => ha r hr _ (by omega)) (fun i hi => ha r hr _ (by omega)) (fun i _ j _ h => h)
  refine ⟨h', e, p1, fun a h => p2 a fun i _ => by omega, fun a h => ?_⟩
  by_cases hc : a < total g
  · rw [p1 a hc]
    exact ha r hr _ (by omega)
  · rw [p2 a fun i _ => by omega]
    exact ha r hr _ h

theorem load_at {h h' : Heap ℕ ℝ} {o o' n i : ℕ} (hi : 2 * i + 2 ≤ n)
    (hh : ∀ a < n, h (o + a) = h' (o' + a)) : load h o i = load h' o' i :=
  load_congr (hh _ (by omega)) (by have := hh (2 * i + 1) (by omega); rwa [← Nat.add_assoc, ← Nat.add_assoc] at this)

/-! ### The loop over the modes -/

theorem number_same (ok : g.Ok) {r i : ℕ} : number g r i = g.number r i := by
  have e0 : g.hLx * (i / g.hLx) ≤ i := Nat.mul_div_le i g.hLx
  have e1 : (((i - i / g.hLx * g.hLx : ℕ) : ℤ)) = (i : ℤ) - ((i / g.hLx : ℕ) : ℤ) * (g.hLx : ℤ) := by
    rw [Nat.cast_sub (by rw [Nat.mul_comm]; exact e0)]; push_cast; ring
  have e3 : ((i / g.hLx - g.Tz * (i / g.hLx / g.Tz) : ℕ) : ℤ) =
      ((i / g.hLx : ℕ) : ℤ) - (((i / g.hLx / g.Tz : ℕ)) : ℤ) * (g.Tz : ℤ) := by
    rw [Nat.cast_sub (Nat.mul_div_le _ _), Nat.cast_mul]; ring
  have e2 : ((i / g.hLx : ℕ) : ℤ) / (g.Tz : ℤ) = ((i / g.hLx / g.Tz : ℕ) : ℤ) := (Int.natCast_div _ _).symm
  have e4 : r * g.Lx / g.n = g.zBase r := by
    unfold Geo.zBase
    rw [Nat.mul_div_assoc _ ok.dvd, Nat.mul_comm]
  unfold number Geo.number
  dsimp only
  rw [e1, e3, e2, e4]

theorem modeK2_eq (ok : g.Ok) {r i : ℕ} (hr : r < g.n) (hi : i < g.modes) :
    modeK2 g r i = ksq (modeOf g r i) := by
  unfold modeK2
  rw [number_same ok, number_eq ok hr hi]
  unfold ksq
  ring

theorem filter_rank (ok : g.Ok) {f : Filter} {nrm k0R : ℝ} {r N : ℕ} (hr : r < g.n) (hN : 2 * g.modes ≤ N)
    {order : List ℕ} (ho : order.Perm (List.range g.modes)) {h : Heap ℕ ℝ} (ha : WKB.Alloc N h)
    {H : Torus g.Lx g.Tz → ℂ} (hH : ∀ i < g.modes, load h 0 i = some (H (modeOf g r i))) :
    ∃ h', order.foldlM (filterMode g f nrm k0R r) h = some h' ∧ WKB.Alloc N h' ∧
      (∀ i < g.modes, load h' 0 i =
        some (weight f nrm k0R (ksq (modeOf g r i) : ℝ) (H (modeOf g r i)))) ∧
      ∀ a, 2 * g.modes ≤ a → h' a = h a := by
  have hnd : order.Nodup := ho.nodup_iff.2 List.nodup_range
  have hlt : ∀ i, i ∈ order ↔ i < g.modes := fun i => by rw [ho.mem_iff, List.mem_range]
  obtain ⟨h', e, p1, p2, p3, p4⟩ := foldlM_inv (f := filterMode g f nrm k0R r) (s := h) order
    (P := fun pre t => WKB.Alloc N t ∧
      (∀ i ∈ pre, load t 0 i = some (weight f nrm k0R (ksq (modeOf g r i) : ℝ) (H (modeOf g r i)))) ∧
      (∀ i < g.modes, i ∉ pre → load t 0 i = load h 0 i) ∧ ∀ a, 2 * g.modes ≤ a → t a = h a)
    ⟨ha, by simp, fun _ _ _ => rfl, fun _ _ => rfl⟩
    (by
      rintro pre j post hsplit t ⟨t1, t2, t3, t4⟩
      have hj : j < g.modes := (hlt j).1 (by rw [hsplit]; simp)
      have hnot : j ∉ pre := by
        rw [hsplit] at hnd
        intro hc
        exact (List.nodup_append.1 hnd).2.2 j hc j (by simp) rfl
      obtain ⟨t', e, q1, q2, q3⟩ := store_spec t1 (i := j) (by omega)
        (weight f nrm k0R (modeK2 g r j : ℝ) (H (modeOf g r j)))
      have hother : ∀ i, i ≠ j → load t' 0 i = load t 0 i := fun i hij =>
        load_congr (q3 _ (by omega) (by omega)) (q3 _ (by omega) (by omega))
      refine ⟨t', ?_, q2, ?_, ?_, ?_⟩
      · unfold filterMode
        rw [t3 j hj hnot, hH j hj]
        exact e
      · intro i hi
        by_cases hij : i = j
        · rw [hij, q1, modeK2_eq ok hr hj]
        · rw [hother i hij]
          rcases List.mem_append.1 hi with hi | hi
          · exact t2 i hi
          · exact absurd (List.mem_singleton.1 hi) hij
      · intro i hi hni
        rw [hother i fun h => hni (by rw [h]; simp)]
        exact t3 i hi fun h => hni (List.mem_append_left _ h)
      · intro a h
        rw [q3 a (by omega) (by omega)]
        exact t4 a h)
  exact ⟨h', e, p1, fun i hi => p2 i ((hlt i).2 hi), p4⟩

/-! ### The transform back -/

theorem backward_frame [NeZero g.Lx] [NeZero g.Tz] (ok : g.Ok) {P : Plan} (hP : P.Exact g) {N : ℕ}
    (hN : g.lines * (g.Lx + 2) ≤ N) {w : ℕ → Heap ℕ ℝ} {H : Torus g.Lx g.Tz → ℂ}
    (hH : ∀ k, H (-k) = starRingEnd ℂ (H k)) (hw : ∀ r, r < g.n → WKB.Alloc N (w r))
    (hm : ∀ r i, r < g.n → i < g.modes → load (w r) 0 i = some (H (modeOf g r i))) :
    ∃ w', backward g P w = some w' ∧ ∀ r, r < g.n →
      (∀ i, i < g.vol → w' r (rowIx g.Lx i) = some (synth H (siteOf g (r * g.vol + i))).re) ∧
      WKB.Alloc N (w' r) ∧ ∀ a, g.lines * (g.Lx + 2) ≤ a → w' r a = w r a := by
  obtain ⟨F, eF, hF⟩ := hP.bck (fun r i => load (w r) 0 i) H hH hm
  unfold backward
  rw [eF]
  simp only [Option.bind_eq_bind, Option.bind_some]
  refine ranks_spec (n := g.n) (w := w)
    (Q := fun r h => (∀ i, i < g.vol → h (rowIx g.Lx i) =
      some (synth H (siteOf g (r * g.vol + i))).re) ∧ WKB.Alloc N h ∧
      ∀ a, g.lines * (g.Lx + 2) ≤ a → h a = w r a) ?_
  intro r hr
  have hlt : ∀ i < g.vol, rowIx g.Lx i < g.lines * (g.Lx + 2) := fun i hi =>
    FieldSpec.rowIx_lt ok.side (by rw [← vol_eq]; exact hi)
  obtain ⟨h', e, p1, p2⟩ := writeAll_spec ((List.range g.vol).map fun i =>
    (rowIx g.Lx i, F (r * g.vol + i))) (w r)
    (by
      intro p hp
      obtain ⟨i, hi, rfl⟩ := List.mem_map.1 hp
      exact hw r hr _ ((hlt i (List.mem_range.1 hi)).trans_le hN))
    (by
      rw [List.map_map]
      refine List.Nodup.map_on ?_ List.nodup_range
      intro i _ j _ h
      exact FieldSpec.rowIx_inj ok.side h)
  refine ⟨h', e, ?_, ?_, ?_⟩
  · intro i hi
    rw [p1 (rowIx g.Lx i, F (r * g.vol + i)) (List.mem_map.2 ⟨i, List.mem_range.2 hi, rfl⟩)]
    dsimp only
    rw [← hF (r * g.vol + i) (pair_lt hr hi)]
    rfl
  · intro a ha
    rw [writeAll_isSome _ e a]
    exact hw r hr a ha
  · intro a ha
    refine p2 a fun hc => ?_
    simp only [List.map_map, List.mem_map, List.mem_range, Function.comp] at hc
    obtain ⟨i, hi, rfl⟩ := hc
    have := hlt i hi
    omega

/-! ### Padding -/

theorem flat_room {h : Heap ℕ ℝ} {o N L n : ℕ} (ha : ∀ a < N, (h (o + a)).isSome) (hn : n * L ≤ N) :
    Pad.Room h o L L n := by
  intro t ht i hi
  rw [Nat.add_assoc]
  exact ha _ ((pair_lt ht hi).trans_le hn)

theorem row_room {h : Heap ℕ ℝ} {N L n : ℕ} (ha : WKB.Alloc N h) (hn : n * (L + 2) ≤ N) :
    Pad.Room h 0 (L + 2) L n := by
  intro t ht i hi
  rw [Nat.zero_add]
  exact ha _ ((pair_lt ht (show i < L + 2 by omega)).trans_le hn)

/-- What `pad` leaves: `o` is where the density lies. -/
theorem padded_rows (ok : g.Ok) {Ng o : ℕ} {ρ : Torus g.Lx g.Tz → ℝ} {r : ℕ} {h h' : Heap ℕ ℝ}
    (ha : WKB.Alloc (v3 g Ng + total g) h)
    (hρ : ∀ i < g.vol, h (o + i) = some (ρ (siteOf g (r * g.vol + i))))
    (hm : Pad.Moved h h' o g.Lx 0 (g.Lx + 2) g.Lx g.lines)
    (hrest : Pad.Rest h h' 0 (g.Lx + 2) g.Lx g.lines) :
    (∀ i < g.vol, h' (rowIx g.Lx i) = some (ρ (siteOf g (r * g.vol + i)))) ∧
      WKB.Alloc (v3 g Ng + total g) h' := by
  have key : ∀ t < g.lines, ∀ i < g.Lx, h' (0 + t * (g.Lx + 2) + i) =
      some (ρ (siteOf g (r * g.vol + (t * g.Lx + i)))) := by
    intro t ht i hi
    rw [hm t ht i hi, Nat.add_assoc]
    exact hρ _ (by rw [vol_eq]; exact pair_lt ht hi)
  constructor
  · intro i hi
    rw [vol_eq] at hi
    have h1 : i / g.Lx < g.lines := (Nat.div_lt_iff_lt_mul ok.side).2 hi
    have h2 := Nat.mod_lt i ok.side
    have := key _ h1 _ h2
    rw [Nat.zero_add, Nat.div_add_mod'] at this
    exact this
  · intro a hlt
    by_cases hc : ∃ t < g.lines, ∃ i < g.Lx, a = 0 + t * (g.Lx + 2) + i
    · obtain ⟨t, ht, i, hi, rfl⟩ := hc
      rw [key t ht i hi]; rfl
    · rw [hrest a fun t ht i hi h => hc ⟨t, ht, i, hi, h⟩]
      exact ha a hlt

end

end Jaxions.SmoothF
