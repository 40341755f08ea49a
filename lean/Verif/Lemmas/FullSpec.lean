import Verif.Model.FullSpec
import Verif.Lemmas.WKBField
import Verif.Lemmas.FullSpecWave
/-
Helper lemmas for C83: the arrays of an Axion.
-/
namespace Jaxions.FullSpec

open Gravity WKB

/-! ### Lines -/

theorem backLine_spec {Lx : ℕ} {src : Heap ℕ ℝ} {o : ℕ} {dst : Heap ℕ ℝ} {sl : ℕ}
    (hs : ∀ i, i < Lx → (src (sl * (Lx + 2) + i)).isSome)
    (hd : ∀ i, i < Lx → (dst (o + sl * Lx + i)).isSome) :
    ∃ d, backLine Lx src o dst sl = some d ∧
      (∀ i, i < Lx → d (o + sl * Lx + i) = src (sl * (Lx + 2) + i)) ∧
      ∀ a, (∀ i, i < Lx → a ≠ o + sl * Lx + i) → d a = dst a := by
  obtain ⟨xs, e, hm⟩ := readAll_some ((List.range Lx).map fun i => sl * (Lx + 2) + i) src
    (by simpa using hs)
  have hlen : xs.length = Lx := by have := congrArg List.length hm; simpa using this.symm
  have hval : ∀ i (hi : i < Lx), src (sl * (Lx + 2) + i) = some (xs[i]'(by omega)) := by
    intro i hi
    have h1 : (((List.range Lx).map fun i => sl * (Lx + 2) + i).map src)[i]? = (xs.map some)[i]? := by
      rw [hm]
    simp [hi, hlen] at h1
    exact h1
  have hfst : ((((List.range Lx).map fun i => o + sl * Lx + i).zip xs).map Prod.fst) =
      (List.range Lx).map fun i => o + sl * Lx + i := by
    apply List.map_fst_zip
    simp [hlen]
  obtain ⟨d, ed, hv, hu⟩ := writeAll_spec (((List.range Lx).map fun i => o + sl * Lx + i).zip xs) dst
    (by
      intro p hp
      have : p.1 ∈ (List.range Lx).map fun i => o + sl * Lx + i := by
        rw [← hfst]; exact List.mem_map_of_mem hp
      obtain ⟨i, hi, hpi⟩ := List.mem_map.1 this
      rw [← hpi]; exact hd i (by simpa using hi))
    (by
      rw [hfst]
      exact List.Nodup.map (fun _ _ h => by omega) List.nodup_range)
  refine ⟨d, by simp [backLine, e, ed], ?_, ?_⟩
  · intro i hi
    have hmem : (o + sl * Lx + i, xs[i]'(by omega)) ∈
        ((List.range Lx).map fun i => o + sl * Lx + i).zip xs := by
      rw [List.mem_iff_getElem]
      exact ⟨i, by simp [hlen, hi], by simp⟩
    rw [hv _ hmem, hval i hi]
  · intro a ha
    apply hu
    rw [hfst]
    intro hc
    obtain ⟨i, hi, rfl⟩ := List.mem_map.1 hc
    exact ha i (List.mem_range.1 hi) rfl

theorem backLines_spec {Lx ss Q o : ℕ} (hL : 0 < Lx) {src dst : Heap ℕ ℝ}
    (hs : ∀ i, i < ss * Lx → (src (rowIx Lx i)).isSome) (hd : WKB.Alloc Q dst) (hQ : o + ss * Lx ≤ Q) :
    ∃ d, (List.range ss).foldlM (backLine Lx src o) dst = some d ∧
      (∀ i, i < ss * Lx → d (o + i) = src (rowIx Lx i)) ∧ WKB.Alloc Q d := by
  have hrow : ∀ t i, i < Lx → rowIx Lx (t * Lx + i) = t * (Lx + 2) + i := by
    intro t i hi
    unfold rowIx
    rw [div_of hi, mod_of hi]
  obtain ⟨d, e, p1, p2⟩ := range_inv (f := backLine Lx src o) (s := dst) ss
    (P := fun j d => (∀ t < j, ∀ i, i < Lx → d (o + t * Lx + i) = src (t * (Lx + 2) + i)) ∧ WKB.Alloc Q d)
    ⟨by omega, hd⟩
    (by
      rintro t ht d ⟨d1, d2⟩
      have hb : ∀ i, i < Lx → o + t * Lx + i < Q := fun i hi => by
        have := pair_lt ht hi; omega
      obtain ⟨d', e, q1, q2⟩ := backLine_spec (Lx := Lx) (src := src) (o := o) (dst := d) (sl := t)
        (fun i hi => by rw [← hrow t i hi]; exact hs _ (pair_lt ht hi)) (fun i hi => d2 _ (hb i hi))
      refine ⟨d', e, ?_, ?_⟩
      · intro u hu i hi
        rcases Nat.lt_succ_iff_lt_or_eq.1 hu with hu | hu
        · rw [q2 _ (fun j hj hc => by
            have := (pair_inj (b := Lx) (q := u) (q' := t) hi hj (by omega)).1
            omega), d1 u hu i hi]
        · subst hu; exact q1 i hi
      · intro a ha
        by_cases hc : ∃ i, i < Lx ∧ a = o + t * Lx + i
        · obtain ⟨i, hi, rfl⟩ := hc
          rw [q1 i hi, ← hrow t i hi]
          exact hs _ (pair_lt ht hi)
        · rw [q2 a (fun i hi e' => hc ⟨i, hi, e'⟩)]
          exact d2 a ha)
  refine ⟨d, e, ?_, p2⟩
  intro i hi
  have := p1 (i / Lx) ((Nat.div_lt_iff_lt_mul hL).2 hi) (i % Lx) (Nat.mod_lt _ hL)
  rw [Nat.add_assoc, div_mul_add_mod] at this
  exact this

/-! ### Lanes -/

theorem mem_lanes {V step : ℕ} (hs : 0 < step) {i : ℕ} :
    i ∈ lanes V step ↔ i < (V + (step - 1)) / step * step := by
  unfold lanes
  simp only [List.mem_flatMap, List.mem_map, List.mem_range]
  constructor
  · rintro ⟨j, hj, l, hl, rfl⟩; exact pair_lt hj hl
  · intro h
    exact ⟨i / step, (Nat.div_lt_iff_lt_mul hs).2 h, i % step, Nat.mod_lt _ hs, div_mul_add_mod i step⟩

theorem lanes_nodup {V step : ℕ} : (lanes V step).Nodup := by
  unfold lanes
  rw [List.nodup_flatMap]
  refine ⟨fun j _ => List.Nodup.map (fun _ _ h => by omega) List.nodup_range, ?_⟩
  refine List.Pairwise.imp ?_ List.nodup_range
  intro a b hab
  rw [Function.onFun, List.disjoint_left]
  intro x hx hy
  simp only [List.mem_map, List.mem_range] at hx hy
  obtain ⟨l, hl, rfl⟩ := hx
  obtain ⟨l', hl', h⟩ := hy
  exact hab (pair_inj hl' hl h).1.symm

theorem lane_ge {V step i : ℕ} (hs : 0 < step) (hi : i < V) : i ∈ lanes V step := by
  rw [mem_lanes hs]
  have := Nat.lt_div_mul_add (a := V + (step - 1)) hs
  omega

theorem lane_lt {V step i : ℕ} (hs : 0 < step) (hi : i ∈ lanes V step) : i < V + step := by
  rw [mem_lanes hs] at hi
  have := Nat.div_mul_le_self (V + (step - 1)) step
  omega

/-! ### Cells -/

theorem updCell_order {f : ℝ → ℝ} {Q : ℕ} {order : List ℕ} (hnd : order.Nodup) (hlt : ∀ i ∈ order, i < Q)
    {h : Heap ℕ ℝ} (ha : WKB.Alloc Q h) :
    ∃ h', order.foldlM (updCell f fun i => i) h = some h' ∧ (∀ i ∈ order, h' i = (h i).map f) ∧
      WKB.Alloc Q h' := by
  obtain ⟨h', e, p1, p2, p3⟩ := foldlM_inv (f := updCell f fun i => i) (s := h) order
    (P := fun pre t => (∀ i ∈ pre, t i = (h i).map f) ∧ (∀ i, i ∉ pre → t i = h i) ∧ WKB.Alloc Q t)
    ⟨by simp, fun _ _ => rfl, ha⟩
    (by
      rintro pre j post hsplit t ⟨t1, t2, t3⟩
      have hj : j < Q := hlt j (by rw [hsplit]; simp)
      have hnot : j ∉ pre := by
        rw [hsplit] at hnd
        intro hc
        exact (List.nodup_append.1 hnd).2.2 j hc j (by simp) rfl
      obtain ⟨x, hx⟩ := Option.isSome_iff_exists.1 (t3 j hj)
      have hx' : h j = some x := by rw [← t2 j hnot]; exact hx
      refine ⟨fun b => if b = j then some (f x) else t b, ?_, ?_, ?_, ?_⟩
      · unfold updCell
        rw [hx]
        exact write_eq t _ _ (by rw [hx]; rfl)
      · intro i hi
        dsimp only
        by_cases hij : i = j
        · rw [hij, if_pos rfl, hx']; rfl
        · rw [if_neg hij]
          rcases List.mem_append.1 hi with hi | hi
          · exact t1 i hi
          · exact absurd (List.mem_singleton.1 hi) hij
      · intro i hi
        rw [List.mem_append, List.mem_singleton, not_or] at hi
        dsimp only
        rw [if_neg hi.2]
        exact t2 i hi.1
      · intro a ha'
        dsimp only
        split
        · rfl
        · exact t3 a ha')
  exact ⟨h', e, p1, p3⟩

section
variable {g : Gravity.Geo}

theorem scale_modes {Q : ℕ} (c : ℝ) {n : ℕ} (hn : 2 * n ≤ Q) {w : ℕ → Heap ℕ ℝ}
    (ha : ∀ r < g.n, WKB.Alloc Q (w r)) {H : ℕ → ℕ → ℂ}
    (hH : ∀ r < g.n, ∀ i < n, load (w r) 0 i = some (H r i)) :
    ∃ w', scale g Q c w = some w' ∧ ∀ r < g.n, WKB.Alloc Q (w' r) ∧
      ∀ i < n, load (w' r) 0 i = some (H r i * (c : ℂ)) := by
  unfold scale
  refine ranks_spec (n := g.n) (w := w)
    (Q := fun r h => WKB.Alloc Q h ∧ ∀ i < n, load h 0 i = some (H r i * (c : ℂ))) ?_
  intro r hr
  obtain ⟨h', e, p1, p2⟩ := updCells_spec (fun x => x * c) (fun i => i) Q (w r) (ha r hr)
    (fun _ _ _ _ h => h)
  refine ⟨h', e, ?_, ?_⟩
  · intro a haq
    rw [p1 a haq]
    simpa using ha r hr a haq
  · intro i hi
    have h1 := hH r hr i hi
    obtain ⟨x, hx⟩ := Option.isSome_iff_exists.1 (ha r hr (2 * i) (by omega))
    obtain ⟨y, hy⟩ := Option.isSome_iff_exists.1 (ha r hr (2 * i + 1) (by omega))
    unfold load at h1 ⊢
    rw [Nat.zero_add] at h1 ⊢
    rw [hx, hy] at h1
    rw [p1 _ (by omega), p1 _ (by omega), hx, hy]
    have h2 : (⟨x, y⟩ : ℂ) = H r i := Option.some.inj h1
    rw [← h2]
    show some (⟨x * c, y * c⟩ : ℂ) = _
    congr 1
    apply Complex.ext <;> simp

variable [NeZero g.Lx] [NeZero g.Tz]

theorem fwdTo_spec (ok : g.Ok) {P : Plan} (hP : P.Exact g) {N : ℕ} (hN : 2 * g.modes ≤ N)
    {src dst : ℕ → Heap ℕ ℝ} (ρ : Torus g.Lx g.Tz → ℝ) (hw : ∀ r, r < g.n → WKB.Alloc N (dst r))
    (hρ : ∀ r i, r < g.n → i < g.vol → src r (rowIx g.Lx i) = some (ρ (siteOf g (r * g.vol + i)))) :
    ∃ w', fwdTo g P src dst = some w' ∧ ∀ r, r < g.n →
      (∀ i, i < g.modes → load (w' r) 0 i = some (dft (fun x => (ρ x : ℂ)) (modeOf g r i))) ∧
      WKB.Alloc N (w' r) := by
  have hv := vol_pos ok
  have hread := readAll_map (g.n * g.vol) (fun i => (i / g.vol, rowIx g.Lx (i % g.vol)))
    (fun i => ρ (siteOf g i)) (fun p : ℕ × ℕ => src p.1 p.2)
    (by
      intro i hi
      have hr : i / g.vol < g.n := (Nat.div_lt_iff_lt_mul hv).2 hi
      have hm : i % g.vol < g.vol := Nat.mod_lt _ hv
      dsimp only
      rw [hρ _ _ hr hm, div_mul_add_mod])
  unfold fwdTo
  rw [hread]
  simp only [Option.bind_eq_bind, Option.bind_some]
  refine ranks_spec (n := g.n) (w := dst)
    (Q := fun r h => (∀ i, i < g.modes → load h 0 i = some (dft (fun x => (ρ x : ℂ)) (modeOf g r i))) ∧
      WKB.Alloc N h) (fun r hr => ?_)
  obtain ⟨h', e, p1, p2, -⟩ := storeModes_spec (hw r hr) hN (fun i hi => hP.fwd ρ r i hr hi)
  exact ⟨h', e, p1, p2⟩

theorem bckTo_spec (ok : g.Ok) {P : Plan} (hP : P.Exact g) {N : ℕ}
    (hN : g.lines * (g.Lx + 2) ≤ N) {src dst : ℕ → Heap ℕ ℝ} {H : Torus g.Lx g.Tz → ℂ}
    (hH : ∀ k, H (-k) = starRingEnd ℂ (H k)) (hw : ∀ r, r < g.n → WKB.Alloc N (dst r))
    (hm : ∀ r i, r < g.n → i < g.modes → load (src r) 0 i = some (H (modeOf g r i))) :
    ∃ w', bckTo g P src dst = some w' ∧ ∀ r, r < g.n →
      (∀ i, i < g.vol → w' r (rowIx g.Lx i) = some (synth H (siteOf g (r * g.vol + i))).re) ∧
      WKB.Alloc N (w' r) := by
  obtain ⟨F, eF, hF⟩ := hP.bck (fun r i => load (src r) 0 i) H hH hm
  unfold bckTo
  rw [eF]
  simp only [Option.bind_eq_bind, Option.bind_some]
  refine ranks_spec (n := g.n) (w := dst)
    (Q := fun r h => (∀ i, i < g.vol → h (rowIx g.Lx i) =
      some (synth H (siteOf g (r * g.vol + i))).re) ∧ WKB.Alloc N h) ?_
  intro r hr
  rw [vol_eq g]
  obtain ⟨h', e, p1, p2⟩ := fill_rows (ss := g.lines) ok.side (dst r)
    (fun i => F (r * (g.lines * g.Lx) + i)) ((hw r hr).mono hN)
  refine ⟨h', e, ?_, ?_⟩
  · intro i hi
    rw [p1 i hi]
    congr 1
    have := hF (r * g.vol + i) (pair_lt hr (by rw [vol_eq]; exact hi))
    rw [vol_eq g] at this
    rw [← this]
    exact (Complex.ofReal_re _).symm
  · intro a ha
    rw [writeAll_isSome _ e a]
    exact hw r hr a ha

end

end Jaxions.FullSpec
