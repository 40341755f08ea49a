import Verif.Model.WKBField
import Verif.Props.Gravity
import Verif.Basic.Fold
/-
Helper lemmas for C61: the arrays of the last stage.
-/
namespace Jaxions.WKB

open Gravity

/-- The first `N` numbers are allocated. -/
def Alloc (N : ℕ) (h : Heap ℕ ℝ) : Prop := ∀ a, a < N → (h a).isSome

theorem Alloc.mono {N N' : ℕ} {h : Heap ℕ ℝ} (ha : Alloc N h) (hle : N' ≤ N) : Alloc N' h :=
  fun a h' => ha a (h'.trans_le hle)

theorem ranks_spec {σ : Type} {n : ℕ} {f : ℕ → σ → Option σ} {w : ℕ → σ} {Q : ℕ → σ → Prop}
    (hf : ∀ r < n, ∃ h, f r (w r) = some h ∧ Q r h) :
    ∃ w', ranks n f w = some w' ∧ ∀ r < n, Q r (w' r) := by
  obtain ⟨w', e, p1, p2⟩ := loop_inv (n := n) (s := w)
    (body := fun r w => (f r (w r)).map fun h r' => if r' = r then h else w r')
    (P := fun m t => (∀ r < m, Q r (t r)) ∧ ∀ r, m ≤ r → t r = w r)
    ⟨by omega, fun _ _ => rfl⟩
    (by
      rintro r hr t ⟨t1, t2⟩
      obtain ⟨h, e, q⟩ := hf r hr
      refine ⟨fun r' => if r' = r then h else t r', by rw [t2 r (Nat.le_refl _), e]; rfl, ?_, ?_⟩
      · intro j hj
        dsimp only
        split
        · rename_i h'; subst h'; exact q
        · exact t1 j (by omega)
      · intro j hj
        dsimp only
        rw [if_neg (by omega)]
        exact t2 j (by omega))
  exact ⟨w', e, p1⟩

/-! ### Lines -/

theorem copyLine_spec {Lx : ℕ} {src : Heap ℕ ℝ} {o : ℕ} {dst : Heap ℕ ℝ} {sl : ℕ}
    (hs : ∀ i, i < Lx → (src (o + sl * Lx + i)).isSome)
    (hd : ∀ i, i < Lx → (dst (sl * (Lx + 2) + i)).isSome) :
    ∃ d, copyLine Lx src o dst sl = some d ∧
      (∀ i, i < Lx → d (sl * (Lx + 2) + i) = src (o + sl * Lx + i)) ∧
      ∀ a, (∀ i, i < Lx → a ≠ sl * (Lx + 2) + i) → d a = dst a := by
  obtain ⟨xs, e, hm⟩ := readAll_some ((List.range Lx).map fun i => o + sl * Lx + i) src
    (by simpa using hs)
  have hlen : xs.length = Lx := by have := congrArg List.length hm; simpa using this.symm
  have hval : ∀ i (hi : i < Lx), src (o + sl * Lx + i) = some (xs[i]'(by omega)) := by
    intro i hi
    have h1 : (((List.range Lx).map fun i => o + sl * Lx + i).map src)[i]? = (xs.map some)[i]? := by
      rw [hm]
    simp [hi, hlen] at h1
    exact h1
  have hfst : ((((List.range Lx).map fun i => sl * (Lx + 2) + i).zip xs).map Prod.fst) =
      (List.range Lx).map fun i => sl * (Lx + 2) + i := by
    apply List.map_fst_zip
    simp [hlen]
  obtain ⟨d, ed, hv, hu⟩ := writeAll_spec (((List.range Lx).map fun i => sl * (Lx + 2) + i).zip xs) dst
    (by
      intro p hp
      have : p.1 ∈ (List.range Lx).map fun i => sl * (Lx + 2) + i := by
        rw [← hfst]; exact List.mem_map_of_mem hp
      obtain ⟨i, hi, hpi⟩ := List.mem_map.1 this
      rw [← hpi]; exact hd i (by simpa using hi))
    (by
      rw [hfst]
      exact List.Nodup.map (fun _ _ h => by omega) List.nodup_range)
  refine ⟨d, by simp [copyLine, e, ed], ?_, ?_⟩
  · intro i hi
    have hmem : (sl * (Lx + 2) + i, xs[i]'(by omega)) ∈
        ((List.range Lx).map fun i => sl * (Lx + 2) + i).zip xs := by
      rw [List.mem_iff_getElem]
      exact ⟨i, by simp [hlen, hi], by simp⟩
    rw [hv _ hmem, hval i hi]
  · intro a ha
    apply hu
    rw [hfst]
    intro hc
    obtain ⟨i, hi, rfl⟩ := List.mem_map.1 hc
    exact ha i (List.mem_range.1 hi) rfl

theorem copyLines_spec {Lx ss N : ℕ} (hL : 0 < Lx) {order : List ℕ} (ho : order.Perm (List.range ss))
    {src : Heap ℕ ℝ} {o : ℕ} {dst : Heap ℕ ℝ} (hs : ∀ i, i < ss * Lx → (src (o + i)).isSome)
    (hd : Alloc N dst) (hN : ss * (Lx + 2) ≤ N) :
    ∃ d, copyLines Lx order src o dst = some d ∧
      (∀ i, i < ss * Lx → d (rowIx Lx i) = src (o + i)) ∧ Alloc N d ∧
      ∀ a, ss * (Lx + 2) ≤ a → d a = dst a := by
  have hnd : order.Nodup := ho.nodup_iff.2 List.nodup_range
  have hmem : ∀ t, t ∈ order → t < ss := fun t ht => List.mem_range.1 (ho.mem_iff.1 ht)
  obtain ⟨d, e, p1, p2, p3⟩ := foldlM_inv (f := copyLine Lx src o) (s := dst) order
    (P := fun pre d => (∀ t ∈ pre, ∀ i, i < Lx → d (t * (Lx + 2) + i) = src (o + t * Lx + i)) ∧
      Alloc N d ∧ ∀ a, ss * (Lx + 2) ≤ a → d a = dst a)
    ⟨by simp, hd, fun _ _ => rfl⟩
    (by
      rintro pre t post hsplit d ⟨d1, d2, d3⟩
      have ht : t < ss := hmem t (by rw [hsplit]; simp)
      have hb : ∀ i, i < Lx → t * (Lx + 2) + i < ss * (Lx + 2) := fun i hi => pair_lt ht (by omega)
      obtain ⟨d', e, q1, q2⟩ := copyLine_spec (Lx := Lx) (src := src) (o := o) (dst := d) (sl := t)
        (fun i hi => by rw [Nat.add_assoc]; exact hs _ (pair_lt ht hi))
        (fun i hi => d2 _ ((hb i hi).trans_le hN))
      have hnot : t ∉ pre := by
        rw [hsplit] at hnd
        intro hc
        exact (List.nodup_append.1 hnd).2.2 t hc t (by simp) rfl
      refine ⟨d', e, ?_, ?_, ?_⟩
      · intro u hu i hi
        rcases List.mem_append.1 hu with hu | hu
        · rw [q2 _ (fun j hj hc => hnot (by
            rw [← (pair_inj (show i < Lx + 2 by omega) (show j < Lx + 2 by omega) hc).1]
            exact hu)), d1 u hu i hi]
        · rw [List.mem_singleton.1 hu]; exact q1 i hi
      · intro a ha
        by_cases hc : ∃ i, i < Lx ∧ a = t * (Lx + 2) + i
        · obtain ⟨i, hi, rfl⟩ := hc
          rw [q1 i hi, Nat.add_assoc]
          exact hs _ (pair_lt ht hi)
        · rw [q2 a (fun i hi e' => hc ⟨i, hi, e'⟩)]
          exact d2 a ha
      · intro a ha
        rw [q2 a (fun i hi e' => by have := hb i hi; omega)]
        exact d3 a ha)
  refine ⟨d, e, ?_, p2, p3⟩
  intro i hi
  have := p1 (i / Lx) (ho.mem_iff.2 (List.mem_range.2 ((Nat.div_lt_iff_lt_mul hL).2 hi))) (i % Lx)
    (Nat.mod_lt _ hL)
  rw [Nat.add_assoc, div_mul_add_mod] at this
  exact this

/-! ### Modes in memory -/

theorem store_spec {N i : ℕ} {h : Heap ℕ ℝ} (ha : Alloc N h) (hi : 2 * i + 2 ≤ N) (c : ℂ) :
    ∃ h', store h i c = some h' ∧ load h' 0 i = some c ∧ Alloc N h' ∧
      ∀ a, a ≠ 2 * i → a ≠ 2 * i + 1 → h' a = h a := by
  have e1 := write_eq h (2 * i) c.re (ha _ (by omega))
  have e2 := write_eq (fun b => if b = 2 * i then some c.re else h b) (2 * i + 1) c.im
    (by rw [if_neg (by omega)]; exact ha _ (by omega))
  refine ⟨_, by unfold store; rw [e1]; exact e2, ?_, ?_, ?_⟩
  · simp [load]
  · intro a h'
    dsimp only
    split
    · rfl
    · split
      · rfl
      · exact ha a h'
  · intro a h1 h2
    rw [if_neg h2, if_neg h1]

theorem load_congr {h h' : Heap ℕ ℝ} {o o' i : ℕ} (h1 : h (o + 2 * i) = h' (o' + 2 * i))
    (h2 : h (o + 2 * i + 1) = h' (o' + 2 * i + 1)) : load h o i = load h' o' i := by
  unfold load; rw [h1, h2]

theorem storeModes_spec {N n : ℕ} {h : Heap ℕ ℝ} (ha : Alloc N h) (hn : 2 * n ≤ N)
    {A : ℕ → Option ℂ} {H : ℕ → ℂ} (hA : ∀ i, i < n → A i = some (H i)) :
    ∃ h', (List.range n).foldlM (storeMode A) h = some h' ∧
      (∀ i, i < n → load h' 0 i = some (H i)) ∧ Alloc N h' ∧ ∀ a, 2 * n ≤ a → h' a = h a := by
  obtain ⟨h', e, p1, p2, p3⟩ := range_inv (f := storeMode A) (s := h) n
    (P := fun j t => (∀ i, i < j → load t 0 i = some (H i)) ∧ Alloc N t ∧
      ∀ a, 2 * j ≤ a → t a = h a)
    ⟨by simp, ha, fun _ _ => rfl⟩
    (by
      rintro j hj t ⟨t1, t2, t3⟩
      obtain ⟨t', e, q1, q2, q3⟩ := store_spec t2 (i := j) (by omega) (H j)
      refine ⟨t', by unfold storeMode; rw [hA j hj]; exact e, ?_, q2, ?_⟩
      · intro i hi
        by_cases hij : i = j
        · rw [hij]; exact q1
        · rw [← t1 i (by omega)]
          exact load_congr (q3 _ (by omega) (by omega)) (q3 _ (by omega) (by omega))
      · intro a h'
        rw [q3 a (by omega) (by omega)]
        exact t3 a (by omega))
  exact ⟨h', e, p1, p2, p3⟩

/-! ### Transforms -/

section
variable {g : Geo} [NeZero g.Lx] [NeZero g.Tz]

theorem vol_eq (g : Geo) : g.vol = g.lines * g.Lx := by unfold Geo.vol Geo.lines; ring

omit [NeZero g.Lx] [NeZero g.Tz] in
theorem vol_pos (ok : g.Ok) : 0 < g.vol := by
  unfold Geo.vol; exact Nat.mul_pos ok.depth (Nat.mul_pos ok.side ok.side)

theorem forward_spec (ok : g.Ok) {P : Plan} (hP : P.Exact g) {N : ℕ} (hN : 2 * g.modes ≤ N)
    {w : ℕ → Heap ℕ ℝ} (ρ : Torus g.Lx g.Tz → ℝ) (hw : ∀ r, r < g.n → Alloc N (w r))
    (hρ : ∀ r i, r < g.n → i < g.vol → w r (rowIx g.Lx i) = some (ρ (siteOf g (r * g.vol + i)))) :
    ∃ w', forward g P w = some w' ∧ ∀ r, r < g.n →
      (∀ i, i < g.modes → load (w' r) 0 i = some (dft (fun x => (ρ x : ℂ)) (modeOf g r i))) ∧
      Alloc N (w' r) ∧ ∀ a, 2 * g.modes ≤ a → w' r a = w r a := by
  have hv := vol_pos ok
  have hread := readAll_map (g.n * g.vol) (fun i => (i / g.vol, rowIx g.Lx (i % g.vol)))
    (fun i => ρ (siteOf g i)) (fun p : ℕ × ℕ => w p.1 p.2)
    (by
      intro i hi
      have hr : i / g.vol < g.n := (Nat.div_lt_iff_lt_mul hv).2 hi
      have hm : i % g.vol < g.vol := Nat.mod_lt _ hv
      dsimp only
      rw [hρ _ _ hr hm, div_mul_add_mod])
  unfold forward
  rw [hread]
  simp only [Option.bind_eq_bind, Option.bind_some]
  exact ranks_spec (n := g.n) (w := w)
    (Q := fun r h => (∀ i, i < g.modes → load h 0 i = some (dft (fun x => (ρ x : ℂ)) (modeOf g r i))) ∧
      Alloc N h ∧ ∀ a, 2 * g.modes ≤ a → h a = w r a)
    (fun r hr => storeModes_spec (hw r hr) hN (fun i hi => hP.fwd ρ r i hr hi))

theorem backward_spec (ok : g.Ok) {P : Plan} (hP : P.Exact g) {N : ℕ}
    (hN : g.lines * (g.Lx + 2) ≤ N) {w : ℕ → Heap ℕ ℝ} {H : Torus g.Lx g.Tz → ℂ}
    (hH : ∀ k, H (-k) = starRingEnd ℂ (H k)) (hw : ∀ r, r < g.n → Alloc N (w r))
    (hm : ∀ r i, r < g.n → i < g.modes → load (w r) 0 i = some (H (modeOf g r i))) :
    ∃ w', backward g P w = some w' ∧ ∀ r, r < g.n →
      (∀ i, i < g.vol → w' r (rowIx g.Lx i) = some (synth H (siteOf g (r * g.vol + i))).re) ∧
      Alloc N (w' r) := by
  obtain ⟨F, eF, hF⟩ := hP.bck (fun r i => load (w r) 0 i) H hH hm
  unfold backward
  rw [eF]
  simp only [Option.bind_eq_bind, Option.bind_some]
  refine ranks_spec (n := g.n) (w := w)
    (Q := fun r h => (∀ i, i < g.vol → h (rowIx g.Lx i) =
      some (synth H (siteOf g (r * g.vol + i))).re) ∧ Alloc N h) ?_
  intro r hr
  rw [vol_eq g]
  obtain ⟨h', e, p1, p2⟩ := fill_rows (ss := g.lines) ok.side (w r)
    (fun i => F (r * (g.lines * g.Lx) + i)) ((hw r hr).mono hN)
  refine ⟨h', e, ?_, ?_⟩
  · intro i hi
    rw [p1 i hi]
    congr 1
    have := hF (r * g.vol + i) (pair_lt hr (by rw [vol_eq]; exact hi))
    rw [vol_eq g] at this
    rw [← this]
    exact (Complex.ofReal_re _).symm
  · intro a ha
    rw [writeAll_isSome _ e a]
    exact hw r hr a ha

end

/-! ### The last loops -/

theorem unpad_from1 {Lx ss N : ℕ} (hL : 0 < Lx) (h : Heap ℕ ℝ) (ha : Alloc N h)
    (hN : ss * (Lx + 2) ≤ N) :
    ∃ h', Pad.moveLines 0 (Lx + 2) 0 Lx Lx ((List.range (ss - 1)).map (· + 1)) h = some h' ∧
      (∀ i, i < ss * Lx → h' i = h (rowIx Lx i)) ∧ Alloc N h' := by
  have hmem : ∀ t, t ∈ (List.range (ss - 1)).map (· + 1) ↔ 1 ≤ t ∧ t < ss := by
    intro t
    simp only [List.mem_map, List.mem_range]
    constructor
    · rintro ⟨a, h, rfl⟩; omega
    · intro h; exact ⟨t - 1, by omega, by omega⟩
  have hpw : ((List.range (ss - 1)).map (· + 1)).Pairwise (· < ·) := by
    rw [List.pairwise_map]
    exact List.pairwise_lt_range.imp fun h => by omega
  have hle : ∀ t i, t < ss → i < Lx → t * Lx + i < N := fun t i ht hi =>
    (Nat.lt_of_lt_of_le (pair_lt ht hi) (Nat.mul_le_mul_left _ (by omega))).trans_le hN
  have hle' : ∀ t i, t < ss → i < Lx → t * (Lx + 2) + i < N := fun t i ht hi =>
    (pair_lt ht (by omega)).trans_le hN
  obtain ⟨h', e, h1, h2⟩ := Pad.moveLines_spec 0 (Lx + 2) 0 Lx Lx (le_refl _)
    ((List.range (ss - 1)).map (· + 1)) h (hpw.imp fun h => Nat.ne_of_lt h)
    (fun t ht i hi => by rw [Nat.zero_add]; exact ha _ (hle' t i ((hmem t).1 ht).2 hi))
    (fun t ht i hi => by rw [Nat.zero_add]; exact ha _ (hle t i ((hmem t).1 ht).2 hi))
    (hpw.imp (by
      intro t u htu i hi j hj
      have q1 : (t + 1) * Lx ≤ u * Lx := Nat.mul_le_mul_right _ htu
      have q2 : u * Lx ≤ u * (Lx + 2) := Nat.mul_le_mul_left _ (by omega)
      rw [Nat.add_mul] at q1
      omega))
  refine ⟨h', e, ?_, ?_⟩
  · intro i hi
    have hd : i / Lx < ss := (Nat.div_lt_iff_lt_mul hL).2 hi
    have hm : i % Lx < Lx := Nat.mod_lt _ hL
    have hdm := div_mul_add_mod i Lx
    unfold rowIx
    by_cases h0 : i / Lx = 0
    · have hi' : i % Lx = i := by rw [h0] at hdm; omega
      rw [h0, Nat.zero_mul, Nat.zero_add, hi']
      refine h2 i ?_
      intro t ht j _ e'
      have : 1 * Lx ≤ t * Lx := Nat.mul_le_mul_right _ ((hmem t).1 ht).1
      omega
    · have := h1 (i / Lx) ((hmem _).2 ⟨Nat.pos_of_ne_zero h0, hd⟩) (i % Lx) hm
      rw [Nat.zero_add, Nat.zero_add, hdm] at this
      exact this
  · intro a haa
    by_cases hc : ∃ t ∈ (List.range (ss - 1)).map (· + 1), ∃ i < Lx, a = 0 + t * Lx + i
    · obtain ⟨t, ht, i, hi, rfl⟩ := hc
      rw [h1 t ht i hi, Nat.zero_add]
      exact ha _ (hle' t i ((hmem t).1 ht).2 hi)
    · rw [h2 a (fun t ht i hi e' => hc ⟨t, ht, i, hi, e'⟩)]
      exact ha a haa

theorem scale_spec {n V o : ℕ} (hn : n ≠ 0) {order : List ℕ} (ho : order.Perm (List.range V))
    {h : Heap ℕ ℝ} {X : ℕ → ℝ} (hX : ∀ i, i < V → h (o + i) = some (X i)) :
    ∃ h', order.foldlM (scaleCell n o) h = some h' ∧ ∀ i, i < V → h' (o + i) = some (X i / n) := by
  have hnd : order.Nodup := ho.nodup_iff.2 List.nodup_range
  obtain ⟨h', e, p1, -⟩ := foldlM_inv (f := scaleCell n o) (s := h) order
    (P := fun pre t => (∀ i ∈ pre, t (o + i) = some (X i / n)) ∧
      ∀ i, i < V → i ∉ pre → t (o + i) = some (X i))
    ⟨by simp, fun i hi _ => hX i hi⟩
    (by
      rintro pre j post hsplit t ⟨t1, t2⟩
      have hj : j < V := List.mem_range.1 (ho.mem_iff.1 (by rw [hsplit]; simp))
      have hnot : j ∉ pre := by
        rw [hsplit] at hnd
        intro hc
        exact (List.nodup_append.1 hnd).2.2 j hc j (by simp) rfl
      have e0 := t2 j hj hnot
      refine ⟨fun b => if b = o + j then some (X j / n) else t b, ?_, ?_, ?_⟩
      · unfold scaleCell
        rw [e0]
        simp only [Option.bind_eq_bind, Option.bind_some, if_neg hn]
        exact write_eq t _ _ (by rw [e0]; rfl)
      · intro i hi
        dsimp only
        by_cases hij : i = j
        · rw [hij, if_pos rfl]
        · rw [if_neg (by omega)]
          rcases List.mem_append.1 hi with hi | hi
          · exact t1 i hi
          · exact absurd (List.mem_singleton.1 hi) hij
      · intro i hi hni
        rw [List.mem_append, List.mem_singleton, not_or] at hni
        dsimp only
        rw [if_neg (by omega)]
        exact t2 i hi hni.1)
  exact ⟨h', e, fun i hi => p1 i (ho.mem_iff.2 (List.mem_range.2 hi))⟩

end Jaxions.WKB
