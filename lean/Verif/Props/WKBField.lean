import Verif.Lemmas.WKBField
import Verif.Props.WKBRun
/-
C61, continued: the whole field on any number of ranks.
-/
namespace Jaxions.WKB

open Cosmo Gravity

/-! ### Specification -/

/-- The arrays as the program allocates them (scalarField.cpp:208-234, 285-289). -/
structure Room (g : Geo) (Ng : ℕ) (w : ℕ → Mem) : Prop where
  m : ∀ r, r < g.n → Alloc (g.Lx * g.Lx * (g.Lz + 2 * Ng)) (w r).m
  v : ∀ r, r < g.n → Alloc (g.Lx * g.Lx * (g.Lz + 2)) (w r).v
  m2 : ∀ r, r < g.n → Alloc (2 * (g.Lx * g.Lx * (g.Lz + 2 * Ng))) (w r).m2

/-- The ranks hold the field `φ`, behind the ghost slices, and its derivative `ψ`. -/
def Holds (g : Geo) (Ng : ℕ) (w : ℕ → Mem) (φ ψ : Torus g.Lx g.Tz → ℝ) : Prop :=
  ∀ r i, r < g.n → i < g.vol →
    (w r).m (Ng * (g.Lx * g.Lx) + i) = some (φ (siteOf g (r * g.vol + i))) ∧
      (w r).v i = some (ψ (siteOf g (r * g.vol + i)))

/-- Every loop runs over all its iterations, in any order. -/
structure Orders.Ok (g : Geo) (o : Orders) : Prop where
  linesV : ∀ r, (o.linesV r).Perm (List.range g.lines)
  linesM : ∀ r, (o.linesM r).Perm (List.range g.lines)
  modes : ∀ r, (o.modes r).Perm (List.range g.modes)
  sites : ∀ r, (o.sites r).Perm (List.range g.vol)

/-! ### Wave numbers -/

theorem number_cube {g : Geo} (ok : g.Ok) (hc : g.Tz = g.Lx) (r i : ℕ) :
    number g r i = g.number r i := by
  have hz : g.Lx / g.n = g.Lz := by
    rw [← hc]; exact Nat.mul_div_cancel_left _ ok.ranks
  have e1 : ((i - i / g.hLx * g.hLx : ℕ) : ℤ) = (i : ℤ) - ((i / g.hLx : ℕ) : ℤ) * g.hLx := by
    rw [Nat.cast_sub (Nat.div_mul_le_self _ _)]; push_cast; rfl
  have e2 : ((i / g.hLx - g.Tz * (i / g.hLx / g.Tz) : ℕ) : ℤ) =
      ((i / g.hLx : ℕ) : ℤ) - ((i / g.hLx : ℕ) : ℤ) / g.Tz * g.Tz := by
    rw [Nat.cast_sub (Nat.mul_div_le _ _)]
    push_cast
    ring
  unfold number Geo.number Geo.zBase
  dsimp only
  rw [e1, e2, hz, Int.natCast_ediv (i / g.hLx) g.Tz]

theorem ksq_eq {g : Geo} (ok : g.Ok) (hc : g.Tz = g.Lx) (c : Cosmos) {r i : ℕ} (hr : r < g.n)
    (hi : i < g.modes) : modeK2 c g r i = (ksq (modeOf g r i) : ℝ) * (k0 c * k0 c) := by
  unfold modeK2
  rw [number_cube ok hc, number_eq ok hr hi]
  unfold ksq k0
  dsimp only
  push_cast
  rw [div_mul_div_comm]
  ring

/-- The offset along `y` is right on more than one rank only if the lattice is a cube. -/
theorem C61_number_iff {g : Geo} (ok : g.Ok) (hn : 2 ≤ g.n) (hz : g.Lz ≤ g.Lx) :
    (∀ r i, r < g.n → i < g.modes → number g r i =
      (signed (modeOf g r i).1, signed (modeOf g r i).2.1, signed (modeOf g r i).2.2)) ↔
    g.Tz = g.Lx := by
  have hm : 0 < g.modes := by
    unfold Geo.modes Geo.hLx
    exact Nat.mul_pos (Nat.mul_pos ok.side (by omega)) ok.depth
  constructor
  · intro h
    have h1 := congrArg (fun p => p.2.1) (h 1 0 (by omega) hm)
    rw [← number_eq ok (by omega) hm] at h1
    obtain ⟨q, hq⟩ := ok.dvd
    have hq' : g.Lx / g.n = q := by rw [hq]; exact Nat.mul_div_cancel_left _ ok.ranks
    have h2 : 2 * q ≤ g.Lx := by rw [hq]; exact Nat.mul_le_mul_right _ hn
    have hq0 : 0 < q := by
      rcases Nat.eq_zero_or_pos q with h | h
      · have := ok.side; rw [hq, h] at this; simp at this
      · exact h
    unfold number Geo.number Geo.zBase Geo.hLy at h1
    simp only [Nat.zero_div, Nat.cast_zero, Int.zero_ediv, zero_add, Nat.mul_one, hq'] at h1
    have hl : g.Lz = q := by
      rw [if_neg (show ¬ ((q : ℤ) > (g.Lx / 2 : ℕ)) by omega)] at h1
      split at h1 <;> omega
    unfold Geo.Tz
    rw [hl, hq]
  · intro hc r i hr hi
    rw [number_cube ok hc, number_eq ok hr hi]

theorem signed_sq_le {N : ℕ} [NeZero N] (k : ZMod N) : signed k ^ 2 ≤ ((N / 2 : ℕ) : ℤ) ^ 2 := by
  have h := k.val_lt
  have hb : -((N / 2 : ℕ) : ℤ) ≤ signed k ∧ signed k ≤ (N / 2 : ℕ) := by
    unfold signed
    split <;> omega
  nlinarith [hb.1, hb.2]

/-- The wave number of every mode lies between the first and the last entry of the table. -/
theorem C61_table_range {g : Geo} (ok : g.Ok) (hc : g.Tz = g.Lx) {c : Cosmos} (h : Law c) {r i : ℕ}
    (hr : r < g.n) (hi : i < g.modes) :
    k2Table c 0 ≤ modeK2 c g r i ∧ modeK2 c g r i < k2Table c (powMax g.Lx g.Tz) := by
  have : NeZero g.Lx := ⟨ok.side.ne'⟩
  have : NeZero g.Tz := ⟨ok.Tz_pos.ne'⟩
  rw [ksq_eq ok hc c hr hi]
  have hk := k0_pos h
  have h0 : (0 : ℤ) ≤ ksq (modeOf g r i) := by unfold ksq; positivity
  have h1 : ksq (modeOf g r i) ≤ 2 * ((g.Lx / 2 : ℕ) : ℤ) ^ 2 + ((g.Tz / 2 : ℕ) : ℤ) ^ 2 := by
    unfold ksq
    have a := signed_sq_le (modeOf g r i).1
    have b := signed_sq_le (modeOf g r i).2.1
    have d := signed_sq_le (modeOf g r i).2.2
    omega
  have h0' : (0 : ℝ) ≤ ksq (modeOf g r i) := by exact_mod_cast h0
  have h1' : (ksq (modeOf g r i) : ℝ) ≤
      2 * ((g.Lx / 2 : ℕ) : ℝ) * (g.Lx / 2 : ℕ) + ((g.Tz / 2 : ℕ) : ℝ) * (g.Tz / 2 : ℕ) := by
    generalize g.Lx / 2 = a at h1 ⊢
    generalize g.Tz / 2 = b at h1 ⊢
    have : ((ksq (modeOf g r i) : ℤ) : ℝ) ≤ ((2 * (a : ℤ) ^ 2 + (b : ℤ) ^ 2 : ℤ) : ℝ) :=
      Int.cast_le.2 h1
    push_cast at this
    linarith [this]
  constructor
  · unfold k2Table
    rw [if_pos rfl]
    positivity
  · unfold k2Table
    have hp : powMax g.Lx g.Tz ≠ 0 := by unfold powMax; omega
    rw [if_neg hp]
    have h2 : Real.sqrt (2 * ((g.Lx / 2 : ℕ) : ℝ) * (g.Lx / 2 : ℕ) +
        ((g.Tz / 2 : ℕ) : ℝ) * (g.Tz / 2 : ℕ)) < powMax g.Lx g.Tz := by
      unfold powMax
      push_cast
      exact_mod_cast Nat.lt_floor_add_one _
    have h3 : 2 * ((g.Lx / 2 : ℕ) : ℝ) * (g.Lx / 2 : ℕ) +
        ((g.Tz / 2 : ℕ) : ℝ) * (g.Tz / 2 : ℕ) < (powMax g.Lx g.Tz : ℝ) ^ 2 :=
      (Real.sqrt_lt' (by positivity)).1 h2
    calc (ksq (modeOf g r i) : ℝ) * (k0 c * k0 c) < (powMax g.Lx g.Tz : ℝ) ^ 2 * (k0 c * k0 c) := by
          apply mul_lt_mul_of_pos_right (h1'.trans_lt h3) (by positivity)
      _ = _ := by ring

/-! ### The field -/

section
variable {g : Geo} {Ng : ℕ}

theorem two_modes (hev : g.Lx % 2 = 0) : 2 * g.modes = g.lines * (g.Lx + 2) := by
  have : 2 * g.hLx = g.Lx + 2 := by unfold Geo.hLx; omega
  unfold Geo.modes Geo.lines
  calc 2 * (g.Lx * g.hLx * g.Lz) = g.Lz * g.Lx * (2 * g.hLx) := by ring
    _ = _ := by rw [this]

theorem fits (hev : g.Lx % 2 = 0) (hz : g.Lz ≤ Ng * g.Lx) : 2 * g.modes ≤ v3 g Ng := by
  rw [two_modes hev]
  unfold Geo.lines v3
  nlinarith [Nat.mul_le_mul_left g.Lx hz]

theorem fits_v (hev : g.Lx % 2 = 0) (hz : g.Lz ≤ g.Lx) :
    2 * g.modes ≤ g.Lx * g.Lx * (g.Lz + 2) := by
  rw [two_modes hev]
  unfold Geo.lines
  nlinarith [Nat.mul_le_mul_left g.Lx hz]

theorem start_vol : start g Ng + g.vol ≤ v3 g Ng := by
  unfold start Geo.vol v3
  nlinarith [Nat.zero_le (g.Lx * g.Lx * Ng)]

/-- The loop over the modes of a rank. -/
theorem modes_spec (hfit : 2 * g.modes ≤ v3 g Ng) {c : Cosmos} {S : ℝ → ℝ} {z₁ z₂ : ℝ} {r N : ℕ}
    (hN : 2 * g.modes ≤ N) {order : List ℕ} (ho : order.Perm (List.range g.modes)) {w : Mem}
    (hm : Alloc (v3 g Ng) w.m) (hv : Alloc N w.v) {M D M' D' : ℕ → ℂ}
    (hM : ∀ i, i < g.modes → load w.m2 0 i = some (M i))
    (hD : ∀ i, i < g.modes → load w.m2 (v3 g Ng) i = some (D i))
    (hev : ∀ i, i < g.modes → evolve c S z₁ z₂ (modeK2 c g r i) (M i) (D i) = some (M' i, D' i)) :
    ∃ w', order.foldlM (modeBody g Ng c S z₁ z₂ r) w = some w' ∧
      (∀ i, i < g.modes → load w'.m 0 i = some (M' i)) ∧
      (∀ i, i < g.modes → load w'.v 0 i = some (D' i)) ∧
      Alloc (v3 g Ng) w'.m ∧ Alloc N w'.v := by
  have hnd : order.Nodup := ho.nodup_iff.2 List.nodup_range
  have hmem : ∀ t, t ∈ order → t < g.modes := fun t ht => List.mem_range.1 (ho.mem_iff.1 ht)
  obtain ⟨w', e, p1, p2, p3, p4, -⟩ := foldlM_inv (f := modeBody g Ng c S z₁ z₂ r) (s := w) order
    (P := fun pre t => (∀ i ∈ pre, load t.m 0 i = some (M' i)) ∧
      (∀ i ∈ pre, load t.v 0 i = some (D' i)) ∧ Alloc (v3 g Ng) t.m ∧ Alloc N t.v ∧ t.m2 = w.m2)
    ⟨by simp, by simp, hm, hv, rfl⟩
    (by
      rintro pre j post hsplit t ⟨t1, t2, t3, t4, t5⟩
      have hj : j < g.modes := hmem j (by rw [hsplit]; simp)
      have hnot : j ∉ pre := by
        rw [hsplit] at hnd
        intro hc
        exact (List.nodup_append.1 hnd).2.2 j hc j (by simp) rfl
      obtain ⟨a, ea, a1, a2, a3⟩ := store_spec t3 (i := j) (by omega) (M' j)
      obtain ⟨b, eb, b1, b2, b3⟩ := store_spec t4 (i := j) (by omega) (D' j)
      refine ⟨⟨a, b, t.m2⟩, ?_, ?_, ?_, a2, b2, t5⟩
      · unfold modeBody
        rw [t5, hM j hj, hD j hj]
        simp only [Option.bind_eq_bind, Option.bind_some, hev j hj, ea, eb]
        rfl
      · intro i hi
        rcases List.mem_append.1 hi with hi | hi
        · have hij : i ≠ j := fun h => hnot (h ▸ hi)
          rw [← t1 i hi]
          exact load_congr (a3 _ (by omega) (by omega)) (a3 _ (by omega) (by omega))
        · rw [List.mem_singleton.1 hi]; exact a1
      · intro i hi
        rcases List.mem_append.1 hi with hi | hi
        · have hij : i ≠ j := fun h => hnot (h ▸ hi)
          rw [← t2 i hi]
          exact load_congr (b3 _ (by omega) (by omega)) (b3 _ (by omega) (by omega))
        · rw [List.mem_singleton.1 hi]; exact b1)
  have hin : ∀ i, i < g.modes → i ∈ order := fun i hi => ho.mem_iff.2 (List.mem_range.2 hi)
  exact ⟨w', e, fun i hi => p1 i (hin i hi), fun i hi => p2 i (hin i hi), p3, p4⟩

/-- The last loops of a rank. -/
theorem finish_spec (ok : g.Ok) {N : ℕ} (hfit : g.lines * (g.Lx + 2) ≤ v3 g Ng)
    (hN : g.lines * (g.Lx + 2) ≤ N) {order : List ℕ} (ho : order.Perm (List.range g.vol)) {w : Mem}
    (hm : Alloc (v3 g Ng) w.m) (hv : Alloc N w.v) {X Y : ℕ → ℝ}
    (hX : ∀ i, i < g.vol → w.m (rowIx g.Lx i) = some (X i))
    (hY : ∀ i, i < g.vol → w.v (rowIx g.Lx i) = some (Y i)) :
    ∃ w', finishRank g Ng order w = some w' ∧
      (∀ i, i < g.vol → w'.m (start g Ng + i) = some (X i / (g.Lx * g.Lx * g.Tz : ℕ))) ∧
      (∀ i, i < g.vol → w'.v i = some (Y i / (g.Lx * g.Lx * g.Tz : ℕ))) := by
  have hve := vol_eq g
  have hsv := start_vol (g := g) (Ng := Ng)
  obtain ⟨a, ea, a1, a2⟩ := unpad_from1 (ss := g.lines) ok.side w.m hm hfit
  obtain ⟨b, eb, b1, b2⟩ := memmove_spec (fun i => start g Ng + i) (fun i => i) g.vol a
    (fun i hi => a2 _ (by omega)) (fun i hi => a2 _ (by omega)) (fun i _ j _ e => by omega)
  obtain ⟨d, ed, d1⟩ := unpad_rows (ss := g.lines) ok.side w.v (hv.mono hN)
  have hn : g.Lx * g.Lx * g.Tz ≠ 0 :=
    (Nat.mul_pos (Nat.mul_pos ok.side ok.side) ok.Tz_pos).ne'
  obtain ⟨e, ee, e1⟩ := scale_spec (o := start g Ng) hn ho (h := b) (X := X)
    (fun i hi => by rw [b1 i hi, a1 i (by rw [← hve]; exact hi), hX i hi])
  obtain ⟨f, ef, f1⟩ := scale_spec (o := 0) hn ho (h := d) (X := Y)
    (fun i hi => by rw [Nat.zero_add, d1 i (by rw [← hve]; exact hi), hY i hi])
  refine ⟨⟨e, f, w.m2⟩, ?_, e1, fun i hi => by have := f1 i hi; rwa [Nat.zero_add] at this⟩
  unfold finishRank
  simp only [Option.bind_eq_bind, ea, eb, ed, ee, ef, Option.bind_some]
  rfl

variable [NeZero g.Lx] [NeZero g.Tz]

/-- After the constructor the spectra of field and derivative are in `m2`. -/
theorem load_spec (ok : g.Ok) (hev : g.Lx % 2 = 0) (hfit : 2 * g.modes ≤ v3 g Ng) {P : Plan}
    (hP : P.Exact g) {o : Orders} (ho : o.Ok g) {w : ℕ → Mem} (hw : Room g Ng w)
    {φ ψ : Torus g.Lx g.Tz → ℝ} (h : Holds g Ng w φ ψ) :
    ∃ m2 m2', loadV g Ng P o.linesV w = some m2 ∧ loadM g Ng P o.linesM w m2 = some m2' ∧
      ∀ r i, r < g.n → i < g.modes →
        load (m2' r) 0 i = some (dft (fun x => (φ x : ℂ)) (modeOf g r i)) ∧
        load (m2' r) (v3 g Ng) i = some (dft (fun x => (ψ x : ℂ)) (modeOf g r i)) := by
  have hve := vol_eq g
  have h2 := two_modes hev
  have hs : start g Ng = Ng * (g.Lx * g.Lx) := by unfold start; ring
  obtain ⟨a, ea, pa⟩ := ranks_spec (n := g.n) (w := fun r => (w r).m2)
    (f := fun r h => copyLines g.Lx (o.linesV r) (w r).v 0 h)
    (Q := fun r d => (∀ i, i < g.lines * g.Lx → d (rowIx g.Lx i) = (w r).v (0 + i)) ∧
      Alloc (2 * v3 g Ng) d ∧ ∀ a, g.lines * (g.Lx + 2) ≤ a → d a = (w r).m2 a)
    (fun r hr => copyLines_spec ok.side (ho.linesV r)
      (fun i hi => by rw [Nat.zero_add, (h r i hr (by rw [hve]; exact hi)).2]; rfl)
      (hw.m2 r hr) (by omega))
  obtain ⟨b, eb, pb⟩ := forward_spec ok hP (N := 2 * v3 g Ng) (by omega) (w := a) ψ
    (fun r hr => (pa r hr).2.1)
    (fun r i hr hi => by
      rw [(pa r hr).1 i (by rw [← hve]; exact hi), Nat.zero_add]; exact (h r i hr hi).2)
  obtain ⟨d, ed, pd⟩ := ranks_spec (n := g.n) (w := b)
    (f := fun _ h => memmove (fun i => v3 g Ng + i) (fun i => i) (v3 g Ng) h)
    (Q := fun r d => (∀ i, i < v3 g Ng → d (v3 g Ng + i) = b r i) ∧ Alloc (2 * v3 g Ng) d)
    (fun r hr => by
      have hal := (pb r hr).2.1
      obtain ⟨t, et, t1, t2⟩ := memmove_spec (fun i => v3 g Ng + i) (fun i => i) (v3 g Ng) (b r)
        (fun i hi => hal _ (by omega)) (fun i hi => hal _ (by omega)) (fun i _ j _ e => by omega)
      refine ⟨t, et, t1, ?_⟩
      intro x hx
      by_cases hc : v3 g Ng ≤ x
      · have := t1 (x - v3 g Ng) (by omega)
        rw [show v3 g Ng + (x - v3 g Ng) = x by omega] at this
        rw [this]
        exact hal _ (by omega)
      · rw [t2 x (fun i _ => by omega)]
        exact hal x hx)
  obtain ⟨e, ee, pe⟩ := ranks_spec (n := g.n) (w := d)
    (f := fun r h => copyLines g.Lx (o.linesM r) (w r).m (start g Ng) h)
    (Q := fun r t => (∀ i, i < g.lines * g.Lx → t (rowIx g.Lx i) = (w r).m (start g Ng + i)) ∧
      Alloc (2 * v3 g Ng) t ∧ ∀ a, g.lines * (g.Lx + 2) ≤ a → t a = d r a)
    (fun r hr => copyLines_spec ok.side (ho.linesM r)
      (fun i hi => by rw [hs, (h r i hr (by rw [hve]; exact hi)).1]; rfl)
      (pd r hr).2 (by omega))
  obtain ⟨f, ef, pf⟩ := forward_spec ok hP (N := 2 * v3 g Ng) (by omega) (w := e) φ
    (fun r hr => (pe r hr).2.1)
    (fun r i hr hi => by
      rw [(pe r hr).1 i (by rw [← hve]; exact hi), hs]; exact (h r i hr hi).1)
  refine ⟨d, f, ?_, ?_, ?_⟩
  · unfold loadV
    simp only [Option.bind_eq_bind, ea, eb, Option.bind_some]
    exact ed
  · unfold loadM
    simp only [Option.bind_eq_bind, ee, Option.bind_some]
    exact ef
  · intro r i hr hi
    refine ⟨(pf r hr).1 i hi, ?_⟩
    rw [← (pb r hr).1 i hi]
    have key : ∀ x, x < 2 * g.modes → f r (v3 g Ng + x) = b r x := by
      intro x hx
      rw [(pf r hr).2.2 _ (by omega), (pe r hr).2.2 _ (by omega), (pd r hr).1 x (by omega)]
    exact load_congr (by rw [Nat.zero_add]; exact key _ (by omega))
      (by rw [Nat.zero_add]; exact key (2 * i + 1) (by omega))

theorem evolve_some {c : Cosmos} (h : Law c) {z₁ z₂ : ℝ} (h1 : 0 < z₁) (h12 : z₁ ≤ z₂)
    (hne : z₁ ≠ c.zThRes ∨ z₁ ≠ z₂) (S : ℝ → ℝ) {k2 : ℝ} (hk : 0 ≤ k2) (M D : ℂ) :
    ∃ p, evolve c S z₁ z₂ k2 M D = some p := by
  have := evolve_eq h h1 h12 hne S (Real.sqrt k2) M D
  rw [Real.sq_sqrt hk] at this
  exact ⟨_, this⟩

theorem evolve_conj {c : Cosmos} {S : ℝ → ℝ} {z₁ z₂ k2 : ℝ} {M D : ℂ} {p : ℂ × ℂ}
    (h : evolve c S z₁ z₂ k2 M D = some p) :
    evolve c S z₁ z₂ k2 (starRingEnd ℂ M) (starRingEnd ℂ D) =
      some (starRingEnd ℂ p.1, starRingEnd ℂ p.2) := by
  unfold evolve at h ⊢
  cases hp : prepare c z₁ z₂ with
  | none => rw [hp] at h; cases h
  | some q =>
    rw [hp] at h
    simp only [Option.bind_eq_bind, Option.bind_some] at h ⊢
    exact C61_real h

/-- The last stage takes every mode of the field from `z₁` to `z₂` with the law of a single mode,
for every number of ranks and every order of the threads. -/
theorem C61_field (ok : g.Ok) (hev : g.Lx % 2 = 0) (hcube : g.Tz = g.Lx) (hNg : 0 < Ng) {P : Plan}
    (hP : P.Exact g) {o : Orders} (ho : o.Ok g) {c : Cosmos} (hc : Law c) {z₁ z₂ : ℝ} (h1 : 0 < z₁)
    (h12 : z₁ ≤ z₂) (hne : z₁ ≠ c.zThRes ∨ z₁ ≠ z₂) (S : ℝ → ℝ) {w : ℕ → Mem} (hw : Room g Ng w)
    {φ ψ : Torus g.Lx g.Tz → ℝ} (h : Holds g Ng w φ ψ) :
    ∃ w' φ' ψ', wkbInPlace g Ng P c S o z₁ z₂ w = some w' ∧ Holds g Ng w' φ' ψ' ∧
      ∀ k, evolve c S z₁ z₂ (ksq k * (2 * Real.pi / c.lSize) ^ 2) (dft (fun x => (φ x : ℂ)) k)
          (dft (fun x => (ψ x : ℂ)) k) =
        some (dft (fun x => (φ' x : ℂ)) k, dft (fun x => (ψ' x : ℂ)) k) := by
  have hLz : g.Lz ≤ g.Lx := by
    rw [← hcube]; unfold Geo.Tz; exact Nat.le_mul_of_pos_left _ ok.ranks
  have hfit : 2 * g.modes ≤ v3 g Ng := fits hev (hLz.trans (Nat.le_mul_of_pos_left _ hNg))
  have hfv := fits_v hev hLz
  have h2 := two_modes hev
  have hs : start g Ng = Ng * (g.Lx * g.Lx) := by unfold start; ring
  obtain ⟨a, b, ea, eb, pb⟩ := load_spec ok hev hfit hP ho hw h
  have hex : ∀ k : Torus g.Lx g.Tz, ∃ p, evolve c S z₁ z₂ (ksq k * (k0 c * k0 c))
      (dft (fun x => (φ x : ℂ)) k) (dft (fun x => (ψ x : ℂ)) k) = some p := fun k =>
    evolve_some hc h1 h12 hne S (by
      have h0 : (0 : ℝ) ≤ (ksq k : ℝ) := by
        have : (0 : ℤ) ≤ ksq k := by unfold ksq; positivity
        exact_mod_cast this
      exact mul_nonneg h0 (mul_self_nonneg _)) _ _
  choose H hH using hex
  have hneg : ∀ k, H (-k) = (starRingEnd ℂ (H k).1, starRingEnd ℂ (H k).2) := by
    intro k
    have e1 := hH (-k)
    rw [ksq_neg, dft_real, dft_real, evolve_conj (hH k)] at e1
    exact (Option.some.inj e1).symm
  obtain ⟨d, ed, pd⟩ := ranks_spec (n := g.n) (w := fun r => { w r with m2 := b r })
    (f := fun r w => (o.modes r).foldlM (modeBody g Ng c S z₁ z₂ r) w)
    (Q := fun r w' => (∀ i, i < g.modes → load w'.m 0 i = some (H (modeOf g r i)).1) ∧
      (∀ i, i < g.modes → load w'.v 0 i = some (H (modeOf g r i)).2) ∧
      Alloc (v3 g Ng) w'.m ∧ Alloc (g.Lx * g.Lx * (g.Lz + 2)) w'.v)
    (fun r hr => modes_spec hfit hfv (ho.modes r) (w := { w r with m2 := b r }) (hw.m r hr)
      (hw.v r hr) (fun i hi => (pb r i hr hi).1) (fun i hi => (pb r i hr hi).2)
      (fun i hi => by rw [ksq_eq ok hcube c hr hi]; exact hH _))
  obtain ⟨e, ee, pe⟩ := backward_spec ok hP (N := v3 g Ng) (by omega) (w := fun r => (d r).m)
    (H := fun k => (H k).1) (fun k => by rw [hneg]) (fun r hr => (pd r hr).2.2.1)
    (fun r i hr hi => (pd r hr).1 i hi)
  obtain ⟨f, ef, pf⟩ := backward_spec ok hP (N := g.Lx * g.Lx * (g.Lz + 2)) (by omega)
    (w := fun r => (d r).v) (H := fun k => (H k).2) (fun k => by rw [hneg])
    (fun r hr => (pd r hr).2.2.2) (fun r i hr hi => (pd r hr).2.1 i hi)
  obtain ⟨w', ew, pw⟩ := ranks_spec (n := g.n) (w := fun r => { d r with m := e r, v := f r })
    (f := fun r w => finishRank g Ng (o.sites r) w)
    (Q := fun r t => (∀ i, i < g.vol → t.m (start g Ng + i) = some
        ((synth (fun k => (H k).1) (siteOf g (r * g.vol + i))).re / (g.Lx * g.Lx * g.Tz : ℕ))) ∧
      (∀ i, i < g.vol → t.v i = some
        ((synth (fun k => (H k).2) (siteOf g (r * g.vol + i))).re / (g.Lx * g.Lx * g.Tz : ℕ))))
    (fun r hr => finish_spec ok (by omega) (N := g.Lx * g.Lx * (g.Lz + 2)) (by omega) (ho.sites r)
      (w := { d r with m := e r, v := f r }) (pe r hr).2 (pf r hr).2 (pe r hr).1 (pf r hr).1)
  refine ⟨w', fun x => (synth (fun k => (H k).1) x).re / (g.Lx * g.Lx * g.Tz : ℕ),
    fun x => (synth (fun k => (H k).2) x).re / (g.Lx * g.Lx * g.Tz : ℕ), ?_, ?_, ?_⟩
  · unfold wkbInPlace
    simp only [Option.bind_eq_bind, ea, eb, ed, ee, ef, Option.bind_some]
    exact ew
  · intro r i hr hi
    rw [← hs]
    exact ⟨(pw r hr).1 i hi, (pw r hr).2 i hi⟩
  · intro k
    have hN := card_ne (L := g.Lx) (T := g.Tz)
    have key : ∀ G : Torus g.Lx g.Tz → ℂ, (∀ k, G (-k) = starRingEnd ℂ (G k)) →
        dft (fun x => (((synth G x).re / (g.Lx * g.Lx * g.Tz : ℕ) : ℝ) : ℂ)) k = G k := by
      intro G hG
      have e1 : (fun x => (((synth G x).re / (g.Lx * g.Lx * g.Tz : ℕ) : ℝ) : ℂ)) =
          fun x => synth G x * (1 / (g.Lx * g.Lx * g.Tz : ℂ)) := by
        funext x
        have := Complex.conj_eq_iff_re.1 (synth_real hG x)
        push_cast
        rw [this]
        ring
      rw [e1]
      have e2 : dft (fun x => synth G x * (1 / (g.Lx * g.Lx * g.Tz : ℂ))) k =
          dft (synth G) k * (1 / (g.Lx * g.Lx * g.Tz : ℂ)) := by
        unfold dft
        rw [Finset.sum_mul]
        exact Finset.sum_congr rfl fun x _ => by ring
      rw [e2, dft_synth, mul_right_comm, mul_one_div_cancel hN, one_mul]
    rw [key (fun k => (H k).1) (fun k => by rw [hneg]),
      key (fun k => (H k).2) (fun k => by rw [hneg]), sq]
    exact hH k

/-- At the time at which the field is nothing changes. -/
theorem C61_field_start (ok : g.Ok) (hev : g.Lx % 2 = 0) (hcube : g.Tz = g.Lx) (hNg : 0 < Ng)
    {P : Plan} (hP : P.Exact g) {o : Orders} (ho : o.Ok g) {c : Cosmos} (hc : Law c) {z : ℝ}
    (hz : 0 < z) (hne : z ≠ c.zThRes) {w : ℕ → Mem} (hw : Room g Ng w)
    {φ ψ : Torus g.Lx g.Tz → ℝ} (h : Holds g Ng w φ ψ) :
    ∃ w', wkbInPlace g Ng P c (fun _ => 0) o z z w = some w' ∧ Holds g Ng w' φ ψ := by
  obtain ⟨w', φ', ψ', e, p, q⟩ := C61_field ok hev hcube hNg hP ho hc hz (le_refl z) (Or.inl hne)
    (fun _ => 0) hw h
  have hinj : ∀ a b : Torus g.Lx g.Tz → ℝ, (∀ k, dft (fun x => (a x : ℂ)) k =
      dft (fun x => (b x : ℂ)) k) → a = b := by
    intro a b hab
    funext x
    have h1 := synth_dft (fun x => (a x : ℂ)) x
    rw [funext hab, synth_dft] at h1
    have := mul_left_cancel₀ (card_ne (L := g.Lx) (T := g.Tz)) h1
    exact_mod_cast this.symm
  have hboth : ∀ k, dft (fun x => (φ x : ℂ)) k = dft (fun x => (φ' x : ℂ)) k ∧
      dft (fun x => (ψ x : ℂ)) k = dft (fun x => (ψ' x : ℂ)) k := by
    intro k
    have h0 : (0 : ℝ) ≤ ksq k * (2 * Real.pi / c.lSize) ^ 2 := by
      have : (0 : ℤ) ≤ ksq k := by unfold ksq; positivity
      have : (0 : ℝ) ≤ (ksq k : ℝ) := by exact_mod_cast this
      positivity
    have := C61_start hc hz hne (fun _ => 0) (Real.sqrt (ksq k * (2 * Real.pi / c.lSize) ^ 2)) rfl
      (dft (fun x => (φ x : ℂ)) k) (dft (fun x => (ψ x : ℂ)) k)
    rw [Real.sq_sqrt h0, q k] at this
    simpa [Prod.ext_iff, eq_comm] using this
  rw [hinj φ φ' fun k => (hboth k).1, hinj ψ ψ' fun k => (hboth k).2]
  exact ⟨w', e, p⟩

end

end Jaxions.WKB
