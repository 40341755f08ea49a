import Verif.Spec.Fourier
import Mathlib.Tactic.Ring

namespace Jaxions.Fourier

variable {K : Type} [Mul K]

theorem rank_lt {n P k : ℕ} (hk : k < P * n) : k / n < P :=
  Nat.div_lt_of_lt_mul (by rwa [Nat.mul_comm])

theorem idx_lt {n P k : ℕ} (hk : k < P * n) : k % n < n :=
  Nat.mod_lt _ (by rcases Nat.eq_zero_or_pos n with rfl | h; · simp at hk
                   · exact h)

theorem glob_lt {n P r i : ℕ} (hr : r < P) (hi : i < n) : r * n + i < P * n := by
  calc r * n + i < (r + 1) * n := by rw [Nat.succ_mul]; omega
    _ ≤ _ := Nat.mul_le_mul_right _ hr

theorem glob_div {n r i : ℕ} (hi : i < n) : (r * n + i) / n = r := by
  rw [Nat.mul_comm, Nat.mul_add_div (by omega), Nat.div_eq_of_lt hi, Nat.add_zero]

theorem glob_mod {n r i : ℕ} (hi : i < n) : (r * n + i) % n = i := by
  rw [Nat.mul_comm, Nat.mul_add_mod, Nat.mod_eq_of_lt hi]

theorem allRanks_glob {n r i : ℕ} (f : ℕ → ℕ → Addr) (hi : i < n) :
    allRanks n f (r * n + i) = f r i := by
  unfold allRanks
  rw [glob_div hi, glob_mod hi]

theorem allRanks_inj {n : ℕ} {f : ℕ → ℕ → Addr} {g : ℕ → ℕ} {blk : Blk}
    (hf : ∀ r i, f r i = ⟨r, blk, g i⟩) (hg : ∀ i < n, ∀ j < n, g i = g j → i = j) {P k k' : ℕ}
    (hk : k < P * n) (hk' : k' < P * n) (h : allRanks n f k = allRanks n f k') : k = k' := by
  unfold allRanks at h
  rw [hf, hf, Addr.mk.injEq] at h
  have h2 := hg _ (idx_lt hk) _ (idx_lt hk') h.2.2
  rw [← Nat.div_add_mod' k n, ← Nat.div_add_mod' k' n, h.1, h2]

theorem padIx_inj {L i j : ℕ} (hL : 0 < L) (h : padIx L i = padIx L j) : i = j := by
  unfold padIx at h
  have h1 : i % L < L + 2 := Nat.lt_of_lt_of_le (Nat.mod_lt _ hL) (by omega)
  have h2 : j % L < L + 2 := Nat.lt_of_lt_of_le (Nat.mod_lt _ hL) (by omega)
  have e := glob_div (r := i / L) h1
  rw [h, glob_div h2] at e
  have e2 : i % L = j % L := by rw [e] at h; omega
  rw [← Nat.div_add_mod' i L, ← Nat.div_add_mod' j L, e, e2]

theorem padIx_lt {L i n : ℕ} (hL : 0 < L) (hi : i < n * L) : padIx L i < n * (L + 2) := by
  unfold padIx
  exact glob_lt (rank_lt hi) (Nat.lt_of_lt_of_le (Nat.mod_lt _ hL) (by omega))

variable {y : Lay}

theorem n3_rows (y : Lay) : y.n3 = y.Lz * y.L * y.L := by
  unfold Lay.n3 Lay.n2; rw [Nat.mul_assoc]

/-- A block scaled. -/
theorem scale_spec (c : K) {h : Heap Addr K} (ha : Alloc y h) (blk : Blk)
    (hsz : 2 * y.v3 ≤ y.size blk) {f : ℕ → ℕ → Addr} (hf : ∀ r i, f r i = ⟨r, blk, i⟩) :
    ∃ h', scale y c f h = some h' ∧
      (∀ r < y.P, ∀ i < 2 * y.v3, h' ⟨r, blk, i⟩ = (h ⟨r, blk, i⟩).map (fun x => c * x)) ∧
      (∀ a : Addr, (a.blk ≠ blk ∨ 2 * y.v3 ≤ a.idx) → h' a = h a) ∧ Alloc y h' := by
  obtain ⟨h', e1, e2, e3⟩ := updCells_spec (fun x => c * x) (allRanks (2 * y.v3) f)
    (y.P * (2 * y.v3)) h
    (by
      intro k hk
      unfold allRanks
      rw [hf]
      refine (ha _).2 ⟨rank_lt hk, ?_⟩
      exact Nat.lt_of_lt_of_le (idx_lt hk) hsz)
    (by
      intro k hk k' hk' h
      exact allRanks_inj (g := fun i => i) hf (fun _ _ _ _ h => h) hk hk' h)
  have h2 : ∀ r < y.P, ∀ i < 2 * y.v3,
      h' ⟨r, blk, i⟩ = (h ⟨r, blk, i⟩).map (fun x => c * x) := by
    intro r hr i hi
    have := e2 (r * (2 * y.v3) + i) (glob_lt hr hi)
    rwa [allRanks_glob _ hi, hf] at this
  have h3 : ∀ a : Addr, (a.blk ≠ blk ∨ 2 * y.v3 ≤ a.idx) → h' a = h a := by
    intro a hab
    refine e3 a ?_
    intro k hk hc
    rw [hc] at hab
    unfold allRanks at hab
    rw [hf] at hab
    rcases hab with h | h
    · exact h rfl
    · have := idx_lt hk
      dsimp only at h
      omega
  refine ⟨h', e1, h2, h3, ?_⟩
  intro a
  by_cases hc : a.blk = blk ∧ a.idx < 2 * y.v3 ∧ a.rank < y.P
  · obtain ⟨r, b, i⟩ := a
    dsimp only at hc
    obtain ⟨rfl, hi, hr⟩ := hc
    rw [h2 r hr i hi, Option.isSome_map]
    exact ha _
  · have : h' a = h a := by
      refine e3 a ?_
      intro k hk hab
      refine hc ?_
      rw [hab]
      unfold allRanks
      rw [hf]
      exact ⟨rfl, idx_lt hk, rank_lt hk⟩
    rw [this]
    exact ha a

omit [Mul K] in
theorem map_alloc {T : List K → ℕ → K} {dst : ℕ → Addr} {n n' : ℕ} {h h' : Heap Addr K}
    {X : ℕ → K} (ha : Alloc y h) (hd : ∀ i < n', (h (dst i)).isSome)
    (e2 : ∀ i < n', h' (dst i) = some (T ((List.range n).map X) i))
    (e3 : ∀ a, (∀ i < n', a ≠ dst i) → h' a = h a) : Alloc y h' := by
  intro a
  by_cases hc : ∃ i < n', a = dst i
  · obtain ⟨i, hi, rfl⟩ := hc
    rw [e2 i hi, Option.isSome_some]
    exact ⟨fun _ => (ha _).1 (hd i hi), fun _ => rfl⟩
  · rw [e3 a (fun i hi h => hc ⟨i, hi, h⟩)]
    exact ha a

/-- Saxion: transform in place in a block and scale. -/
theorem fwd_sax (F : List K → ℕ → K) (c : K) {h : Heap Addr K} (ha : Alloc y h) (blk : Blk) (off : ℕ)
    (hoff : off + 2 * y.n3 ≤ 2 * y.v3) (hsz : 2 * y.v3 ≤ y.size blk)
    {f g : ℕ → ℕ → Addr} (hf : ∀ r i, f r i = ⟨r, blk, off + i⟩) (hg : ∀ r i, g r i = ⟨r, blk, i⟩)
    (X : ℕ → K) (hX : ∀ k < y.P * (2 * y.n3), h (allRanks (2 * y.n3) f k) = some (X k)) :
    ∃ h', ((mapCells F (allRanks (2 * y.n3) f) (y.P * (2 * y.n3))
        (allRanks (2 * y.n3) f) (y.P * (2 * y.n3)) h).bind (scale y c g)) = some h' ∧
      (∀ k < y.P * (2 * y.n3), h' (allRanks (2 * y.n3) f k) =
        some (c * F ((List.range (y.P * (2 * y.n3))).map X) k)) ∧
      (∀ a : Addr, a.blk ≠ blk → h' a = h a) ∧ Alloc y h' := by
  have hd : ∀ k < y.P * (2 * y.n3), (h (allRanks (2 * y.n3) f k)).isSome := by
    intro k hk; rw [hX k hk]; rfl
  obtain ⟨h1, e1, e2, e3⟩ := mapCells_spec F (allRanks (2 * y.n3) f) (y.P * (2 * y.n3))
    (allRanks (2 * y.n3) f) (y.P * (2 * y.n3)) h X hX hd
    (fun k hk k' hk' h => allRanks_inj (g := fun i => off + i) hf
      (fun _ _ _ _ h => Nat.add_left_cancel h) hk hk' h)
  have ha1 := map_alloc ha hd e2 e3
  obtain ⟨h2, s1, s2, s3, s4⟩ := scale_spec c ha1 blk hsz hg
  refine ⟨h2, by rw [e1]; exact s1, ?_, ?_, s4⟩
  · intro k hk
    have q := e2 k hk
    unfold allRanks at q ⊢
    rw [hf] at q ⊢
    rw [s2 _ (rank_lt hk) _ (by have := idx_lt hk; omega), q]
    rfl
  · intro a hab
    rw [s3 a (.inl hab)]
    refine e3 a ?_
    intro k hk hc
    rw [hc] at hab
    unfold allRanks at hab
    rw [hf] at hab
    exact hab rfl

omit [Mul K] in
/-- Saxion: back, in place. -/
theorem bck_sax (B : List K → ℕ → K) {h : Heap Addr K} (ha : Alloc y h) (blk : Blk) (off : ℕ)
    {f : ℕ → ℕ → Addr} (hf : ∀ r i, f r i = ⟨r, blk, off + i⟩) (Z : ℕ → K)
    (hZ : ∀ k < y.P * (2 * y.n3), h (allRanks (2 * y.n3) f k) = some (Z k)) :
    ∃ h', mapCells B (allRanks (2 * y.n3) f) (y.P * (2 * y.n3))
        (allRanks (2 * y.n3) f) (y.P * (2 * y.n3)) h = some h' ∧
      (∀ k < y.P * (2 * y.n3), h' (allRanks (2 * y.n3) f k) =
        some (B ((List.range (y.P * (2 * y.n3))).map Z) k)) ∧
      (∀ a : Addr, a.blk ≠ blk → h' a = h a) ∧ Alloc y h' := by
  have hd : ∀ k < y.P * (2 * y.n3), (h (allRanks (2 * y.n3) f k)).isSome := by
    intro k hk; rw [hZ k hk]; rfl
  obtain ⟨h1, e1, e2, e3⟩ := mapCells_spec B (allRanks (2 * y.n3) f) (y.P * (2 * y.n3))
    (allRanks (2 * y.n3) f) (y.P * (2 * y.n3)) h Z hZ hd
    (fun k hk k' hk' h => allRanks_inj (g := fun i => off + i) hf
      (fun _ _ _ _ h => Nat.add_left_cancel h) hk hk' h)
  refine ⟨h1, e1, e2, ?_, map_alloc ha hd e2 e3⟩
  intro a hab
  refine e3 a ?_
  intro k hk hc
  rw [hc] at hab
  unfold allRanks at hab
  rw [hf] at hab
  exact hab rfl

/-- Copies between the padded rows and a block: addresses. -/
theorem rows_eq (y : Lay) (k : ℕ) : rows y k = ⟨k / y.n3, .m2, padIx y.L (k % y.n3)⟩ := rfl

theorem rows_inj (hL : 0 < y.L) {k k' : ℕ} (hk : k < y.P * y.n3) (hk' : k' < y.P * y.n3)
    (h : rows y k = rows y k') : k = k' :=
  allRanks_inj (n := y.n3) (f := fun r i => m2Cpu r (padIx y.L i)) (g := fun i => padIx y.L i)
    (blk := .m2) (fun _ _ => rfl) (fun _ _ _ _ h => padIx_inj hL h) hk hk' h

omit [Mul K] in
theorem rows_alloc (hL : 0 < y.L) (hsz : y.nPad ≤ y.size .m2) {h : Heap Addr K} (ha : Alloc y h)
    {k : ℕ} (hk : k < y.P * y.n3) : (h (rows y k)).isSome := by
  refine (ha _).2 ⟨rank_lt hk, ?_⟩
  refine Nat.lt_of_lt_of_le ?_ hsz
  have := idx_lt hk
  rw [n3_rows] at this
  show padIx y.L (k % y.n3) < _
  rw [n3_rows] at hk ⊢
  exact padIx_lt hL this

omit [Mul K] in
theorem copy_alloc {ops : List (Addr × Addr)} {h h' : Heap Addr K} (ha : Alloc y h)
    (e : copyCells ops h = some h') : Alloc y h' := fun a => by
  rw [copyCells_isSome e]; exact ha a

omit [Mul K] in
/-- `padtom2`. -/
theorem pad_spec (hL : 0 < y.L) (hsz : y.nPad ≤ y.size .m2) {h : Heap Addr K} (ha : Alloc y h)
    (blk : Blk) (hb : blk ≠ .m2) (off : ℕ) {f : ℕ → ℕ → Addr}
    (hf : ∀ r i, f r i = ⟨r, blk, off + i⟩) (X : ℕ → K)
    (hX : ∀ k < y.P * y.n3, h (allRanks y.n3 f k) = some (X k)) :
    ∃ h', padtom2 y f h = some h' ∧ (∀ k < y.P * y.n3, h' (rows y k) = some (X k)) ∧
      (∀ a : Addr, a.blk ≠ .m2 → h' a = h a) ∧ Alloc y h' := by
  have hne : ∀ k k', rows y k ≠ allRanks y.n3 f k' := by
    intro k k' h
    have := congrArg Addr.blk h
    unfold allRanks at this
    rw [rows_eq, hf] at this
    exact hb this.symm
  obtain ⟨h', e1, e2, e3⟩ := copyCells_spec ((List.range (y.P * y.n3)).map fun k =>
      (rows y k, allRanks y.n3 f k)) h
    (by
      intro p hp
      obtain ⟨k, hk, rfl⟩ := List.mem_map.1 hp
      have hk := List.mem_range.1 hk
      exact ⟨rows_alloc hL hsz ha hk, by rw [hX k hk]; rfl⟩)
    (by
      intro p hp q hq
      obtain ⟨k, hk, rfl⟩ := List.mem_map.1 hp
      obtain ⟨k', hk', rfl⟩ := List.mem_map.1 hq
      exact hne k k')
    (by
      intro p hp q hq h
      obtain ⟨k, hk, rfl⟩ := List.mem_map.1 hp
      obtain ⟨k', hk', rfl⟩ := List.mem_map.1 hq
      rw [rows_inj hL (List.mem_range.1 hk) (List.mem_range.1 hk') h])
  refine ⟨h', e1, ?_, ?_, copy_alloc ha e1⟩
  · intro k hk
    rw [e2 _ (List.mem_map.2 ⟨k, List.mem_range.2 hk, rfl⟩), hX k hk]
  · intro a hab
    refine e3 a ?_
    intro p hp hc
    obtain ⟨k, hk, rfl⟩ := List.mem_map.1 hp
    rw [hc] at hab
    exact hab rfl

omit [Mul K] in
/-- `unpadfromm2`. -/
theorem unpad_spec {h : Heap Addr K} (ha : Alloc y h) (blk : Blk) (hb : blk ≠ .m2) (off : ℕ)
    (hoff : off + y.n3 ≤ y.size blk) {f : ℕ → ℕ → Addr} (hf : ∀ r i, f r i = ⟨r, blk, off + i⟩)
    (X : ℕ → K) (hX : ∀ k < y.P * y.n3, h (rows y k) = some (X k)) :
    ∃ h', unpadfromm2 y f h = some h' ∧ (∀ k < y.P * y.n3, h' (allRanks y.n3 f k) = some (X k)) ∧
      (∀ a : Addr, a.blk ≠ blk → h' a = h a) ∧ Alloc y h' := by
  have hne : ∀ k k', allRanks y.n3 f k' ≠ rows y k := by
    intro k k' h
    have := congrArg Addr.blk h
    unfold allRanks at this
    rw [rows_eq, hf] at this
    exact hb this
  obtain ⟨h', e1, e2, e3⟩ := copyCells_spec ((List.range (y.P * y.n3)).map fun k =>
      (allRanks y.n3 f k, rows y k)) h
    (by
      intro p hp
      obtain ⟨k, hk, rfl⟩ := List.mem_map.1 hp
      have hk := List.mem_range.1 hk
      refine ⟨?_, by rw [hX k hk]; rfl⟩
      unfold allRanks
      rw [hf]
      exact (ha _).2 ⟨rank_lt hk, by
        have := idx_lt hk
        show off + k % y.n3 < y.size blk
        omega⟩)
    (by
      intro p hp q hq
      obtain ⟨k, hk, rfl⟩ := List.mem_map.1 hp
      obtain ⟨k', hk', rfl⟩ := List.mem_map.1 hq
      exact hne k' k)
    (by
      intro p hp q hq h
      obtain ⟨k, hk, rfl⟩ := List.mem_map.1 hp
      obtain ⟨k', hk', rfl⟩ := List.mem_map.1 hq
      have := allRanks_inj (g := fun i => off + i) hf (fun _ _ _ _ h => Nat.add_left_cancel h)
        (List.mem_range.1 hk) (List.mem_range.1 hk') h
      rw [this])
  refine ⟨h', e1, ?_, ?_, copy_alloc ha e1⟩
  · intro k hk
    rw [e2 _ (List.mem_map.2 ⟨k, List.mem_range.2 hk, rfl⟩), hX k hk]
  · intro a hab
    refine e3 a ?_
    intro p hp hc
    obtain ⟨k, hk, rfl⟩ := List.mem_map.1 hp
    dsimp only at hc
    rw [hc] at hab
    unfold allRanks at hab
    rw [hf] at hab
    exact hab rfl

/-- Real transform: pad, transform into a block, scale. -/
theorem fwd_pad (F : List K → ℕ → K) (c : K) (hL : 0 < y.L) (hpad : y.nPad ≤ 2 * y.v3)
    {h : Heap Addr K} (ha : Alloc y h) (blk : Blk) (hb : blk ≠ .m2) (off : ℕ)
    (hsz : 2 * y.v3 ≤ y.size blk) {f g : ℕ → ℕ → Addr}
    (hf : ∀ r i, f r i = ⟨r, blk, off + i⟩) (hg : ∀ r i, g r i = ⟨r, blk, i⟩) (X : ℕ → K)
    (hX : ∀ k < y.P * y.n3, h (allRanks y.n3 f k) = some (X k)) :
    ∃ h', ((padtom2 y f h).bind fun h =>
        (mapCells F (rows y) (y.P * y.n3) (allRanks y.nPad g) (y.P * y.nPad) h).bind
          (scale y c g)) = some h' ∧
      (∀ k < y.P * y.nPad, h' (allRanks y.nPad g k) =
        some (c * F ((List.range (y.P * y.n3)).map X) k)) ∧
      (∀ a : Addr, a.blk ≠ blk → a.blk ≠ .m2 → h' a = h a) ∧ Alloc y h' := by
  obtain ⟨h0, p1, p2, p3, p4⟩ := pad_spec hL hpad ha blk hb off hf X hX
  have hd : ∀ k < y.P * y.nPad, (h0 (allRanks y.nPad g k)).isSome := by
    intro k hk
    unfold allRanks
    rw [hg]
    refine (p4 _).2 ⟨rank_lt hk, ?_⟩
    have := idx_lt hk
    show k % y.nPad < y.size blk
    omega
  obtain ⟨h1, e1, e2, e3⟩ := mapCells_spec F (rows y) (y.P * y.n3) (allRanks y.nPad g)
    (y.P * y.nPad) h0 X p2 hd
    (fun k hk k' hk' h => allRanks_inj (g := fun i => i) hg (fun _ _ _ _ h => h) hk hk' h)
  have ha1 := map_alloc p4 hd e2 e3
  obtain ⟨h2, s1, s2, s3, s4⟩ := scale_spec c ha1 blk hsz hg
  refine ⟨h2, ?_, ?_, ?_, s4⟩
  · rw [p1]
    simp only [Option.bind_some]
    rw [e1]
    exact s1
  · intro k hk
    have q := e2 k hk
    unfold allRanks at q ⊢
    rw [hg] at q ⊢
    rw [s2 _ (rank_lt hk) _ (by have := idx_lt hk; omega), q]
    rfl
  · intro a hab hab2
    rw [s3 a (.inl hab), e3 a (by
      intro k hk hc
      rw [hc] at hab
      unfold allRanks at hab
      rw [hg] at hab
      exact hab rfl), p3 a hab2]

omit [Mul K] in
/-- Real transform back: transform into the rows, copy to the block. -/
theorem bck_pad (B : List K → ℕ → K) (hL : 0 < y.L) (hpad : y.nPad ≤ 2 * y.v3)
    {h : Heap Addr K} (ha : Alloc y h) (blk : Blk) (hb : blk ≠ .m2) (off : ℕ)
    (hoff : off + y.n3 ≤ y.size blk) {f g : ℕ → ℕ → Addr}
    (hf : ∀ r i, f r i = ⟨r, blk, off + i⟩) (Z : ℕ → K)
    (hZ : ∀ k < y.P * y.nPad, h (allRanks y.nPad g k) = some (Z k)) :
    ∃ h', ((mapCells B (allRanks y.nPad g) (y.P * y.nPad) (rows y) (y.P * y.n3) h).bind
          (unpadfromm2 y f)) = some h' ∧
      (∀ k < y.P * y.n3, h' (allRanks y.n3 f k) =
        some (B ((List.range (y.P * y.nPad)).map Z) k)) ∧
      (∀ a : Addr, a.blk ≠ blk → a.blk ≠ .m2 → h' a = h a) ∧ Alloc y h' := by
  have hd : ∀ k < y.P * y.n3, (h (rows y k)).isSome := fun k hk => rows_alloc hL hpad ha hk
  obtain ⟨h1, e1, e2, e3⟩ := mapCells_spec B (allRanks y.nPad g) (y.P * y.nPad) (rows y)
    (y.P * y.n3) h Z hZ hd (fun k hk k' hk' h => rows_inj hL hk hk' h)
  have ha1 := map_alloc ha hd e2 e3
  obtain ⟨h2, u1, u2, u3, u4⟩ := unpad_spec ha1 blk hb off hoff hf _ e2
  refine ⟨h2, by rw [e1]; exact u1, u2, ?_, u4⟩
  intro a hab hab2
  rw [u3 a hab, e3 a (by
    intro k hk hc
    rw [hc] at hab2
    exact hab2 rfl)]

/-- Scaling a velocity array that is shorter than the scaled length. -/
theorem scale_none (c : K) {h : Heap Addr K} (ha : Alloc y h) (hP : 0 < y.P) {k : ℕ}
    (hk : k < 2 * y.v3) (hout : y.size (y.vCpu 0 k).blk ≤ (y.vCpu 0 k).idx) :
    scale y c y.vCpu h = none := by
  refine updCells_none _ _ _ _ (k := k)
    (Nat.lt_of_lt_of_le hk (Nat.le_mul_of_pos_left _ hP)) ?_
  have e : allRanks (2 * y.v3) y.vCpu k = y.vCpu 0 k := by
    unfold allRanks
    rw [Nat.div_eq_of_lt hk, Nat.mod_eq_of_lt hk]
  rw [e]
  refine Option.not_isSome_iff_eq_none.1 fun hc => ?_
  have := ((ha _).1 hc).2
  omega

omit [Mul K] in
theorem mapCells_alloc {T : List K → ℕ → K} {src dst : ℕ → Addr} {n n' : ℕ} {h h' : Heap Addr K}
    (ha : Alloc y h) (e : mapCells T src n dst n' h = some h') : Alloc y h' := fun a => by
  rw [mapCells_isSome e]; exact ha a

omit [Mul K] in
theorem updCells_alloc (f : K → K) (dst : ℕ → Addr) (l : List ℕ) {h h' : Heap Addr K}
    (ha : Alloc y h) (e : l.foldlM (updCell f dst) h = some h') : Alloc y h' := by
  induction l generalizing h with
  | nil => cases e; exact ha
  | cons j l ih =>
    rw [List.foldlM_cons] at e
    cases hu : updCell f dst h j with
    | none => rw [hu] at e; exact absurd e (by simp)
    | some t =>
      rw [hu] at e
      refine ih ?_ e
      unfold updCell at hu
      cases hx : h (dst j) with
      | none => rw [hx] at hu; exact absurd hu (by simp)
      | some x =>
        rw [hx] at hu
        have hu : h.write (dst j) (f x) = some t := hu
        have hs : (h (dst j)).isSome := by rw [hx]; rfl
        rw [write_eq _ _ _ hs, Option.some.injEq] at hu
        subst hu
        intro a
        by_cases hc : a = dst j
        · dsimp only
          rw [if_pos hc, hc]
          exact ⟨fun _ => (ha _).1 hs, fun _ => rfl⟩
        · dsimp only
          rw [if_neg hc]
          exact ha a

theorem fwdM_alloc {T : Plans K} {c : K} {h h' : Heap Addr K} (ha : Alloc y h)
    (e : fwdM y T c h = some h') : Alloc y h' := by
  unfold fwdM at e
  split at e
  · obtain ⟨t, e1, e2⟩ := Option.bind_eq_some_iff.1 e
    exact updCells_alloc _ _ _ (mapCells_alloc ha e1) e2
  · obtain ⟨t, e1, e2⟩ := Option.bind_eq_some_iff.1 e
    obtain ⟨u, e3, e4⟩ := Option.bind_eq_some_iff.1 e2
    exact updCells_alloc _ _ _ (mapCells_alloc (copy_alloc ha e1) e3) e4

theorem fwdV_none (T : Plans K) (c : K) {h : Heap Addr K} (ha : Alloc y h) (hP : 0 < y.P) {k : ℕ}
    (hk : k < 2 * y.v3) (hout : y.size (y.vCpu 0 k).blk ≤ (y.vCpu 0 k).idx) :
    fwdV y T c h = none := by
  refine Option.eq_none_iff_forall_not_mem.2 fun h' e => ?_
  have e : fwdV y T c h = some h' := e
  unfold fwdV at e
  split at e
  · obtain ⟨t, e1, e2⟩ := Option.bind_eq_some_iff.1 e
    rw [scale_none c (mapCells_alloc ha e1) hP hk hout] at e2
    exact absurd e2 (by simp)
  · obtain ⟨t, e1, e2⟩ := Option.bind_eq_some_iff.1 e
    obtain ⟨u, e3, e4⟩ := Option.bind_eq_some_iff.1 e2
    rw [scale_none c (mapCells_alloc (copy_alloc ha e1) e3) hP hk hout] at e4
    exact absurd e4 (by simp)

theorem ft_velocity_none (T : Plans K) (c : K) (h : Heap Addr K) (ha : Alloc y h)
    (reqM mMom : Bool) (hreq : reqM = true → mMom = false) (hP : 0 < y.P) {k : ℕ}
    (hk : k < 2 * y.v3) (hout : y.size (y.vCpu 0 k).blk ≤ (y.vCpu 0 k).idx) :
    ft y T c reqM true ⟨h, mMom, false⟩ = none := by
  cases reqM with
  | false =>
    show (fwdV y T c h).bind _ = none
    rw [fwdV_none T c ha hP hk hout]; rfl
  | true =>
    rw [hreq rfl]
    show (fwdM y T c h).bind _ = none
    cases e : fwdM y T c h with
    | none => rfl
    | some h' =>
      show (fwdV y T c h').bind _ = none
      rw [fwdV_none T c (fwdM_alloc ha e) hP hk hout]; rfl

end Jaxions.Fourier
