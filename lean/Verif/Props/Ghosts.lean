import Verif.Props.Comms
/-
C09: contents of the ghost slices after an exchange.
-/
namespace Jaxions

variable {β : Type _}

/-- Memory of `n` ranks: each owns one array of `(Lz + 2 Ng)` slices. -/
def WorldAlloc (n : Nat) (g : Slab) (mem : Heap (Nat × Nat) β) : Prop :=
  ∀ r a, (mem (r, a)).isSome ↔ r < n ∧ a < (g.Lz + 2 * g.Ng) * g.plane

/-- Byte `b` of the slice with global z coordinate `z` of the whole lattice: slice `z % Lz` of
rank `z / Lz`, stored behind the `Ng` ghost slices. -/
def latticeByte (g : Slab) (mem : Heap (Nat × Nat) β) (z b : Nat) : Option β :=
  mem (z / g.Lz, (g.Ng + z % g.Lz) * g.plane + b)

theorem mem_zip_map {γ δ ε : Type _} (l : List γ) (f : γ → δ) (h : γ → ε) (p : δ × ε) :
    p ∈ (l.map f).zip (l.map h) ↔ ∃ c ∈ l, p = (f c, h c) := by
  induction l with
  | nil => simp
  | cons a l ih => simp [ih]

/-- The byte copies performed by an exchange, whatever the splitting in pieces. -/
theorem mem_transfers {n : Nat} (hn : 0 < n) (b : Bufs) (plan : List (Nat × Nat)) (G : Nat)
    (hplan : bytesOf plan = List.range G) (sends recvs : Nat → List Post)
    (hs : ∀ s d t, onChannel (sends s) d t =
      if bckNeig n s = d ∧ t = 2 * s + 1 then plan.map (fun c => ⟨d, t, b.sB + c.1, c.2⟩)
      else if fwdNeig n s = d ∧ t = 2 * s then plan.map (fun c => ⟨d, t, b.sF + c.1, c.2⟩) else [])
    (hr : ∀ s d t, onChannel (recvs d) s t =
      if fwdNeig n d = s ∧ t = 2 * s + 1 then plan.map (fun c => ⟨s, t, b.rF + c.1, c.2⟩)
      else if bckNeig n d = s ∧ t = 2 * s then plan.map (fun c => ⟨s, t, b.rB + c.1, c.2⟩) else [])
    (p : (Nat × Nat) × (Nat × Nat)) :
    p ∈ transfers n sends recvs ↔ ∃ r, r < n ∧ ∃ j, j < G ∧
      (p = ((r, b.rF + j), (fwdNeig n r, b.sB + j)) ∨ p = ((r, b.rB + j), (bckNeig n r, b.sF + j))) := by
  have hbytes : ∀ j, (∃ c ∈ plan, ∃ k, k < c.2 ∧ c.1 + k = j) ↔ j < G := by
    intro j
    have : j ∈ bytesOf plan ↔ j < G := by rw [hplan, List.mem_range]
    rw [← this, bytesOf, List.mem_flatMap]
    constructor
    · rintro ⟨c, hc, k, hk, rfl⟩
      exact ⟨c, hc, List.mem_range'_1.2 ⟨by omega, by omega⟩⟩
    · rintro ⟨c, hc, hj⟩
      have := List.mem_range'_1.1 hj
      exact ⟨c, hc, j - c.1, by omega, by omega⟩
  simp only [transfers, List.mem_flatMap, List.mem_range, List.mem_map]
  constructor
  · rintro ⟨s, hsn, d, hdn, t, ht, pq, hpq, k, hk, rfl⟩
    rw [hs, hr] at hpq
    simp only [neig_iff hsn hdn, neig_iff' hsn hdn] at hpq
    by_cases hA : fwdNeig n d = s ∧ t = 2 * s + 1
    · rw [if_pos hA, if_pos hA, mem_zip_map] at hpq
      obtain ⟨c, hc, rfl⟩ := hpq
      refine ⟨d, hdn, c.1 + k, (hbytes _).1 ⟨c, hc, k, hk, rfl⟩, Or.inl ?_⟩
      simp only [hA.1, Nat.add_assoc]
    · rw [if_neg hA, if_neg hA] at hpq
      by_cases hB : bckNeig n d = s ∧ t = 2 * s
      · rw [if_pos hB, if_pos hB, mem_zip_map] at hpq
        obtain ⟨c, hc, rfl⟩ := hpq
        refine ⟨d, hdn, c.1 + k, (hbytes _).1 ⟨c, hc, k, hk, rfl⟩, Or.inr ?_⟩
        simp only [hB.1, Nat.add_assoc]
      · rw [if_neg hB, if_neg hB] at hpq
        simp at hpq
  · rintro ⟨r, hrn, j, hj, hp⟩
    obtain ⟨c, hc, k, hk, rfl⟩ := (hbytes j).2 hj
    rcases hp with rfl | rfl
    · have hlt := fwdNeig_lt hn r
      refine ⟨fwdNeig n r, hlt, r, hrn, 2 * fwdNeig n r + 1, by omega,
        (⟨r, 2 * fwdNeig n r + 1, b.sB + c.1, c.2⟩, ⟨fwdNeig n r, 2 * fwdNeig n r + 1, b.rF + c.1, c.2⟩), ?_, k, hk, ?_⟩
      · rw [hs, hr]
        simp only [neig_iff hlt hrn, neig_iff' hlt hrn, and_self, if_true]
        exact (mem_zip_map _ _ _ _).2 ⟨c, hc, rfl⟩
      · simp [Nat.add_assoc]
    · have hlt := bckNeig_lt hn r
      refine ⟨bckNeig n r, hlt, r, hrn, 2 * bckNeig n r, by omega,
        (⟨r, 2 * bckNeig n r, b.sF + c.1, c.2⟩, ⟨bckNeig n r, 2 * bckNeig n r, b.rB + c.1, c.2⟩), ?_, k, hk, ?_⟩
      · rw [hs, hr]
        have hne : ∀ a : Nat, ¬ (2 * a = 2 * a + 1) := by omega
        simp only [neig_iff hlt hrn, neig_iff' hlt hrn, and_self, if_true, hne, and_false, if_false]
        exact (mem_zip_map _ _ _ _).2 ⟨c, hc, rfl⟩
      · simp [Nat.add_assoc]

/-- The state after an exchange of `w` ghost slices per side. -/
structure Exchanged (n : Nat) (g : Slab) (w : Nat) (mem mem' : Heap (Nat × Nat) β) : Prop where
  /-- every refreshed slice, ghost or physical, shows the periodic lattice: slice
  `Ng - w + j` of rank `r` is global slice `r Lz + j - w` modulo the lattice depth -/
  lattice : ∀ r, r < n → ∀ j, j < g.Lz + 2 * w → ∀ b, b < g.plane →
    mem' (r, (g.Ng - w + j) * g.plane + b) =
      latticeByte g mem ((r * g.Lz + j + n * g.Lz - w) % (n * g.Lz)) b
  /-- everything else is untouched -/
  keep : ∀ r a, ¬ (r < n ∧ (((g.Ng - w) * g.plane ≤ a ∧ a < g.Ng * g.plane) ∨
      ((g.Ng + g.Lz) * g.plane ≤ a ∧ a < (g.Ng + g.Lz + w) * g.plane))) → mem' (r, a) = mem (r, a)

theorem copies_exchanged {n : Nat} (hn : 0 < n) (g : Slab) (w : Nat) (hwN : w ≤ g.Ng)
    (hwL : w ≤ g.Lz) (hL : 0 < g.Lz)
    (ops : List ((Nat × Nat) × (Nat × Nat)))
    (hops : ∀ p, p ∈ ops ↔ ∃ r, r < n ∧ ∃ j, j < w * g.plane ∧
      (p = ((r, (ghostBufs g w).rF + j), (fwdNeig n r, (ghostBufs g w).sB + j)) ∨
       p = ((r, (ghostBufs g w).rB + j), (bckNeig n r, (ghostBufs g w).sF + j))))
    (mem : Heap (Nat × Nat) β) (ha : WorldAlloc n g mem) :
    ∃ mem', copyCells ops mem = some mem' ∧ Exchanged n g w mem mem' := by
  have e1 : (g.Lz + 2 * g.Ng) * g.plane = g.Lz * g.plane + g.Ng * g.plane + g.Ng * g.plane := by
    rw [Nat.add_mul, Nat.mul_assoc, Nat.two_mul]; omega
  have e2 : w * g.plane ≤ g.Ng * g.plane := Nat.mul_le_mul_right _ hwN
  have e3 : w * g.plane ≤ g.Lz * g.plane := Nat.mul_le_mul_right _ hwL
  have e4 : (g.Ng - w) * g.plane + w * g.plane = g.Ng * g.plane := by
    rw [← Nat.add_mul]; congr 1; omega
  have e5 : (g.Ng + g.Lz) * g.plane = g.Ng * g.plane + g.Lz * g.plane := Nat.add_mul _ _ _
  have e6 : (g.Ng + g.Lz + w) * g.plane = g.Ng * g.plane + g.Lz * g.plane + w * g.plane := by
    rw [Nat.add_mul, Nat.add_mul]
  have some_of : ∀ r a, r < n → a < g.Lz * g.plane + g.Ng * g.plane + g.Ng * g.plane →
      (mem (r, a)).isSome := fun r a h1 h2 => (ha r a).2 ⟨h1, by rw [e1]; exact h2⟩
  obtain ⟨mem', he, hval, hkeep⟩ := copyCells_spec ops mem
    (by
      intro p hp
      obtain ⟨r, hr, j, hj, rfl | rfl⟩ := (hops p).1 hp
      · exact ⟨some_of _ _ hr (by simp only [ghostBufs]; omega),
          some_of _ _ (fwdNeig_lt hn r) (by simp only [ghostBufs]; omega)⟩
      · exact ⟨some_of _ _ hr (by simp only [ghostBufs]; omega),
          some_of _ _ (bckNeig_lt hn r) (by simp only [ghostBufs]; omega)⟩)
    (by
      intro p hp q hq hpq
      obtain ⟨r, hr, j, hj, rfl | rfl⟩ := (hops p).1 hp <;>
        obtain ⟨r', hr', j', hj', rfl | rfl⟩ := (hops q).1 hq <;>
        simp only [ghostBufs, Prod.mk.injEq] at hpq <;> omega)
    (by
      intro p hp q hq hpq
      obtain ⟨r, hr, j, hj, rfl | rfl⟩ := (hops p).1 hp <;>
        obtain ⟨r', hr', j', hj', rfl | rfl⟩ := (hops q).1 hq <;>
        simp only [ghostBufs, Prod.mk.injEq] at hpq ⊢
      · obtain ⟨rfl, h⟩ := hpq
        exact ⟨rfl, by omega⟩
      · omega
      · omega
      · obtain ⟨rfl, h⟩ := hpq
        exact ⟨rfl, by omega⟩)
  refine ⟨mem', he, ?_, ?_⟩
  · intro r hr j hj b hb
    have hrL : r * g.Lz + g.Lz ≤ n * g.Lz := by
      have := Nat.mul_le_mul_right g.Lz (Nat.succ_le_of_lt hr)
      rw [Nat.succ_mul] at this
      exact this
    have hnL : g.Lz ≤ n * g.Lz := by omega
    have split3 : ∀ x y : Nat, (x + y) * g.plane + b = x * g.plane + (y * g.plane + b) := by
      intro x y; rw [Nat.add_mul]; omega
    rcases Nat.lt_or_ge j w with hjw | hjw
    · -- front ghost
      have hjb : j * g.plane + b < w * g.plane := pair_lt hjw hb
      have hv := hval _ ((hops _).2 ⟨r, hr, j * g.plane + b, hjb, Or.inr rfl⟩)
      simp only [ghostBufs] at hv
      rw [split3 (g.Ng - w) j, hv]
      have hz : (r * g.Lz + j + n * g.Lz - w) % (n * g.Lz) = bckNeig n r * g.Lz + (g.Lz + j - w) := by
        rw [bckNeig_cases hr]
        split
        · next h0 =>
          subst h0
          have e7 : (n - 1) * g.Lz + g.Lz = n * g.Lz := by
            rw [← Nat.succ_mul]; congr 1; omega
          rw [Nat.mod_eq_of_lt] <;> omega
        · next h0 =>
          have e7 : (r - 1) * g.Lz + g.Lz = r * g.Lz := by
            rw [← Nat.succ_mul]; congr 1; omega
          have : r * g.Lz + j + n * g.Lz - w = (r * g.Lz + j - w) + n * g.Lz := by omega
          rw [this, Nat.add_mod_right, Nat.mod_eq_of_lt] <;> omega
      have hlt : g.Lz + j - w < g.Lz := by omega
      rw [hz, latticeByte, div_of hlt, mod_of hlt]
      congr 2
      have e8 : (g.Lz + j - w) * g.plane + w * g.plane = g.Lz * g.plane + j * g.plane := by
        rw [← Nat.add_mul, ← Nat.add_mul]; congr 1; omega
      rw [split3]
      omega
    · rcases Nat.lt_or_ge j (w + g.Lz) with hjL | hjL
      · -- physical
        have hk : mem' (r, (g.Ng - w + j) * g.plane + b) = mem (r, (g.Ng - w + j) * g.plane + b) := by
          apply hkeep
          intro p hp hpe
          have hj2 : (j - w) * g.plane + b < g.Lz * g.plane := pair_lt (by omega) hb
          have e9 : (g.Ng - w + j) * g.plane = g.Ng * g.plane + (j - w) * g.plane := by
            rw [← Nat.add_mul]; congr 1; omega
          obtain ⟨r', hr', j', hj', rfl | rfl⟩ := (hops p).1 hp <;>
            simp only [ghostBufs, Prod.mk.injEq] at hpe <;> omega
        rw [hk]
        have hz : (r * g.Lz + j + n * g.Lz - w) % (n * g.Lz) = r * g.Lz + (j - w) := by
          have : r * g.Lz + j + n * g.Lz - w = (r * g.Lz + (j - w)) + n * g.Lz := by omega
          rw [this, Nat.add_mod_right, Nat.mod_eq_of_lt]
          omega
        have hlt : j - w < g.Lz := by omega
        rw [hz, latticeByte, div_of hlt, mod_of hlt]
        congr 4
        omega
      · -- back ghost
        have hjb : (j - w - g.Lz) * g.plane + b < w * g.plane := pair_lt (by omega) hb
        have hv := hval _ ((hops _).2 ⟨r, hr, (j - w - g.Lz) * g.plane + b, hjb, Or.inl rfl⟩)
        simp only [ghostBufs] at hv
        have e9 : (g.Ng - w + j) * g.plane + b =
            g.Ng * g.plane + g.Lz * g.plane + ((j - w - g.Lz) * g.plane + b) := by
          have : g.Ng - w + j = g.Ng + g.Lz + (j - w - g.Lz) := by omega
          rw [this, Nat.add_mul, Nat.add_mul]; omega
        rw [e9, hv]
        have hz : (r * g.Lz + j + n * g.Lz - w) % (n * g.Lz) = fwdNeig n r * g.Lz + (j - w - g.Lz) := by
          rw [fwdNeig_cases hr]
          have h2 : r * g.Lz + j + n * g.Lz - w = (r * g.Lz + (j - w)) + n * g.Lz := by omega
          rw [h2, Nat.add_mod_right]
          split
          · next h0 =>
            have e7 : r * g.Lz + g.Lz = n * g.Lz := by rw [← Nat.succ_mul, ← h0]
            have : r * g.Lz + (j - w) = (j - w - g.Lz) + n * g.Lz := by omega
            rw [this, Nat.add_mod_right, Nat.mod_eq_of_lt] <;> omega
          · next h0 =>
            have e7 : (r + 1) * g.Lz = r * g.Lz + g.Lz := Nat.succ_mul _ _
            have e8 : (r + 2) * g.Lz ≤ n * g.Lz := Nat.mul_le_mul_right _ (by omega)
            rw [Nat.add_mul, Nat.two_mul] at e8
            rw [Nat.mod_eq_of_lt] <;> omega
        have hlt : j - w - g.Lz < g.Lz := by omega
        rw [hz, latticeByte, div_of hlt, mod_of hlt, Nat.add_mul]
        congr 2
        omega
  · intro r a hna
    apply hkeep
    intro p hp hpe
    apply hna
    obtain ⟨r', hr', j', hj', rfl | rfl⟩ := (hops p).1 hp <;>
      simp only [ghostBufs, Prod.mk.injEq] at hpe <;>
      obtain ⟨rfl, rfl⟩ := hpe
    · exact ⟨hr', Or.inr (by omega)⟩
    · exact ⟨hr', Or.inl (by omega)⟩

/-- **C09** Exchange through `sendGhosts2`/`exchangeGhosts`, any number of ranks, full or partial
width, messages delivered in any order: the call is either refused (message too large, C07) with
memory untouched, or afterwards every refreshed slice shows the periodic lattice and nothing else
has changed. -/
theorem C09_exchange {n : Nat} (hn : 0 < n) (g : Slab) (hP : 0 < g.plane) (hL : 0 < g.Lz)
    (ng : Option Nat) (hw : effNg g.Ng ng ≤ g.Lz)
    (order : List ((Nat × Nat) × (Nat × Nat)) → List ((Nat × Nat) × (Nat × Nat)))
    (horder : ∀ l, (order l).Perm l) (mem : Heap (Nat × Nat) β) (ha : WorldAlloc n g mem) :
    (exchange2 n g ng order mem = some none ∧ effNg g.Ng ng * g.plane > 10 * 2147483584) ∨
    ∃ mem', exchange2 n g ng order mem = some (some mem') ∧ Exchanged n g (effNg g.Ng ng) mem mem' := by
  have hwN : effNg g.Ng ng ≤ g.Ng := by
    cases ng with
    | none => exact Nat.le_refl _
    | some k => simp only [effNg]; split <;> omega
  simp only [exchange2]
  generalize hwv : effNg g.Ng ng = w at *
  cases hp : planGeneral (w * g.plane) with
  | none => exact Or.inl ⟨rfl, ((C07_pieces_general _).2.1 hp)⟩
  | some plan =>
    right
    obtain ⟨hbytes, _, _⟩ := (C07_pieces_general _).1 plan hp
    have e4 : (g.Ng - w) * g.plane + w * g.plane = g.Ng * g.plane := by
      rw [← Nat.add_mul]; congr 1; omega
    have hpos : 0 < g.Lz * g.plane := Nat.mul_pos hL hP
    have hB : (ghostBufs g w).sB ≠ (ghostBufs g w).rF := by simp only [ghostBufs]; omega
    have hF : (ghostBufs g w).sF ≠ (ghostBufs g w).rB := by
      have := Nat.mul_le_mul_right g.plane hw
      simp only [ghostBufs]; omega
    have hops := mem_transfers hn (ghostBufs g w) plan (w * g.plane) hbytes
      (sendsGeneral n (ghostBufs g w) plan) (recvsGeneral n (ghostBufs g w) plan)
      (by intro s d t; rw [channel_sendsGeneral]; simp only [hB, hF, ne_eq, not_false_eq_true, and_true])
      (by intro s d t; rw [channel_recvsGeneral]; simp only [hB, hF, ne_eq, not_false_eq_true, and_true])
    obtain ⟨mem', he, hx⟩ := copies_exchanged hn g w hwN hw hL
      (order (transfers n (sendsGeneral n (ghostBufs g w) plan) (recvsGeneral n (ghostBufs g w) plan)))
      (by intro p; rw [(horder _).mem_iff]; exact hops p) mem ha
    exact ⟨mem', by simp [he], hx⟩

/-- **C09** The same for the exchange used by the propagators (`sendGhosts`, full width). -/
theorem C09_exchange_ghosts {n : Nat} (hn : 0 < n) (g : Slab) (hL : 0 < g.Lz)
    (hw : g.Ng ≤ g.Lz)
    (order : List ((Nat × Nat) × (Nat × Nat)) → List ((Nat × Nat) × (Nat × Nat)))
    (horder : ∀ l, (order l).Perm l) (mem : Heap (Nat × Nat) β) (ha : WorldAlloc n g mem) :
    (exchange1 n g order mem = some none ∧ g.Ng * g.plane ≥ 10 * 2147483584) ∨
    ∃ mem', exchange1 n g order mem = some (some mem') ∧ Exchanged n g g.Ng mem mem' := by
  simp only [exchange1]
  cases hp : planGhosts (g.Ng * g.plane) with
  | none => exact Or.inl ⟨rfl, ((C07_pieces_ghosts _).2.1 hp)⟩
  | some plan =>
    right
    obtain ⟨hbytes, _, _⟩ := (C07_pieces_ghosts _).1 plan hp
    have hops := mem_transfers hn (ghostBufs g g.Ng) plan (g.Ng * g.plane) hbytes
      (sendsGhosts n (ghostBufs g g.Ng) plan) (recvsGhosts n (ghostBufs g g.Ng) plan)
      (by intro s d t; rw [channel_sendsGhosts])
      (by intro s d t; rw [channel_recvsGhosts])
    obtain ⟨mem', he, hx⟩ := copies_exchanged hn g g.Ng (Nat.le_refl _) hw hL
      (order (transfers n (sendsGhosts n (ghostBufs g g.Ng) plan) (recvsGhosts n (ghostBufs g g.Ng) plan)))
      (by intro p; rw [(horder _).mem_iff]; exact hops p) mem ha
    exact ⟨mem', by simp [he], hx⟩

/-- **C09** One slice of ghosts spelled out: the slice in front of the first physical slice is the
last physical slice of the previous rank, the slice behind the last one is the first physical
slice of the next rank. -/
theorem C09_nearest {n : Nat} {g : Slab} {w : Nat} {mem mem' : Heap (Nat × Nat) β}
    (hx : Exchanged n g w mem mem') (hw1 : 1 ≤ w) (hwN : w ≤ g.Ng) (hwL : w ≤ g.Lz) (r : Nat)
    (hr : r < n) (b : Nat) (hb : b < g.plane) :
    mem' (r, (g.Ng - 1) * g.plane + b) = mem ((r + n - 1) % n, (g.Ng + g.Lz - 1) * g.plane + b) ∧
    mem' (r, (g.Ng + g.Lz) * g.plane + b) = mem ((r + 1) % n, g.Ng * g.plane + b) := by
  have hn : 0 < n := by omega
  have hrL : r * g.Lz + g.Lz ≤ n * g.Lz := by
    have := Nat.mul_le_mul_right g.Lz (Nat.succ_le_of_lt hr)
    rw [Nat.succ_mul] at this
    exact this
  constructor
  · have h := hx.lattice r hr (w - 1) (by omega) b hb
    have e : g.Ng - w + (w - 1) = g.Ng - 1 := by omega
    rw [e] at h
    rw [h, latticeByte, ← bckNeig_eq hn]
    have hz : (r * g.Lz + (w - 1) + n * g.Lz - w) % (n * g.Lz) = bckNeig n r * g.Lz + (g.Lz - 1) := by
      rw [bckNeig_cases hr]
      split
      · next h0 =>
        subst h0
        have e7 : (n - 1) * g.Lz + g.Lz = n * g.Lz := by rw [← Nat.succ_mul]; congr 1; omega
        rw [Nat.mod_eq_of_lt] <;> omega
      · next h0 =>
        have e7 : (r - 1) * g.Lz + g.Lz = r * g.Lz := by rw [← Nat.succ_mul]; congr 1; omega
        have : r * g.Lz + (w - 1) + n * g.Lz - w = (r * g.Lz - 1) + n * g.Lz := by omega
        rw [this, Nat.add_mod_right, Nat.mod_eq_of_lt] <;> omega
    have hlt : g.Lz - 1 < g.Lz := by omega
    rw [hz, div_of hlt, mod_of hlt]
    congr 4
    omega
  · have h := hx.lattice r hr (g.Lz + w) (by omega) b hb
    have e : g.Ng - w + (g.Lz + w) = g.Ng + g.Lz := by omega
    rw [e] at h
    rw [h, latticeByte]
    have hz : (r * g.Lz + (g.Lz + w) + n * g.Lz - w) % (n * g.Lz) = (r + 1) % n * g.Lz := by
      have : r * g.Lz + (g.Lz + w) + n * g.Lz - w = (r + 1) * g.Lz + n * g.Lz := by
        rw [Nat.succ_mul]; omega
      rw [this, Nat.add_mod_right, Nat.mul_mod_mul_right]
    have hlt : 0 < g.Lz := by omega
    have d0 : (r + 1) % n * g.Lz / g.Lz = (r + 1) % n := Nat.mul_div_cancel _ hlt
    have m0 : (r + 1) % n * g.Lz % g.Lz = 0 := Nat.mul_mod_left _ _
    rw [hz, d0, m0]
    rfl

/-- Finding: for the velocity array of a field that is not PAXION (`vStart = vFrontGhost = v`,
scalarField.h:99-101) the exchange of `v` writes over physical data: every one of the first
`w` physical slices of every rank is a destination of a copy. -/
theorem C09_velocity_overwritten {n : Nat} (hn : 0 < n) (g : Slab) (hP : 0 < g.plane)
    (hN : 0 < g.Ng) (hL : g.Ng < g.Lz) (plan : List (Nat × Nat))
    (hp : planGeneral (g.Ng * g.plane) = some plan) (r : Nat) (hr : r < n) (j : Nat)
    (hj : j < g.Ng * g.plane) :
    ((r, j), (bckNeig n r, (g.Lz - g.Ng) * g.plane + j)) ∈
      transfers n (sendsGeneral n (ghostBufsV g g.Ng) plan) (recvsGeneral n (ghostBufsV g g.Ng) plan) := by
  obtain ⟨hbytes, _, _⟩ := (C07_pieces_general _).1 plan hp
  have hpos : 0 < g.Ng * g.plane := Nat.mul_pos hN hP
  have hlt : g.Ng * g.plane < g.Lz * g.plane := Nat.mul_lt_mul_of_pos_right hL hP
  have hB : (ghostBufsV g g.Ng).sB ≠ (ghostBufsV g g.Ng).rF := by simp only [ghostBufsV]; omega
  have hF : (ghostBufsV g g.Ng).sF ≠ (ghostBufsV g g.Ng).rB := by
    simp only [ghostBufsV, Nat.sub_self, Nat.zero_mul]; omega
  refine (mem_transfers hn (ghostBufsV g g.Ng) plan (g.Ng * g.plane) hbytes _ _
      (by intro s d t; rw [channel_sendsGeneral]; simp only [hB, hF, ne_eq, not_false_eq_true, and_true])
      (by intro s d t; rw [channel_recvsGeneral]; simp only [hB, hF, ne_eq, not_false_eq_true, and_true])
      _).2 ⟨r, hr, j, hj, Or.inr ?_⟩
  simp only [ghostBufsV, Nat.sub_self, Nat.zero_mul, Nat.zero_add, Nat.sub_mul]

-- concrete world: 3 ranks, two slices each, one ghost slice of 2 bytes
def exWorld : Heap (Nat × Nat) Nat := fun p => if p.1 < 3 ∧ p.2 < 8 then some (10 * p.1 + p.2) else none

example : WorldAlloc 3 ⟨2, 2, 1⟩ exWorld := by
  intro r a
  simp only [exWorld]
  split <;> simp_all

example : ((exchange1 3 ⟨2, 2, 1⟩ id exWorld).bind id).map (fun m => (m (0, 0), m (0, 7), m (1, 1), m (2, 6))) =
    some (some 24, some 13, some 5, some 2) := by decide

end Jaxions
