import Verif.Lemmas.ConfIO

/-
C37: the data written by all ranks fill the file exactly once, in global lattice
order, and reading it with another number of ranks gives each rank its part.
-/

namespace Jaxions.ConfIO

open Spec

variable {α : Type}

/-- C37: every element of each saved dataset is written exactly once, and nothing
outside, for every grid, rank count and order of the transfers. -/
theorem C37_once (t : FType) (L ng P Lz : ℕ) {order : List Turn}
    (ho : order.Perm (turns P Lz)) {d : Dset} (hd : d ∈ t.saved) :
    ((order.flatMap (writeTurn t (L * L) ng Lz)).map Prod.fst).Nodup ∧
    ∀ i, Cell.file d i ∈ (order.flatMap (writeTurn t (L * L) ng Lz)).map Prod.fst ↔
      i < L * L * (P * Lz) * t.comps := by
  have hmem : ∀ u ∈ order, u.rank < P ∧ u.z < Lz := fun u hu => mem_turns.1 (ho.mem_iff.1 hu)
  refine ⟨?_, ?_⟩
  · rw [List.map_flatMap, List.nodup_flatMap]
    refine ⟨?_, ?_⟩
    · intro u _
      unfold writeTurn
      rw [List.map_flatMap, List.nodup_flatMap]
      refine ⟨?_, ?_⟩
      · intro e _
        rw [List.map_map]
        refine List.nodup_range.map ?_
        intro a b h
        simpa using h
      · have hs : t.saved.Nodup := by cases t <;> decide
        refine hs.imp ?_
        intro a b hab
        simp only [Function.onFun, List.disjoint_left, List.map_map, List.mem_map, not_exists,
          not_and]
        rintro c ⟨k, -, rfl⟩ l - h
        simp only [Function.comp_apply, Cell.file.injEq] at h
        exact hab h.1.symm
    · have hn : order.Nodup := ho.nodup_iff.2 (nodup_turns P Lz)
      have hp : order.Pairwise (fun a b => a ∈ order ∧ b ∈ order ∧ a ≠ b) := by
        rw [List.pairwise_iff_getElem]
        intro i j hi hj hij
        refine ⟨List.getElem_mem _, List.getElem_mem _, fun h => ?_⟩
        have := (List.Nodup.getElem_inj_iff hn).1 h
        omega
      refine hp.imp ?_
      rintro a b ⟨ha, hb, hab⟩
      simp only [Function.onFun, List.disjoint_left, List.mem_map, not_exists, not_and]
      rintro c ⟨p, hp, rfl⟩ q hq h
      obtain ⟨d1, -, k, hk, rfl⟩ := mem_writeTurn.1 hp
      obtain ⟨d2, -, l, hl, rfl⟩ := mem_writeTurn.1 hq
      simp only [Cell.file.injEq] at h
      exact hab (fileOffset_inj (hmem a ha).2 (hmem b hb).2 hk hl h.2.symm).1
  · intro i
    simp only [List.mem_map, List.mem_flatMap]
    have e : L * L * (P * Lz) * t.comps = P * Lz * (t.comps * (L * L)) := by ring
    rw [e]
    constructor
    · rintro ⟨p, ⟨u, hu, hp⟩, h⟩
      obtain ⟨d', -, k, hk, rfl⟩ := mem_writeTurn.1 hp
      simp only [Cell.file.injEq] at h
      rw [← h.2]
      exact pair_lt (pair_lt (hmem u hu).1 (hmem u hu).2) hk
    · intro hi
      have h0 := lt_of_mul_div hi
      have hL : 0 < Lz := by
        rcases Nat.eq_zero_or_pos Lz with h | h
        · subst h; simp at hi
        · exact h
      have hs : 0 < t.comps * (L * L) := by
        rcases Nat.eq_zero_or_pos (t.comps * (L * L)) with h | h
        · rw [h] at hi; simp at hi
        · exact h
      let u : Turn := ⟨i / (t.comps * (L * L)) / Lz, i / (t.comps * (L * L)) % Lz⟩
      refine ⟨_, ⟨u, ho.mem_iff.2 (mem_turns.2 ⟨lt_of_mul_div h0, Nat.mod_lt _ hL⟩),
        mem_writeTurn.2 ⟨d, hd, i % (t.comps * (L * L)), Nat.mod_lt _ hs, rfl⟩⟩, ?_⟩
      simp only [Cell.file.injEq, true_and, fileOffset, u]
      rw [div_mul_add_mod, div_mul_add_mod]

/-- The start of the physical part used by the code is the place of the first site. -/
theorem startOf_eq (t : FType) (L ng : ℕ) (d : Dset) :
    startOf t (L * L) ng d = firstSite t L ng d := by
  cases d <;> cases t <;> simp [startOf, firstSite] <;> ring

/-- C37: after `writeConf` the file holds the global field in lattice order and the
memory is unchanged, for every field type, grid, ghost width, rank count, content,
earlier content of the file and order of the transfers. -/
theorem C37_write (t : FType) (L ng P Lz : ℕ) (G : Global α) {order : List Turn}
    (ho : order.Perm (turns P Lz)) {h : Heap Cell α}
    (hf : ∀ d ∈ t.saved, FileSize t L (P * Lz) d h)
    (hr : ∀ d ∈ t.saved, ∀ r < P, RankHolds t L Lz (firstSite t L ng d) G d r h) :
    ∃ h', writeConf t (L * L) ng Lz order h = some h' ∧
      (∀ d ∈ t.saved, FileHolds t L (P * Lz) G d h' ∧ FileSize t L (P * Lz) d h') ∧
      (∀ r d i, h' (.mem r d i) = h (.mem r d i)) := by
  simp only [← startOf_eq] at hr
  have hmem : ∀ u ∈ order, u.rank < P ∧ u.z < Lz := fun u hu => mem_turns.1 (ho.mem_iff.1 hu)
  have hsrc : ∀ u ∈ order, ∀ d ∈ t.saved, ∀ k, k < t.comps * (L * L) →
      ∃ c x y, c < t.comps ∧ x < L ∧ y < L ∧ k = (y * L + x) * t.comps + c ∧
      h (.mem u.rank d (startOf t (L * L) ng d + t.comps * (L * L) * u.z + k)) =
        some (G d c x y (u.rank * Lz + u.z)) := by
    intro u hu d hd k hk
    obtain ⟨c, x, y, hc, hx, hy, rfl⟩ := slab_site hk
    refine ⟨c, x, y, hc, hx, hy, rfl, ?_⟩
    rw [← mem_place]
    exact hr d hd u.rank (hmem u hu).1 c x y u.z hc hx hy (hmem u hu).2
  obtain ⟨h', he, hv, hu⟩ := copyCells_spec (order.flatMap (writeTurn t (L * L) ng Lz)) h
    (by
      intro p hp
      obtain ⟨u, hu, hp⟩ := List.mem_flatMap.1 hp
      obtain ⟨d, hd, k, hk, rfl⟩ := mem_writeTurn.1 hp
      refine ⟨?_, ?_⟩
      · rw [hf d hd]
        refine decide_eq_true ?_
        have := pair_lt (pair_lt (hmem u hu).1 (hmem u hu).2) hk
        unfold fileOffset
        calc _ < P * Lz * (t.comps * (L * L)) := this
          _ = _ := by ring
      · obtain ⟨c, x, y, -, -, -, -, h5⟩ := hsrc u hu d hd k hk
        rw [h5]; rfl)
    (by
      intro p hp q hq h
      obtain ⟨u, -, hp⟩ := List.mem_flatMap.1 hp
      obtain ⟨w, -, hq⟩ := List.mem_flatMap.1 hq
      obtain ⟨d, -, k, -, rfl⟩ := mem_writeTurn.1 hp
      obtain ⟨e, -, l, -, rfl⟩ := mem_writeTurn.1 hq
      simp at h)
    (by
      intro p hp q hq h
      obtain ⟨u, hu, hp⟩ := List.mem_flatMap.1 hp
      obtain ⟨w, hw, hq⟩ := List.mem_flatMap.1 hq
      obtain ⟨d, -, k, hk, rfl⟩ := mem_writeTurn.1 hp
      obtain ⟨e, -, l, hl, rfl⟩ := mem_writeTurn.1 hq
      simp only [Cell.file.injEq] at h
      obtain ⟨rfl, rfl⟩ := fileOffset_inj (hmem u hu).2 (hmem w hw).2 hk hl h.2
      rw [h.1])
  refine ⟨h', he, ?_, ?_⟩
  · intro d hd
    refine ⟨?_, ?_⟩
    · intro c x y z hc hx hy hz
      have hL : 0 < Lz := by
        rcases Nat.eq_zero_or_pos Lz with h0 | h0
        · subst h0; simp at hz
        · exact h0
      let u : Turn := ⟨z / Lz, z % Lz⟩
      have hu' : u ∈ order := ho.mem_iff.2 (mem_turns.2 ⟨lt_of_mul_div hz, Nat.mod_lt _ hL⟩)
      have hz' : z = u.rank * Lz + u.z := (div_mul_add_mod z Lz).symm
      have := hv _ (List.mem_flatMap.2 ⟨u, hu', mem_writeTurn.2
        ⟨d, hd, (y * L + x) * t.comps + c, slab_place hx hy hc, rfl⟩⟩)
      dsimp only at this
      unfold fileOffset at this
      rw [← file_place, ← mem_place, ← hz',
        hr d hd u.rank (hmem u hu').1 c x y u.z hc hx hy (hmem u hu').2, ← hz'] at this
      exact this
    · intro i
      rw [copyCells_isSome he, hf d hd]
  · intro r d i
    apply hu
    intro p hp h
    obtain ⟨u, -, hp⟩ := List.mem_flatMap.1 hp
    obtain ⟨e, -, k, -, rfl⟩ := mem_writeTurn.1 hp
    cases h

/-- C37: `readConf` refuses exactly the rank counts that do not divide the depth,
and the field type it does not know. -/
theorem C37_read_refused (t : FType) (surf depth P : ℕ) (first : Dset → ℕ) (order : List Turn)
    (h : Heap Cell α) :
    readConf t surf depth P first order h = .exit ↔ (¬ P ∣ depth ∨ t = .naxion) := by
  unfold readConf
  rw [Nat.dvd_iff_mod_eq_zero]
  by_cases h1 : depth % P = 0
  · rw [if_neg (by simpa using h1)]
    by_cases h2 : t = .naxion
    · simp [h2]
    · rw [if_neg h2]
      cases copyCells (order.flatMap (readTurn t surf first (depth / P))) h <;> simp [h1, h2]
  · rw [if_pos h1]
    simp [h1]

/-- C37: reading gives each rank exactly its part of the global field in the file
and leaves the file and the rest of the memory as they were, for every rank count
that divides the depth, field type, grid, content and order of the transfers. -/
theorem C37_read {t : FType} (ht : t ≠ .naxion) (L P Lz : ℕ) (hP : 0 < P) (first : Dset → ℕ)
    (G : Global α) {order : List Turn} (ho : order.Perm (turns P Lz)) {h : Heap Cell α}
    (hf : ∀ d, FileHolds t L (P * Lz) G d h)
    (hroom : ∀ r < P, ∀ d, ∀ i < L * L * Lz * t.comps, (h (.mem r d (first d + i))).isSome) :
    ∃ h', readConf t (L * L) (P * Lz) P first order h = .done h' ∧
      (∀ r < P, ∀ d, RankHolds t L Lz (first d) G d r h') ∧
      (∀ d i, h' (.file d i) = h (.file d i)) ∧
      (∀ r d i, (r < P ∧ first d ≤ i ∧ i < first d + L * L * Lz * t.comps) ∨
        h' (.mem r d i) = h (.mem r d i)) := by
  have hmem : ∀ u ∈ order, u.rank < P ∧ u.z < Lz := fun u hu => mem_turns.1 (ho.mem_iff.1 hu)
  have hsrc : ∀ u ∈ order, ∀ d k, k < t.comps * (L * L) →
      (h (.file d (fileOffset Lz (t.comps * (L * L)) u + k))).isSome := by
    intro u hu d k hk
    obtain ⟨c, x, y, hc, hx, hy, rfl⟩ := slab_site hk
    unfold fileOffset
    rw [← file_place, hf d c x y _ hc hx hy (pair_lt (hmem u hu).1 (hmem u hu).2)]
    rfl
  have hdst : ∀ u ∈ order, ∀ k, k < t.comps * (L * L) →
      t.comps * (L * L) * u.z + k < L * L * Lz * t.comps := by
    intro u hu k hk
    have := pair_lt (hmem u hu).2 hk
    calc t.comps * (L * L) * u.z + k = u.z * (t.comps * (L * L)) + k := by ring
      _ < Lz * (t.comps * (L * L)) := this
      _ = _ := by ring
  have hq : P * Lz / P = Lz := Nat.mul_div_cancel_left _ hP
  obtain ⟨h', he, hv, hu⟩ := copyCells_spec (order.flatMap (readTurn t (L * L) first Lz)) h
    (by
      intro p hp
      obtain ⟨u, hu, hp⟩ := List.mem_flatMap.1 hp
      obtain ⟨d, k, hk, rfl⟩ := mem_readTurn.1 hp
      refine ⟨?_, hsrc u hu d k hk⟩
      dsimp only
      rw [Nat.add_assoc]
      exact hroom u.rank (hmem u hu).1 d _ (hdst u hu k hk))
    (by
      intro p hp q hq h
      obtain ⟨u, -, hp⟩ := List.mem_flatMap.1 hp
      obtain ⟨w, -, hq⟩ := List.mem_flatMap.1 hq
      obtain ⟨d, k, -, rfl⟩ := mem_readTurn.1 hp
      obtain ⟨e, l, -, rfl⟩ := mem_readTurn.1 hq
      simp at h)
    (by
      intro p hp q hq h
      obtain ⟨u, hu, hp⟩ := List.mem_flatMap.1 hp
      obtain ⟨w, hw, hq⟩ := List.mem_flatMap.1 hq
      obtain ⟨d, k, hk, rfl⟩ := mem_readTurn.1 hp
      obtain ⟨e, l, hl, rfl⟩ := mem_readTurn.1 hq
      simp only [Cell.mem.injEq] at h
      obtain ⟨h1, rfl, h3⟩ := h
      have h4 : u.z * (t.comps * (L * L)) + k = w.z * (t.comps * (L * L)) + l := by
        rw [Nat.mul_comm u.z, Nat.mul_comm w.z]; omega
      obtain ⟨h5, rfl⟩ := pair_inj hk hl h4
      obtain ⟨r, z⟩ := u
      obtain ⟨r', z'⟩ := w
      dsimp only at h1 h5 ⊢
      rw [h1, h5])
  refine ⟨h', ?_, ?_, ?_, ?_⟩
  · unfold readConf
    rw [if_neg (by simp), if_neg ht, hq, he]
  · intro r hr d c x y z hc hx hy hz
    have := hv _ (List.mem_flatMap.2 ⟨⟨r, z⟩, ho.mem_iff.2 (mem_turns.2 ⟨hr, hz⟩), mem_readTurn.2
        ⟨d, (y * L + x) * t.comps + c, slab_place hx hy hc, rfl⟩⟩)
    dsimp only at this
    unfold fileOffset at this
    rw [← mem_place, ← file_place, hf d c x y _ hc hx hy (pair_lt hr hz)] at this
    exact this
  · intro d i
    apply hu
    intro p hp h
    obtain ⟨u, -, hp⟩ := List.mem_flatMap.1 hp
    obtain ⟨e, k, -, rfl⟩ := mem_readTurn.1 hp
    cases h
  · intro r d i
    by_cases hi : r < P ∧ first d ≤ i ∧ i < first d + L * L * Lz * t.comps
    · exact Or.inl hi
    · right
      apply hu
      intro p hp h
      obtain ⟨u, hu', hp⟩ := List.mem_flatMap.1 hp
      obtain ⟨e, k, hk, rfl⟩ := mem_readTurn.1 hp
      simp only [Cell.mem.injEq] at h
      obtain ⟨rfl, rfl, rfl⟩ := h
      have := hdst u hu' k hk
      exact hi ⟨(hmem u hu').1, by omega, by omega⟩

/-- C37: the full round trip.  A field written on `P` ranks and read on `P'` ranks,
for any two rank counts that divide the depth, any ghost widths and any order of the
transfers on both sides, gives each rank its part of the same global field. -/
theorem C37_round_trip {t : FType} (ht : t ≠ .naxion) (L ng P Lz P' Lz' : ℕ) (hP' : 0 < P')
    (hd : P * Lz = P' * Lz') (first : Dset → ℕ) (G : Global α) {order order' : List Turn}
    (ho : order.Perm (turns P Lz)) (ho' : order'.Perm (turns P' Lz')) {h : Heap Cell α}
    (hf : ∀ d, FileSize t L (P * Lz) d h)
    (hr : ∀ d, ∀ r < P, RankHolds t L Lz (firstSite t L ng d) G d r h) :
    ∃ h1, writeConf t (L * L) ng Lz order h = some h1 ∧
      ∀ h2 : Heap Cell α, (∀ d i, h2 (.file d i) = h1 (.file d i)) →
        (∀ r < P', ∀ d, ∀ i < L * L * Lz' * t.comps, (h2 (.mem r d (first d + i))).isSome) →
        ∃ h3, readConf t (L * L) (P * Lz) P' first order' h2 = .done h3 ∧
          ∀ r < P', ∀ d, RankHolds t L Lz' (first d) G d r h3 := by
  obtain ⟨h1, e1, e2, -⟩ := C37_write t L ng P Lz G ho (fun d _ => hf d) (fun d _ => hr d)
  refine ⟨h1, e1, ?_⟩
  intro h2 hfile hroom
  have hs : ∀ d, d ∈ t.saved := by
    intro d
    cases t <;> cases d <;> simp [FType.saved] at ht ⊢
  have hfh : ∀ d, FileHolds t L (P' * Lz') G d h2 := by
    intro d c x y z hc hx hy hz
    rw [hfile, ← (e2 d (hs d)).1 c x y z hc hx hy (hd ▸ hz)]
  obtain ⟨h3, e3, e4, -⟩ := C37_read ht L P' Lz' hP' first G ho' hfh hroom
  exact ⟨h3, by rw [hd]; exact e3, e4⟩

/-- A case of the hypotheses: 2 ranks with 3 slices of a 2 × 2 complex field with
one ghost slice, turns in reverse order, read on 3 ranks with 2 slices. -/
example :
    let G : Global ℕ := fun d c x y z => (if d = .m then 0 else 1000) + z * 100 + y * 10 + x * 2 + c
    let start : Dset → ℕ := firstSite .saxion 2 1
    let h : Heap Cell ℕ := fun a => match a with
      | .file _ i => if i < 48 then some 0 else none
      | .mem r d i => if r < 2 ∧ start d ≤ i ∧ i < start d + 24 then
          let j := i - start d
          some (G d (j % 2) (j / 2 % 2) (j / 4 % 2) (r * 3 + j / 8)) else none
    (writeConf .saxion 4 1 3 (turns 2 3).reverse h).map (fun h1 =>
      decide (((List.range 48).map fun i => h1 (.file .v i)) =
        (List.range 48).map fun j =>
          some (G .v (j % 2) (j / 2 % 2) (j / 4 % 2) (j / 8)))) = some true := by
  decide +kernel

/-- C37 fails for the Naxion: it can be written but never read back. -/
theorem C37_naxion (surf depth P : ℕ) (first : Dset → ℕ) (order : List Turn) (h : Heap Cell α) :
    readConf .naxion surf depth P first order h = .exit :=
  (C37_read_refused ..).2 (Or.inr rfl)

end Jaxions.ConfIO
