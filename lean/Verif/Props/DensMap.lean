import Verif.Spec.DensMap
import Verif.Lemmas.ConfIO
import Verif.Props.EnergyTheta
import Verif.Props.EnergySax
import Verif.Props.Reduce
import Mathlib.Data.Nat.Bitwise
/-
C93: the density maps of a measurement file.
-/

namespace Jaxions.DensMap

open ConfIO (Turn turns fileOffset mem_turns fileOffset_inj)

variable {α : Type}

theorem mem_turnOps {g : Geo} {d : Dset} {u : Turn} {p : Cell × Cell} :
    p ∈ turnOps g d u ↔ ∃ k < g.slab,
      p = (.file d (fileOffset g.rLz g.slab u + k), .mem u.rank (g.start d + g.slab * u.z + k)) := by
  simp only [turnOps, List.mem_map, List.mem_range]
  constructor
  · rintro ⟨k, hk, rfl⟩; exact ⟨k, hk, rfl⟩
  · rintro ⟨k, hk, rfl⟩; exact ⟨k, hk, rfl⟩

theorem mem_ops {g : Geo} {ds : List Dset} {order : Dset → List Turn}
    (ho : AnyOrder g.ranks g.rLz order) {p : Cell × Cell} :
    (p ∈ ds.flatMap fun d => (order d).flatMap (turnOps g d)) ↔
      ∃ d ∈ ds, ∃ u : Turn, u.rank < g.ranks ∧ u.z < g.rLz ∧ ∃ k < g.slab,
        p = (.file d (fileOffset g.rLz g.slab u + k), .mem u.rank (g.start d + g.slab * u.z + k)) := by
  simp only [List.mem_flatMap, mem_turnOps]
  constructor
  · rintro ⟨d, hd, u, hu, k, hk, h⟩
    obtain ⟨h1, h2⟩ := mem_turns.1 ((ho d).mem_iff.1 hu)
    exact ⟨d, hd, u, h1, h2, k, hk, h⟩
  · rintro ⟨d, hd, u, h1, h2, k, hk, h⟩
    exact ⟨d, hd, u, (ho d).mem_iff.2 (mem_turns.2 ⟨h1, h2⟩), k, hk, h⟩

/-- An element of a slice is a pair of coordinates. -/
theorem slice_pair {n k : ℕ} (hk : k < n * n) : k % n < n ∧ k / n < n ∧ k = k % n + n * (k / n) := by
  have hn : 0 < n := by
    rcases Nat.eq_zero_or_pos n with h | h
    · subst h; simp at hk
    · exact h
  exact ⟨Nat.mod_lt _ hn, Nat.div_lt_of_lt_mul hk, (Nat.mod_add_div k n).symm⟩

theorem slice_lt {n x y : ℕ} (hx : x < n) (hy : y < n) : x + n * y < n * n := by
  have := pair_lt hy hx
  rw [Nat.mul_comm] at this
  omega

/-- All the slabs: the copies succeed and leave the parts of the ranks one after the other. -/
theorem copies (g : Geo) (ds : List Dset) (order : Dset → List Turn)
    (ho : AnyOrder g.ranks g.rLz order) (junk : Dset → ℕ → α) (mem : ℕ → Heap ℕ α)
    (F : Dset → ℕ → ℕ → ℕ → α)
    (hF : ∀ d ∈ ds, Parts mem g.ranks g.rLx g.rLz (g.start d) (F d)) :
    ∃ h, copyCells (ds.flatMap fun d => (order d).flatMap (turnOps g d)) (created g ds junk mem) =
        some h ∧ (∀ d ∈ ds, Map h d g.rLx (g.ranks * g.rLz) (F d)) ∧
      (∀ d, d ∉ ds → Absent h d) ∧ ∀ r i : ℕ, h (.mem r i) = mem r i := by
  have hsrc : ∀ d ∈ ds, ∀ r z k : ℕ, r < g.ranks → z < g.rLz → k < g.slab →
      mem r (g.start d + g.slab * z + k) = some (F d (k % g.rLx) (k / g.rLx) (r * g.rLz + z)) := by
    intro d hd r z k hr hz hk
    obtain ⟨h1, h2, h3⟩ := slice_pair hk
    have := hF d hd r _ _ z hr h1 h2 hz
    rw [← this]
    congr 1
    rw [Nat.mul_add, ← Nat.add_assoc (k % g.rLx), ← h3, ← Nat.mul_assoc]
    show _ + g.rLx * g.rLx * z + k = _
    ring
  obtain ⟨h', he, hv, hu⟩ := copyCells_spec
    (ds.flatMap fun d => (order d).flatMap (turnOps g d)) (created g ds junk mem)
    (by
      intro p hp
      obtain ⟨d, hd, u, h1, h2, k, hk, rfl⟩ := (mem_ops ho).1 hp
      refine ⟨?_, ?_⟩
      · have h := pair_lt (pair_lt h1 h2) hk
        have h' : fileOffset g.rLz g.slab u + k < g.total := by
          unfold fileOffset
          refine lt_of_lt_of_eq h ?_
          simp only [Geo.total, Geo.slab]; ring
        show (if d ∈ ds ∧ fileOffset g.rLz g.slab u + k < g.total then some (junk d _) else none).isSome
          = true
        rw [if_pos ⟨hd, h'⟩]; rfl
      · show (mem u.rank (g.start d + g.slab * u.z + k)).isSome = true
        rw [hsrc d hd _ _ _ h1 h2 hk]; rfl)
    (by
      intro p hp q hq h
      obtain ⟨d, hd, u, h1, h2, k, hk, rfl⟩ := (mem_ops ho).1 hp
      obtain ⟨e, he, w, g1, g2, l, hl, rfl⟩ := (mem_ops ho).1 hq
      simp at h)
    (by
      intro p hp q hq h
      obtain ⟨d, hd, u, h1, h2, k, hk, rfl⟩ := (mem_ops ho).1 hp
      obtain ⟨e, he, w, g1, g2, l, hl, rfl⟩ := (mem_ops ho).1 hq
      simp only [Cell.file.injEq] at h
      obtain ⟨rfl, h⟩ := h
      obtain ⟨rfl, rfl⟩ := fileOffset_inj h2 g2 hk hl h
      rfl)
  have hold : ∀ d i, (∀ p ∈ (ds.flatMap fun d => (order d).flatMap (turnOps g d)),
      Cell.file d i ≠ p.1) → h' (.file d i) = created g ds junk mem (.file d i) := fun d i h => hu _ h
  refine ⟨h', he, ?_, ?_, ?_⟩
  · intro d hd
    refine ⟨?_, ?_⟩
    · intro x y z hx hy hz
      have hL : 0 < g.rLz := by
        rcases Nat.eq_zero_or_pos g.rLz with h0 | h0
        · rw [h0] at hz; simp at hz
        · exact h0
      have hk : x + g.rLx * y < g.slab := slice_lt hx hy
      have h1 : z / g.rLz < g.ranks := lt_of_mul_div hz
      have h2 : z % g.rLz < g.rLz := Nat.mod_lt _ hL
      have := hv _ ((mem_ops ho).2 ⟨d, hd, ⟨z / g.rLz, z % g.rLz⟩, h1, h2, _, hk, rfl⟩)
      dsimp only at this
      have e0 : fileOffset g.rLz g.slab ⟨z / g.rLz, z % g.rLz⟩ + (x + g.rLx * y) =
          x + g.rLx * (y + g.rLx * z) := by
        simp only [fileOffset, Geo.slab, div_mul_add_mod]; ring
      rw [e0] at this
      rw [this]
      show mem _ _ = _
      rw [hsrc d hd _ _ _ h1 h2 hk, div_mul_add_mod]
      have hn : 0 < g.rLx := by omega
      rw [Nat.add_mul_mod_self_left, Nat.mod_eq_of_lt hx, Nat.add_mul_div_left _ _ hn,
        Nat.div_eq_of_lt hx, Nat.zero_add]
    · intro i hi
      have h1 := copyCells_isSome he (.file d i)
      have h2 : created g ds junk mem (.file d i) = none := by
        show (if d ∈ ds ∧ i < g.total then some (junk d i) else none) = none
        rw [if_neg]
        rintro ⟨-, h⟩
        have : g.total = g.rLx * g.rLx * (g.ranks * g.rLz) := by
          simp only [Geo.total]; ring
        omega
      rw [h2] at h1
      simpa using h1
  · intro d hd i
    have h1 := copyCells_isSome he (.file d i)
    have h2 : created g ds junk mem (.file d i) = none := by
      show (if d ∈ ds ∧ i < g.total then some (junk d i) else none) = none
      rw [if_neg]
      rintro ⟨h, -⟩
      exact hd h
    rw [h2] at h1
    simpa using h1
  · intro r i
    rw [hu]
    · rfl
    · intro p hp h
      obtain ⟨d, hd, u, h1, h2, k, hk, rfl⟩ := (mem_ops ho).1 hp
      simp at h

theorem sources_alloc [DecidableEq A] {ops : List (A × A)} {h h' : Heap A α}
    (he : copyCells ops h = some h') : ∀ p ∈ ops, (h p.2).isSome := by
  induction ops generalizing h with
  | nil => simp
  | cons p ops ih =>
    simp only [copyCells, List.foldlM_cons] at he
    cases hc : copyCell h p.1 p.2 with
    | none => simp [hc] at he
    | some h1 =>
      simp only [hc, Option.bind_eq_bind, Option.bind_some] at he
      intro q hq
      rcases List.mem_cons.1 hq with rfl | hq
      · unfold copyCell at hc
        cases hx : h q.2 with
        | none => simp [hx] at hc
        | some x => rfl
      · have := ih he q hq
        rw [← copyCells_isSome (ops := [p]) (h := h) (h' := h1) (by simp [copyCells, hc])]
        exact this

/-- Bit 1, 2 or 8 of a request. -/
theorem mem_asked (f : ℕ) (d : Dset) : d ∈ asked f ↔
    (d = .rho ∧ f.testBit 0) ∨ (d = .theta ∧ f.testBit 1) ∨ (d = .aux ∧ f.testBit 3) := by
  have h0 : f &&& 1 ≠ 0 ↔ f.testBit 0 = true := by
    have := Nat.and_two_pow f 0
    simp only [pow_zero] at this
    rw [this]; cases f.testBit 0 <;> simp
  have h1 : f &&& 2 ≠ 0 ↔ f.testBit 1 = true := by
    have := Nat.and_two_pow f 1
    norm_num at this
    rw [this]; cases f.testBit 1 <;> simp
  have h3 : f &&& 8 ≠ 0 ↔ f.testBit 3 = true := by
    have := Nat.and_two_pow f 3
    norm_num at this
    rw [this]; cases f.testBit 3 <;> simp
  unfold asked
  simp only [h0, h1, h3]
  cases d <;> cases f.testBit 0 <;> cases f.testBit 1 <;> cases f.testBit 3 <;> simp

theorem mem_effective (field fMap : ℕ) (d : Dset) : d ∈ asked (effective field fMap) ↔
    Wanted field fMap d := by
  have a1 : fMap &&& 1 ≠ 0 ↔ fMap.testBit 0 = true := by
    have := Nat.and_two_pow fMap 0
    simp only [pow_zero] at this
    rw [this]; cases fMap.testBit 0 <;> simp
  have a2 : field &&& 2 ≠ 0 ↔ field.testBit 1 = true := by
    have := Nat.and_two_pow field 1
    norm_num at this
    rw [this]; cases field.testBit 1 <;> simp
  rw [mem_asked]
  have b0 : (1 : ℕ).testBit 0 = true := by decide
  have b1 : (1 : ℕ).testBit 1 = false := by decide
  have b3 : (1 : ℕ).testBit 3 = false := by decide
  by_cases h : fMap.testBit 0 = true ∧ field.testBit 1 = true
  · have e : effective field fMap = fMap ^^^ 1 := if_pos ⟨a1.2 h.1, a2.2 h.2⟩
    rw [e, Nat.testBit_xor, Nat.testBit_xor, Nat.testBit_xor, b0, b1, b3, h.1]
    cases d <;> simp only [Wanted, h.1, h.2] <;> simp
  · have e : effective field fMap = fMap := if_neg (by rw [a1, a2]; exact h)
    rw [e]
    cases d <;> simp only [Wanted]
    · simp only [reduceCtorEq, false_and, or_false, true_and]
      refine ⟨fun h' => ⟨h', ?_⟩, fun h' => h'.1⟩
      cases hs : field.testBit 1
      · rfl
      · exact absurd ⟨h', hs⟩ h
    · simp
    · simp

theorem none_asked (f : ℕ) : f &&& 11 = 0 ↔ ∀ d, d ∉ asked f := by
  simp only [mem_asked]
  constructor
  · intro h d
    have h0 : (f &&& 11).testBit 0 = false := by rw [h]; rfl
    have h1 : (f &&& 11).testBit 1 = false := by rw [h]; rfl
    have h3 : (f &&& 11).testBit 3 = false := by rw [h]; rfl
    rw [Nat.testBit_and] at h0 h1 h3
    rw [show (11 : ℕ).testBit 0 = true by decide, Bool.and_true] at h0
    rw [show (11 : ℕ).testBit 1 = true by decide, Bool.and_true] at h1
    rw [show (11 : ℕ).testBit 3 = true by decide, Bool.and_true] at h3
    rw [h0, h1, h3]
    simp
  · intro h
    have h0 : f.testBit 0 = false := by simpa using h .rho
    have h1 : f.testBit 1 = false := by simpa using h .theta
    have h3 : f.testBit 3 = false := by simpa using h .aux
    apply Nat.eq_of_testBit_eq
    intro i
    rw [Nat.testBit_and, Nat.zero_testBit]
    by_cases hi : i < 4
    · have : i = 0 ∨ i = 1 ∨ i = 2 ∨ i = 3 := by omega
      rcases this with rfl | rfl | rfl | rfl
      · rw [h0]; rfl
      · rw [h1]; rfl
      · rw [show (11 : ℕ).testBit 2 = false by decide, Bool.and_false]
      · rw [h3]; rfl
    · rw [Nat.testBit_lt_two_pow (x := 11) (i := i), Bool.and_false]
      calc 11 < 2 ^ 4 := by norm_num
        _ ≤ 2 ^ i := Nat.pow_le_pow_right (by norm_num) (by omega)

/-- **C93** Which calls write nothing: exactly the ones that ask for no map that the field has.  Such a
call touches neither the file nor the run. -/
theorem C93_skip (g : Geo) (field fMap : ℕ) (hasM2 opened : Bool) (there : List Dset)
    (order : Dset → List Turn) (junk : Dset → ℕ → α) (mem : ℕ → Heap ℕ α) :
    writeEDens g field fMap hasM2 opened there order junk mem = .skipped ↔
      ∀ d, ¬ Wanted field fMap d := by
  have hs : (effective field fMap &&& 11 = 0) ↔ ∀ d, ¬ Wanted field fMap d := by
    rw [none_asked]
    simp only [mem_effective]
  rw [← hs]
  unfold writeEDens
  by_cases h : effective field fMap &&& 11 = 0
  · simp [h]
  · simp only [h, if_false, iff_false]
    split
    · simp
    · split
      · simp
      · split
        · simp
        · split
          · simp
          · split <;> simp

/-- **C93** A map that the group already has ends the program, with the status of success, before
anything is written; so does, with status 1, a WKB field. -/
theorem C93_again (g : Geo) (field fMap : ℕ) (there : List Dset)
    (order : Dset → List Turn) (junk : Dset → ℕ → α) (mem : ℕ → Heap ℕ α) (d : Dset)
    (hd : Wanted field fMap d) :
    (field = 6 → writeEDens g field fMap true true there order junk mem = .exit 1) ∧
      (field ≠ 6 → d ∈ there → writeEDens g field fMap true true there order junk mem = .exit 0) := by
  have hs : ¬ (effective field fMap &&& 11 = 0) := by
    rw [none_asked]
    intro h
    exact h d ((mem_effective _ _ _).2 hd)
  unfold writeEDens
  refine ⟨fun h => ?_, fun h ht => ?_⟩
  · subst h; simp [hs]
  · simp only [hs, if_false, h, Bool.true_eq_false]
    rw [if_pos]
    rw [List.any_eq_true]
    exact ⟨d, (mem_effective _ _ _).2 hd, by simpa using ht⟩

/-- Calls that get to the writing. -/
theorem writes (g : Geo) (field fMap : ℕ) (there : List Dset) (order : Dset → List Turn)
    (junk : Dset → ℕ → α) (mem : ℕ → Heap ℕ α) (h6 : field ≠ 6)
    (hsome : ∃ d, Wanted field fMap d) (hnew : ∀ d, Wanted field fMap d → d ∉ there) :
    writeEDens g field fMap true true there order junk mem =
      match copyCells ((asked (effective field fMap)).flatMap fun d =>
          (order d).flatMap (turnOps g d)) (created g (asked (effective field fMap)) junk mem) with
      | none => .bad
      | some h => .done h := by
  have hs : ¬ (effective field fMap &&& 11 = 0) := by
    obtain ⟨d, hd⟩ := hsome
    rw [none_asked]
    intro h
    exact h d ((mem_effective _ _ _).2 hd)
  unfold writeEDens
  simp only [hs, if_false, h6, Bool.true_eq_false]
  have hn : ¬ ((asked (effective field fMap)).any (fun d => decide (d ∈ there)) = true) := by
    rw [List.any_eq_true]
    rintro ⟨d, hd, ht⟩
    exact hnew d ((mem_effective _ _ _).1 hd) (by simpa using ht)
  rw [if_neg hn]
  cases copyCells ((asked (effective field fMap)).flatMap fun d => (order d).flatMap (turnOps g d))
    (created g (asked (effective field fMap)) junk mem) <;> rfl

theorem start_eq (g : Geo) (d : Dset) : g.start d = place g.Lx g.Lz g.Ng g.comps d := by
  cases d <;> simp only [Geo.start, place, Geo.rOff] <;> ring

/-- **C93** A map is written whole and in global order.  For every field type, request, number of ranks,
size, and order in which the ranks write: if the arrays of the ranks hold their parts of `F`, the file
has exactly the maps that were wanted, each with as many numbers as the lattice (or the reduced lattice)
has sites, and with `F` at every site whatever the file system had there; the arrays are left as they
are. -/
theorem C93_file (g : Geo) (field fMap : ℕ) (there : List Dset) (order : Dset → List Turn)
    (ho : AnyOrder g.ranks g.rLz order) (junk : Dset → ℕ → α) (mem : ℕ → Heap ℕ α) (h6 : field ≠ 6)
    (hsome : ∃ d, Wanted field fMap d) (hnew : ∀ d, Wanted field fMap d → d ∉ there)
    (F : Dset → ℕ → ℕ → ℕ → α) (hF : ∀ d, Wanted field fMap d →
      Parts mem g.ranks g.rLx g.rLz (place g.Lx g.Lz g.Ng g.comps d) (F d)) :
    ∃ h, writeEDens g field fMap true true there order junk mem = .done h ∧
      (∀ d, Wanted field fMap d → Map h d g.rLx (g.ranks * g.rLz) (F d)) ∧
      (∀ d, ¬ Wanted field fMap d → Absent h d) ∧ ∀ r i : ℕ, h (.mem r i) = mem r i := by
  obtain ⟨h, e, h1, h2, h3⟩ := copies g (asked (effective field fMap)) order ho junk mem F
    (fun d hd => by rw [start_eq]; exact hF d ((mem_effective _ _ _).1 hd))
  refine ⟨h, ?_, fun d hd => h1 d ((mem_effective _ _ _).2 hd),
    fun d hd => h2 d (fun h => hd ((mem_effective _ _ _).1 h)), h3⟩
  rw [writes g field fMap there order junk mem h6 hsome hnew, e]

/-- **C93** A map that reaches beyond the array is an access outside it: if the array of some rank ends
before the place of a wanted map (and there is anything to write), the call has no defined result.  This
is the radial map of a field of one number per site that is not an angle by its type bits (Paxion), when
the array was allocated for `mBytes` only. -/
theorem C93_beyond (g : Geo) (field fMap : ℕ) (there : List Dset) (order : Dset → List Turn)
    (ho : AnyOrder g.ranks g.rLz order) (junk : Dset → ℕ → α) (mem : ℕ → Heap ℕ α) (h6 : field ≠ 6)
    (hnew : ∀ d, Wanted field fMap d → d ∉ there) (d : Dset) (hd : Wanted field fMap d)
    (hx : 0 < g.rLx) (hz : 0 < g.rLz) (r : ℕ) (hr : r < g.ranks)
    (hend : mem r (place g.Lx g.Lz g.Ng g.comps d) = none) :
    writeEDens g field fMap true true there order junk mem = .bad := by
  rw [writes g field fMap there order junk mem h6 ⟨d, hd⟩ hnew]
  split
  · rfl
  · rename_i h e
    exfalso
    have := sources_alloc e _ ((mem_ops ho).2 ⟨d, (mem_effective _ _ _).2 hd, ⟨r, 0⟩, hr, hz, 0,
      Nat.mul_pos hx hx, rfl⟩)
    have e2 : created g (asked (effective field fMap)) junk mem
        (.mem r (g.start d + g.slab * 0 + 0)) = mem r (place g.Lx g.Lz g.Ng g.comps d) := by
      rw [start_eq]; rfl
    rw [e2, hend] at this
    simp at this

theorem site_lt {L Lz x y z : ℕ} (hx : x < L) (hy : y < L) (hz : z < Lz) :
    x + L * (y + L * z) < Lz * (L * L) := by
  have h1 := pair_lt (pair_lt hz hy) hx
  have e1 : x + L * (y + L * z) = (z * L + y) * L + x := by ring
  have e2 : Lz * (L * L) = Lz * L * L := by ring
  omega

theorem site_coords {L x y : ℕ} (z : ℕ) (hx : x < L) (hy : y < L) :
    (x + L * (y + L * z)) % L = x ∧ (x + L * (y + L * z)) / L % L = y ∧
      (x + L * (y + L * z)) / L / L = z := by
  have hL : 0 < L := by omega
  have e : (x + L * (y + L * z)) / L = y + L * z := by
    rw [Nat.add_mul_div_left _ _ hL, Nat.div_eq_of_lt hx, Nat.zero_add]
  refine ⟨?_, ?_, ?_⟩
  · rw [Nat.add_mul_mod_self_left, Nat.mod_eq_of_lt hx]
  · rw [e, Nat.add_mul_mod_self_left, Nat.mod_eq_of_lt hy]
  · rw [e, Nat.add_mul_div_left _ _ hL, Nat.div_eq_of_lt hy, Nat.zero_add]

/-- The default request asks for the angular map only. -/
theorem wanted_default (field : ℕ) (d : Dset) : Wanted field 2 d ↔ d = .theta := by
  cases d <;> simp [Wanted] <;> decide

/-- The request for both maps, of a field that is not an angle. -/
theorem wanted_both {field : ℕ} (hf : field.testBit 1 = false) (d : Dset) :
    Wanted field 3 d ↔ d = .rho ∨ d = .theta := by
  cases d <;> simp [Wanted, hf] <;> decide

open Energy Stencil Simd SaxKernel in
/-- **C93** The map of an axion in the file is the energy density of the lattice.  The field of the whole
lattice is split in slabs over `P` ranks, each rank computes its map and the ranks write in any order:
the file holds at every site of the lattice the sum of the five physical densities, and nothing else. -/
theorem C93_axion {S Lx Lz NN P : ℕ} (i : Isa) (p : Prec) (hb : ¬ (i = .avx512 ∧ p = .double))
    (wMod : Bool) (hS : 0 < S) (hd : S ∣ Lx) (hrow : 2 ≤ Lx / S) (hN : 1 ≤ NN)
    (U : Universe) (frw zz : ℝ) (hR : 0 < U.R) (hH : frw / zz = U.H)
    (Θ Θ' : ℤ → ℤ → ℤ → ℝ) (hper : Periodic Lx Θ) (T : ℕ → Terms ℝ) (mem : ℕ → Heap ℕ ℝ)
    (hrun : ∀ r < P, ∃ (m v m2 : Heap ℕ ℝ) (visit : List ℕ),
      (Holds Lx S (Lz + 2 * NN) m fun x y z => U.R * Θ x y (r * Lz + z - NN)) ∧
      (Holds Lx S Lz v fun x y z => U.R * (U.H * Θ x y (r * Lz + z) + Θ' x y (r * Lz + z))) ∧
      (∀ n, n < Lz * (Lx * Lx) → (m2 n).isSome) ∧ visit.Perm (visits ⟨Lx, S, NN⟩ Lz) ∧
      energyTheta i p wMod true (Energy.params U frw zz) ⟨Lx, S, NN⟩ m v visit m2 =
        some (T r, mem r))
    (field : ℕ) (h6 : field ≠ 6) (there : List Dset) (hnew : Dset.theta ∉ there)
    (order : Dset → List Turn) (ho : AnyOrder P Lz order) (junk : Dset → ℕ → ℝ) :
    ∃ h, writeEDens ⟨Lx, Lz, NN, P, 1, none⟩ field 2 true true there order junk mem = .done h ∧
      (Map h .theta Lx (P * Lz) fun x y z =>
        let ε := axionDensity U (fun d => if wMod then modPd d (2 * Real.pi) else d) Θ Θ' x y z
        ε 0 + ε 1 + ε 2 + ε 3 + ε 4) ∧ Absent h .rho ∧ Absent h .aux := by
  obtain ⟨h, e, h1, h2, -⟩ := C93_file ⟨Lx, Lz, NN, P, 1, none⟩ field 2 there order ho junk mem h6
    ⟨.theta, (wanted_default _ _).2 rfl⟩
    (fun d hw => by rw [(wanted_default _ _).1 hw]; exact hnew)
    (fun _ x y z =>
      let ε := axionDensity U (fun d => if wMod then modPd d (2 * Real.pi) else d) Θ Θ' x y z
      ε 0 + ε 1 + ε 2 + ε 3 + ε 4)
    (by
      intro d hw
      rw [(wanted_default _ _).1 hw]
      intro r x y z hr hx hy hz
      change x < Lx at hx
      change y < Lx at hy
      change z < Lz at hz
      obtain ⟨m, v, m2, visit, a1, a2, a3, a4, a5⟩ := hrun r hr
      obtain ⟨r', e1, -, e3⟩ := C51_axion i p hb wMod true hS hd hrow hN U frw zz hR hH
        (fun x y z => Θ x y (r * Lz + z - NN)) (fun x y z => Θ' x y (r * Lz + z - NN))
        (fun x y z => hper x y _) m v m2 a1
        (by
          intro x y z hx hy hz
          rw [a2 x y z hx hy hz]
          simp only [← add_assoc, add_sub_cancel_right])
        a3 visit a4
      rw [a5] at e1
      cases e1
      obtain ⟨c1, c2, c3⟩ := site_coords z hx hy
      show mem r (0 + _) = _
      rw [Nat.zero_add]
      have e4 := e3 (x + Lx * (y + Lx * z))
      rw [if_pos ⟨rfl, site_lt hx hy hz⟩] at e4
      refine e4.trans ?_
      simp only [xOf, yOf, zOf, c1, c2, c3, axionDensity, meanX, meanY, meanZ]
      have k1 : ((r : ℤ) * Lz + (z + NN) - NN) = r * Lz + z := by ring
      have k2 : ((r : ℤ) * Lz + (z + NN + 1) - NN) = r * Lz + z + 1 := by ring
      have k3 : ((r : ℤ) * Lz + (z + NN - 1) - NN) = r * Lz + z - 1 := by ring
      rw [k1, k2, k3]
      push_cast
      rfl)
  exact ⟨h, e, h1 .theta ((wanted_default _ _).2 rfl), h2 .rho (by rw [wanted_default]; decide),
    h2 .aux (by rw [wanted_default]; decide)⟩

open Energy Stencil Simd SaxKernel in
/-- **C93** The two maps of the complex field in the file (single precision) are the angular and the
radial energy density of the lattice, for every number of ranks and order of writing. -/
theorem C93_saxion {Lx Lz NN P : ℕ} (i : Isa) (U : SaxUniverse) (pq : Pq) (qcd : Qcd)
    (hq : qcd = .qcdC ∨ qcd = .qcdV ∨ (qcd = .qcd0 ∧ U.chi = 0)) (threads : ℕ)
    (Φ Φ' : ℤ → ℤ → ℤ → ℝ × ℝ) (T : ℕ → Heap ℕ ℝ) (mem : ℕ → Heap ℕ ℝ)
    (hrun : ∀ r < P, ∃ (m v : Heap ℕ (ℝ × ℝ)) (m2 : Heap ℕ ℝ) (visit : List ℕ) (mk : ℕ → Bool),
      Call .single i Lx Lz NN ((Lz + 2 * NN) * (Lx * Lx)) U (fun x y z => Φ x y (r * Lz + z - NN))
        (fun x y z => Φ' x y (r * Lz + z - NN)) m v m2 visit ∧
      energySax Real.sqrt Nat.floor (saxParams U) .single i threads (pq, qcd) .map mk
        ((Lz + 2 * NN) * (Lx * Lx)) ⟨Lx, sites .saxion .single i, NN⟩ m v visit m2 =
        some (T r, mem r))
    (field : ℕ) (hf : field.testBit 1 = false) (there : List Dset)
    (hnew : Dset.theta ∉ there ∧ Dset.rho ∉ there)
    (order : Dset → List Turn) (ho : AnyOrder P Lz order) (junk : Dset → ℕ → ℝ) :
    ∃ h, writeEDens ⟨Lx, Lz, NN, P, 2, none⟩ field 3 true true there order junk mem = .done h ∧
      (Map h .theta Lx (P * Lz) fun x y z =>
        let ε := saxDensity U pq (named U qcd) Φ Φ' x y z
        ε 0 + ε 1 + ε 2 + ε 3 + ε 4) ∧
      (Map h .rho Lx (P * Lz) fun x y z =>
        let ε := saxDensity U pq (named U qcd) Φ Φ' x y z
        ε 5 + ε 6 + ε 7 + ε 8 + ε 9) ∧ Absent h .aux := by
  have h6 : field ≠ 6 := by
    rintro rfl
    exact absurd hf (by decide)
  have key : ∀ r < P, ∀ x y z : ℕ, x < Lx → y < Lx → z < Lz →
      let ε := saxDensity U pq (named U qcd) Φ Φ' x y ((r * Lz + z : ℕ) : ℤ)
      mem r (x + Lx * (y + Lx * z)) = some (ε 0 + ε 1 + ε 2 + ε 3 + ε 4) ∧
        mem r (x + Lx * (y + Lx * z) + (Lz + 2 * NN) * (Lx * Lx)) =
          some (ε 5 + ε 6 + ε 7 + ε 8 + ε 9) := by
    intro r hr x y z hx hy hz
    obtain ⟨m, v, m2, visit, mk, a1, a2⟩ := hrun r hr
    obtain ⟨r', e1, -, -, -, -, e3, -⟩ := C52_single i U pq qcd hq .map mk threads _ _ m v m2 visit a1
    rw [a2] at e1
    cases e1
    obtain ⟨c1, c2, c3⟩ := site_coords z hx hy
    have e4 := e3 (by decide) (x + Lx * (y + Lx * z)) (site_lt hx hy hz)
    simp only [reduceCtorEq, false_and, if_false, xOf, yOf, zOf, c1, c2, c3, saxDensity] at e4
    have k1 : ((r : ℤ) * Lz + (z + NN) - NN) = r * Lz + z := by ring
    have k2 : ((r : ℤ) * Lz + (z + NN + 1) - NN) = r * Lz + z + 1 := by ring
    have k3 : ((r : ℤ) * Lz + (z + NN - 1) - NN) = r * Lz + z - 1 := by ring
    rw [k1, k2, k3] at e4
    push_cast
    exact e4
  obtain ⟨h, e, h1, h2, -⟩ := C93_file ⟨Lx, Lz, NN, P, 2, none⟩ field 3 there order ho junk mem h6
    ⟨.theta, (wanted_both hf _).2 (Or.inr rfl)⟩
    (fun d hd => by
      rcases (wanted_both hf _).1 hd with rfl | rfl
      · exact hnew.2
      · exact hnew.1)
    (fun d x y z =>
      let ε := saxDensity U pq (named U qcd) Φ Φ' x y z
      if d = .rho then ε 5 + ε 6 + ε 7 + ε 8 + ε 9 else ε 0 + ε 1 + ε 2 + ε 3 + ε 4)
    (by
      intro d hd r x y z hr hx hy hz
      obtain ⟨k1, k2⟩ := key r hr x y z hx hy hz
      rcases (wanted_both hf _).1 hd with rfl | rfl
      · show mem r ((Lz + 2 * NN) * (Lx * Lx) + _) = _
        rw [Nat.add_comm]
        simpa [Geo.rLx, Geo.rLz] using k2
      · show mem r (0 + _) = _
        rw [Nat.zero_add]
        simpa [Geo.rLx, Geo.rLz] using k1)
  refine ⟨h, e, ?_, ?_, h2 .aux (by rw [wanted_both hf]; decide)⟩
  · simpa [Geo.rLx, Geo.rLz] using h1 .theta ((wanted_both hf _).2 (Or.inr rfl))
  · simpa [Geo.rLx, Geo.rLz] using h1 .rho ((wanted_both hf _).2 (Or.inl rfl))

/-- **C93** The map of the reduced lattice.  Each rank reduces its array from `L × L × Lz` to `n × n × nz`
in place, then the ranks write: the angular map of the file is the interpolation of the angular map `F`
of the whole lattice at the sites of the reduced one.  The radial map (if asked for) is *not*: the
reduction does not touch it, so the file has the values of the first sites of `G`, site `k` of the
reduced slab holding site `k` of the full slab. -/
theorem C93_reduced {K : Type} [Field K] [CharZero K] (L Lz NN n nz P field fMap : ℕ)
    (hn : 0 < n) (hnL : n ≤ L) (hnz : 0 < nz) (hnzL : nz ≤ Lz) (F G : ℕ → ℕ → ℕ → K)
    (before mem : ℕ → Heap ℕ K)
    (hF : ∀ r < P, Reduce.Holds (before r) L Lz fun x y z => F x y (r * Lz + z))
    (hG : Parts before P L Lz ((Lz + 2 * NN) * (L * L)) G)
    (hred : ∀ r < P, Reduce.reduce L Lz n nz (before r) = some (mem r))
    (hf : field.testBit 1 = false) (hmap : fMap = 2 ∨ fMap = 3) (there : List Dset)
    (hnew : Dset.theta ∉ there ∧ Dset.rho ∉ there)
    (order : Dset → List Turn) (ho : AnyOrder P nz order) (junk : Dset → ℕ → K) :
    ∃ h, writeEDens ⟨L, Lz, NN, P, 2, some (n, nz)⟩ field fMap true true there order junk mem =
        .done h ∧
      (Map h .theta n (P * nz) fun x y z => Reduce.trilinear F ((x * L : ℚ) / n) ((y * L : ℚ) / n)
        (((z : ℚ) * ((P * Lz : ℕ) : ℚ)) / ((P * nz : ℕ) : ℚ))) ∧
      (fMap = 3 → Map h .rho n (P * nz) fun x y z =>
        let k := x + n * (y + n * (z % nz))
        G (k % L) (k / L % L) (z / nz * Lz + k / L / L)) := by
  have h6 : field ≠ 6 := by
    rintro rfl
    exact absurd hf (by decide)
  have hw : ∀ d, Wanted field fMap d → d = .theta ∨ (d = .rho ∧ fMap = 3) := by
    rcases hmap with rfl | rfl
    · intro d hd; exact Or.inl ((wanted_default _ _).1 hd)
    · intro d hd
      rcases (wanted_both hf _).1 hd with rfl | rfl
      · exact Or.inr ⟨rfl, rfl⟩
      · exact Or.inl rfl
  have hth : Wanted field fMap .theta := by
    rcases hmap with rfl | rfl
    · exact (wanted_default _ _).2 rfl
    · exact (wanted_both hf _).2 (Or.inr rfl)
  obtain ⟨h, e, h1, -, -⟩ := C93_file ⟨L, Lz, NN, P, 2, some (n, nz)⟩ field fMap there order ho junk mem
    h6 ⟨.theta, hth⟩
    (fun d hd => by
      rcases hw d hd with rfl | ⟨rfl, -⟩
      · exact hnew.1
      · exact hnew.2)
    (fun d x y z =>
      if d = .rho then
        G ((x + n * (y + n * (z % nz))) % L) ((x + n * (y + n * (z % nz))) / L % L)
          (z / nz * Lz + (x + n * (y + n * (z % nz))) / L / L)
      else Reduce.trilinear F ((x * L : ℚ) / n) ((y * L : ℚ) / n)
        (((z : ℚ) * ((P * Lz : ℕ) : ℚ)) / ((P * nz : ℕ) : ℚ)))
    (by
      intro d hd r x y z hr hx hy hz
      change x < n at hx
      change y < n at hy
      change z < nz at hz
      change r < P at hr
      rcases hw d hd with rfl | ⟨rfl, -⟩
      · obtain ⟨g, e1, e2⟩ := Reduce.C28_ranks L Lz n nz P r hn hnL hnz hnzL hr F (before r) (hF r hr)
        rw [hred r hr] at e1
        cases e1
        show mem r (0 + _) = _
        rw [Nat.zero_add]
        exact e2 x hx y hy z hz
      · obtain ⟨g, e1, -, e2⟩ := Reduce.C28_in_place L Lz n nz hn hnL hnz hnzL _ (before r) (hF r hr)
        rw [hred r hr] at e1
        cases e1
        have hk : x + n * (y + n * z) < Lz * (L * L) :=
          lt_of_lt_of_le (site_lt hx hy hz)
            (Nat.mul_le_mul hnzL (Nat.mul_le_mul hnL hnL))
        have hL : 0 < L := by omega
        have hbig : n * n * nz ≤ (Lz + 2 * NN) * (L * L) + (x + n * (y + n * z)) := by
          have : nz * (n * n) ≤ (Lz + 2 * NN) * (L * L) :=
            Nat.mul_le_mul (by omega) (Nat.mul_le_mul hnL hnL)
          have e3 : n * n * nz = nz * (n * n) := by ring
          omega
        show mem r ((Lz + 2 * NN) * (L * L) + (x + n * (y + n * z))) = _
        rw [e2 _ hbig]
        have hzm : (r * nz + z) % nz = z := by
          rw [Nat.mul_comm, Nat.mul_add_mod, Nat.mod_eq_of_lt hz]
        have hzd : (r * nz + z) / nz = r := by
          rw [Nat.mul_comm, Nat.mul_add_div hnz, Nat.div_eq_of_lt hz, Nat.add_zero]
        simp only [if_true, Geo.rLz, hzm, hzd]
        generalize x + n * (y + n * z) = k at hk ⊢
        have hk2 : k / L / L < Lz := by
          rw [Nat.div_div_eq_div_mul]
          exact Nat.div_lt_of_lt_mul (by rw [Nat.mul_comm]; exact hk)
        have := hG r (k % L) (k / L % L) (k / L / L) hr (Nat.mod_lt _ hL) (Nat.mod_lt _ hL) hk2
        rw [Nat.mod_add_div (k / L) L, Nat.mod_add_div k L] at this
        exact this)
  refine ⟨h, e, ?_, ?_⟩
  · simpa [Geo.rLx, Geo.rLz] using h1 .theta hth
  · rintro rfl
    simpa [Geo.rLx, Geo.rLz] using h1 .rho ((wanted_both hf _).2 (Or.inl rfl))

/-! ### Cases -/

/-- Two ranks of `4 × 4 × 2` sites, one ghost slice; the radial density is the x coordinate.  Reduced to
`2 × 2 × 1`, the file should have 0 at the reduced site (0, 1, 0), which is the site (0, 2, 0); it has 2,
the value of the third site. -/
theorem C93_reduced_radial_wrong : ∃ (before mem : ℕ → Heap ℕ ℚ) (h : Heap Cell ℚ),
    Parts before 2 4 2 0 (fun x _ _ => (x : ℚ)) ∧
    Parts before 2 4 2 ((2 + 2 * 1) * (4 * 4)) (fun x _ _ => (x : ℚ)) ∧
    (∀ r < 2, Reduce.reduce 4 2 2 1 (before r) = some (mem r)) ∧
    writeEDens ⟨4, 2, 1, 2, 2, some (2, 1)⟩ 1 3 true true [] (fun _ => (turns 2 1).reverse)
      (fun _ _ => 77) mem = .done h ∧
    h (.file .theta (0 + 2 * (1 + 2 * 0))) = some 0 ∧
    h (.file .rho (0 + 2 * (1 + 2 * 0))) = some 2 := by
  let b : Heap ℕ ℚ := fun a => some ((a % 4 : ℕ) : ℚ)
  have hb : ∀ f, 4 ∣ f → Parts (fun _ => b) 2 4 2 f (fun x _ _ => (x : ℚ)) := by
    intro f hf r x y z _ hx _ _
    simp only [b]
    congr 2
    omega
  have hF : ∀ r < 2, Reduce.Holds b 4 2 fun x y z => (fun x _ _ => (x : ℚ) : ℕ → ℕ → ℕ → ℚ) x y
      (r * 2 + z) := by
    intro r _ x hx y hy z hz
    simp only [b]
    congr 2
    omega
  obtain ⟨g, e1, -, -⟩ := Reduce.C28_in_place 4 2 2 1 (by decide) (by decide) (by decide) (by decide) _
    b (hF 0 (by decide))
  obtain ⟨h, e, h1, h2⟩ := C93_reduced 4 2 1 2 1 2 1 3 (by decide) (by decide) (by decide) (by decide)
    (fun x _ _ => (x : ℚ)) (fun x _ _ => (x : ℚ)) (fun _ => b) (fun _ => g) hF (hb _ (by decide))
    (fun _ _ => e1) (by decide) (Or.inr rfl) [] (by simp) (fun _ => (turns 2 1).reverse)
    (fun _ => List.reverse_perm _) (fun _ _ => 77)
  refine ⟨fun _ => b, fun _ => g, h, hb _ (by decide), hb _ (by decide), fun _ _ => e1, e, ?_, ?_⟩
  · rw [h1.1 0 1 0 (by decide) (by decide) (by decide)]
    have hz : Rat.floor 0 = 0 := by decide +kernel
    simp [Reduce.trilinear, Reduce.lin, hz]
  · rw [(h2 rfl).1 0 1 0 (by decide) (by decide) (by decide)]
    norm_num

/-- The names of the requests and of the field types: an angle (2) has no radial map. -/
example : (∀ d, ¬ Wanted 2 1 d) ∧ Wanted 1 3 .rho ∧ ¬ Wanted 2 3 .rho ∧ Wanted 1024 11 .rho ∧
    (∀ d, ¬ Wanted 1 4 d) := by
  refine ⟨?_, ?_, ?_, ?_, ?_⟩
  · intro d; cases d <;> simp [Wanted] <;> decide
  · simp [Wanted]; decide
  · simp [Wanted]; decide
  · simp [Wanted]; decide
  · intro d; cases d <;> simp [Wanted] <;> decide

/-- A Paxion (1024) with an array of `mBytes` only, asked for all maps. -/
example : writeEDens ⟨4, 2, 1, 2, 1, none⟩ 1024 11 true true [] (fun _ => turns 2 2) (fun _ _ => 0)
    (fun _ a => if a < 64 then some (a : ℚ) else none) = .bad :=
  C93_beyond ⟨4, 2, 1, 2, 1, none⟩ 1024 11 [] _ (fun _ => List.Perm.refl _) _ _ (by decide) (by simp)
    .rho (by simp [Wanted]; decide) (by decide) (by decide) 0 (by decide) (by simp [place])

/-- Three ranks of `2 × 2 × 1` sites written in reverse order. -/
example : ∃ h, writeEDens ⟨2, 1, 1, 3, 1, none⟩ 2 11 true true [] (fun _ => (turns 3 1).reverse)
      (fun _ _ => 77) (fun r a => some (100 * r + a : ℚ)) = .done h ∧
    h (.file .theta (1 + 2 * (1 + 2 * 2))) = some (203 : ℚ) ∧
    h (.file .aux (1 + 2 * (1 + 2 * 2))) = some (207 : ℚ) := by
  obtain ⟨h, e, h1, -⟩ := C93_file ⟨2, 1, 1, 3, 1, none⟩ 2 11 [] (fun _ => (turns 3 1).reverse)
    (fun _ => List.reverse_perm _) (fun _ _ => 77) (fun r a => some (100 * r + a : ℚ)) (by decide)
    ⟨.theta, by simp [Wanted]; decide⟩ (by simp)
    (fun d x y z => 100 * z + (place 2 1 1 1 d + (x + 2 * y) : ℕ))
    (by
      intro d _ r x y z _ _ _ hz
      have : z = 0 := by change z < 1 at hz; omega
      subst this
      simp [Geo.rLz, Geo.rLx])
  refine ⟨h, e, ?_, ?_⟩
  · have := (h1 .theta (by simp [Wanted]; decide)).1 1 1 2 (by decide) (by decide) (by decide)
    refine this.trans ?_
    norm_num [place]
  · have := (h1 .aux (by simp [Wanted]; decide)).1 1 1 2 (by decide) (by decide) (by decide)
    refine this.trans ?_
    norm_num [place]

end Jaxions.DensMap
