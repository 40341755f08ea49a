import Verif.Model.DensByte
import Verif.Props.Contrast
import Verif.Props.DensMap
/-
C94: the file with the density map in bytes.
-/

namespace Jaxions.Contrast

open DensMap (Geo Dset Cell Outcome created Map Parts AnyOrder)
open ConfIO (Turn turns fileOffset)

theorem slabOps_eq (g : Geo) (u : Turn) : slabOps g u = DensMap.turnOps g .theta u := by
  unfold slabOps DensMap.turnOps
  refine List.map_congr_left fun k _ => ?_
  show _ = (_, Cell.mem u.rank (0 + g.slab * u.z + k))
  rw [Nat.zero_add]

/-- **C94** The bytes of the ranks are in the file one part after the other, in any order of writing; the
call writes nothing if no file is open or the dataset exists. -/
theorem C94_write (g : Geo) (order : List Turn) (ho : order.Perm (turns g.ranks g.rLz))
    (junk : Dset → ℕ → ℕ) (rC : ℕ → Heap ℕ ℕ) (B : ℕ → ℕ → ℕ → ℕ)
    (hB : Parts rC g.ranks g.rLx g.rLz 0 B) :
    (∃ h, writeDensity g true false order junk rC = .done h ∧
      Map h .theta g.rLx (g.ranks * g.rLz) B ∧ ∀ r i : ℕ, h (.mem r i) = rC r i) ∧
    ∀ opened there, writeDensity g opened there order junk rC = .refused ↔ ¬ (opened = true ∧ there = false) := by
  obtain ⟨h, e, h1, -, h3⟩ := DensMap.copies g [.theta] (fun _ => order) (fun _ => ho) junk rC (fun _ => B)
    (fun d hd => by rw [List.mem_singleton.1 hd]; exact hB)
  have e' : copyCells (order.flatMap (slabOps g)) (created g [.theta] junk rC) = some h := by
    rw [← e, funext (slabOps_eq g)]
    simp
  have hd : writeDensity g true false order junk rC = .done h := by
    unfold writeDensity
    rw [e']
    rfl
  refine ⟨⟨h, hd, h1 _ (List.mem_singleton.2 rfl), h3⟩, fun opened there => ?_⟩
  cases opened
  · simp [writeDensity]
  · cases there
    · rw [hd]; simp
    · simp [writeDensity]

/-- **C94** From the energies to the file. Let the ranks hold their parts of a density `F` of the lattice
(reduced or not), not the same everywhere. Then the file has one byte for each site, in the order of the
lattice; of two sites the denser has the higher or the same level; 0 up to 1/1000; and from the level and
the extremes of the lattice stored beside it the density is recovered up to a factor. It depends neither
on the number of ranks and threads nor on any order. -/
theorem C94_file (g : Geo) (first : ℕ) (hP : 0 < g.ranks) (hx : 0 < g.rLx) (hz : 0 < g.rLz)
    (F : ℕ → ℕ → ℕ → ℝ) (m2 : ℕ → Heap ℕ ℝ) (hm : Parts m2 g.ranks g.rLx g.rLz first F)
    (threads threads' : ℕ → List (List ℕ)) (ht : AllThreads g.ranks (g.rLz * (g.rLx * g.rLx)) threads)
    (ht' : AllThreads g.ranks (g.rLz * (g.rLx * g.rLx)) threads')
    (cells : ℕ → List ℕ) (hcells : ∀ r < g.ranks, (cells r).Perm (List.range (g.rLz * (g.rLx * g.rLx))))
    (rC : ℕ → Heap ℕ ℕ) (hc : ∀ r < g.ranks, ∀ i < g.rLz * (g.rLx * g.rLx), (rC r i).isSome)
    (order : List Turn) (ho : order.Perm (turns g.ranks g.rLz)) (junk : Dset → ℕ → ℕ)
    (data : ℕ → ℕ → ℝ) (hdata : ∀ r < g.ranks, ∀ i < g.rLz * (g.rLx * g.rLx), m2 r (first + i) = some (data r i))
    {M m : ℝ} (hM : IsGreatest {v | ∃ x y z : ℕ, x < g.rLx ∧ y < g.rLx ∧ z < g.ranks * g.rLz ∧ F x y z = v} M)
    (hmin : IsLeast {v | ∃ x y z : ℕ, x < g.rLx ∧ y < g.rLx ∧ z < g.ranks * g.rLz ∧ F x y z = v} m)
    (hne : m < M) :
    ∃ h B, contrast g first threads threads' cells true false order junk data m2 rC = .done h ∧
      Map h .theta g.rLx (g.ranks * g.rLz) B ∧
      ∀ x y z : ℕ, x < g.rLx → y < g.rLx → z < g.ranks * g.rLz → B x y z ≤ 255 ∧
        (∀ x' y' z' : ℕ, x' < g.rLx → y' < g.rLx → z' < g.ranks * g.rLz → F x y z ≤ F x' y' z' →
          B x y z ≤ B x' y' z') ∧
        (F x y z ≤ 1 / 1000 → B x y z = 0) ∧
        (1 / 1000 < F x y z → |Real.log (grey M m (B x y z)) - Real.log (F x y z)| ≤
          (Real.log M - Real.log (max m (1 / 1000))) / 510) := by
  set L := g.rLx with hL
  set Lz := g.rLz with hLz
  set P := g.ranks with hPdef
  have hn : 0 < Lz * (L * L) := Nat.mul_pos hz (Nat.mul_pos hx hx)
  -- the numbers of the ranks are those of the lattice
  have hval : ∀ r x y z : ℕ, r < P → x < L → y < L → z < Lz →
      data r (x + L * (y + L * z)) = F x y (r * Lz + z) := by
    intro r x y z hr h1 h2 h3
    have a := hdata r hr _ (DensMap.site_lt h1 h2 h3)
    rw [hm r x y z hr h1 h2 h3] at a
    exact (Option.some.inj a).symm
  have hidx : ∀ i, i < Lz * (L * L) → ∃ x y z, x < L ∧ y < L ∧ z < Lz ∧ i = x + L * (y + L * z) := by
    intro i hi
    refine ⟨i % L, i / L % L, i / L / L, Nat.mod_lt _ hx, Nat.mod_lt _ hx, ?_, ?_⟩
    · rw [Nat.div_div_eq_div_mul]
      exact Nat.div_lt_of_lt_mul (by rw [Nat.mul_comm]; exact hi)
    · rw [Nat.mod_add_div, Nat.mod_add_div]
  have hglob : ∀ r z : ℕ, r < P → z < Lz → r * Lz + z < P * Lz := fun r z h1 h2 => pair_lt h1 h2
  have hset : Values P (Lz * (L * L)) data =
      {v | ∃ x y z : ℕ, x < L ∧ y < L ∧ z < P * Lz ∧ F x y z = v} := by
    ext v
    constructor
    · rintro ⟨r, i, hr, hi, rfl⟩
      obtain ⟨x, y, z, h1, h2, h3, rfl⟩ := hidx i hi
      exact ⟨x, y, r * Lz + z, h1, h2, hglob r z hr h3, (hval r x y z hr h1 h2 h3).symm⟩
    · rintro ⟨x, y, z, h1, h2, h3, rfl⟩
      have a : z / Lz < P := lt_of_mul_div h3
      have b : z % Lz < Lz := Nat.mod_lt _ hz
      refine ⟨z / Lz, x + L * (y + L * (z % Lz)), a, DensMap.site_lt h1 h2 b, ?_⟩
      rw [hval _ _ _ _ a h1 h2 b, div_mul_add_mod]
  have eM : find .max P data threads = M := (C94_max hP hn data threads ht).unique (hset ▸ hM)
  have em : find .min P data threads' = m := (C94_min hP hn data threads' ht').unique (hset ▸ hmin)
  have key := C94_map hP hn data threads threads' ht ht' (by rw [eM, em]; exact hne) first m2 hdata rC hc
    cells hcells
  simp only [eM, em] at key
  obtain ⟨B, k1, k2, k3, k4, -, k6⟩ := key
  let G : ℕ → ℕ → ℕ → ℕ := fun x y z => B (z / Lz) (x + L * (y + L * (z % Lz)))
  obtain ⟨⟨h, w1, w2, -⟩, -⟩ := C94_write g order ho junk
    (fun r => (bytes M m first (m2 r) (cells r) (rC r)).getD (rC r)) G (by
      intro r x y z hr h1 h2 h3
      obtain ⟨hh, e, e1, -⟩ := k1 r hr
      show ((bytes M m first (m2 r) (cells r) (rC r)).getD (rC r)) _ = _
      rw [e, Nat.zero_add]
      show hh _ = some (B ((r * Lz + z) / Lz) (x + L * (y + L * ((r * Lz + z) % Lz))))
      have d1 : (r * Lz + z) / Lz = r := by
        rw [Nat.mul_comm, Nat.mul_add_div hz, Nat.div_eq_of_lt h3, Nat.add_zero]
      have d2 : (r * Lz + z) % Lz = z := by
        rw [Nat.mul_comm, Nat.mul_add_mod, Nat.mod_eq_of_lt h3]
      rw [d1, d2]
      exact e1 _ (DensMap.site_lt h1 h2 h3))
  refine ⟨h, G, ?_, w2, fun x y z h1 h2 h3 => ?_⟩
  · unfold contrast
    simp only [← hPdef, eM, em]
    rw [if_neg, w1]
    rintro ⟨r, hr, e⟩
    obtain ⟨hh, e', -⟩ := k1 r hr
    rw [e] at e'
    cases e'
  · have a : z / Lz < P := lt_of_mul_div h3
    have b : z % Lz < Lz := Nat.mod_lt _ hz
    have c := DensMap.site_lt h1 h2 b
    have v : data (z / Lz) (x + L * (y + L * (z % Lz))) = F x y z := by
      rw [hval _ _ _ _ a h1 h2 b, div_mul_add_mod]
    refine ⟨k2 _ a _ c, fun x' y' z' h1' h2' h3' hle => ?_, fun hlow => ?_, fun hhi => ?_⟩
    · have a' : z' / Lz < P := lt_of_mul_div h3'
      have b' : z' % Lz < Lz := Nat.mod_lt _ hz
      refine k3 _ a _ c _ a' _ (DensMap.site_lt h1' h2' b') ?_
      rw [v, hval _ _ _ _ a' h1' h2' b', div_mul_add_mod]
      exact hle
    · exact k4 _ a _ c (by rw [v]; exact hlow)
    · have := k6 _ a _ c (by rw [v]; exact hhi)
      rw [v] at this
      exact this

/-! ### Cases -/

/-- Two ranks of one slice of `1 × 1` sites, densities 1 and 3, written in reverse order: two bytes. -/
example : ∃ (h : Heap Cell ℕ) (B : ℕ → ℕ → ℕ → ℕ), contrast ⟨1, 1, 1, 2, 1, none⟩ 0 (fun _ => [[]]) (fun _ => [[]]) (fun _ => [0]) true false
      (turns 2 1).reverse (fun _ _ => 7) (fun r _ => 1 + 2 * r) (fun r _ => some (1 + 2 * r))
      (fun _ _ => some 0) = .done h ∧
    h (.file .theta 1) = some (B 0 0 1) ∧ B 0 0 0 ≤ B 0 0 1 := by
  obtain ⟨h, B, e, hm, hB⟩ := C94_file ⟨1, 1, 1, 2, 1, none⟩ 0 (by decide) (by decide) (by decide)
    (fun _ _ z => 1 + 2 * z) (fun r _ => some (1 + 2 * r)) (fun r x y z _ _ _ hz => by
      have : z = 0 := by have : z < 1 := hz; omega
      subst this
      show some (1 + 2 * (r : ℝ)) = some (1 + 2 * ((r * 1 + 0 : ℕ) : ℝ))
      simp)
    (fun _ => [[]]) (fun _ => [[]]) (fun _ _ => List.Perm.refl _) (fun _ _ => List.Perm.refl _) (fun _ => [0])
    (fun _ _ => List.Perm.refl _) (fun _ _ => some 0) (fun _ _ _ _ => rfl) (turns 2 1).reverse
    (List.reverse_perm _) (fun _ _ => 7) (fun r _ => 1 + 2 * r) (fun _ _ _ _ => rfl) (M := 3) (m := 1)
    ⟨⟨0, 0, 1, by decide, by decide, by decide, by norm_num⟩, by
      rintro v ⟨x, y, z, -, -, hz, rfl⟩
      have : z < 2 := hz
      have : (z : ℝ) ≤ 1 := by exact_mod_cast Nat.le_of_lt_succ this
      show 1 + 2 * (z : ℝ) ≤ 3
      linarith⟩
    ⟨⟨0, 0, 0, by decide, by decide, by decide, by norm_num⟩, by
      rintro v ⟨x, y, z, -, -, hz, rfl⟩
      have : (0 : ℝ) ≤ z := Nat.cast_nonneg z
      show 1 ≤ 1 + 2 * (z : ℝ)
      linarith⟩ (by norm_num)
  refine ⟨h, B, e, ?_, ?_⟩
  · exact hm.1 0 0 1 (by decide) (by decide) (by decide)
  · exact (hB 0 0 0 (by decide) (by decide) (by decide)).2.1 0 0 1 (by decide) (by decide) (by decide)
      (by norm_num)

end Jaxions.Contrast
