import Verif.Model.Tiles
import Verif.Basic.DivMod
import Mathlib.Data.List.Nodup
/-
C05: tiled loops visit every vector site of the requested z range exactly once.
-/
namespace Jaxions

namespace Tile
variable (t : Tile)

theorem mem_nest (c : Nat × Nat × Nat × Nat × Nat) :
    c ∈ t.nest ↔ c.1 < t.zM ∧ c.2.1 < t.bY ∧ c.2.2.1 < t.bSizeZ ∧ c.2.2.2.1 < t.bSizeY ∧
      c.2.2.2.2 < (t.XC + t.step - 1) / t.step := by
  obtain ⟨a, b, c, d, e⟩ := c
  simp [nest, List.mem_product]

theorem nodup_nest : t.nest.Nodup := by
  unfold nest
  exact List.nodup_range.product (List.nodup_range.product (List.nodup_range.product
    (List.nodup_range.product List.nodup_range)))

theorem ceil_mem {n b k : Nat} (hb : 0 < b) (hk : k < n) : k / b < (n + b - 1) / b := by
  rw [Nat.div_lt_iff_lt_mul hb]
  have h := div_mul_add_mod (n + b - 1) b
  have := Nat.mod_lt (n + b - 1) hb
  omega

theorem xcount (hs : 0 < t.step) (hx : t.step ∣ t.XC) : (t.XC + t.step - 1) / t.step = t.XC / t.step := by
  obtain ⟨q, hq⟩ := hx
  rw [hq, Nat.mul_div_cancel_left _ hs, Nat.mul_comm]
  have : q * t.step + t.step - 1 = q * t.step + (t.step - 1) := by omega
  rw [this]
  exact div_of (by omega)

theorem xC_lt (hs : 0 < t.step) (hx : t.step ∣ t.XC) {k : Nat} (hk : k < (t.XC + t.step - 1) / t.step) :
    k * t.step < t.XC := by
  rw [t.xcount hs hx] at hk
  obtain ⟨q, hq⟩ := hx
  rw [hq, Nat.mul_div_cancel_left _ hs] at hk
  rw [hq, Nat.mul_comm t.step]
  exact Nat.mul_lt_mul_of_pos_right hk hs

/-- The loop counters are determined by the coordinates. -/
theorem coords_inj (c c' : Nat × Nat × Nat × Nat × Nat) (hc : c ∈ t.nest) (hc' : c' ∈ t.nest)
    (hs : 0 < t.step) (hz : t.zC c = t.zC c') (hy : t.yC c = t.yC c') (hx : t.xC c = t.xC c') : c = c' := by
  rw [mem_nest] at hc hc'
  obtain ⟨a, b, e, d, f⟩ := c
  obtain ⟨a', b', e', d', f'⟩ := c'
  simp only at hc hc'
  simp only [zC, yC, xC] at hz hy hx
  have h1 := pair_inj (q := a) (q' := a') hc.2.2.1 hc'.2.2.1
    (by rw [Nat.mul_comm a, Nat.mul_comm a']; omega)
  have h2 := pair_inj (q := b) (q' := b') hc.2.2.2.1 hc'.2.2.2.1
    (by rw [Nat.mul_comm b, Nat.mul_comm b']; omega)
  have h3 := Nat.eq_of_mul_eq_mul_right hs hx
  simp [h1.1, h1.2, h2.1, h2.2, h3]

/-- Coordinates in range determine and are determined by the index. -/
theorem idx_inj {X Y z y x z' y' x' : Nat} (hy : y < Y) (hx : x < X) (hy' : y' < Y) (hx' : x' < X)
    (h : z * (Y * X) + y * X + x = z' * (Y * X) + y' * X + x') : z = z' ∧ y = y' ∧ x = x' := by
  have e : ∀ z y x, z * (Y * X) + y * X + x = (z * Y + y) * X + x := by
    intro z y x; rw [Nat.add_mul, Nat.mul_assoc]
  rw [e, e] at h
  obtain ⟨h1, h2⟩ := pair_inj hx hx' h
  obtain ⟨h3, h4⟩ := pair_inj hy hy' h1
  exact ⟨h3, h4, h2⟩

theorem idx_bounds {X Y z y x : Nat} (z0 zF : Nat) (hy : y < Y) (hx : x < X) :
    (z0 ≤ z ∧ z < zF) ↔ (z0 * (Y * X) ≤ z * (Y * X) + y * X + x ∧ z * (Y * X) + y * X + x < zF * (Y * X)) := by
  have h1 : y * X + x < Y * X := pair_lt hy hx
  constructor
  · rintro ⟨h2, h3⟩
    have := Nat.mul_le_mul_right (Y * X) h2
    have h4 : z * (Y * X) + (y * X + x) < zF * (Y * X) := pair_lt h3 h1
    omega
  · rintro ⟨h2, h3⟩
    have hd : (z * (Y * X) + (y * X + x)) / (Y * X) = z := div_of h1
    have hpos : 0 < Y * X := by omega
    constructor
    · have := Nat.div_le_div_right (c := Y * X) h2
      rw [Nat.mul_div_cancel _ hpos, Nat.add_assoc, hd] at this
      exact this
    · have : (z * (Y * X) + (y * X + x)) / (Y * X) < zF := lt_of_mul_div (by omega)
      rw [hd] at this
      exact this

theorem zM_ok (hbz : 0 < t.bSizeZ) {k : Nat} (h0 : t.z0 ≤ k) (hF : k < t.zF) :
    (k - t.z0) / t.bSizeZ < t.zM := by
  unfold zM
  exact ceil_mem hbz (by omega)

/-- Coordinates in range are reached by the loops. -/
theorem reach (hs : 0 < t.step) (hby : 0 < t.bSizeY) (hbz : 0 < t.bSizeZ)
    {z y k : Nat} (h0 : t.z0 ≤ z) (hF : z < t.zF) (hy : y < t.YC) (hk : k * t.step < t.XC) :
    ∃ c ∈ t.nest, t.zC c = z ∧ t.yC c = y ∧ t.xC c = k * t.step := by
  refine ⟨((z - t.z0) / t.bSizeZ, y / t.bSizeY, (z - t.z0) % t.bSizeZ, y % t.bSizeY, k), ?_, ?_, ?_, rfl⟩
  · rw [mem_nest]
    refine ⟨t.zM_ok hbz h0 hF, ceil_mem hby hy, Nat.mod_lt _ hbz, Nat.mod_lt _ hby, ?_⟩
    have := ceil_mem hs hk
    rwa [Nat.mul_div_cancel _ hs] at this
  · have := div_mul_add_mod (z - t.z0) t.bSizeZ
    simp only [zC]
    rw [Nat.mul_comm]; omega
  · have := div_mul_add_mod y t.bSizeY
    simp only [yC]
    rw [Nat.mul_comm]; omega

theorem nodup_visits (hs : 0 < t.step) (hx : t.step ∣ t.XC) : t.visits.Nodup := by
  unfold visits
  refine List.Nodup.map_on ?_ (t.nodup_nest.filter _)
  intro c hc c' hc' h
  simp only [List.mem_filter, Bool.not_eq_true', Bool.or_eq_false_iff, decide_eq_false_iff_not,
    ge_iff_le, Nat.not_le] at hc hc'
  have b := (t.mem_nest c).1 hc.1
  have b' := (t.mem_nest c').1 hc'.1
  obtain ⟨h1, h2, h3⟩ := idx_inj hc.2.1 (t.xC_lt hs hx b.2.2.2.2) hc'.2.1 (t.xC_lt hs hx b'.2.2.2.2) h
  exact t.coords_inj c c' hc.1 hc'.1 hs h1 h2 h3

theorem mem_visits (hs : 0 < t.step) (hx : t.step ∣ t.XC) (hby : 0 < t.bSizeY) (hbz : 0 < t.bSizeZ)
    (i : Nat) : i ∈ t.visits ↔
      t.z0 * (t.YC * t.XC) ≤ i ∧ i < t.zF * (t.YC * t.XC) ∧ t.step ∣ i := by
  simp only [visits, List.mem_map, List.mem_filter, Bool.not_eq_true', Bool.or_eq_false_iff,
    decide_eq_false_iff_not, ge_iff_le, Nat.not_le]
  constructor
  · rintro ⟨c, ⟨hc, hy, hz⟩, rfl⟩
    have b := (t.mem_nest c).1 hc
    have hxl := t.xC_lt hs hx b.2.2.2.2
    have h0 : t.z0 ≤ t.zC c := by simp only [zC]; omega
    have := (idx_bounds (x := t.xC c) t.z0 t.zF hy hxl).1 ⟨h0, hz⟩
    refine ⟨this.1, this.2, ?_⟩
    unfold idx
    refine Nat.dvd_add (Nat.dvd_add ?_ ?_) ?_
    · exact Nat.dvd_mul_left_of_dvd (Nat.dvd_mul_left_of_dvd hx _) _
    · exact Nat.dvd_mul_left_of_dvd hx _
    · exact ⟨c.2.2.2.2, Nat.mul_comm _ _⟩
  · rintro ⟨h1, h2, h3⟩
    have hX : 0 < t.XC := by
      rcases Nat.eq_zero_or_pos t.XC with h | h
      · rw [h] at h2; simp at h2
      · exact h
    have hY : 0 < t.YC := by
      rcases Nat.eq_zero_or_pos t.YC with h | h
      · rw [h] at h2; simp at h2
      · exact h
    -- coordinates of i
    have e1 := div_mul_add_mod i t.XC
    have e2 := div_mul_add_mod (i / t.XC) t.YC
    have by2 := Nat.mod_lt (i / t.XC) hY
    have bx := Nat.mod_lt i hX
    have hi : i = (i / t.XC / t.YC) * (t.YC * t.XC) + (i / t.XC % t.YC) * t.XC + i % t.XC := by
      rw [← Nat.mul_assoc, ← Nat.add_mul, e2, e1]
    have hb := (idx_bounds t.z0 t.zF by2 bx).2 ⟨by rw [← hi]; exact h1, by rw [← hi]; exact h2⟩
    have hdx : t.step ∣ i % t.XC := (Nat.dvd_mod_iff hx).2 h3
    obtain ⟨k, hk⟩ := hdx
    have hk' : i % t.XC = k * t.step := by rw [hk, Nat.mul_comm]
    obtain ⟨c, hc, hz, hy, hxc⟩ := t.reach hs hby hbz hb.1 hb.2 by2 (by rw [← hk']; exact bx)
    refine ⟨c, ⟨hc, by rw [hy]; exact by2, by rw [hz]; exact hb.2⟩, ?_⟩
    unfold idx
    rw [hz, hy, hxc, ← hk', ← hi]

end Tile

/-- **C05** Whatever the block sizes, in whatever order the threads execute the iterations, the
kernel updates every vector site of the slices `z0 ≤ z < zF` exactly once and no other site. -/
theorem C05_tiles_exactly_once (Lx step z0 zF bSizeY bSizeZ : Nat) (hs : 0 < step)
    (hdvd : step ∣ Lx) (hby : 0 < bSizeY) (hbz : 0 < bSizeZ)
    (order : List Nat)
    (horder : order.Perm (Tile.visits ⟨Lx * step, Lx / step, step, z0, zF, bSizeY, bSizeZ⟩)) (i : Nat) :
    order.count i = if z0 * (Lx * Lx) ≤ i ∧ i < zF * (Lx * Lx) ∧ step ∣ i then 1 else 0 := by
  have hS : Lx / step * (Lx * step) = Lx * Lx := by
    obtain ⟨q, hq⟩ := hdvd
    subst hq
    rw [Nat.mul_div_cancel_left _ hs, Nat.mul_comm, Nat.mul_assoc]
  have hx : step ∣ Lx * step := ⟨Lx, Nat.mul_comm _ _⟩
  let t : Tile := ⟨Lx * step, Lx / step, step, z0, zF, bSizeY, bSizeZ⟩
  have hm := t.mem_visits hs hx hby hbz i
  simp only [t, hS] at hm
  rw [horder.count_eq]
  split
  · next h => exact List.count_eq_one_of_mem (t.nodup_visits hs hx) (hm.2 h)
  · next h => exact List.count_eq_zero_of_not_mem (fun hc => h (hm.1 hc))

/-- **C05** (nonrelativistic and Paxion kernels) With their guard `idx >= Vf` the same holds if
the y block size divides the number of rows, which the block size search guarantees (C17). -/
theorem C05_idx_guard_exactly_once_partial (Lx step z0 zF bSizeY bSizeZ : Nat) (hs : 0 < step)
    (hdvd : step ∣ Lx) (hby : 0 < bSizeY) (hbz : 0 < bSizeZ) (hdivY : bSizeY ∣ Lx / step)
    (order : List Nat)
    (horder : order.Perm (Tile.visitsIdxGuard
      ⟨Lx * step, Lx / step, step, z0, zF, bSizeY, bSizeZ⟩ (zF * (Lx * Lx)))) (i : Nat) :
    order.count i = if z0 * (Lx * Lx) ≤ i ∧ i < zF * (Lx * Lx) ∧ step ∣ i then 1 else 0 := by
  let t : Tile := ⟨Lx * step, Lx / step, step, z0, zF, bSizeY, bSizeZ⟩
  have hS : Lx / step * (Lx * step) = Lx * Lx := by
    obtain ⟨q, hq⟩ := hdvd
    subst hq
    rw [Nat.mul_div_cancel_left _ hs, Nat.mul_comm, Nat.mul_assoc]
  have hx : step ∣ Lx * step := ⟨Lx, Nat.mul_comm _ _⟩
  have hYC : ∀ c ∈ t.nest, t.yC c < t.YC := by
    intro c hc
    have b := (t.mem_nest c).1 hc
    obtain ⟨q, hq⟩ := hdivY
    have hb : t.bY = q := by
      show (Lx / step + bSizeY - 1) / bSizeY = q
      rw [hq, Nat.mul_comm]
      have : q * bSizeY + bSizeY - 1 = q * bSizeY + (bSizeY - 1) := by omega
      rw [this]
      exact div_of (by omega)
    have h1 : c.2.1 * bSizeY + c.2.2.2.1 < q * bSizeY := pair_lt (by rw [← hb]; exact b.2.1) b.2.2.2.1
    show c.2.2.2.1 + bSizeY * c.2.1 < Lx / step
    rw [hq, Nat.mul_comm bSizeY q, Nat.mul_comm bSizeY]
    omega
  have hsame : t.visitsIdxGuard (zF * (Lx * Lx)) = t.visits := by
    unfold Tile.visitsIdxGuard Tile.visits
    congr 1
    apply List.filter_congr
    intro c hc
    have b := (t.mem_nest c).1 hc
    have hy := hYC c hc
    have h0 : t.z0 ≤ t.zC c := by simp only [Tile.zC]; omega
    have := Tile.idx_bounds (z := t.zC c) (x := t.xC c) t.z0 t.zF hy (t.xC_lt hs hx b.2.2.2.2)
    have hSS : t.YC * t.XC = Lx * Lx := hS
    have key : t.idx c ≥ zF * (Lx * Lx) ↔ t.zC c ≥ t.zF := by
      rw [hSS] at this
      simp only [Tile.idx, hSS]
      show zF * (Lx * Lx) ≤ _ ↔ t.zF ≤ _
      have hzz : t.zF = zF := rfl
      rw [hzz] at this ⊢
      constructor
      · intro h
        by_contra hlt
        have := (this.1 ⟨h0, by omega⟩).2
        omega
      · intro h
        by_contra hlt
        have h2 : t.z0 * (Lx * Lx) ≤ t.zC c * (Lx * Lx) := Nat.mul_le_mul_right _ h0
        have := (this.2 ⟨by omega, by omega⟩).2
        omega
    have hy' : ¬ t.yC c ≥ t.YC := by omega
    simp only [hy', decide_false, Bool.false_or]
    congr 1
    exact decide_eq_decide.2 key
  rw [hsame] at horder
  exact C05_tiles_exactly_once Lx step z0 zF bSizeY bSizeZ hs hdvd hby hbz order horder i

/-- Finding: with the guard of the nonrelativistic and Paxion kernels and a block size that does
not divide the rows, the first rows of the next slice are updated twice. -/
theorem C05_idx_guard_double_visit :
    (Tile.visitsIdxGuard ⟨3, 3, 1, 0, 2, 2, 1⟩ (2 * (3 * 3))).count 9 = 2 := by decide

-- a 6 x 6 plane with two lanes, ranges and blocks that do not divide anything
example : (Tile.visits ⟨12, 3, 2, 1, 4, 2, 2⟩).count 38 = 1 := by decide

end Jaxions
