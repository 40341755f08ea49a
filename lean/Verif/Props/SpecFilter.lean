import Verif.Spec.SpecFilter
import Mathlib.Tactic.Linarith
import Mathlib.Tactic.Ring
import Mathlib.Tactic.FieldSimp
import Mathlib.Tactic.NormNum
import Mathlib.Tactic.Push

/-!
# C98: smoothing and reduction of density maps
-/

namespace Jaxions.SpecFilter

variable {α : Type}

/-- The reduced map up to element `j` is there, behind it nothing has changed. -/
def Upto (m0 : ℕ → α) (src : ℕ → ℕ) (j : ℕ) (m : ℕ → α) : Prop :=
  (∀ i, i < j → m i = m0 (src i)) ∧ ∀ i, j ≤ i → m i = m0 i

theorem upto_move {m0 : ℕ → α} {src : ℕ → ℕ} {j : ℕ} {m : ℕ → α} (h : Upto m0 src j m) (hs : j ≤ src j) :
    Upto m0 src (j + 1) (Function.update m j (m (src j))) := by
  refine ⟨fun i hi => ?_, fun i hi => ?_⟩
  · rcases Nat.lt_succ_iff_lt_or_eq.1 hi with h1 | h1
    · rw [Function.update_of_ne (by omega)]
      exact h.1 i h1
    · rw [h1, Function.update_self]
      exact h.2 _ hs
  · rw [Function.update_of_ne (by omega)]
    exact h.2 i (by omega)

theorem fold_upto {β : Type} (P : ℕ → β → Prop) (f : β → ℕ → β) {b : β} (h0 : P 0 b) (n : ℕ)
    (hs : ∀ k m, k < n → P k m → P (k + 1) (f m k)) : P n ((List.range n).foldl f b) := by
  induction n with
  | zero => exact h0
  | succ n ih =>
    rw [List.range_succ, List.foldl_append]
    exact hs n _ (by omega) (ih fun k m hk => hs k m (by omega))

/-- Where the element comes from. -/
def source (Ly s n i : ℕ) : ℕ :=
  i % n * s + (Ly + 2) * (i / n % n) * s + Ly * (Ly + 2) * (i / (n * n)) * s

theorem digits {n x y : ℕ} (hx : x < n) (hy : y < n) (z : ℕ) :
    (x + n * y + n * n * z) % n = x ∧ (x + n * y + n * n * z) / n % n = y ∧
      (x + n * y + n * n * z) / (n * n) = z := by
  have hn : 0 < n := by omega
  have e1 : x + n * y + n * n * z = x + n * (y + n * z) := by ring
  have e2 : x + n * y + n * n * z = (x + n * y) + n * n * z := rfl
  refine ⟨?_, ?_, ?_⟩
  · rw [e1, Nat.add_mul_mod_self_left, Nat.mod_eq_of_lt hx]
  · rw [e1, Nat.add_mul_div_left _ _ hn, Nat.div_eq_of_lt hx, zero_add, Nat.add_mul_mod_self_left,
      Nat.mod_eq_of_lt hy]
  · have hlt : x + n * y < n * n := by nlinarith
    rw [e2, Nat.add_mul_div_left _ _ (by positivity), Nat.div_eq_of_lt hlt, zero_add]

theorem pick_upto {Ly Lz s : ℕ} (hs : 0 < s) (m0 : ℕ → α) :
    ∃ m, pick Ly Lz s m0 = some m ∧
      Upto m0 (source Ly s (Ly / s)) (Ly / s * (Ly / s) * (Lz / s)) m := by
  refine ⟨_, if_neg (by omega), ?_⟩
  have hnL : Ly / s ≤ Ly := Nat.div_le_self _ _
  generalize Ly / s = n at hnL ⊢
  refine fold_upto (fun k m => Upto m0 (source Ly s n) (n * n * k) m) _
    ⟨fun i hi => by omega, fun _ _ => rfl⟩ _ fun iz m _ hm => ?_
  have := fold_upto (fun k m => Upto m0 (source Ly s n) (n * k + n * n * iz) m)
    (fun m iy => (List.range n).foldl (move Ly s n iz iy) m) (b := m) (by simpa using hm) n
    fun iy m hy hm => ?_
  · rwa [show n * n * (iz + 1) = n * n + n * n * iz by ring]
  · have := fold_upto (fun k m => Upto m0 (source Ly s n) (k + n * iy + n * n * iz) m)
      (move Ly s n iz iy) (b := m) (by simpa using hm) n fun ix m hx hm => ?_
    · rwa [show n * (iy + 1) + n * n * iz = n + n * iy + n * n * iz by ring]
    · have hsrc : source Ly s n (ix + n * iy + n * n * iz) =
          ix * s + (Ly + 2) * iy * s + Ly * (Ly + 2) * iz * s := by
        obtain ⟨d1, d2, d3⟩ := digits hx hy iz
        unfold source
        rw [d1, d2, d3]
      have hle : ix + n * iy + n * n * iz ≤ source Ly s n (ix + n * iy + n * n * iz) := by
        rw [hsrc]
        have a1 : ix ≤ ix * s := Nat.le_mul_of_pos_right _ hs
        have a2 : n * iy ≤ (Ly + 2) * iy * s :=
          (Nat.mul_le_mul_right iy (by omega)).trans (Nat.le_mul_of_pos_right _ hs)
        have a3 : n * n * iz ≤ Ly * (Ly + 2) * iz * s :=
          (Nat.mul_le_mul_right iz (Nat.mul_le_mul hnL (by omega))).trans (Nat.le_mul_of_pos_right _ hs)
        omega
      have := upto_move hm hle
      rw [hsrc] at this
      unfold move
      rwa [show ix + 1 + n * iy + n * n * iz = ix + n * iy + n * n * iz + 1 by ring]

/-- **C98** The reduction in place: afterwards the buffer begins with the map of every `s`-th site of
every `s`-th row of every `s`-th slice, no number being overwritten before it is used. -/
theorem C98_pick {Ly Lz s : ℕ} (hs : 0 < s) {m0 : ℕ → α} {ρ : ℕ → ℕ → ℕ → α} (h : PaddedMap Ly Lz m0 ρ) :
    ∃ m, pick Ly Lz s m0 = some m ∧ ∀ x y z, x < Ly / s → y < Ly / s → z < Lz / s →
      m (x + Ly / s * (y + Ly / s * z)) = ρ (s * x) (s * y) (s * z) := by
  obtain ⟨m, h1, h2⟩ := pick_upto (Ly := Ly) (Lz := Lz) hs m0
  refine ⟨m, h1, fun x y z hx hy hz => ?_⟩
  have lt : ∀ {a b : ℕ}, a < b / s → s * a < b := by
    intro a b hab
    calc s * a < s * (b / s) := Nat.mul_lt_mul_of_pos_left hab hs
      _ ≤ b := Nat.mul_div_le b s
  have hx' := lt hx
  have hy' := lt hy
  have hz' := lt hz
  obtain ⟨d1, d2, d3⟩ := digits hx hy z
  have e : x + Ly / s * (y + Ly / s * z) = x + Ly / s * y + Ly / s * (Ly / s) * z := by ring
  have hi : x + Ly / s * y + Ly / s * (Ly / s) * z < Ly / s * (Ly / s) * (Lz / s) := by
    generalize Ly / s = n at hx hy ⊢
    generalize Lz / s = nz at hz ⊢
    have b1 : x + n * y < n * n := by nlinarith
    have b2 : n * n * (z + 1) ≤ n * n * nz := Nat.mul_le_mul_left _ hz
    have b3 : n * n * (z + 1) = n * n * z + n * n := by ring
    omega
  rw [e, h2.1 _ hi, ← h (s * x) (s * y) (s * z) hx' hy' hz']
  unfold source
  rw [d1, d2, d3]
  congr 1
  ring

/-- **C98** Over the ranks: the slices kept are equidistant, i.e. slice `z` of rank `r` is number
`r nz + z` of the reduced map, exactly if the reduction divides the slices of a rank (or there is only one
rank, or nothing is kept). -/
theorem C98_ranks {R Lz s : ℕ} (hs : 0 < s) :
    (∀ r z, r < R → z < Lz / s → r * Lz + s * z = s * (r * (Lz / s) + z)) ↔
      (R ≤ 1 ∨ s ∣ Lz ∨ Lz < s) := by
  constructor
  · intro h
    by_contra hn
    push Not at hn
    obtain ⟨h1, h2, h3⟩ := hn
    have h0 := h 1 0 (by omega) (Nat.div_pos h3 hs)
    apply h2
    refine ⟨Lz / s, ?_⟩
    simpa using h0
  · rintro (h | ⟨k, rfl⟩ | h) r z hr hz
    · obtain rfl : r = 0 := by omega
      simp
    · rw [Nat.mul_div_cancel_left _ hs]
      ring
    · rw [Nat.div_eq_of_lt h] at hz
      omega

/-- **C98** The index of a mode: row `kx`, `kz` within the plane `ky` of the rank. -/
theorem C98_mode {hx Ly Tz zBase kx ky kz : ℕ} (h1 : kx < hx) (h2 : kz < Tz) :
    modeOf hx Ly Tz zBase (kx + hx * (kz + Tz * ky)) =
      ((kx : ℤ), (if Ly < 2 * (ky + zBase) then ((ky + zBase : ℕ) : ℤ) - Ly else ((ky + zBase : ℕ) : ℤ)),
        if Tz < 2 * kz then (kz : ℤ) - Tz else kz) := by
  have e1 : (kx + hx * (kz + Tz * ky)) / hx = kz + Tz * ky := by
    rw [Nat.add_mul_div_left _ _ (by omega), Nat.div_eq_of_lt h1, zero_add]
  have e2 : (kz + Tz * ky) / Tz = ky := by
    rw [Nat.add_mul_div_left _ _ (by omega), Nat.div_eq_of_lt h2, zero_add]
  unfold modeOf signed
  simp only [e1, e2]
  have e3 : kx + hx * (kz + Tz * ky) - (kz + Tz * ky) * hx = kx := by
    rw [mul_comm hx]; omega
  have e4 : kz + Tz * ky - ky * Tz = kz := by rw [mul_comm Tz]; omega
  rw [e3, e4]
  refine Prod.ext rfl (Prod.ext ?_ ?_)
  · simp only
    split_ifs <;> omega
  · simp only
    split_ifs <;> omega

/-- **C98** On a cubic lattice every mode is multiplied by the transform of a Gaussian whose width is half
the given number of lattice spacings, over the number of sites (the transforms are not normalised); the
mean is kept. On other lattices this holds for the modes that are constant along z only. -/
theorem C98_gauss {N Tz : ℕ} (hN : 0 < N) (hT : 0 < Tz) {neigh δ : ℝ} (hn : neigh ≠ 0) (hδ : 0 < δ)
    (total : ℕ) (ht : 0 < total) (k : ℤ × ℤ × ℤ) :
    factor neigh (N * N) total k * total =
        gauss (neigh * δ / 2) (wave N δ k.1) (wave N δ k.2.1) (wave Tz δ k.2.2) ↔
      Tz = N ∨ k.2.2 = 0 := by
  have hN' : (N : ℝ) ≠ 0 := by exact_mod_cast hN.ne'
  have hT' : (Tz : ℝ) ≠ 0 := by exact_mod_cast hT.ne'
  have ht' : (total : ℝ) ≠ 0 := by exact_mod_cast ht.ne'
  have hπ := Real.pi_ne_zero
  unfold factor gauss wave
  simp only
  rw [div_mul_cancel₀ _ ht', Real.exp_eq_exp]
  have e : (-(1 / 2 * Real.pi * Real.pi * neigh * neigh / ((N * N : ℕ) : ℝ)) *
      (k.1 * k.1 + k.2.1 * k.2.1 + k.2.2 * k.2.2 : ℝ)) -
      (-((neigh * δ / 2) ^ 2 * ((2 * Real.pi * k.1 / (N * δ)) ^ 2 + (2 * Real.pi * k.2.1 / (N * δ)) ^ 2 +
        (2 * Real.pi * k.2.2 / (Tz * δ)) ^ 2)) / 2) =
      1 / 2 * (Real.pi * neigh * k.2.2) ^ 2 * (1 / (Tz : ℝ) ^ 2 - 1 / (N : ℝ) ^ 2) := by
    push_cast
    field_simp
    ring
  rw [← sub_eq_zero, e]
  constructor
  · intro h
    rcases mul_eq_zero.1 h with h | h
    · right
      have : Real.pi * neigh * (k.2.2 : ℝ) = 0 := by
        rcases mul_eq_zero.1 h with h | h
        · norm_num at h
        · exact pow_eq_zero_iff (two_ne_zero) |>.1 h
      rcases mul_eq_zero.1 this with h | h
      · exact absurd h (mul_ne_zero hπ hn)
      · exact_mod_cast h
    · left
      have h2 : (Tz : ℝ) ^ 2 = (N : ℝ) ^ 2 := by
        rw [sub_eq_zero] at h
        field_simp at h
        exact h.symm
      have h3 : Tz ^ 2 = N ^ 2 := by exact_mod_cast h2
      exact Nat.pow_left_injective (by decide : 2 ≠ 0) h3
  · rintro (h | h)
    · rw [h]; ring
    · rw [h]; simp

/-! ### Examples -/

/-- Every third site of a lattice with 6 sites per side; the third site of the second row. -/
example (ρ : ℕ → ℕ → ℕ → ℕ) : ∃ m, pick 6 6 3 (fun i => ρ (i % 8) (i / 8 % 6) (i / 48)) = some m ∧
    m (1 + 2 * (1 + 2 * 1)) = ρ 3 3 3 := by
  obtain ⟨m, h1, h2⟩ := C98_pick (Ly := 6) (Lz := 6) (s := 3) (by decide)
    (m0 := fun i => ρ (i % 8) (i / 8 % 6) (i / 48)) (ρ := ρ) (by
      intro x y z hx hy hz
      have e1 : (x + (6 + 2) * (y + 6 * z)) % 8 = x := by omega
      have e2 : (x + (6 + 2) * (y + 6 * z)) / 8 % 6 = y := by omega
      have e3 : (x + (6 + 2) * (y + 6 * z)) / 48 = z := by omega
      simp only [e1, e2, e3])
  exact ⟨m, h1, h2 1 1 1 (by decide) (by decide) (by decide)⟩

/-- Two ranks with 6 slices, every fourth kept: 0 and 6. -/
example : ¬ ∀ r z, r < 2 → z < 6 / 4 → r * 6 + 4 * z = 4 * (r * (6 / 4) + z) := by
  rw [C98_ranks (by decide)]
  decide

/-- A lattice twice as long along z. -/
example : factor 2 (64 * 64) (64 * 64 * 128) (0, 0, 1) * (64 * 64 * 128 : ℕ) ≠
    gauss (2 * 1 / 2) (wave 64 1 0) (wave 64 1 0) (wave 128 1 1) := by
  intro h
  have := (C98_gauss (N := 64) (Tz := 128) (by decide) (by decide) (neigh := 2) (δ := 1) (by norm_num)
    (by norm_num) (64 * 64 * 128) (by decide) (0, 0, 1)).1 h
  simp at this

end Jaxions.SpecFilter
