import Verif.Spec.Diffuse
import Verif.Lemmas.Masker

namespace Jaxions.Masker

open AxSpec (Grid Site bare_inj)

variable {g : Grid}

/-- All slices of numbers are there. -/
def Room (g : Grid) (m : Heap ℕ ℝ) : Prop :=
  ∀ w i, w < 2 * g.Lz + 4 * g.Ng → i < g.S → (m (w * g.S + i)).isSome

theorem Part.slices {r V B s} (h : Part g r V B s) : Room g s.m2 := by
  intro w i hw hi
  refine h.room _ ?_
  have : 2 * g.v3 = (2 * g.Lz + 4 * g.Ng) * g.S := by unfold Grid.v3; ring
  rw [this]
  exact pair_lt hw hi

theorem slice_of {S w i d k : ℕ} (hi : i < S) (hk : k < S) (h : w * S + i = d * S + k) : w = d ∧ i = k :=
  pair_inj hi hk h

theorem stage_spec (hN : 1 ≤ g.Ng) (hz : 2 * g.Ng ≤ g.Lz) {m : Heap ℕ ℝ} (hm : Room g m) :
    ∃ m', stage g m = some m' ∧ ∀ w i, i < g.S →
      m' (w * g.S + i) = if w = 2 * g.Lz then m ((2 * g.Ng + g.Lz - 1) * g.S + i) else m (w * g.S + i) := by
  have hd : ∀ i, GR g + 2 * g.S * (g.Lz - g.Ng) + i = 2 * g.Lz * g.S + i := by
    intro i
    unfold GR
    obtain ⟨k, hk⟩ : ∃ k, g.Lz = g.Ng + k := ⟨g.Lz - g.Ng, by omega⟩
    rw [hk, Nat.add_sub_cancel_left]; ring
  have hs : ∀ i, GR g + g.S * (g.Lz - 1) + i = (2 * g.Ng + g.Lz - 1) * g.S + i := by
    intro i
    unfold GR
    obtain ⟨k, hk⟩ : ∃ k, g.Lz = k + 1 := ⟨g.Lz - 1, by omega⟩
    rw [hk, Nat.add_sub_cancel, show 2 * g.Ng + (k + 1) - 1 = 2 * g.Ng + k by omega]; ring
  obtain ⟨m', e, e1, e2⟩ := memcpy_spec (fun i => GR g + 2 * g.S * (g.Lz - g.Ng) + i)
    (fun i => GR g + g.S * (g.Lz - 1) + i) g.S m
    (fun i hi => by rw [hs]; exact hm _ _ (by omega) hi)
    (fun i hi => by rw [hd]; exact hm _ _ (by omega) hi)
    (fun i _ j _ h => by omega)
    (fun i hi j hj h => by
      rw [hs, hd] at h
      have := (slice_of hi hj h).1
      omega)
  refine ⟨m', e, fun w i hi => ?_⟩
  by_cases hw : w = 2 * g.Lz
  · rw [if_pos hw, hw]
    have := e1 i hi
    rw [hd, hs] at this
    exact this
  · rw [if_neg hw]
    refine e2 _ fun k hk h => hw ?_
    rw [hd] at h
    exact (slice_of hi hk h).1

theorem exchange_spec (hz : g.Ng ≤ g.Lz) (prev next me : Heap ℕ ℝ) {w i : ℕ} (hi : i < g.S)
    (hw : w < 2 * g.Lz + 4 * g.Ng) :
    exchange g prev next me (w * g.S + i) =
      if w < 2 * g.Ng then prev ((2 * g.Lz + w) * g.S + i)
      else if 2 * g.Ng + 2 * g.Lz ≤ w then next ((w - 2 * g.Lz) * g.S + i)
      else me (w * g.S + i) := by
  have hGR : GR g = 2 * g.Ng * g.S := by unfold GR; ring
  have hv : 2 * g.v3 = (2 * g.Lz + 4 * g.Ng) * g.S := by unfold Grid.v3; ring
  unfold exchange
  by_cases h1 : w < 2 * g.Ng
  · rw [if_pos h1, if_pos (by rw [hGR]; exact pair_lt h1 hi)]
    refine congrArg prev ?_
    rw [hGR]
    obtain ⟨k, hk⟩ : ∃ k, g.Lz = g.Ng + k := ⟨g.Lz - g.Ng, by omega⟩
    rw [hk, Nat.add_sub_cancel_left]; ring
  · have h1' : ¬ w * g.S + i < GR g := by
      rw [hGR]
      have := Nat.mul_le_mul_right g.S (Nat.le_of_not_lt h1)
      omega
    rw [if_neg h1, if_neg h1']
    by_cases h2 : 2 * g.Ng + 2 * g.Lz ≤ w
    · have e : GR g + 2 * g.S * g.Lz = (2 * g.Ng + 2 * g.Lz) * g.S := by rw [hGR]; ring
      have h3 := Nat.mul_le_mul_right g.S h2
      rw [if_pos h2, if_pos ⟨by rw [e]; omega, by rw [hv]; exact pair_lt hw hi⟩]
      refine congrArg next ?_
      rw [e]
      obtain ⟨k, rfl⟩ : ∃ k, w = 2 * g.Ng + 2 * g.Lz + k := ⟨w - (2 * g.Ng + 2 * g.Lz), by omega⟩
      rw [show 2 * g.Ng + 2 * g.Lz + k - 2 * g.Lz = 2 * g.Ng + k by omega,
        show (2 * g.Ng + 2 * g.Lz + k) * g.S + i - (2 * g.Ng + 2 * g.Lz) * g.S = k * g.S + i by
          rw [add_mul _ k]; omega, hGR]
      ring
    · rw [if_neg h2, if_neg]
      rintro ⟨h, -⟩
      rw [show GR g + 2 * g.S * g.Lz = (2 * g.Ng + 2 * g.Lz) * g.S by rw [hGR]; ring] at h
      have h4 : w * g.S + i < (2 * g.Ng + 2 * g.Lz) * g.S := pair_lt (by omega) hi
      omega

theorem place_spec (hN : 1 ≤ g.Ng) (hz : 0 < g.Lz) {m : Heap ℕ ℝ} (hm : Room g m) :
    ∃ m', place g m = some m' ∧ ∀ w i, i < g.S →
      m' (w * g.S + i) = if w = 2 * g.Ng - 1 then m (0 * g.S + i)
        else if w = 2 * g.Ng + g.Lz then m ((2 * g.Ng + 2 * g.Lz) * g.S + i) else m (w * g.S + i) := by
  have hGR : GR g = 2 * g.Ng * g.S := by unfold GR; ring
  have a1 : ∀ i, GR g + g.S * g.Lz + i = (2 * g.Ng + g.Lz) * g.S + i := by intro i; rw [hGR]; ring
  have a2 : ∀ i, GR g + 2 * g.S * g.Lz + i = (2 * g.Ng + 2 * g.Lz) * g.S + i := by intro i; rw [hGR]; ring
  have a3 : ∀ i, GR g - g.S + i = (2 * g.Ng - 1) * g.S + i := by
    intro i
    rw [hGR, Nat.sub_mul, one_mul]
  obtain ⟨m1, e, e1, e2⟩ := memmove_spec (fun i => GR g + g.S * g.Lz + i)
    (fun i => GR g + 2 * g.S * g.Lz + i) g.S m
    (fun i hi => by rw [a2]; exact hm _ _ (by omega) hi)
    (fun i hi => by rw [a1]; exact hm _ _ (by omega) hi)
    (fun i _ j _ h => by omega)
  have f1 : ∀ w i, i < g.S → m1 (w * g.S + i) =
      if w = 2 * g.Ng + g.Lz then m ((2 * g.Ng + 2 * g.Lz) * g.S + i) else m (w * g.S + i) := by
    intro w i hi
    by_cases hw : w = 2 * g.Ng + g.Lz
    · rw [if_pos hw, hw]
      have := e1 i hi
      rwa [a1, a2] at this
    · rw [if_neg hw]
      refine e2 _ fun k hk h => hw ?_
      rw [a1] at h
      exact (slice_of hi hk h).1
  obtain ⟨m', e', e1', e2'⟩ := memmove_spec (fun i => GR g - g.S + i) (fun i => i) g.S m1
    (fun i hi => by
      have := f1 0 i hi
      rw [zero_mul, zero_add] at this
      rw [this, if_neg (by omega)]
      have := hm 0 i (by omega) hi
      rwa [zero_mul, zero_add] at this)
    (fun i hi => by
      rw [a3, f1 _ _ hi, if_neg (by omega)]
      exact hm _ _ (by omega) hi)
    (fun i _ j _ h => by omega)
  refine ⟨m', ?_, fun w i hi => ?_⟩
  · unfold place
    rw [e]
    exact e'
  · by_cases hw : w = 2 * g.Ng - 1
    · rw [if_pos hw, hw]
      have := e1' i hi
      rw [a3] at this
      rw [this]
      have := f1 0 i hi
      rw [if_neg (by omega)] at this
      rw [← this, zero_mul, zero_add]
    · rw [if_neg hw, ← f1 w i hi]
      refine e2' _ fun k hk h => hw ?_
      rw [a3] at h
      exact (slice_of hi hk h).1

theorem back_spec (hN : 1 ≤ g.Ng) {m : Heap ℕ ℝ} (hm : Room g m) :
    ∃ m', back g m = some m' ∧ (∀ j, j < g.S * g.Lz → m' (GR g + j) = m (aux g + j)) ∧
      ∀ a, (∀ j, j < g.S * g.Lz → a ≠ GR g + j) → m' a = m a := by
  have hGR : GR g = 2 * g.Ng * g.S := by unfold GR; ring
  have hax : aux g = (g.Lz + 4 * g.Ng) * g.S := by
    unfold aux Grid.v3
    rw [show 2 * (g.S * (g.Lz + 2 * g.Ng)) = (g.Lz + 4 * g.Ng) * g.S + g.S * g.Lz by ring]
    omega
  have hj : ∀ j, j < g.S * g.Lz → ∀ k, k ≤ g.Lz + 4 * g.Ng → (m (k * g.S + j)).isSome := by
    intro j hj k hk
    have hS : 0 < g.S := by
      rcases Nat.eq_zero_or_pos g.S with h | h
      · rw [h, zero_mul] at hj; omega
      · exact h
    have h1 : j / g.S < g.Lz := Nat.div_lt_of_lt_mul hj
    have h2 := div_mul_add_mod j g.S
    have := hm (k + j / g.S) (j % g.S) (by omega) (Nat.mod_lt _ hS)
    rwa [add_mul, add_assoc, h2] at this
  exact memmove_spec (fun i => GR g + i) (fun i => aux g + i) (g.S * g.Lz) m
    (fun i hi => by rw [hax]; exact hj i hi _ le_rfl)
    (fun i hi => by rw [hGR]; exact hj i hi _ (by omega))
    (fun i _ j _ h => by omega)

theorem bare_slice (x y z : ℕ) : g.bare (x, y, z) = z * g.S + (x + g.L * y) := by
  unfold Grid.bare; ring

theorem xy_lt {x y : ℕ} (hx : x < g.L) (hy : y < g.L) : x + g.L * y < g.S := by
  unfold Grid.S
  have := pair_lt (a := g.L) hy hx
  linarith [mul_comm g.L y]

/-- Neighbours in the slice. -/
theorem neigh_spec (hL : 2 ≤ g.L) {x y : ℕ} (hx : x < g.L) (hy : y < g.L) (w : ℕ) :
    neigh g.L (w * g.S + (x + g.L * y)) =
      (w * g.S + ((x + 1) % g.L + g.L * y), w * g.S + ((x + g.L - 1) % g.L + g.L * y),
        w * g.S + (x + g.L * ((y + 1) % g.L)), w * g.S + (x + g.L * ((y + g.L - 1) % g.L))) := by
  have hd : (w * g.S + (x + g.L * y)) / g.L = w * g.L + y := by
    rw [show w * g.S + (x + g.L * y) = (w * g.L + y) * g.L + x by unfold Grid.S; ring]
    exact div_of hx
  have hd2 : (w * g.L + y) / g.L = w := div_of hy
  have hx' : w * g.S + (x + g.L * y) - (w * g.L + y) * g.L = x := by
    rw [show w * g.S + (x + g.L * y) = (w * g.L + y) * g.L + x by unfold Grid.S; ring]
    omega
  have hy' : w * g.L + y - w * g.L = y := by omega
  have hS : g.S = g.L * g.L := rfl
  unfold neigh
  simp only [hd, hd2, hx', hy']
  have hxp : (x + 1) % g.L = if x = g.L - 1 then 0 else x + 1 := by
    split
    · next h => rw [h, show g.L - 1 + 1 = g.L by omega, Nat.mod_self]
    · exact Nat.mod_eq_of_lt (by omega)
  have hyp : (y + 1) % g.L = if y = g.L - 1 then 0 else y + 1 := by
    split
    · next h => rw [h, show g.L - 1 + 1 = g.L by omega, Nat.mod_self]
    · exact Nat.mod_eq_of_lt (by omega)
  have hxm : (x + g.L - 1) % g.L = if x = 0 then g.L - 1 else x - 1 := by
    split
    · next h => rw [h, zero_add]; exact Nat.mod_eq_of_lt (by omega)
    · rw [show x + g.L - 1 = (x - 1) + g.L by omega, Nat.add_mod_right]; exact Nat.mod_eq_of_lt (by omega)
  have hym : (y + g.L - 1) % g.L = if y = 0 then g.L - 1 else y - 1 := by
    split
    · next h => rw [h, zero_add]; exact Nat.mod_eq_of_lt (by omega)
    · rw [show y + g.L - 1 = (y - 1) + g.L by omega, Nat.add_mod_right]; exact Nat.mod_eq_of_lt (by omega)
  rw [hxp, hyp, hxm, hym]
  refine Prod.ext ?_ (Prod.ext ?_ (Prod.ext ?_ ?_)) <;> dsimp only
  · rcases Nat.eq_zero_or_pos x with h | h
    · rw [if_pos h, if_neg (by omega)]; omega
    · rw [if_neg (by omega)]
      by_cases h' : x = g.L - 1
      · rw [if_pos h', if_pos h']; omega
      · rw [if_neg h', if_neg h']; omega
  · rcases Nat.eq_zero_or_pos x with h | h
    · rw [if_pos h, if_pos h]; omega
    · rw [if_neg (by omega), if_neg (by omega)]; omega
  · rcases Nat.eq_zero_or_pos y with h | h
    · rw [if_pos h, if_neg (by omega), mul_add, mul_one]; omega
    · rw [if_neg (by omega)]
      by_cases h' : y = g.L - 1
      · rw [if_pos h', if_pos h']
        have : g.L * y + g.L = g.L * g.L := by
          rw [h', ← Nat.mul_succ, Nat.succ_eq_add_one, Nat.sub_add_cancel (by omega)]
        have h3 : g.L * y = g.L * (g.L - 1) := by rw [h']
        rw [mul_zero]
        rw [← hS] at this
        omega
      · rw [if_neg h', if_neg h', mul_add, mul_one]; omega
  · rcases Nat.eq_zero_or_pos y with h | h
    · rw [if_pos h, if_pos h, h, mul_zero]
      have : g.L * (g.L - 1) + g.L = g.L * g.L := by
        rw [← Nat.mul_succ, Nat.succ_eq_add_one, Nat.sub_add_cancel (by omega)]
      rw [← hS] at this
      omega
    · rw [if_neg (by omega), if_neg (by omega)]
      have : g.L * (y - 1) + g.L = g.L * y := by
        rw [← Nat.mul_succ, Nat.succ_eq_add_one, Nat.sub_add_cancel h]
      omega

end Jaxions.Masker
