import Verif.Model.Passes
import Verif.Props.Tiles
/-
C06: the three passes of a substep.
-/
namespace Jaxions

/-- Number of times a vector site is updated by one kernel call. -/
theorem count_kernelVisits {Lx step bSizeY bSizeZ : Nat} (hL : 0 < Lx) (hs : 0 < step)
    (hdvd : step ∣ Lx) (hby : 0 < bSizeY) (hbz : 0 < bSizeZ) (a b i : Nat) :
    (kernelVisits Lx step bSizeY bSizeZ (a * (Lx * Lx)) (b * (Lx * Lx))).count i =
      if a * (Lx * Lx) ≤ i ∧ i < b * (Lx * Lx) ∧ step ∣ i then 1 else 0 := by
  have hS : 0 < Lx * Lx := Nat.mul_pos hL hL
  unfold kernelVisits
  by_cases h : a * (Lx * Lx) > b * (Lx * Lx)
  · rw [if_pos h, if_neg (by omega)]; rfl
  · rw [if_neg h, Nat.mul_div_cancel _ hS, Nat.mul_div_cancel _ hS]
    exact C05_tiles_exactly_once Lx step a b bSizeY bSizeZ hs hdvd hby hbz _ (List.Perm.refl _) i

/-- Number of updates of a vector site in slice `k` (ghost slices included in the numbering). -/
theorem count_substep (guarded : Bool) {Lx step bSizeY bSizeZ : Nat} (hL : 0 < Lx) (hs : 0 < step)
    (hdvd : step ∣ Lx) (hby : 0 < bSizeY) (hbz : 0 < bSizeZ) (Lz Ng i : Nat) (hi : step ∣ i) :
    (substepVisits guarded Lx step bSizeY bSizeZ Lz Ng).count i =
      (if 2 * Ng ≤ i / (Lx * Lx) ∧ i / (Lx * Lx) < Lz then 1 else 0) +
      (if Ng ≤ i / (Lx * Lx) ∧ i / (Lx * Lx) < 2 * Ng then 1 else 0) +
      (if (guarded = false ∨ Ng < Lz) ∧ Lz ≤ i / (Lx * Lx) ∧ i / (Lx * Lx) < Lz + Ng then 1 else 0) := by
  have hS : 0 < Lx * Lx := Nat.mul_pos hL hL
  have hk : ∀ a b, (kernelVisits Lx step bSizeY bSizeZ (a * (Lx * Lx)) (b * (Lx * Lx))).count i =
      if a ≤ i / (Lx * Lx) ∧ i / (Lx * Lx) < b then 1 else 0 := by
    intro a b
    rw [count_kernelVisits hL hs hdvd hby hbz]
    have h1 : a * (Lx * Lx) ≤ i ↔ a ≤ i / (Lx * Lx) := (Nat.le_div_iff_mul_le hS).symm
    have h2 : i < b * (Lx * Lx) ↔ i / (Lx * Lx) < b := (Nat.div_lt_iff_lt_mul hS).symm
    simp only [h1, h2, hi, and_true]
  have e1 : 2 * (Ng * (Lx * Lx)) = (2 * Ng) * (Lx * Lx) := by rw [Nat.mul_assoc]
  have e2 : Lz * (Lx * Lx) + Ng * (Lx * Lx) = (Lz + Ng) * (Lx * Lx) := by rw [Nat.add_mul]
  have e3 : Lz * (Lx * Lx) > Ng * (Lx * Lx) ↔ Ng < Lz :=
    ⟨fun h => Nat.lt_of_mul_lt_mul_right h, fun h => Nat.mul_lt_mul_of_pos_right h hS⟩
  by_cases hg : guarded = false ∨ Ng < Lz
  · have hg' : (!guarded || decide (Lz * (Lx * Lx) > Ng * (Lx * Lx))) = true := by
      rcases hg with h | h
      · simp [h]
      · have := e3.2 h; simp [this]
    simp only [substepVisits, bulkCall, boundaryCalls, hg', if_true, List.flatMap_cons,
      List.flatMap_nil, List.append_nil, List.count_append, e1, e2, hk, hg, true_and]
    omega
  · have hg' : (!guarded || decide (Lz * (Lx * Lx) > Ng * (Lx * Lx))) = false := by
      have h1 : ¬ guarded = false := fun h => hg (Or.inl h)
      have h2 : ¬ Lz * (Lx * Lx) > Ng * (Lx * Lx) := fun h => hg (Or.inr (e3.1 h))
      simp [h2] ; simpa using h1
    simp only [substepVisits, bulkCall, boundaryCalls, hg', Bool.false_eq_true, if_false,
      List.flatMap_cons, List.flatMap_nil, List.append_nil, List.count_append, e1, hk, hg, false_and]
    omega

/-- What "exactly once" means for one substep: a vector site of a physical slice
(`Ng ≤ slice < Ng + Lz`) is updated once, any other never. -/
def ExactlyOnce (guarded : Bool) (Lx step bSizeY bSizeZ Lz Ng : Nat) : Prop :=
  ∀ i, step ∣ i → (substepVisits guarded Lx step bSizeY bSizeZ Lz Ng).count i =
    if Ng ≤ i / (Lx * Lx) ∧ i / (Lx * Lx) < Ng + Lz then 1 else 0

/-- **C06** The passes of the Saxion and Axion propagators update every physical site exactly
once, and no ghost site, if and only if the local depth is at least twice the ghost width or equal
to it.  (This decides the property for every depth and ghost width the constructor accepts; it
accepts all of them.) -/
theorem C06_exactly_once_iff {Lx step bSizeY bSizeZ : Nat} (hL : 0 < Lx) (hs : 0 < step)
    (hdvd : step ∣ Lx) (hby : 0 < bSizeY) (hbz : 0 < bSizeZ) (Lz Ng : Nat) :
    ExactlyOnce true Lx step bSizeY bSizeZ Lz Ng ↔ (2 * Ng ≤ Lz ∨ Lz = Ng) := by
  have hS : 0 < Lx * Lx := Nat.mul_pos hL hL
  constructor
  · intro h
    -- probe the slice max(Lz, Ng)
    have hdS : step ∣ Lx * Lx := Nat.dvd_mul_left_of_dvd hdvd _
    have hp := fun k => h (k * (Lx * Lx)) (Nat.dvd_mul_left_of_dvd hdS _)
    by_contra hne
    rcases Nat.lt_or_ge Ng Lz with hlt | hge
    · have := hp Lz
      rw [count_substep true hL hs hdvd hby hbz _ _ _ (Nat.dvd_mul_left_of_dvd hdS _),
        Nat.mul_div_cancel _ hS] at this
      simp only [Bool.true_eq_false, false_or] at this
      split at this <;> split at this <;> split at this <;> split at this <;> omega
    · have := hp (Ng + Lz)
      rw [count_substep true hL hs hdvd hby hbz _ _ _ (Nat.dvd_mul_left_of_dvd hdS _),
        Nat.mul_div_cancel _ hS] at this
      simp only [Bool.true_eq_false, false_or] at this
      split at this <;> split at this <;> split at this <;> split at this <;> omega
  · intro h i hi
    rw [count_substep true hL hs hdvd hby hbz _ _ _ hi]
    simp only [Bool.true_eq_false, false_or]
    generalize i / (Lx * Lx) = k
    split <;> split <;> split <;> split <;> omega

/-- **C06** Low memory, nonrelativistic and Paxion propagators (no condition on the last call):
exactly once if and only if the depth is at least twice the ghost width.  In particular a depth
equal to the ghost width, which the other propagators handle, updates every site twice. -/
theorem C06_unguarded_iff {Lx step bSizeY bSizeZ : Nat} (hL : 0 < Lx) (hs : 0 < step)
    (hdvd : step ∣ Lx) (hby : 0 < bSizeY) (hbz : 0 < bSizeZ) (Lz Ng : Nat) :
    ExactlyOnce false Lx step bSizeY bSizeZ Lz Ng ↔ 2 * Ng ≤ Lz := by
  have hS : 0 < Lx * Lx := Nat.mul_pos hL hL
  constructor
  · intro h
    have hdS : step ∣ Lx * Lx := Nat.dvd_mul_left_of_dvd hdvd _
    have hp := fun k => h (k * (Lx * Lx)) (Nat.dvd_mul_left_of_dvd hdS _)
    by_contra hne
    have h1 := hp Lz
    have h2 := hp Ng
    rw [count_substep false hL hs hdvd hby hbz _ _ _ (Nat.dvd_mul_left_of_dvd hdS _),
      Nat.mul_div_cancel _ hS] at h1 h2
    simp only [true_or, true_and] at h1 h2
    split at h1 <;> split at h1 <;> split at h1 <;> split at h1 <;>
      split at h2 <;> split at h2 <;> split at h2 <;> split at h2 <;> omega
  · intro h i hi
    rw [count_substep false hL hs hdvd hby hbz _ _ _ hi]
    simp only [true_or, true_and]
    generalize i / (Lx * Lx) = k
    split <;> split <;> split <;> split <;> omega

/-- **C06** The pass that runs while messages are in flight updates only slices whose whole
stencil (`Ng` slices up and down) is physical: it reads no ghost slice. -/
theorem C06_bulk_reads_no_ghost {Lx step bSizeY bSizeZ : Nat} (hL : 0 < Lx) (hs : 0 < step)
    (hdvd : step ∣ Lx) (hby : 0 < bSizeY) (hbz : 0 < bSizeZ) (Lz Ng i : Nat)
    (hi : i ∈ kernelVisits Lx step bSizeY bSizeZ (bulkCall (Ng * (Lx * Lx)) (Lz * (Lx * Lx))).1
      (bulkCall (Ng * (Lx * Lx)) (Lz * (Lx * Lx))).2) :
    ∀ nv, nv ≤ Ng → Ng + nv ≤ i / (Lx * Lx) ∧ i / (Lx * Lx) + nv < Ng + Lz := by
  have hS : 0 < Lx * Lx := Nat.mul_pos hL hL
  have hc := List.count_pos_iff.2 hi
  have e1 : 2 * (Ng * (Lx * Lx)) = (2 * Ng) * (Lx * Lx) := by rw [Nat.mul_assoc]
  simp only [bulkCall, e1] at hc
  rw [count_kernelVisits hL hs hdvd hby hbz] at hc
  split at hc
  · next h =>
    have h1 : 2 * Ng ≤ i / (Lx * Lx) := (Nat.le_div_iff_mul_le hS).2 h.1
    have h2 : i / (Lx * Lx) < Lz := (Nat.div_lt_iff_lt_mul hS).2 h.2.1
    intro nv hnv
    omega
  · omega

-- concrete cases: depth 5 with two ghost slices is fine, depth 3 with two is not
example : ExactlyOnce true 4 2 1 1 5 2 :=
  (C06_exactly_once_iff (by decide) (by decide) (by decide) (by decide) (by decide) 5 2).2 (by decide)
example : ¬ ExactlyOnce true 4 2 1 1 3 2 :=
  fun h => absurd ((C06_exactly_once_iff (by decide) (by decide) (by decide) (by decide) (by decide) 3 2).1 h) (by decide)
example : (substepVisits true 2 1 1 1 3 2).count 12 = 2 := by decide
example : 16 ∈ kernelVisits 2 1 1 1 (bulkCall (2 * 4) (5 * 4)).1 (bulkCall (2 * 4) (5 * 4)).2 := by decide

end Jaxions
