/-
Division arithmetic on naturals used by all index maps.
-/
namespace Jaxions

theorem divmod_of {b r q : Nat} (hr : r < b) : (q * b + r) / b = q ∧ (q * b + r) % b = r := by
  have hb : 0 < b := by omega
  constructor
  · rw [Nat.mul_comm, Nat.mul_add_div hb, Nat.div_eq_of_lt hr, Nat.add_zero]
  · rw [Nat.mul_comm, Nat.mul_add_mod, Nat.mod_eq_of_lt hr]

theorem div_of {b r q : Nat} (hr : r < b) : (q * b + r) / b = q := (divmod_of hr).1
theorem mod_of {b r q : Nat} (hr : r < b) : (q * b + r) % b = r := (divmod_of hr).2

theorem pair_inj {b q q' r r' : Nat} (hr : r < b) (hr' : r' < b) (h : q * b + r = q' * b + r') :
    q = q' ∧ r = r' := by
  have h1 := div_of (q := q) hr
  have h2 := div_of (q := q') hr'
  have h3 := mod_of (q := q) hr
  have h4 := mod_of (q := q') hr'
  rw [h] at h1 h3
  exact ⟨h1.symm.trans h2, h3.symm.trans h4⟩

theorem pair_lt {a b q r : Nat} (hq : q < a) (hr : r < b) : q * b + r < a * b := by
  have : (q + 1) * b ≤ a * b := Nat.mul_le_mul_right b hq
  rw [Nat.add_mul] at this
  omega

theorem pair_le {a b q r : Nat} (hq : q < a) (hr : r ≤ b) : q * b + r ≤ a * b := by
  have : (q + 1) * b ≤ a * b := Nat.mul_le_mul_right b hq
  rw [Nat.add_mul] at this
  omega

theorem div_mul_add_mod (j b : Nat) : j / b * b + j % b = j := by
  rw [Nat.mul_comm]; exact Nat.div_add_mod j b

theorem lt_of_mul_div {j a b : Nat} (h : j < a * b) : j / b < a := by
  apply Nat.div_lt_of_lt_mul
  rwa [Nat.mul_comm]

end Jaxions
