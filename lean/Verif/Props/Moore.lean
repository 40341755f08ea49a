import Verif.Model.Moore
import Verif.Spec.Moore
import Mathlib.Tactic.Linarith
import Mathlib.Tactic.Ring
import Mathlib.Tactic.FieldSimp
import Mathlib.Analysis.Calculus.Deriv.Mul

/-!
# C100: configurations in Moore's format
-/

namespace Jaxions.Moore

open Real

/-- A loop in which every element is changed by itself, in any order. -/
theorem loop (p : ℕ → ℕ) (hp : Function.Injective p) (f : ℕ → ℝ → ℝ) (order : List ℕ) (hn : order.Nodup) (m : ℕ → ℝ) :
    (∀ i ∈ order, (order.foldl (fun m i => Function.update m (p i) (f i (m (p i)))) m) (p i) = f i (m (p i))) ∧
      ∀ j, (∀ i ∈ order, j ≠ p i) → (order.foldl (fun m i => Function.update m (p i) (f i (m (p i)))) m) j = m j := by
  induction order generalizing m with
  | nil => exact ⟨fun i hi => absurd hi (List.not_mem_nil), fun _ _ => rfl⟩
  | cons a l ih =>
    obtain ⟨ha, hl⟩ := List.nodup_cons.1 hn
    obtain ⟨h1, h2⟩ := ih hl (Function.update m (p a) (f a (m (p a))))
    simp only [List.foldl_cons]
    refine ⟨fun i hi => ?_, fun j hj => ?_⟩
    · rcases List.mem_cons.1 hi with rfl | hi
      · rw [h2 (p i) fun k hk e => ha (hp e ▸ hk), Function.update_self]
      · have hne : p i ≠ p a := fun e => ha (hp e ▸ hi)
        rw [h1 i hi, Function.update_of_ne hne]
    · rw [h2 j fun i hi => hj i (List.mem_cons_of_mem _ hi),
        Function.update_of_ne (hj a (List.mem_cons_self ..))]

theorem unmoor1_wrapped (R θ : ℝ) : ∃ t, Wrapped θ t ∧ unmoor1 R θ = R * t := by
  have hpi := Real.pi_pos
  refine ⟨θ - 2 * π * ⌊(θ + π) / (2 * π)⌋, ⟨?_, ?_, _, rfl⟩, by unfold unmoor1; ring⟩
  · have := Int.floor_le ((θ + π) / (2 * π))
    rw [le_div_iff₀ (by positivity)] at this
    linarith
  · have := Int.lt_floor_add_one ((θ + π) / (2 * π))
    rw [div_lt_iff₀ (by positivity)] at this
    linarith

/-- **C100** After the conversion the field at every site is the scale factor times the angle brought
between -π and π, the velocity is the scale factor times the one of the file minus the converted field,
and ghosts and everything else in the buffers are as before; with every number and order of threads. -/
theorem C100_convert (R : ℝ) {off n : ℕ} {o1 o2 : List ℕ} (h1 : o1.Perm (List.range n))
    (h2 : o2.Perm (List.range n)) (m v : ℕ → ℝ) :
    (∀ i, i < n → ∃ t, Wrapped (m (off + i)) t ∧ (convert R off o1 o2 m v).1 (off + i) = R * t ∧
      (convert R off o1 o2 m v).2 i = R * v i - R * t) ∧
    (∀ j, (j < off ∨ off + n ≤ j) → (convert R off o1 o2 m v).1 j = m j) ∧
    ∀ j, n ≤ j → (convert R off o1 o2 m v).2 j = v j := by
  have m1 : ∀ {i}, i ∈ o1 ↔ i < n := fun {i} => by rw [h1.mem_iff, List.mem_range]
  have m2 : ∀ {i}, i ∈ o2 ↔ i < n := fun {i} => by rw [h2.mem_iff, List.mem_range]
  obtain ⟨a1, a2⟩ := loop (fun i => off + i) (fun a b h => by simpa using h) (fun _ => unmoor1 R) o1
    (h1.nodup_iff.2 List.nodup_range) m
  obtain ⟨b1, b2⟩ := loop id Function.injective_id
    (fun i d => R * d + -1 * (unMoor R off o1 m) (off + i)) o2 (h2.nodup_iff.2 List.nodup_range) v
  refine ⟨fun i hi => ?_, fun j hj => ?_, fun j hj => ?_⟩
  · obtain ⟨t, ht, e⟩ := unmoor1_wrapped R (m (off + i))
    have e1 : (convert R off o1 o2 m v).1 (off + i) = R * t := (a1 i (m1.2 hi)).trans e
    refine ⟨t, ht, e1, ?_⟩
    have e2 : (convert R off o1 o2 m v).2 i = R * v i + -1 * (convert R off o1 o2 m v).1 (off + i) :=
      b1 i (m2.2 hi)
    rw [e2, e1]
    ring
  · exact a2 j fun i hi => by have := m1.1 hi; omega
  · exact b2 j fun i hi => by have := m2.1 hi; simp only [id]; omega

/-- **C100** The complex field on the vacuum is the same before and after: the phase of the file is the
converted field over the scale factor. -/
theorem C100_phase {R : ℝ} (hR : R ≠ 0) (θ : ℝ) :
    cos (unmoor1 R θ / R) = cos θ ∧ sin (unmoor1 R θ / R) = sin θ := by
  obtain ⟨t, ⟨-, -, k, hk⟩, e⟩ := unmoor1_wrapped R θ
  rw [e, mul_div_cancel_left₀ _ hR, hk, show θ - 2 * π * k = θ - k * (2 * π) by ring]
  exact ⟨Real.cos_sub_int_mul_two_pi θ k, Real.sin_sub_int_mul_two_pi θ k⟩

/-- **C100** Angles that differ by whole turns are converted to the same number, and angles already in
range are multiplied by the scale factor. -/
theorem C100_turns (R θ : ℝ) (k : ℤ) :
    unmoor1 R (θ + 2 * π * k) = unmoor1 R θ ∧ (-π ≤ θ → θ < π → unmoor1 R θ = R * θ) := by
  constructor
  · obtain ⟨t, ⟨a, b, l, hl⟩, e⟩ := unmoor1_wrapped R θ
    obtain ⟨t', h', e'⟩ := unmoor1_wrapped R (θ + 2 * π * k)
    have : t = t' := Wrapped.unique ⟨a, b, l + k, by rw [hl]; push_cast; ring⟩ h'
    rw [e, e', this]
  · intro h1 h2
    obtain ⟨t, h, e⟩ := unmoor1_wrapped R θ
    have : θ = t := Wrapped.unique ⟨h1, h2, 0, by simp⟩ h
    rw [e, ← this]

/-- **C100** If the velocity of the file is the derivative of an angle in range, the velocity of the
conformal field `R θ` is `R' θ + R v`. What is stored is that exactly at sites where the angle is zero, or
if `R' = -R`. -/
theorem C100_velocity {f S : ℝ → ℝ} {s R' : ℝ} {off n i : ℕ} {o1 o2 : List ℕ}
    (h1 : o1.Perm (List.range n)) (h2 : o2.Perm (List.range n)) {m v : ℕ → ℝ} (hi : i < n)
    (hm : m (off + i) = f s) (hlo : -π ≤ f s) (hhi : f s < π) (hf : HasDerivAt f (v i) s)
    (hS : HasDerivAt S R' s) :
    (convert (S s) off o1 o2 m v).2 i = deriv (fun x => S x * f x) s ↔ f s = 0 ∨ R' = -S s := by
  obtain ⟨t, ht, -, e⟩ := (C100_convert (S s) h1 h2 m v).1 i hi
  have htt : t = f s := ht.unique ⟨hlo, hhi, 0, by rw [hm]; simp⟩
  have hd : deriv (fun x => S x * f x) s = R' * f s + S s * v i := (hS.mul hf).deriv
  rw [e, htt, hd]
  constructor
  · intro h
    have : f s * (R' + S s) = 0 := by linarith
    rcases mul_eq_zero.1 this with h | h
    · exact Or.inl h
    · exact Or.inr (by linarith)
  · rintro (h | h)
    · rw [h]; ring
    · rw [h]; ring

/-! ### Examples -/

/-- Three sites behind two ghosts, two threads. -/
example (m v : ℕ → ℝ) : ∃ t, Wrapped (m 4) t ∧ (convert 2 2 [2, 0, 1] [1, 2, 0] m v).1 4 = 2 * t :=
  have h := (C100_convert 2 (off := 2) (n := 3) (o1 := [2, 0, 1]) (o2 := [1, 2, 0]) (by decide) (by decide)
    m v).1 2 (by decide)
  let ⟨t, a, b, _⟩ := h
  ⟨t, a, b⟩

/-- Three half turns are minus half a turn. -/
example : unmoor1 5 (π + 2 * π * 1) = 5 * -π := by
  have h := (C100_turns 5 (-π) 2).1
  have h2 := (C100_turns 5 (-π) 2).2 le_rfl (by linarith [Real.pi_pos])
  rw [show π + 2 * π * 1 = -π + 2 * π * (2 : ℤ) by push_cast; ring, h, h2]

/-- In radiation domination, `R = s`, an angle 1 at rest: the stored velocity is not that of the field. -/
example : (convert 2 0 [0] [0] (fun _ => 1) (fun _ => 0)).2 0 ≠ deriv (fun x : ℝ => x * (1 : ℝ)) 2 := by
  have h := C100_velocity (f := fun _ => (1 : ℝ)) (S := fun x => x) (s := 2) (R' := 1) (off := 0) (n := 1)
    (i := 0) (o1 := [0]) (o2 := [0]) (by decide) (by decide) (m := fun _ => 1) (v := fun _ => 0)
    (by decide) rfl (by linarith [Real.pi_pos]) (by linarith [Real.two_le_pi]) (hasDerivAt_const _ _)
    (hasDerivAt_id' _)
  intro he
  rcases h.1 he with h | h <;> norm_num at h

end Jaxions.Moore
