import Verif.Spec.AnyString
import Verif.Basic.DivMod
import Mathlib.Tactic.Linarith
import Mathlib.Tactic.Ring
import Mathlib.Tactic.FieldSimp
import Mathlib.Tactic.NormNum
import Mathlib.Tactic.Positivity
import Mathlib.Analysis.SpecialFunctions.Sqrt
import Mathlib.Analysis.Calculus.Deriv.Inv
import Mathlib.MeasureTheory.Integral.IntervalIntegral.FundThmCalculus
import Mathlib.Algebra.BigOperators.Group.List.Basic
/-
Lemmas about strings given by points.
-/
noncomputable section

namespace Jaxions.AnyString

/-! ### The integral along a link -/

theorem prim_deriv {a2 : ℝ} (ha : 0 < a2) (s : ℝ) :
    HasDerivAt (fun s => s / (a2 * Real.sqrt (s ^ 2 + a2))) (1 / Real.sqrt (s ^ 2 + a2) ^ 3) s := by
  have hp : 0 < s ^ 2 + a2 := by positivity
  have h1 : HasDerivAt (fun s : ℝ => s ^ 2 + a2) (2 * s) s := by
    simpa using (hasDerivAt_pow 2 s).add_const a2
  have h2 := (h1.sqrt hp.ne').const_mul a2
  have hq := Real.sqrt_pos.2 hp
  have h3 := (hasDerivAt_id s).div h2 (by positivity)
  refine h3.congr_deriv ?_
  have hsq : Real.sqrt (s ^ 2 + a2) ^ 2 = s ^ 2 + a2 := Real.sq_sqrt hp.le
  generalize Real.sqrt (s ^ 2 + a2) = q at *
  simp only [id]
  field_simp
  rw [hsq]; ring

theorem kernel_cont {a2 : ℝ} (ha : 0 < a2) :
    Continuous fun s : ℝ => 1 / Real.sqrt (s ^ 2 + a2) ^ 3 := by
  refine Continuous.div continuous_const (by fun_prop) ?_
  intro s
  have : 0 < Real.sqrt (s ^ 2 + a2) := Real.sqrt_pos.2 (by positivity)
  positivity

theorem integral_pos {a2 : ℝ} (ha : 0 < a2) (u : ℝ) :
    ∫ s in u..u + 1, 1 / Real.sqrt (s ^ 2 + a2) ^ 3 =
      (u + 1) / (a2 * Real.sqrt ((u + 1) ^ 2 + a2)) - u / (a2 * Real.sqrt (u ^ 2 + a2)) :=
  intervalIntegral.integral_eq_sub_of_hasDerivAt (fun s _ => prim_deriv ha s)
    ((kernel_cont ha).intervalIntegrable _ _)

/-- The denominator of `int0`. -/
theorem den_mul {a2 u : ℝ} (ha : 0 ≤ a2) :
    ((u + 1) * Real.sqrt (u ^ 2 + a2) + u * Real.sqrt ((u + 1) ^ 2 + a2)) *
      ((u + 1) * Real.sqrt (u ^ 2 + a2) - u * Real.sqrt ((u + 1) ^ 2 + a2)) = a2 * (1 + 2 * u) := by
  have h1 : Real.sqrt (u ^ 2 + a2) ^ 2 = u ^ 2 + a2 := Real.sq_sqrt (by positivity)
  have h2 : Real.sqrt ((u + 1) ^ 2 + a2) ^ 2 = (u + 1) ^ 2 + a2 := Real.sq_sqrt (by positivity)
  generalize Real.sqrt (u ^ 2 + a2) = p at *
  generalize Real.sqrt ((u + 1) ^ 2 + a2) = q at *
  calc _ = (u + 1) ^ 2 * p ^ 2 - u ^ 2 * q ^ 2 := by ring
    _ = _ := by rw [h1, h2]; ring

theorem int0_off {dx dy dz : ℝ} (ha : 0 < dy ^ 2 + dz ^ 2) :
    int0 dx dy dz = some (∫ s in dx..dx + 1, 1 / Real.sqrt (s ^ 2 + (dy ^ 2 + dz ^ 2)) ^ 3) := by
  rw [integral_pos ha]
  unfold int0
  dsimp only
  generalize dy ^ 2 + dz ^ 2 = a2 at *
  by_cases h : dx = -0.5
  · rw [if_pos h]
    have e1 : (dx + 1) ^ 2 + a2 = a2 + 0.25 := by rw [h]; ring
    have e2 : dx ^ 2 + a2 = a2 + 0.25 := by rw [h]; ring
    have hq : 0 < Real.sqrt (a2 + 0.25) := Real.sqrt_pos.2 (by linarith)
    unfold quot
    rw [e1, e2, if_neg (by positivity), h]
    generalize Real.sqrt (a2 + 0.25) = q at *
    congr 1
    field_simp
    ring
  · rw [if_neg h]
    have hp : 0 < Real.sqrt (dx ^ 2 + a2) := Real.sqrt_pos.2 (by positivity)
    have hq : 0 < Real.sqrt ((dx + 1) ^ 2 + a2) := Real.sqrt_pos.2 (by positivity)
    have hm := den_mul (u := dx) ha.le
    have hne : 1 + 2 * dx ≠ 0 := fun hc => h (by linarith)
    generalize Real.sqrt (dx ^ 2 + a2) = p at *
    generalize Real.sqrt ((dx + 1) ^ 2 + a2) = q at *
    have hD : (dx + 1) * p + dx * q ≠ 0 := by
      intro hc
      rw [hc, zero_mul] at hm
      exact (mul_ne_zero ha.ne' hne) hm.symm
    unfold quot
    rw [if_neg (by positivity)]
    congr 1
    rw [div_eq_iff (by positivity)]
    have : (1 * (1 + 2 * dx) : ℝ) = ((dx + 1) * p + dx * q) * ((dx + 1) * p - dx * q) / a2 := by
      rw [hm]; field_simp
    rw [this]
    field_simp

theorem cube_deriv {s : ℝ} (hs : s ≠ 0) (c : ℝ) :
    HasDerivAt (fun s : ℝ => c * (s ^ 2)⁻¹) (-2 * c / s ^ 3) s := by
  have h1 : HasDerivAt (fun s : ℝ => s ^ 2) (2 * s) s := by simpa using hasDerivAt_pow 2 s
  have h2 := (h1.inv (by positivity)).const_mul c
  refine h2.congr_deriv ?_
  field_simp

theorem integral_axis {u : ℝ} (h : 0 < u ∨ u < -1) :
    ∫ s in u..u + 1, 1 / Real.sqrt (s ^ 2 + 0) ^ 3 =
      (1 + 2 * u) / (2 * u ^ 2 * (u + 1) ^ 2) * (if 0 < u then 1 else -1) := by
  have key : ∀ ε : ℝ, (∀ s ∈ Set.uIcc u (u + 1), s ≠ 0 ∧ Real.sqrt (s ^ 2 + 0) = ε * s) →
      (ε = 1 ∨ ε = -1) → ∫ s in u..u + 1, 1 / Real.sqrt (s ^ 2 + 0) ^ 3 =
        (1 + 2 * u) / (2 * u ^ 2 * (u + 1) ^ 2) * ε := by
    intro ε hs he
    have h0 : u ≠ 0 := (hs u Set.left_mem_uIcc).1
    have h1 : u + 1 ≠ 0 := (hs (u + 1) Set.right_mem_uIcc).1
    have e3 : ε ^ 3 = ε := by rcases he with rfl | rfl <;> norm_num
    have e2 : ε ^ 2 = 1 := by rcases he with rfl | rfl <;> norm_num
    have hne : ε ≠ 0 := by rcases he with rfl | rfl <;> norm_num
    have hd : ∀ s ∈ Set.uIcc u (u + 1), HasDerivAt (fun s : ℝ => (-ε / 2) * (s ^ 2)⁻¹)
        (1 / Real.sqrt (s ^ 2 + 0) ^ 3) s := by
      intro s hs'
      obtain ⟨a, b⟩ := hs s hs'
      refine (cube_deriv a (-ε / 2)).congr_deriv ?_
      rw [b, mul_pow, e3]
      rw [div_eq_div_iff (by positivity) (by positivity)]
      have : ε * ε = 1 := by rw [← e2]; ring
      linear_combination s ^ 3 * this
    have hc : ContinuousOn (fun s : ℝ => 1 / Real.sqrt (s ^ 2 + 0) ^ 3) (Set.uIcc u (u + 1)) := by
      refine ContinuousOn.div continuousOn_const (by fun_prop) ?_
      intro s hs'
      obtain ⟨a, b⟩ := hs s hs'
      rw [b]
      positivity
    rw [intervalIntegral.integral_eq_sub_of_hasDerivAt hd hc.intervalIntegrable]
    field_simp
    ring
  have hmem : ∀ s ∈ Set.uIcc u (u + 1), u ≤ s ∧ s ≤ u + 1 := by
    intro s hs
    rw [Set.uIcc_of_le (by linarith)] at hs
    exact hs
  rcases h with h | h
  · rw [if_pos h]
    refine key 1 (fun s hs => ?_) (Or.inl rfl)
    obtain ⟨a, _⟩ := hmem s hs
    have hs0 : 0 < s := by linarith
    exact ⟨hs0.ne', by rw [add_zero, Real.sqrt_sq hs0.le, one_mul]⟩
  · rw [if_neg (by linarith)]
    refine key (-1) (fun s hs => ?_) (Or.inr rfl)
    obtain ⟨_, a⟩ := hmem s hs
    have hs0 : s < 0 := by linarith
    exact ⟨hs0.ne, by rw [add_zero, Real.sqrt_sq_eq_abs, abs_of_neg hs0]; ring⟩

theorem int0_axis {dx : ℝ} (h : 0 < dx ∨ dx < -1) :
    int0 dx 0 0 = some (∫ s in dx..dx + 1, 1 / Real.sqrt (s ^ 2 + 0) ^ 3) := by
  rw [integral_axis h]
  unfold int0
  dsimp only
  have hne : dx ≠ -0.5 := by rcases h with h | h <;> intro hc <;> rw [hc] at h <;> norm_num at h
  rw [if_neg hne, show (0 : ℝ) ^ 2 + 0 ^ 2 = 0 by norm_num, add_zero, add_zero,
    Real.sqrt_sq_eq_abs, Real.sqrt_sq_eq_abs]
  rcases h with h | h
  · have h1 : 0 < dx + 1 := by linarith
    rw [abs_of_pos h, abs_of_pos h1, if_pos h]
    unfold quot
    have : dx * (dx + 1) * ((dx + 1) * dx + dx * (dx + 1)) ≠ 0 := by positivity
    rw [if_neg this]
    congr 1
    field_simp
    ring
  · have h0 : dx < 0 := by linarith
    have h1 : dx + 1 < 0 := by linarith
    rw [abs_of_neg h0, abs_of_neg h1, if_neg (by linarith)]
    unfold quot
    have n0 : dx ≠ 0 := h0.ne
    have n1 : dx + 1 ≠ 0 := h1.ne
    have e : -dx * -(dx + 1) * ((dx + 1) * -dx + dx * -(dx + 1)) = -2 * (dx ^ 2 * (dx + 1) ^ 2) := by ring
    rw [e, if_neg (by positivity)]
    congr 1
    field_simp

theorem int0_on {dx : ℝ} (h1 : -1 ≤ dx) (h2 : dx ≤ 0) : int0 dx 0 0 = none := by
  unfold int0 quot
  dsimp only
  rw [show (0 : ℝ) ^ 2 + 0 ^ 2 = 0 by norm_num]
  by_cases h : dx = -0.5
  · rw [if_pos h, if_pos (by simp)]
  · rw [if_neg h, if_pos]
    rw [add_zero, add_zero, Real.sqrt_sq_eq_abs, Real.sqrt_sq_eq_abs, abs_of_nonpos h2,
      abs_of_nonneg (by linarith)]
    ring

theorem off_pos {dy dz : ℝ} (h : ¬ (dy = 0 ∧ dz = 0)) : 0 < dy ^ 2 + dz ^ 2 := by
  by_cases h1 : dy = 0
  · have : dz ≠ 0 := fun hc => h ⟨h1, hc⟩
    positivity
  · positivity

/-! ### Sums along lines -/

theorem path_zero (f : ℕ → ℝ) : path 0 f = 0 := rfl

theorem path_succ (n : ℕ) (f : ℕ → ℝ) : path (n + 1) f = path n f + f n := by
  unfold path
  rw [List.range_succ, List.map_append, List.sum_append]
  simp

theorem path_sub (n : ℕ) (f g : ℕ → ℝ) : path n f - path n g = path n fun i => f i - g i := by
  induction n with
  | zero => simp [path_zero]
  | succ n ih => rw [path_succ, path_succ, path_succ, ← ih]; ring

/-- A loop that adds one number after the other along a line of cells. -/
theorem prefix_spec {n : ℕ} {addr : ℕ → ℕ} {g : ℕ → ℝ} {f : Heap ℕ ℝ → ℕ → Option (Heap ℕ ℝ)}
    {th : Heap ℕ ℝ} {t0 : ℝ} (h0 : th (addr 0) = some t0)
    (hf : ∀ t i, i < n → f t i = (t (addr i)).bind fun x => t.write (addr (i + 1)) (x + g i))
    (hinj : ∀ i ≤ n, ∀ j ≤ n, addr i = addr j → i = j)
    (hal : ∀ i ≤ n, (th (addr i)).isSome) :
    ∃ th', (List.range n).foldlM f th = some th' ∧
      (∀ i ≤ n, th' (addr i) = some (t0 + path i g)) ∧
      (∀ a, (∀ i ≤ n, a ≠ addr i) → th' a = th a) := by
  obtain ⟨th', e1, e2, e3, _⟩ := range_inv (f := f) (s := th)
    (P := fun m t => (∀ i ≤ m, t (addr i) = some (t0 + path i g)) ∧
      (∀ a, (∀ i ≤ m, a ≠ addr i) → t a = th a) ∧ (∀ a, (t a).isSome = (th a).isSome)) n
    ⟨fun i hi => by
      have : i = 0 := by omega
      subst this
      rw [h0, path_zero, add_zero], fun _ _ => rfl, fun _ => rfl⟩
    (by
      rintro m hm t ⟨t1, t2, t3⟩
      have hw : (t (addr (m + 1))).isSome := by rw [t3]; exact hal _ (by omega)
      refine ⟨fun b => if b = addr (m + 1) then some (t0 + path m g + g m) else t b, ?_, ?_, ?_, ?_⟩
      · rw [hf t m hm, t1 m (Nat.le_refl m)]
        exact write_eq _ _ _ hw
      · intro i hi
        dsimp only
        by_cases hc : i = m + 1
        · subst hc
          rw [if_pos rfl, path_succ, add_assoc]
        · rw [if_neg fun he => hc (hinj i (by omega) (m + 1) (by omega) he)]
          exact t1 i (by omega)
      · intro a ha
        dsimp only
        rw [if_neg (ha (m + 1) (Nat.le_refl _))]
        exact t2 a fun i hi => ha i (by omega)
      · intro a
        dsimp only
        by_cases hc : a = addr (m + 1)
        · rw [if_pos hc, hc, ← t3, hw]; rfl
        · rw [if_neg hc, t3])
  exact ⟨th', e1, e2, e3⟩

theorem row_lt {b : Box} {x y : ℕ} (hx : x < b.Lx) (hy : y < b.Lx) : y * b.Lx + x < b.Sf := by
  unfold Box.Sf
  exact pair_lt hy hx

theorem cell_lt {b : Box} {x y k : ℕ} (hx : x < b.Lx) (hy : y < b.Lx) (hk : k < b.nz) :
    b.cell x y k < b.V := by
  have := pair_lt (b := b.Sf) hk (row_lt hx hy)
  unfold Box.cell Box.V
  omega

theorem cell_inj {b : Box} {x y k x' y' k' : ℕ} (hx : x < b.Lx) (hy : y < b.Lx) (hx' : x' < b.Lx)
    (hy' : y' < b.Lx) (h : b.cell x y k = b.cell x' y' k') : x = x' ∧ y = y' ∧ k = k' := by
  unfold Box.cell at h
  obtain ⟨h1, h2⟩ := pair_inj (b := b.Sf) (row_lt hx hy) (row_lt hx' hy')
    (show k * b.Sf + (y * b.Lx + x) = k' * b.Sf + (y' * b.Lx + x') by omega)
  obtain ⟨h3, h4⟩ := pair_inj hx hx' h2
  exact ⟨h4, h3, h1⟩

theorem line_spec {b : Box} {m2 th : Heap ℕ ℝ} {g : Grad} {t0 : ℝ} (hx : 0 < b.Lx)
    (hg : ∀ k < b.nz, m2 (b.atBz k) = some (g.Gz k)) (ha : b.AllocT th) (h0 : th 0 = some t0) :
    ∃ th', line b m2 th = some th' ∧ (∀ k ≤ b.nz, th' (k * b.Sf) = some (t0 + path k g.Gz)) ∧
      (∀ a, (th' a).isSome = (th a).isSome) := by
  have hS : 0 < b.Sf := by unfold Box.Sf; positivity
  have hal : ∀ i ≤ b.nz, (th (i * b.Sf)).isSome := fun i hi => ha _ (Nat.mul_le_mul_right _ hi)
  obtain ⟨th', e1, e2, e3⟩ := prefix_spec (n := b.nz) (addr := fun k => k * b.Sf) (g := g.Gz)
    (f := lineStep b m2) (th := th) (t0 := t0) (by rw [Nat.zero_mul]; exact h0)
    (by
      intro t i hi
      unfold lineStep
      rw [show b.Sf + i * b.Sf - b.Sf = i * b.Sf by omega, hg i hi,
        show b.Sf + i * b.Sf = (i + 1) * b.Sf by ring]
      rfl)
    (fun i _ j _ h => Nat.eq_of_mul_eq_mul_right hS h) hal
  refine ⟨th', e1, e2, fun a => ?_⟩
  by_cases h : ∃ i ≤ b.nz, a = i * b.Sf
  · obtain ⟨i, hi, rfl⟩ := h
    rw [e2 i hi, hal i hi]; rfl
  · rw [e3 a fun i hi hc => h ⟨i, hi, hc⟩]

theorem foldlM_succ {σ : Type} (f : σ → ℕ → Option σ) (n : ℕ) (s : σ) :
    ((List.range n).map (· + 1)).foldlM f s = (List.range n).foldlM (fun s i => f s (i + 1)) s := by
  rw [List.foldlM_map]

theorem ySlice_spec {b : Box} {m2 th : Heap ℕ ℝ} {g : Grad} {k : ℕ} {t0 : ℝ} (hx : 0 < b.Lx)
    (hk : k < b.nz) (hg : b.Holds m2 g) (ha : b.AllocT th) (h0 : th (b.cell 0 0 k) = some t0) :
    ∃ th', ySlice b m2 th k = some th' ∧
      (∀ y < b.Lx, th' (b.cell 0 y k) = some (t0 + path y fun j => g.Gy j k)) ∧
      (∀ a, (∀ y < b.Lx, a ≠ b.cell 0 y k) → th' a = th a) := by
  obtain ⟨th', e1, e2, e3⟩ := prefix_spec (n := b.Lx - 1) (addr := fun y => b.cell 0 y k)
    (g := fun j => g.Gy j k) (f := fun t i => yStep b m2 k t (i + 1)) (th := th) (t0 := t0) h0
    (by
      intro t i hi
      unfold yStep
      rw [Nat.add_sub_cancel, hg.2.1 i (by omega) k hk]
      rfl)
    (fun i hi j hj h => (cell_inj hx (by omega) hx (by omega) h).2.1)
    (fun i hi => ha _ (cell_lt hx (by omega) hk).le)
  refine ⟨th', by unfold ySlice; rw [foldlM_succ]; exact e1, fun y hy => e2 y (by omega), ?_⟩
  intro a h
  exact e3 a fun y hy => h y (by omega)

theorem xRow_spec {b : Box} {m2 th : Heap ℕ ℝ} {g : Grad} {k y : ℕ} {t0 : ℝ} (hx : 0 < b.Lx)
    (hk : k < b.nz) (hy : y < b.Lx) (hg : b.Holds m2 g) (ha : b.AllocT th)
    (h0 : th (b.cell 0 y k) = some t0) :
    ∃ th', xRow b m2 k th y = some th' ∧
      (∀ x < b.Lx, th' (b.cell x y k) = some (t0 + path x fun i => g.Gx (b.cell i y k))) ∧
      (∀ a, (∀ x < b.Lx, a ≠ b.cell x y k) → th' a = th a) := by
  obtain ⟨th', e1, e2, e3⟩ := prefix_spec (n := b.Lx - 1) (addr := fun x => b.cell x y k)
    (g := fun i => g.Gx (b.cell i y k))
    (f := fun t i => xStep b m2 (k * b.Sf + y * b.Lx) t (i + 1)) (th := th) (t0 := t0) h0
    (by
      intro t i hi
      unfold xStep
      rw [show k * b.Sf + y * b.Lx + (i + 1) - 1 = b.cell i y k by unfold Box.cell; omega,
        hg.1 _ (cell_lt (by omega) hy hk)]
      rfl)
    (fun i hi j hj h => (cell_inj (by omega) hy (by omega) hy h).1)
    (fun i hi => ha _ (cell_lt (by omega) hy hk).le)
  refine ⟨th', by unfold xRow; rw [foldlM_succ]; exact e1, fun x h => e2 x (by omega), ?_⟩
  intro a h
  exact e3 a fun x hx => h x (by omega)

theorem xSlice_spec {b : Box} {m2 th : Heap ℕ ℝ} {g : Grad} {k : ℕ} {t0 : ℕ → ℝ} (hx : 0 < b.Lx)
    (hk : k < b.nz) (hg : b.Holds m2 g) (ha : b.AllocT th)
    (h0 : ∀ y < b.Lx, th (b.cell 0 y k) = some (t0 y)) :
    ∃ th', xSlice b m2 th k = some th' ∧
      (∀ y < b.Lx, ∀ x < b.Lx,
        th' (b.cell x y k) = some (t0 y + path x fun i => g.Gx (b.cell i y k))) ∧
      (∀ a, (∀ y < b.Lx, ∀ x < b.Lx, a ≠ b.cell x y k) → th' a = th a) ∧
      (∀ a, (th' a).isSome = (th a).isSome) := by
  obtain ⟨th', e1, e2, e3, e4⟩ := range_inv (f := xRow b m2 k) (s := th)
    (P := fun m t => (∀ y < m, ∀ x < b.Lx,
        t (b.cell x y k) = some (t0 y + path x fun i => g.Gx (b.cell i y k))) ∧
      (∀ a, (∀ y < m, ∀ x < b.Lx, a ≠ b.cell x y k) → t a = th a) ∧
      (∀ a, (t a).isSome = (th a).isSome)) b.Lx
    ⟨fun y hy => by omega, fun _ _ => rfl, fun _ => rfl⟩
    (by
      rintro m hm t ⟨t1, t2, t3⟩
      have hcur : t (b.cell 0 m k) = some (t0 m) := by
        rw [t2, h0 m hm]
        intro y hy x hx' hc
        have := (cell_inj hx hm hx' (by omega) hc).2.1
        omega
      obtain ⟨t', f1, f2, f3⟩ := xRow_spec hx hk hm hg (fun a h => by rw [t3]; exact ha a h) hcur
      refine ⟨t', f1, ?_, ?_, ?_⟩
      · intro y hy x hx'
        by_cases hc : y = m
        · subst hc; exact f2 x hx'
        · rw [f3 _ fun x' hx'' he => hc (cell_inj hx' (by omega) hx'' hm he).2.1]
          exact t1 y (by omega) x hx'
      · intro a h
        rw [f3 a (h m (by omega))]
        exact t2 a fun y hy => h y (by omega)
      · intro a
        by_cases h : ∃ x < b.Lx, a = b.cell x m k
        · obtain ⟨x, hx', rfl⟩ := h
          rw [f2 x hx', ha _ (cell_lt hx' hm hk).le]; rfl
        · rw [f3 a fun x hx' hc => h ⟨x, hx', hc⟩, t3])
  exact ⟨th', e1, e2, e3, e4⟩

/-- The volume of a rank from the first cells of its slices, for any order of the slices. -/
theorem volume_spec {b : Box} {m2 th : Heap ℕ ℝ} {g : Grad} {start : ℕ → ℝ} {ordY ordX : List ℕ}
    (hx : 0 < b.Lx) (hY : ordY.Perm (List.range b.nz)) (hX : ordX.Perm (List.range b.nz))
    (hg : b.Holds m2 g) (ha : b.AllocT th)
    (h0 : ∀ k < b.nz, th (b.cell 0 0 k) = some (start k)) :
    ∃ th', volume b m2 ordY ordX th = some th' ∧
      ∀ x < b.Lx, ∀ y < b.Lx, ∀ k < b.nz, th' (b.cell x y k) = some (b.angle g start x y k) := by
  have memY : ∀ i, i ∈ ordY ↔ i < b.nz := fun i => by rw [hY.mem_iff, List.mem_range]
  have memX : ∀ i, i ∈ ordX ↔ i < b.nz := fun i => by rw [hX.mem_iff, List.mem_range]
  have ndY : ordY.Nodup := hY.nodup_iff.2 List.nodup_range
  have ndX : ordX.Nodup := hX.nodup_iff.2 List.nodup_range
  obtain ⟨t, e1, e2, _, e4⟩ := foldlM_inv (f := ySlice b m2) (s := th)
    (P := fun pre t => (∀ k ∈ pre, ∀ y < b.Lx,
        t (b.cell 0 y k) = some (start k + path y fun j => g.Gy j k)) ∧
      (∀ a, (∀ k ∈ pre, ∀ y < b.Lx, a ≠ b.cell 0 y k) → t a = th a) ∧
      (∀ a, (t a).isSome = (th a).isSome)) ordY
    ⟨fun k hk => by simp at hk, fun _ _ => rfl, fun _ => rfl⟩
    (by
      rintro pre k post hL t ⟨t1, t2, t3⟩
      have hk : k < b.nz := (memY k).1 (by rw [hL]; simp)
      have hne : ∀ j ∈ pre, j ≠ k := by
        rintro j hj rfl
        rw [hL] at ndY
        exact (List.nodup_append.1 ndY).2.2 j hj j (by simp) rfl
      have hcur : t (b.cell 0 0 k) = some (start k) := by
        rw [t2, h0 k hk]
        intro j hj y hy hc
        exact hne j hj (cell_inj hx hx hx hy hc).2.2.symm
      obtain ⟨t', f1, f2, f3⟩ := ySlice_spec hx hk hg (fun a h => by rw [t3]; exact ha a h) hcur
      refine ⟨t', f1, ?_, ?_, ?_⟩
      · intro j hj y hy
        rcases List.mem_append.1 hj with hj | hj
        · rw [f3 _ fun y' hy' he => hne j hj (cell_inj hx hy hx hy' he).2.2]
          exact t1 j hj y hy
        · rw [List.mem_singleton] at hj
          subst hj; exact f2 y hy
      · intro a h
        rw [f3 a (h k (by simp))]
        exact t2 a fun j hj => h j (by simp [hj])
      · intro a
        by_cases h : ∃ y < b.Lx, a = b.cell 0 y k
        · obtain ⟨y, hy, rfl⟩ := h
          rw [f2 y hy, ha _ (cell_lt hx hy hk).le]; rfl
        · rw [f3 a fun y hy hc => h ⟨y, hy, hc⟩, t3])
  obtain ⟨t', d1, d2, _, _⟩ := foldlM_inv (f := xSlice b m2) (s := t)
    (P := fun pre t' => (∀ k ∈ pre, ∀ y < b.Lx, ∀ x < b.Lx,
        t' (b.cell x y k) = some (b.angle g start x y k)) ∧
      (∀ a, (∀ k ∈ pre, ∀ y < b.Lx, ∀ x < b.Lx, a ≠ b.cell x y k) → t' a = t a) ∧
      (∀ a, (t' a).isSome = (t a).isSome)) ordX
    ⟨fun k hk => by simp at hk, fun _ _ => rfl, fun _ => rfl⟩
    (by
      rintro pre k post hL t' ⟨t1, t2, t3⟩
      have hk : k < b.nz := (memX k).1 (by rw [hL]; simp)
      have hne : ∀ j ∈ pre, j ≠ k := by
        rintro j hj rfl
        rw [hL] at ndX
        exact (List.nodup_append.1 ndX).2.2 j hj j (by simp) rfl
      have hcur : ∀ y < b.Lx, t' (b.cell 0 y k) = some (start k + path y fun j => g.Gy j k) := by
        intro y hy
        rw [t2, e2 k ((memY k).2 hk) y hy]
        intro j hj y' hy' x' hx' hc
        exact hne j hj (cell_inj hx hy hx' hy' hc).2.2.symm
      obtain ⟨t'', f1, f2, f3, f4⟩ := xSlice_spec hx hk hg
        (fun a h => by rw [t3, e4]; exact ha a h) hcur
      refine ⟨t'', f1, ?_, ?_, ?_⟩
      · intro j hj y hy x hx'
        rcases List.mem_append.1 hj with hj | hj
        · rw [f3 _ fun y' hy' x' hx'' he => hne j hj (cell_inj hx' hy hx'' hy' he).2.2]
          exact t1 j hj y hy x hx'
        · rw [List.mem_singleton] at hj
          subst hj; exact f2 y hy x hx'
      · intro a h
        rw [f3 a (h k (by simp))]
        exact t2 a fun j hj => h j (by simp [hj])
      · intro a; rw [f4, t3])
  refine ⟨t', ?_, fun x hx' y hy k hk => d2 k ((memX k).2 hk) y hy x hx'⟩
  unfold volume
  rw [e1]
  exact d1

/-! ### The gradients in memory -/

theorem write_want {want : ℕ → ℝ} {m : Heap ℕ ℝ} {a : ℕ} (h : (m a).isSome) :
    ∃ m', m.write a (want a) = some m' ∧ m' a = some (want a) ∧
      (∀ c, m c = some (want c) → m' c = some (want c)) ∧ ∀ c, (m' c).isSome = (m c).isSome := by
  refine ⟨_, write_eq m a (want a) h, if_pos rfl, ?_, ?_⟩
  · intro c hc
    by_cases e : c = a
    · rw [if_pos e, e]
    · rw [if_neg e, hc]
  · intro c
    by_cases e : c = a
    · rw [if_pos e, e, h]; rfl
    · rw [if_neg e]

theorem coords {b : Box} {x y k : ℕ} (hx : x < b.Lx) (hy : y < b.Lx) :
    b.cell x y k % b.Sf % b.Lx = x ∧ b.cell x y k % b.Sf / b.Lx = y ∧ b.cell x y k / b.Sf = k := by
  obtain ⟨h1, h2⟩ := divmod_of (b := b.Sf) (q := k) (row_lt hx hy)
  obtain ⟨h3, h4⟩ := divmod_of (b := b.Lx) (q := y) hx
  rw [show b.cell x y k = k * b.Sf + (y * b.Lx + x) by unfold Box.cell; omega, h2, h3, h4, h1]
  exact ⟨rfl, rfl, rfl⟩

theorem cell_of {b : Box} {i : ℕ} (h : i < b.V) :
    i % b.Sf % b.Lx < b.Lx ∧ i % b.Sf / b.Lx < b.Lx ∧ i / b.Sf < b.nz ∧
      b.cell (i % b.Sf % b.Lx) (i % b.Sf / b.Lx) (i / b.Sf) = i := by
  have hS : 0 < b.Sf := by
    rcases Nat.eq_zero_or_pos b.Sf with h0 | h0
    · unfold Box.V at h; rw [h0, Nat.mul_zero] at h; omega
    · exact h0
  have hx : 0 < b.Lx := by
    rcases Nat.eq_zero_or_pos b.Lx with h0 | h0
    · unfold Box.Sf at hS; rw [h0] at hS; omega
    · exact h0
  refine ⟨Nat.mod_lt _ hx, ?_, ?_, ?_⟩
  · rw [Nat.div_lt_iff_lt_mul hx]; exact Nat.mod_lt _ hS
  · rw [Nat.div_lt_iff_lt_mul hS]; exact h
  · unfold Box.cell
    have h1 := Nat.div_add_mod (i % b.Sf) b.Lx
    have h2 := Nat.div_add_mod i b.Sf
    rw [Nat.mul_comm] at h1 h2
    omega

/-- What belongs at an address of `m2`. -/
def want (b : Box) (g : Grad) (a : ℕ) : ℝ :=
  if a < b.v3 then g.Gx a
  else if a < b.v3 + 2 * b.Sf then g.Gy ((a - b.v3) % b.Lx) ((a - b.v3) / b.Lx)
  else g.Gz (a - b.v3 - 2 * b.Sf)

theorem want_x {b : Box} {g : Grad} {i : ℕ} (h : i < b.v3) : want b g (b.atBx i) = g.Gx i := by
  unfold want Box.atBx
  rw [if_pos h]

theorem want_y {b : Box} {g : Grad} {y k : ℕ} (hy : y < b.Lx) (hk : k < 2 * b.Lx) :
    want b g (b.atBy y k) = g.Gy y k := by
  have h1 : k * b.Lx + y < 2 * b.Lx * b.Lx := pair_lt hk hy
  have h2 : y + b.Lx * k = k * b.Lx + y := by rw [Nat.mul_comm]; omega
  obtain ⟨h3, h4⟩ := divmod_of (b := b.Lx) (q := k) hy
  rw [← h2] at h3 h4
  unfold want Box.atBy Box.Sf
  rw [Nat.mul_assoc] at h1
  rw [if_neg (by omega), if_pos (by omega), show b.v3 + (y + b.Lx * k) - b.v3 = y + b.Lx * k by omega,
    h3, h4]

theorem want_z {b : Box} {g : Grad} {k : ℕ} : want b g (b.atBz k) = g.Gz k := by
  unfold want Box.atBz
  rw [if_neg (by omega), if_neg (by omega)]
  exact congrArg g.Gz (by omega)

theorem half_two (x : ℝ) : 0.5 * (2 * x) = x := by norm_num; ring

theorem gradAll_spec {b : Box} {pts : List Pt} {eps : List ℤ} {rank : ℕ} {order : List ℕ}
    {m2 : Heap ℕ ℝ} {g : Grad} (hg : b.IsGrad pts eps rank g) (ho : order.Perm (List.range b.V))
    (hv : b.V + 2 * b.Sf ≤ b.v3) (hd : b.nz ≤ 2 * b.Lx) (ha : b.Alloc2 m2) :
    ∃ m2', gradAll b pts eps rank order m2 = some m2' ∧ b.Holds m2' g := by
  have mem : ∀ i, i ∈ order ↔ i < b.V := fun i => by rw [ho.mem_iff, List.mem_range]
  obtain ⟨m2', e1, e2, e3⟩ := foldlM_inv (f := gradCell b pts eps rank) (s := m2)
    (P := fun pre t => (∀ i ∈ pre, t (b.atBx i) = some (want b g (b.atBx i)) ∧
        (i % b.Sf % b.Lx = 0 → t (b.atBy (i % b.Sf / b.Lx) (i / b.Sf)) =
            some (want b g (b.atBy (i % b.Sf / b.Lx) (i / b.Sf))) ∧
          (i % b.Sf / b.Lx = 0 → t (b.atBz (i / b.Sf)) = some (want b g (b.atBz (i / b.Sf)))))) ∧
      (∀ a, (t a).isSome = (m2 a).isSome)) order
    ⟨fun k hk => by simp at hk, fun _ => rfl⟩
    (by
      rintro pre i post hL t ⟨t1, t2⟩
      have hi : i < b.V := (mem i).1 (by rw [hL]; simp)
      obtain ⟨cx, cy, ck, ce⟩ := cell_of hi
      generalize hX : i % b.Sf % b.Lx = x at *
      generalize hY : i % b.Sf / b.Lx = y at *
      generalize hK : i / b.Sf = k at *
      have hLx : 0 < b.Lx := by omega
      have hV : b.nz ≤ b.V := by
        unfold Box.V Box.Sf
        exact Nat.le_mul_of_pos_right _ (Nat.mul_pos hLx hLx)
      have ax : (t (b.atBx i)).isSome := by
        rw [t2]; exact ha _ (by unfold Box.atBx; omega)
      have sx := hg.1 x cx y cy k ck
      rw [ce] at sx
      have wx : 0.5 * (2 * g.Gx i) = want b g (b.atBx i) := by
        rw [half_two, want_x (by omega)]
      obtain ⟨m1, p1, p2, p3, p4⟩ := write_want (want := want b g) ax
      unfold gradCell
      simp only [sx, Option.bind_eq_bind, Option.bind_some, wx, p1, hX, hY, hK]
      have keep : ∀ m : Heap ℕ ℝ, (∀ c, m1 c = some (want b g c) → m c = some (want b g c)) →
          (x = 0 → m (b.atBy y k) = some (want b g (b.atBy y k)) ∧
            (y = 0 → m (b.atBz k) = some (want b g (b.atBz k)))) →
          ∀ j ∈ pre ++ [i], m (b.atBx j) = some (want b g (b.atBx j)) ∧
            (j % b.Sf % b.Lx = 0 → m (b.atBy (j % b.Sf / b.Lx) (j / b.Sf)) =
                some (want b g (b.atBy (j % b.Sf / b.Lx) (j / b.Sf))) ∧
              (j % b.Sf / b.Lx = 0 → m (b.atBz (j / b.Sf)) =
                some (want b g (b.atBz (j / b.Sf))))) := by
        intro m hm hxy j hj
        rcases List.mem_append.1 hj with hj | hj
        · obtain ⟨q1, q2⟩ := t1 j hj
          exact ⟨hm _ (p3 _ q1), fun h => ⟨hm _ (p3 _ (q2 h).1), fun h' => hm _ (p3 _ ((q2 h).2 h'))⟩⟩
        · rw [List.mem_singleton] at hj
          subst hj
          rw [hX, hY, hK]
          exact ⟨hm _ p2, hxy⟩
      by_cases hx0 : x = 0
      · rw [if_pos hx0]
        have ay : (m1 (b.atBy y k)).isSome := by
          rw [p4, t2]
          have h1 : k * b.Lx + y < 2 * b.Lx * b.Lx := pair_lt (by omega) cy
          rw [Nat.mul_assoc] at h1
          have h2 : b.Lx * k = k * b.Lx := Nat.mul_comm _ _
          refine ha _ ?_
          unfold Box.atBy
          unfold Box.Sf at hv
          omega
        have sy := hg.2.1 y cy k ck
        rw [hx0] at ce
        rw [ce] at sy
        have wy : 0.5 * (2 * g.Gy y k) = want b g (b.atBy y k) := by
          rw [half_two, want_y cy (by omega)]
        obtain ⟨m3, r1, r2, r3, r4⟩ := write_want (want := want b g) ay
        simp only [sy, Option.bind_some, wy, r1]
        by_cases hy0 : y = 0
        · rw [if_pos hy0]
          have az : (m3 (b.atBz k)).isSome := by
            rw [r4, p4, t2]
            exact ha _ (by unfold Box.atBz; omega)
          have sz := hg.2.2 k ck
          rw [hy0] at ce
          rw [ce] at sz
          have wz : 0.5 * (2 * g.Gz k) = want b g (b.atBz k) := by rw [half_two, want_z]
          obtain ⟨m4, u1, u2, u3, u4⟩ := write_want (want := want b g) az
          simp only [sz, Option.bind_some, wz, u1]
          exact ⟨m4, rfl, keep m4 (fun c hc => u3 c (r3 c hc)) fun _ => ⟨u3 _ r2, fun _ => u2⟩,
            fun a => by rw [u4, r4, p4, t2]⟩
        · rw [if_neg hy0]
          exact ⟨m3, rfl, keep m3 r3 fun _ => ⟨r2, fun h => absurd h hy0⟩,
            fun a => by rw [r4, p4, t2]⟩
      · rw [if_neg hx0]
        exact ⟨m1, rfl, keep m1 (fun _ h => h) fun h => absurd h hx0, fun a => by rw [p4, t2]⟩)
  refine ⟨m2', e1, ?_, ?_, ?_⟩
  · intro i hi
    rw [(e2 i ((mem i).2 hi)).1, want_x (by omega)]
  · intro y hy k hk
    have hx : 0 < b.Lx := by omega
    obtain ⟨c1, c2, c3⟩ := coords (b := b) (k := k) hx hy
    obtain ⟨_, q⟩ := e2 _ ((mem _).2 (cell_lt hx hy hk))
    rw [c1, c2, c3] at q
    rw [(q rfl).1, want_y hy (by omega)]
  · intro k hk
    have hx : 0 < b.Lx := by omega
    obtain ⟨c1, c2, c3⟩ := coords (b := b) (k := k) hx hx
    obtain ⟨_, q⟩ := e2 _ ((mem _).2 (cell_lt hx hx hk))
    rw [c1, c2, c3] at q
    rw [(q rfl).2 rfl, want_z]

/-! ### Sums over the segments -/

theorem foldlM_sum {ι : Type} {f : ℝ → ι → Option ℝ} {t : ι → ℝ} (L : List ι)
    (h : ∀ i ∈ L, ∀ x, f x i = some (x + t i)) (x : ℝ) :
    L.foldlM f x = some (x + (L.map t).sum) := by
  induction L generalizing x with
  | nil => simp
  | cons i L ih =>
    rw [List.foldlM_cons, h i (by simp)]
    simp only [Option.bind_eq_bind, Option.bind_some]
    rw [ih (fun j hj => h j (by simp [hj])), List.map_cons, List.sum_cons, add_assoc]

theorem foldlM_none {ι σ : Type} {f : σ → ι → Option σ} (L : List ι) (i : ι) (hi : i ∈ L)
    (h : ∀ x, f x i = none) (x : σ) : L.foldlM f x = none := by
  induction L generalizing x with
  | nil => simp at hi
  | cons j L ih =>
    rw [List.foldlM_cons]
    rcases List.mem_cons.1 hi with rfl | hi
    · rw [h]; rfl
    · cases f x j with
      | none => rfl
      | some y => exact ih hi y

/-! ### The edge -/

theorem turn_spec {b : Box} {m2 w : ℕ → Heap ℕ ℝ} {g : ℕ → Grad} {c : ℕ} {t0 tb : ℝ}
    (hx : 0 < b.Lx) (hr : 2 ≤ b.ranks) (hc : c < b.ranks)
    (hg : ∀ k < b.nz, m2 c (b.atBz k) = some ((g c).Gz k)) (ha : b.AllocT (w c))
    (h0 : w c 0 = some t0) (hb : w ((c + b.ranks - 1) % b.ranks) (b.Sf * b.nz) = some tb) :
    ∃ w', turn b m2 w c = some w' ∧ (∀ r, r ≠ c → w' r = w r) ∧ w' c 0 = some tb ∧
      (∀ k, 1 ≤ k → k ≤ b.nz → w' c (k * b.Sf) = some (t0 + path k (g c).Gz)) := by
  have hS : 0 < b.Sf := by unfold Box.Sf; positivity
  obtain ⟨l, e1, e2, e3⟩ := line_spec hx hg ha h0
  have hne : (c + b.ranks - 1) % b.ranks ≠ c := by
    rcases Nat.eq_zero_or_pos c with h | h
    · subst h
      rw [Nat.mod_eq_of_lt (by omega)]; omega
    · rw [show c + b.ranks - 1 = c - 1 + b.ranks by omega, Nat.add_mod_right,
        Nat.mod_eq_of_lt (by omega)]
      omega
  have hal : (l 0).isSome := by rw [e3, h0]; rfl
  refine ⟨Function.update w c fun a => if a = 0 then some tb else l a, ?_, ?_, ?_, ?_⟩
  · unfold turn
    simp only [e1, Option.bind_eq_bind, Option.bind_some]
    rw [if_neg (by omega), Function.update_of_ne hne, hb]
    simp only [Option.bind_some, Function.update_self, Function.update_idem]
    rw [write_eq _ _ _ hal]
    rfl
  · intro r hr'
    rw [Function.update_of_ne hr']
  · rw [Function.update_self]; exact if_pos rfl
  · intro k hk hk'
    rw [Function.update_self]
    rw [if_neg (by have := Nat.mul_pos hk hS; omega), e2 k hk']

theorem edge_spec {b : Box} {m2 w : ℕ → Heap ℕ ℝ} {g : ℕ → Grad} {t0 : ℕ → ℝ} {tl : ℝ}
    (hx : 0 < b.Lx) (hz : 0 < b.nz) (hr : 2 ≤ b.ranks)
    (hg : ∀ c < b.ranks, ∀ k < b.nz, m2 c (b.atBz k) = some ((g c).Gz k))
    (ha : ∀ c < b.ranks, b.AllocT (w c)) (h0 : ∀ c < b.ranks, w c 0 = some (t0 c))
    (hl : w (b.ranks - 1) (b.Sf * b.nz) = some tl) :
    ∃ w', edge b m2 w = some w' ∧ ∀ c < b.ranks,
      w' c 0 = some (if c = 0 then tl else t0 (c - 1) + path b.nz (g (c - 1)).Gz) ∧
      (∀ k, 1 ≤ k → k ≤ b.nz → w' c (k * b.Sf) = some (t0 c + path k (g c).Gz)) := by
  obtain ⟨w', e1, e2, _⟩ := range_inv (f := turn b m2) (s := w)
    (P := fun m t => (∀ c < m,
        t c 0 = some (if c = 0 then tl else t0 (c - 1) + path b.nz (g (c - 1)).Gz) ∧
        (∀ k, 1 ≤ k → k ≤ b.nz → t c (k * b.Sf) = some (t0 c + path k (g c).Gz))) ∧
      (∀ c, m ≤ c → t c = w c)) b.ranks
    ⟨fun c hc => by omega, fun _ _ => rfl⟩
    (by
      rintro m hm t ⟨t1, t2⟩
      have hb : t ((m + b.ranks - 1) % b.ranks) (b.Sf * b.nz) =
          some (if m = 0 then tl else t0 (m - 1) + path b.nz (g (m - 1)).Gz) := by
        rcases Nat.eq_zero_or_pos m with h | h
        · subst h
          rw [if_pos rfl, Nat.mod_eq_of_lt (by omega), Nat.zero_add, t2 _ (by omega), hl]
        · rw [if_neg (by omega), show m + b.ranks - 1 = m - 1 + b.ranks by omega, Nat.add_mod_right,
            Nat.mod_eq_of_lt (by omega), Nat.mul_comm]
          exact (t1 (m - 1) (by omega)).2 b.nz hz (Nat.le_refl _)
      obtain ⟨t', f1, f2, f3, f4⟩ := turn_spec (g := g) hx hr hm (hg m hm)
        (by rw [t2 m (Nat.le_refl _)]; exact ha m hm) (by rw [t2 m (Nat.le_refl _)]; exact h0 m hm) hb
      refine ⟨t', f1, ?_, ?_⟩
      · intro c hc
        by_cases h : c = m
        · subst h; exact ⟨f3, f4⟩
        · rw [f2 c h]; exact t1 c (by omega)
      · intro c hc
        rw [f2 c (by omega)]; exact t2 c (by omega))
  exact ⟨w', e1, e2⟩

/-! ### The complex field -/

theorem expAll_spec {b : Box} {th : Heap ℕ ℝ} {mc : Heap ℕ ℂ} {order : List ℕ} {f : ℕ → ℝ}
    (ho : order.Perm (List.range b.V)) (ht : ∀ i < b.V, th i = some (f i))
    (hm : ∀ i < b.V, (mc i).isSome) :
    ∃ mc', order.foldlM (expCell th) mc = some mc' ∧
      ∀ i < b.V, mc' i = some (Complex.exp (f i * Complex.I)) := by
  have mem : ∀ i, i ∈ order ↔ i < b.V := fun i => by rw [ho.mem_iff, List.mem_range]
  obtain ⟨mc', e1, e2, _⟩ := foldlM_inv (f := expCell th) (s := mc)
    (P := fun pre t => (∀ i ∈ pre, t i = some (Complex.exp (f i * Complex.I))) ∧
      ∀ a, (t a).isSome = (mc a).isSome) order
    ⟨fun k hk => by simp at hk, fun _ => rfl⟩
    (by
      rintro pre i post hL t ⟨t1, t2⟩
      have hi : i < b.V := (mem i).1 (by rw [hL]; simp)
      have hs : (t i).isSome := by rw [t2]; exact hm i hi
      refine ⟨_, by unfold expCell; rw [ht i hi]; exact write_eq t i _ hs, ?_, ?_⟩
      · intro j hj
        by_cases e : j = i
        · subst e
          rw [if_pos rfl]
          congr 2
          apply Complex.ext <;> simp
        · rw [if_neg e]
          rcases List.mem_append.1 hj with hj | hj
          · exact t1 j hj
          · exact absurd (List.mem_singleton.1 hj) e
      · intro c
        by_cases e : c = i
        · rw [if_pos e, e, hm i hi]; rfl
        · rw [if_neg e, t2])
  exact ⟨mc', e1, fun i hi => e2 i ((mem i).2 hi)⟩

theorem zeroAll_spec {b : Box} {th : Heap ℕ ℝ} {order : List ℕ}
    (ho : order.Perm (List.range b.V)) (ht : ∀ a < 2 * b.V, (th a).isSome) :
    ∃ th', order.foldlM zeroCell th = some th' ∧ ∀ a < 2 * b.V, th' a = some 0 := by
  have mem : ∀ i, i ∈ order ↔ i < b.V := fun i => by rw [ho.mem_iff, List.mem_range]
  obtain ⟨th', e1, e2, _⟩ := foldlM_inv (f := zeroCell) (s := th)
    (P := fun pre t => (∀ i ∈ pre, t (2 * i) = some 0 ∧ t (2 * i + 1) = some 0) ∧
      ∀ a, (t a).isSome = (th a).isSome) order
    ⟨fun k hk => by simp at hk, fun _ => rfl⟩
    (by
      rintro pre i post hL t ⟨t1, t2⟩
      have hi : i < b.V := (mem i).1 (by rw [hL]; simp)
      obtain ⟨m1, p1, p2, p3, p4⟩ := write_want (want := fun _ => (0 : ℝ)) (m := t) (a := 2 * i)
        (by rw [t2]; exact ht _ (by omega))
      obtain ⟨m3, r1, r2, r3, r4⟩ := write_want (want := fun _ => (0 : ℝ)) (m := m1) (a := 2 * i + 1)
        (by rw [p4, t2]; exact ht _ (by omega))
      refine ⟨m3, by unfold zeroCell; simp only [p1, Option.bind_eq_bind, Option.bind_some, r1], ?_, ?_⟩
      · intro j hj
        rcases List.mem_append.1 hj with hj | hj
        · exact ⟨r3 _ (p3 _ (t1 j hj).1), r3 _ (p3 _ (t1 j hj).2)⟩
        · rw [List.mem_singleton] at hj
          subst hj
          exact ⟨r3 _ p2, r2⟩
      · intro a; rw [r4, p4, t2])
  refine ⟨th', e1, fun a h => ?_⟩
  obtain ⟨q1, q2⟩ := e2 (a / 2) ((mem _).2 (by omega))
  rcases Nat.mod_two_eq_zero_or_one a with h' | h'
  · rw [show a = 2 * (a / 2) by omega]; exact q1
  · rw [show a = 2 * (a / 2) + 1 by omega]; exact q2

/-! ### Segments -/

theorem int0_some {d : Pt} (h : ¬ Meets d) : int0 d.1 d.2.1 d.2.2 =
    some (∫ s in d.1..d.1 + 1, 1 / Real.sqrt (s ^ 2 + (d.2.1 ^ 2 + d.2.2 ^ 2)) ^ 3) := by
  by_cases ha : d.2.1 = 0 ∧ d.2.2 = 0
  · rw [ha.1, ha.2, show (0 : ℝ) ^ 2 + 0 ^ 2 = 0 by norm_num]
    refine int0_axis ?_
    by_contra hc
    rw [not_or, not_lt, not_lt] at hc
    exact h ⟨ha.1, ha.2, hc.2, hc.1⟩
  · exact int0_off (off_pos ha)

theorem link_spec {d : Pt} (v : Pt) (h : ¬ Meets d) :
    (int0 d.1 d.2.1 d.2.2).map (fun q => (v.2.1 * d.2.2 - v.2.2 * d.2.1) * q) =
      some (linkField v d) := by
  rw [int0_some h, Option.map_some]
  congr 1
  unfold linkField biot
  have e : ∀ s : ℝ, (v.2.1 * d.2.2 - v.2.2 * d.2.1) /
      Real.sqrt ((d.1 + s) ^ 2 + d.2.1 ^ 2 + d.2.2 ^ 2) ^ 3 = (v.2.1 * d.2.2 - v.2.2 * d.2.1) *
      (fun s => 1 / Real.sqrt (s ^ 2 + (d.2.1 ^ 2 + d.2.2 ^ 2)) ^ 3) (d.1 + s) := by
    intro s
    rw [add_assoc]
    ring
  simp only [e]
  rw [intervalIntegral.integral_const_mul]
  congr 1
  have := intervalIntegral.integral_comp_add_left (a := 0) (b := 1)
    (fun s => 1 / Real.sqrt (s ^ 2 + (d.2.1 ^ 2 + d.2.2 ^ 2)) ^ 3) d.1
  rw [add_zero] at this
  exact this.symm

theorem sep_eq (P Q X : Pt) : sep P Q X = (X.1 - 0.5 * (Q.1 + P.1), X.2.1 - 0.5 * (Q.2.1 + P.2.1),
    X.2.2 - 0.5 * (Q.2.2 + P.2.2)) := by
  unfold sep
  ext <;> (simp only; ring)

theorem mora_def (P Q X : Pt) : mora P Q X = if len2 (sep P Q X) < 1 then
      (List.range 10).foldlM (fun res i => (nearTerm (elem P Q) (sep P Q X) i).map fun t => res + t) 0
    else (int0 (sep P Q X).1 (sep P Q X).2.1 (sep P Q X).2.2).map fun q =>
      ((elem P Q).2.1 * (sep P Q X).2.2 - (elem P Q).2.2 * (sep P Q X).2.1) * q := by
  rw [sep_eq]
  rfl

theorem nearTerm_eq {P Q X : Pt} {i : ℕ} (h : ¬ Meets (sample P Q X (i / 10 - 1 / 2))) :
    nearTerm (elem P Q) (sep P Q X) i =
      some (0.1 * linkField (elem P Q) (sample P Q X (i / 10 - 1 / 2))) := by
  have h1 := link_spec (elem P Q) h
  have e : (-0.5 + (i : ℝ) / 10) = i / 10 - 1 / 2 := by ring
  unfold nearTerm
  dsimp only
  rw [e]
  unfold sample at h1 ⊢
  cases hq : int0 ((sep P Q X).1 + (elem P Q).1 * (i / 10 - 1 / 2))
      ((sep P Q X).2.1 + (elem P Q).2.1 * (i / 10 - 1 / 2))
      ((sep P Q X).2.2 + (elem P Q).2.2 * (i / 10 - 1 / 2)) with
  | none => rw [hq] at h1; simp at h1
  | some q =>
    rw [hq, Option.map_some, Option.some.injEq] at h1
    rw [Option.map_some, ← h1]
    congr 1
    ring

theorem elem_swap (P Q : Pt) : elem Q P = (-(elem P Q).1, -(elem P Q).2.1, -(elem P Q).2.2) := by
  unfold elem; ext <;> (simp only; ring)

theorem sep_swap (P Q X : Pt) : sep Q P X = sep P Q X := by
  unfold sep; rw [add_comm Q.1, add_comm Q.2.1, add_comm Q.2.2]

theorem link_neg (v r : Pt) : linkField (-v.1, -v.2.1, -v.2.2) r = -linkField v r := by
  unfold linkField
  rw [← intervalIntegral.integral_neg]
  congr 1
  funext s
  unfold biot
  ring

theorem sample_swap (P Q X : Pt) (u : ℝ) : sample Q P X u = sample P Q X (-u) := by
  unfold sample
  rw [sep_swap, elem_swap]
  ext <;> (simp only; ring)

theorem link_mid {v : Pt} {y z : ℝ} (h : 0 < y ^ 2 + z ^ 2) :
    linkField v (-(1 / 2), y, z) = (v.2.1 * z - v.2.2 * y) *
      (1 / ((y ^ 2 + z ^ 2) * Real.sqrt (y ^ 2 + z ^ 2 + 0.25))) := by
  have h1 := link_spec (d := (-(1 / 2), y, z)) v (by
    rintro ⟨a, b, _⟩
    dsimp only at a b
    rw [a, b] at h
    norm_num at h)
  unfold int0 quot at h1
  dsimp only at h1
  rw [if_pos (by norm_num), if_neg (by
    have : 0 < Real.sqrt (y ^ 2 + z ^ 2 + 0.25) := Real.sqrt_pos.2 (by linarith)
    positivity), Option.map_some, Option.some.injEq] at h1
  exact h1.symm

theorem getD_get {α : Type} {l : List α} {i : ℕ} (d : α) (h : i < l.length) : l.getD i d = l[i] := by
  rw [List.getD_eq_getElem?_getD, List.getElem?_eq_getElem h]
  rfl

theorem imageSum_range {pts : List Pt} {eps : List ℤ} {seg : Pt → Pt → ℝ} (d : Pt)
    (hl : eps.length = pts.length) (h0 : pts ≠ []) (hlast : eps.getLast? = some 1) :
    imageSum pts eps seg = ((List.range pts.length).map fun i =>
      if eps.getD i 0 = 1 then 0 else seg (pts.getD i d) (pts.getD (i + 1) d)).sum := by
  have hn : 0 < pts.length := List.length_pos_iff.2 h0
  obtain ⟨n, hn'⟩ : ∃ n, pts.length = n + 1 := ⟨pts.length - 1, by omega⟩
  have hend : eps.getD n 0 = 1 := by
    rw [List.getLast?_eq_getElem?, hl, hn', Nat.add_sub_cancel] at hlast
    rw [List.getD_eq_getElem?_getD, hlast]; rfl
  rw [hn', List.range_succ, List.map_append, List.sum_append, List.map_singleton, List.sum_singleton,
    if_pos hend, add_zero]
  unfold imageSum
  congr 1
  refine List.ext_getElem ?_ ?_
  · simp only [List.length_map, List.length_zip, List.length_tail, List.length_range, hl, hn']
    omega
  · intro i h1 h2
    rw [List.length_map, List.length_range] at h2
    rw [List.getElem_map, List.getElem_map, List.getElem_range]
    simp only [List.getElem_zip, List.getElem_tail]
    rw [getD_get _ (by omega), getD_get _ (by omega),
      getD_get _ (by omega)]

end Jaxions.AnyString
