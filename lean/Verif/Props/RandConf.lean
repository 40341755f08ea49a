import Verif.Lemmas.RandConf
import Mathlib.Analysis.Real.Pi.Bounds
/-
C67: point based initial conditions.
-/
noncomputable section

namespace Jaxions.RandConf

/-! ### The loop over the cells -/

/-- Whatever the order of the iterations and their distribution over threads, every cell of the rank
gets the value of its type at its coordinates, made of random numbers that no other cell uses; no
other memory is touched. -/
theorem C67_points {p : Prec} {K : Sub} {b : Box} {ic : Ic} {rank : ℕ} {draws : ℕ → ℕ → ℝ}
    {L : List (ℕ × ℕ)} {s : Drawing (Option ℂ)} (hL : Schedule b.V L) (ha : b.Allocated s.mem) :
    ∃ s', randConf p K b ic rank draws L s = some s' ∧
      (∃ ticket : ℕ → ℕ × ℕ,
        (∀ x < b.Lx, ∀ y < b.Lx, ∀ k < b.nz, s'.mem (b.cell x y k) =
          some (pointVal (inst p K) b ic x y (k + rank * b.Lz) fun i =>
            draws (ticket (b.cell x y k)).1 (s.used (ticket (b.cell x y k)).1 +
              nDraws (inst p K) * (ticket (b.cell x y k)).2 + i))) ∧
        (∀ i < b.V, ∀ j < b.V, ticket i = ticket j → i = j)) ∧
      (∀ a, b.V ≤ a → s'.mem a = s.mem a) := by
  obtain ⟨s', e1, ⟨tk, e2, e3⟩, e4⟩ := randConf_spec (p := p) (K := K) (ic := ic) (rank := rank)
    (draws := draws) hL ha
  refine ⟨s', e1, ⟨tk, ?_, e3⟩, e4⟩
  intro x hx y hy k hk
  rw [e2 _ (cell_lt hx hy hk)]
  obtain ⟨c1, c2, c3⟩ := coords (b := b) (k := k) (rank := rank) hx hy
  rw [c1, c2, c3]

example : Schedule (Box.mk 2 2 1 1).V [(0, 4), (1, 0), (0, 5), (1, 1), (0, 6), (1, 2), (1, 3), (0, 7)] := by
  unfold Schedule Box.V Box.nz Box.Sf
  decide

/-- The types without random numbers give the same field for every order and number of threads. -/
theorem C67_fixed {p : Prec} {K : Sub} {b : Box} {ic : Ic} {rank : ℕ} {draws draws' : ℕ → ℕ → ℝ}
    {L L' : List (ℕ × ℕ)} {s s₁ s₂ : Drawing (Option ℂ)} (hK : nDraws (inst p K) = 0)
    (hL : Schedule b.V L) (hL' : Schedule b.V L') (ha : b.Allocated s.mem)
    (h1 : randConf p K b ic rank draws L s = some s₁)
    (h2 : randConf p K b ic rank draws' L' s = some s₂) : s₁.mem = s₂.mem := by
  obtain ⟨t₁, e1, ⟨tk, e2, _⟩, e4⟩ := randConf_spec (p := p) (K := K) (ic := ic) (rank := rank)
    (draws := draws) hL ha
  obtain ⟨t₂, f1, ⟨tk', f2, _⟩, f4⟩ := randConf_spec (p := p) (K := K) (ic := ic) (rank := rank)
    (draws := draws') hL' ha
  rw [h1, Option.some.injEq] at e1
  rw [h2, Option.some.injEq] at f1
  subst e1; subst f1
  funext a
  by_cases h : a < b.V
  · rw [e2 a h, f2 a h]
    exact congrArg some (pointVal_fixed hK _ _ _ _ _ _ _)
  · rw [e4 a (by omega), f4 a (by omega)]

example : nDraws (inst .single .axiton) = 0 := rfl

/-! ### Several ranks -/

/-- The heights used by the loop are those of the slices exactly if there is one rank or the grid is
as deep as it is wide, up to the remainders of the divisions. -/
theorem C67_heights {b : Box} (hr : 0 < b.ranks) (hz : b.ranks ≤ b.Tz) (hx : 0 < b.Lx) :
    (∀ rank < b.ranks, ∀ x < b.Lx, ∀ y < b.Lx, ∀ k < b.nz,
      izOf b rank (b.cell x y k) = b.height rank k) ↔ b.ranks = 1 ∨ b.Lx / b.ranks = b.Tz / b.ranks := by
  constructor
  · intro h
    by_cases h1 : b.ranks = 1
    · exact Or.inl h1
    · have hnz : 0 < b.nz := Nat.div_pos hz hr
      have e := h 1 (by omega) 0 hx 0 hx 0 hnz
      rw [(coords hx hx).2.2] at e
      unfold Box.height Box.Lz Box.nz at e
      right; omega
  · intro h rank hrank x hx y hy k _
    rw [(coords hx hy).2.2]
    unfold Box.height Box.Lz Box.nz
    rcases h with h | h
    · have : rank = 0 := by omega
      subst this; omega
    · rw [h]; omega

/-- On a cubic grid the value at a point of the whole box is the same for every number of ranks. -/
theorem C67_ranks {p : Prec} {K : Sub} {n r r' : ℕ} {Lp : ℝ} {ic : Ic} {rank rank' k k' : ℕ}
    {draws draws' : ℕ → ℕ → ℝ} {L L' : List (ℕ × ℕ)} {s s₁ s' s₁' : Drawing (Option ℂ)}
    (hK : nDraws (inst p K) = 0)
    (hL : Schedule (Box.mk n n r Lp).V L) (hL' : Schedule (Box.mk n n r' Lp).V L')
    (ha : (Box.mk n n r Lp).Allocated s.mem) (ha' : (Box.mk n n r' Lp).Allocated s'.mem)
    (h1 : randConf p K ⟨n, n, r, Lp⟩ ic rank draws L s = some s₁)
    (h2 : randConf p K ⟨n, n, r', Lp⟩ ic rank' draws' L' s' = some s₁')
    {x y : ℕ} (hx : x < n) (hy : y < n) (hk : k < n / r) (hk' : k' < n / r')
    (hz : rank * (n / r) + k = rank' * (n / r') + k') :
    s₁.mem ((Box.mk n n r Lp).cell x y k) = s₁'.mem ((Box.mk n n r' Lp).cell x y k') := by
  obtain ⟨t₁, e1, ⟨tk, e2, _⟩, _⟩ := C67_points (p := p) (K := K) (ic := ic) (rank := rank)
    (draws := draws) hL ha
  obtain ⟨t₂, f1, ⟨tk', f2, _⟩, _⟩ := C67_points (p := p) (K := K) (ic := ic) (rank := rank')
    (draws := draws') hL' ha'
  rw [h1, Option.some.injEq] at e1
  rw [h2, Option.some.injEq] at f1
  subst e1; subst f1
  rw [e2 x hx y hy k hk, f2 x hx y hy k' hk']
  have hzz : k + rank * (Box.mk n n r Lp).Lz = k' + rank' * (Box.mk n n r' Lp).Lz := by
    show k + rank * (n / r) = k' + rank' * (n / r')
    omega
  rw [hzz]
  refine congrArg some ?_
  rw [pointVal_fixed hK _ _ _ _ _ _ (fun _ => 0)]
  rw [pointVal_fixed (b := ⟨n, n, r', Lp⟩) hK _ _ _ _ _ (fun _ => 0)]
  cases inst p K <;> rfl

example : 1 * (8 / 4) + 1 = 0 * (8 / 2) + 3 := by decide

/-- A grid twice as deep as wide on two ranks: the second rank starts at half its height. -/
theorem C67_deep_grid : izOf ⟨4, 8, 2, 1⟩ 1 ((Box.mk 4 8 2 1).cell 0 0 0) = 2 ∧
    (Box.mk 4 8 2 1).height 1 0 = 4 := by
  decide

/-! ### The documented angles -/

theorem mod0_zero {ic : Ic} (h : ic.mode0 ≤ 0) : ic.mod0 = 0 := by
  unfold Ic.mod0; rw [if_neg (not_lt.2 h)]

theorem mod0_one {ic : Ic} (h : 0 < ic.mode0) : ic.mod0 = 1 := by
  unfold Ic.mod0; rw [if_pos h]

/-- Except for the loops, only the sign of `mode0` matters. -/
theorem C67_mode0_sign {K : Sub} (hxy : K ≠ .stringxy) (hyz : K ≠ .stringyz) (b : Box) (ic : Ic)
    (m : ℝ) (hm : 0 < ic.mode0 ↔ 0 < m) (x y z : ℕ) (u : ℕ → ℝ) :
    pointVal K b { ic with mode0 := m } x y z u = pointVal K b ic x y z u := by
  have e : Ic.mod0 { ic with mode0 := m } = ic.mod0 := by
    by_cases h : 0 < ic.mode0
    · rw [mod0_one h]; exact mod0_one (hm.1 h)
    · rw [mod0_zero (not_lt.1 h)]; exact mod0_zero (not_lt.1 fun hc => h (hm.2 hc))
  have e2 : kCri2 b { ic with mode0 := m } = kCri2 b ic := rfl
  cases K <;> first | rfl | contradiction | (unfold pointVal; simp only [e, e2])

/-- The announced noise around `mode0` is what the code generates exactly if `mode0` equals the
truth value of `mode0 > 0` up to full turns. -/
theorem C67_noise_iff (b : Box) (ic : Ic) (x y z : ℕ) (u : ℕ → ℝ) :
    pointVal .axnoise b ic x y z u = some (unit (announced .axnoise b ic x y z (u 0))) ↔
      ∃ n : ℤ, ic.mode0 = ic.mod0 - 2 * Real.pi * n := by
  unfold pointVal announced
  rw [Option.some.injEq, unit_eq_iff]
  constructor
  · rintro ⟨n, hn⟩; exact ⟨n, by linarith⟩
  · rintro ⟨n, hn⟩; exact ⟨n, by linarith⟩

/-- For angles below a full turn: only 0 and 1. -/
theorem C67_noise_angles {ic : Ic} (h0 : 0 ≤ ic.mode0) (h1 : ic.mode0 < 2 * Real.pi) :
    (∃ n : ℤ, ic.mode0 = ic.mod0 - 2 * Real.pi * n) ↔ ic.mode0 = 0 ∨ ic.mode0 = 1 := by
  have hpi := Real.pi_gt_three
  constructor
  · rintro ⟨n, hn⟩
    rcases h0.eq_or_lt with h | h
    · exact Or.inl h.symm
    · right
      rw [mod0_one h] at hn
      have hlo : (-1 : ℝ) < n := by
        by_contra hc
        have : Real.pi * n ≤ Real.pi * (-1) := mul_le_mul_of_nonneg_left (not_lt.1 hc) Real.pi_pos.le
        nlinarith
      have hhi : (n : ℝ) < 1 := by
        by_contra hc
        have : Real.pi * 1 ≤ Real.pi * n := mul_le_mul_of_nonneg_left (not_lt.1 hc) Real.pi_pos.le
        nlinarith
      have a1 : (-1 : ℤ) < n := by exact_mod_cast hlo
      have a2 : n < (1 : ℤ) := by exact_mod_cast hhi
      have : n = 0 := by omega
      rw [hn, this]; simp
  · rintro (h | h)
    · exact ⟨0, by rw [mod0_zero h.le, h]; simp⟩
    · exact ⟨0, by rw [mod0_one (by rw [h]; norm_num), h]; simp⟩

example : (0 : ℝ) ≤ 0.5 ∧ (0.5 : ℝ) < 2 * Real.pi := by
  have := Real.pi_gt_three
  constructor <;> linarith

/-- The same for noise of the modulus, where the modulus is not zero. -/
theorem C67_saxion_noise_iff (b : Box) (ic : Ic) (x y z : ℕ) (u : ℕ → ℝ)
    (hu : u 0 * ic.kcr + 1 ≠ 0) :
    pointVal .saxnoise b ic x y z u =
        some (((1 + u 0 * ic.kcr : ℝ) : ℂ) * unit (announced .saxnoise b ic x y z (u 0))) ↔
      ∃ n : ℤ, ic.mode0 = ic.mod0 - 2 * Real.pi * n := by
  have e : pointVal .saxnoise b ic x y z u =
      some (((1 + u 0 * ic.kcr : ℝ) : ℂ) * unit ic.mod0) := by
    unfold pointVal unit
    dsimp only
    rw [Option.some.injEq]
    apply Complex.ext
    · rw [Complex.re_ofReal_mul]; ring
    · rw [Complex.im_ofReal_mul]; ring
  have hne : (((1 + u 0 * ic.kcr : ℝ)) : ℂ) ≠ 0 := by
    rw [Complex.ofReal_ne_zero, add_comm]; exact hu
  rw [e, Option.some.injEq, mul_right_inj' hne, unit_eq_iff]
  unfold announced
  constructor
  · rintro ⟨n, hn⟩; exact ⟨n, by linarith⟩
  · rintro ⟨n, hn⟩; exact ⟨n, by linarith⟩

example : (0.5 : ℝ) * 0.1 + 1 ≠ 0 := by norm_num

/-- Waves of the announced amplitude come out only for amplitudes 0 and 1. -/
theorem C67_wave_iff (b : Box) (ic : Ic) (u : ℕ → ℝ) (h0 : 0 ≤ ic.mode0)
    (h1 : ic.mode0 < 2 * Real.pi) :
    ((∀ x y z, pointVal .ax1mode b ic x y z u =
        some (unit (announced .ax1mode b ic x y z (u 0)))) ↔ ic.mode0 = 0 ∨ ic.mode0 = 1) ∧
    (ic.kcr ≠ 0 → ((∀ x y z, pointVal .parres b ic x y z u =
        some ((ic.kcr : ℂ) * unit (announced .parres b ic x y z (u 0)))) ↔
          ic.mode0 = 0 ∨ ic.mode0 = 1)) := by
  have hm : ic.mode0 = 0 ∨ ic.mode0 = 1 → ic.mode0 = ic.mod0 := by
    rintro (h | h)
    · rw [mod0_zero h.le, h]
    · rw [mod0_one (by rw [h]; norm_num), h]
  have back : unit ic.mod0 = unit ic.mode0 → ic.mode0 = 0 ∨ ic.mode0 = 1 := by
    intro h
    obtain ⟨n, hn⟩ := (unit_eq_iff _ _).1 h
    exact (C67_noise_angles h0 h1).1 ⟨n, by linarith⟩
  have ep : ∀ x y z, pointVal .parres b ic x y z u = some ((ic.kcr : ℂ) * unit (ic.mod0 *
      Real.cos (2 * Real.pi * (ic.kx * x + ic.ky * y + ic.kz * z) / b.Lx))) := by
    intro x y z
    unfold pointVal unit
    dsimp only
    rw [Option.some.injEq]
    have e : (x : ℝ) * ic.kx + y * ic.ky + z * ic.kz = ic.kx * x + ic.ky * y + ic.kz * z := by ring
    rw [e]
    apply Complex.ext
    · rw [Complex.re_ofReal_mul]
    · rw [Complex.im_ofReal_mul]
  refine ⟨⟨fun h => back ?_, fun h x y z => ?_⟩, fun hk => ⟨fun h => back ?_, fun h x y z => ?_⟩⟩
  · have := h 0 0 0
    unfold pointVal announced at this
    simpa using this
  · unfold pointVal announced
    rw [← hm h, mul_comm (x : ℝ)]
  · have := h 0 0 0
    rw [ep, Option.some.injEq, mul_right_inj' (Complex.ofReal_ne_zero.2 hk)] at this
    unfold announced at this
    simpa using this
  · rw [ep]
    unfold announced
    rw [← hm h]

/-! ### Bumps -/

/-- The minicluster is a Gaussian of width `kcr` in physical units around the centre of the planes
and the first slice, with the height 1 for any positive `mode0`. -/
theorem C67_minicluster {b : Box} {ic : Ic} {x y z : ℕ} (u : ℕ → ℝ) (hn : b.Lx < 2 ^ 31)
    (hx : x < b.Lx) (hy : y < b.Lx) (hz : z < b.Lx) :
    ∃ d : ℤ, Nearest b.Lx z d ∧ pointVal .minicluster b ic x y z u =
      some (unit (bump ic.mod0 ic.kcr (b.L / b.Lx * Real.sqrt (((x : ℝ) - (b.Lx / 2 : ℕ)) ^ 2 +
        ((y : ℝ) - (b.Lx / 2 : ℕ)) ^ 2 + (d : ℝ) ^ 2)))) := by
  refine ⟨folded b.Lx z, folded_nearest hz, ?_⟩
  rw [← centred2_eq hn hx hy hz]
  unfold pointVal bump
  dsimp only
  rw [gauss_arg (b := b) (ic := ic) _ (b.L / b.Lx * Real.sqrt (centred2 b x y z)) (by
    rw [mul_pow, Real.sq_sqrt (by positivity)]), mul_comm]

/-- Around the corner of the box, with the distance along every axis taken on the periodic box. -/
theorem C67_minicluster0 {b : Box} {ic : Ic} {x y z : ℕ} (u : ℕ → ℝ)
    (hx : x < b.Lx) (hy : y < b.Lx) (hz : z < b.Lx) :
    ∃ dx dy dz : ℤ, Nearest b.Lx x dx ∧ Nearest b.Lx y dy ∧ Nearest b.Lx z dz ∧
      pointVal .minicluster0 b ic x y z u = some (unit (bump ic.mod0 ic.kcr
        (b.L / b.Lx * Real.sqrt ((dx : ℝ) ^ 2 + (dy : ℝ) ^ 2 + (dz : ℝ) ^ 2)))) := by
  refine ⟨_, _, _, folded_nearest hx, folded_nearest hy, folded_nearest hz, ?_⟩
  have e : (corner2 b x y z : ℝ) = (folded b.Lx x : ℝ) ^ 2 + (folded b.Lx y : ℝ) ^ 2 +
      (folded b.Lx z : ℝ) ^ 2 := by
    unfold corner2; push_cast; ring
  rw [← e]
  have h0 : (0 : ℝ) ≤ corner2 b x y z := by rw [e]; positivity
  unfold pointVal bump
  dsimp only
  rw [gauss_arg (b := b) (ic := ic) _ (b.L / b.Lx * Real.sqrt (corner2 b x y z)) (by
    rw [mul_pow, Real.sq_sqrt h0]), mul_comm]

/-- The axiton in single precision: `mod0/(1 + r²/(2 kcr²))`. -/
theorem C67_axiton {b : Box} {ic : Ic} {x y z : ℕ} (u : ℕ → ℝ)
    (hx : x < b.Lx) (hy : y < b.Lx) (hz : z < b.Lx) :
    ∃ dx dy dz : ℤ, Nearest b.Lx x dx ∧ Nearest b.Lx y dy ∧ Nearest b.Lx z dz ∧
      pointVal (inst .single .axiton) b ic x y z u = some (unit (ic.mod0 / (1 +
        (b.L / b.Lx * Real.sqrt ((dx : ℝ) ^ 2 + (dy : ℝ) ^ 2 + (dz : ℝ) ^ 2)) ^ 2 /
          (2 * ic.kcr ^ 2)))) := by
  refine ⟨_, _, _, folded_nearest hx, folded_nearest hy, folded_nearest hz, ?_⟩
  have e := gauss_arg (b := b) (ic := ic) ((folded b.Lx x : ℝ) ^ 2 + (folded b.Lx y : ℝ) ^ 2 +
    (folded b.Lx z : ℝ) ^ 2) (b.L / b.Lx * Real.sqrt ((folded b.Lx x : ℝ) ^ 2 +
      (folded b.Lx y : ℝ) ^ 2 + (folded b.Lx z : ℝ) ^ 2)) (by
    rw [mul_pow, Real.sq_sqrt (by positivity)])
  rw [neg_mul, neg_div, neg_inj] at e
  rw [← e]
  show some (unit (ic.mod0 / ((corner2 b x y z : ℝ) * kCri2 b ic + 1))) = _
  unfold corner2
  push_cast
  congr 3
  ring

example : Nearest 8 6 (-2) ∧ Nearest 8 4 4 :=
  ⟨⟨⟨-1, by norm_num⟩, by norm_num, by norm_num⟩, ⟨⟨0, by norm_num⟩, by norm_num, by norm_num⟩⟩

/-- In double precision the axiton is replaced by a plane wave: where the wave vector is orthogonal
to the position the phase is `mod0` at any distance, and the modulus is `kcr`. -/
theorem C67_axiton_double {b : Box} {ic : Ic} {x y z : ℕ} (u : ℕ → ℝ)
    (h : (x : ℝ) * ic.kx + y * ic.ky + z * ic.kz = 0) :
    pointVal (inst .double .axiton) b ic x y z u = some ((ic.kcr : ℂ) * unit ic.mod0) := by
  show pointVal .parres b ic x y z u = _
  unfold pointVal unit
  dsimp only
  rw [h, mul_zero, zero_div, Real.cos_zero, mul_one, Option.some.injEq]
  apply Complex.ext
  · rw [Complex.re_ofReal_mul]
  · rw [Complex.im_ofReal_mul]

/-- So with positive `mode0` the two precisions disagree at every point off the origin on that plane. -/
theorem C67_axiton_differs {b : Box} {ic : Ic} {x y z : ℕ} (u : ℕ → ℝ) (hm : 0 < ic.mode0)
    (hk : ic.kcr = 1) (hL : b.L ≠ 0) (hx : x < b.Lx) (hy : y < b.Lx) (hz : z < b.Lx)
    (hne : (x, y, z) ≠ (0, 0, 0)) (h : (x : ℝ) * ic.kx + y * ic.ky + z * ic.kz = 0) :
    pointVal (inst .double .axiton) b ic x y z u ≠ pointVal (inst .single .axiton) b ic x y z u := by
  obtain ⟨dx, dy, dz, n1, n2, n3, e⟩ := C67_axiton (ic := ic) u hx hy hz
  rw [e, C67_axiton_double u h, mod0_one hm, hk]
  intro hc
  rw [Option.some.injEq, Complex.ofReal_one, one_mul] at hc
  have nz : ∀ {i : ℕ} {d : ℤ}, i < b.Lx → Nearest b.Lx i d → d = 0 → i = 0 := by
    rintro i d hi ⟨⟨k, hk⟩, _, _⟩ rfl
    have hki : (i : ℤ) = (-k) * b.Lx := by linarith
    have hL0 : (0 : ℤ) < b.Lx := by omega
    have h1 : -k < 1 := by
      by_contra hcc
      have : 1 * (b.Lx : ℤ) ≤ (-k) * b.Lx := mul_le_mul_of_nonneg_right (by omega) hL0.le
      omega
    have h2 : -1 < -k := by
      by_contra hcc
      have : (-k) * (b.Lx : ℤ) ≤ (-1) * b.Lx := mul_le_mul_of_nonneg_right (by omega) hL0.le
      omega
    have : -k = 0 := by omega
    rw [this, zero_mul] at hki
    omega
  have hd : 0 < (dx : ℝ) ^ 2 + (dy : ℝ) ^ 2 + (dz : ℝ) ^ 2 := by
    by_contra hcc
    have q1 := sq_nonneg (dx : ℝ)
    have q2 := sq_nonneg (dy : ℝ)
    have q3 := sq_nonneg (dz : ℝ)
    have z1 : dx = 0 := by exact_mod_cast pow_eq_zero_iff (two_ne_zero) |>.1 (by linarith : (dx : ℝ) ^ 2 = 0)
    have z2 : dy = 0 := by exact_mod_cast pow_eq_zero_iff (two_ne_zero) |>.1 (by linarith : (dy : ℝ) ^ 2 = 0)
    have z3 : dz = 0 := by exact_mod_cast pow_eq_zero_iff (two_ne_zero) |>.1 (by linarith : (dz : ℝ) ^ 2 = 0)
    exact hne (by rw [nz hx n1 z1, nz hy n2 z2, nz hz n3 z3])
  have hLx : (0 : ℝ) < b.Lx := by exact_mod_cast (by omega : 0 < b.Lx)
  have hr : 0 < (b.L / b.Lx * Real.sqrt ((dx : ℝ) ^ 2 + (dy : ℝ) ^ 2 + (dz : ℝ) ^ 2)) ^ 2 /
      (2 * (1 : ℝ) ^ 2) := by
    rw [mul_pow, Real.sq_sqrt hd.le]
    have : b.L / b.Lx ≠ 0 := div_ne_zero hL hLx.ne'
    positivity
  generalize (b.L / b.Lx * Real.sqrt ((dx : ℝ) ^ 2 + (dy : ℝ) ^ 2 + (dz : ℝ) ^ 2)) ^ 2 /
      (2 * (1 : ℝ) ^ 2) = q at hr hc
  obtain ⟨n, hn⟩ := (unit_eq_iff _ _).1 hc
  have hpi := Real.pi_gt_three
  have g1 : 1 / (1 + q) < 1 := by rw [div_lt_one (by linarith)]; linarith
  have g2 : 0 < 1 / (1 + q) := by positivity
  have a1 : (0 : ℝ) < n := by
    by_contra hcc
    have : Real.pi * n ≤ Real.pi * 0 := mul_le_mul_of_nonneg_left (not_lt.1 hcc) Real.pi_pos.le
    nlinarith
  have a2 : (n : ℝ) < 1 := by
    by_contra hcc
    have : Real.pi * 1 ≤ Real.pi * n := mul_le_mul_of_nonneg_left (not_lt.1 hcc) Real.pi_pos.le
    nlinarith
  have b1 : 0 < n := by exact_mod_cast a1
  have b2 : n < 1 := by exact_mod_cast a2
  omega

example : ((0 : ℕ) : ℝ) * 2 + (3 : ℕ) * 0 + (1 : ℕ) * 0 = 0 := by norm_num

/-! ### Loops -/

/-- The phase of a loop: strictly between 0 and a half turn off the plane, a half turn on the disc,
zero outside it. -/
theorem C67_loop_share {a ρ z : ℝ} (ha : 0 < a) :
    (z ≠ 0 → 0 < share a ρ z ∧ share a ρ z < 1) ∧ (|ρ| < a → share a ρ 0 = 1) ∧
      (a < |ρ| → share a ρ 0 = 0) :=
  ⟨share_between ha, share_inside, share_outside ha⟩

/-- The field of a loop is continuous everywhere off the circle; the phase jumps by a full turn on
the disc. -/
theorem C67_loop_continuous {a : ℝ} (ha : 0 < a) {q : ℝ × ℝ} (h : ¬ (q.2 = 0 ∧ |q.1| = a)) :
    ContinuousAt (loopField a) q ∧ ‖loopField a q‖ = 1 := by
  refine ⟨loopField_cont ha h, ?_⟩
  unfold loopField
  split <;> exact unit_norm _

example : ¬ (((1 : ℝ), (0 : ℝ)).2 = 0 ∧ |((1 : ℝ), (0 : ℝ)).1| = 2) := by norm_num

/-- The height above the plane of the loop is the one on the periodic box. -/
theorem C67_loop_height {b : Box} {ic : Ic} {z : ℕ} (hz : z < b.Tz) (h0 : 0 ≤ ic.kCrit)
    (h1 : ic.kCrit ≤ b.Tz) :
    (∃ k : ℤ, zisOf b ic z = z - ic.kCrit + k * b.Tz) ∧ |zisOf b ic z| ≤ b.Tz / 2 := by
  have hz' : (z : ℝ) < b.Tz := by exact_mod_cast hz
  have hz0 : (0 : ℝ) ≤ z := Nat.cast_nonneg z
  unfold zisOf
  dsimp only
  rw [abs_le]
  by_cases c1 : (z : ℝ) - ic.kCrit > b.Tz / 2
  · rw [if_pos c1]
    by_cases c2 : -((z : ℝ) - ic.kCrit - b.Tz) > b.Tz / 2
    · exact absurd c2 (by linarith)
    · rw [if_neg c2]
      exact ⟨⟨-1, by push_cast; ring⟩, by linarith, by linarith⟩
  · rw [if_neg c1]
    by_cases c2 : -((z : ℝ) - ic.kCrit) > b.Tz / 2
    · rw [if_pos c2]
      exact ⟨⟨1, by push_cast; ring⟩, by linarith, by linarith⟩
    · rw [if_neg c2]
      exact ⟨⟨0, by push_cast; ring⟩, by linarith, by linarith⟩

example : (0 : ℝ) ≤ 3 ∧ (3 : ℝ) ≤ ((8 : ℕ) : ℝ) := by norm_num

/-- The loop in the XY plane: the code samples the field of a loop of radius `strR Lx` around the
centre of the plane at height `kCrit`, if heights are whole numbers; at a point on the circle it
divides by zero. -/
theorem C67_loop_xy {b : Box} {ic : Ic} {x y z : ℕ} (u : ℕ → ℝ) (hn : b.Lx < 2 ^ 31)
    (hx : x < b.Lx) (hy : y < b.Lx)
    (hs : zisOf b ic z ≤ 0 ∨ 0.01 < zisOf b ic z) :
    pointVal .stringxy b ic x y z u =
      if zisOf b ic z = 0 ∧ Real.sqrt (((x : ℝ) - (b.Lx / 2 : ℕ)) ^ 2 +
          ((y : ℝ) - (b.Lx / 2 : ℕ)) ^ 2) = b.Lx * ic.strR then none
      else some (loopField (b.Lx * ic.strR) (Real.sqrt (((x : ℝ) - (b.Lx / 2 : ℕ)) ^ 2 +
          ((y : ℝ) - (b.Lx / 2 : ℕ)) ^ 2), zisOf b ic z)) := by
  have ha : 0 < (b.Lx : ℝ) * ic.strR :=
    mul_pos (by exact_mod_cast (by omega : 0 < b.Lx)) (strR_pos ic)
  show loopXY b ic x y z = _
  unfold loopXY
  dsimp only
  rw [rho2XY_eq hn hx hy, loopAngle_eq ha, abs_of_nonneg (Real.sqrt_nonneg _)]
  generalize Real.sqrt (((x : ℝ) - (b.Lx / 2 : ℕ)) ^ 2 + ((y : ℝ) - (b.Lx / 2 : ℕ)) ^ 2) = ρ
  generalize zisOf b ic z = h at *
  generalize (b.Lx : ℝ) * ic.strR = a at *
  by_cases hc : h = 0 ∧ ρ = a
  · rw [if_pos hc, if_pos hc]; rfl
  · rw [if_neg hc, if_neg hc]
    unfold loopField
    show (if |-0.01 + h| = 0 then none
      else some (unit (Real.pi * share a ρ h * (-0.01 + h) / |-0.01 + h|))) = _
    rcases hs with hs | hs
    · have hneg : -0.01 + h < 0 := by linarith
      rw [abs_of_neg hneg, if_neg (by linarith), if_neg (not_lt.2 hs)]
      congr 2
      have : -0.01 + h ≠ 0 := hneg.ne
      rw [mul_div_assoc, div_neg, div_self this]; ring
    · have hpos : 0 < -0.01 + h := by linarith
      rw [abs_of_pos hpos, if_neg (by linarith), if_pos (by linarith)]
      congr 2
      have : -0.01 + h ≠ 0 := hpos.ne'
      rw [mul_div_assoc, div_self this]; ring

example : zisOf ⟨8, 8, 1, 1⟩ ⟨0, 1, 1, 1, 0, 0, 3⟩ 1 ≤ 0 := by
  unfold zisOf; norm_num

/-- Loop in the YZ plane through the first slice. -/
theorem C67_loop_yz {b : Box} {ic : Ic} {x y z : ℕ} (u : ℕ → ℝ) (hn : b.Lx < 2 ^ 31)
    (hx : x < b.Lx) (hy : y < b.Lx) (hz : z < b.Lx) :
    ∃ d : ℤ, Nearest b.Lx z d ∧ pointVal .stringyz b ic x y z u =
      if x = b.Lx / 2 ∧ Real.sqrt ((d : ℝ) ^ 2 + ((y : ℝ) - (b.Lx / 2 : ℕ)) ^ 2) =
          b.Lx * ic.strR then none
      else some (loopField (b.Lx * ic.strR) (Real.sqrt ((d : ℝ) ^ 2 +
          ((y : ℝ) - (b.Lx / 2 : ℕ)) ^ 2), ((b.Lx / 2 : ℕ) : ℝ) - x)) := by
  have ha : 0 < (b.Lx : ℝ) * ic.strR :=
    mul_pos (by exact_mod_cast (by omega : 0 < b.Lx)) (strR_pos ic)
  refine ⟨folded b.Lx z, folded_nearest hz, ?_⟩
  show loopYZ b ic x y z = _
  unfold loopYZ
  dsimp only
  rw [rho2YZ_eq hn hy hz, x2YZ_eq hn hx, loopAngle_eq ha, abs_of_nonneg (Real.sqrt_nonneg _)]
  have hρ := Real.sqrt_nonneg ((folded b.Lx z : ℝ) ^ 2 + ((y : ℝ) - (b.Lx / 2 : ℕ)) ^ 2)
  generalize Real.sqrt ((folded b.Lx z : ℝ) ^ 2 + ((y : ℝ) - (b.Lx / 2 : ℕ)) ^ 2) = ρ at *
  generalize (b.Lx : ℝ) * ic.strR = a at *
  generalize b.Lx / 2 = c
  have hcast : (c : ℝ) - x = 0 ↔ x = c := by
    rw [sub_eq_zero, Nat.cast_inj, eq_comm]
  by_cases hc : x = c ∧ ρ = a
  · rw [if_pos ⟨hcast.2 hc.1, hc.2⟩, if_pos hc]; rfl
  · rw [if_neg (fun h => hc ⟨hcast.1 h.1, h.2⟩), if_neg hc]
    unfold loopField
    show some (unit (if x > c then -(Real.pi * share a ρ (c - x)) else Real.pi * share a ρ (c - x))) = _
    rcases Nat.lt_trichotomy x c with h | h | h
    · have h' : (0 : ℝ) < c - x := sub_pos.2 (by exact_mod_cast h)
      rw [if_neg (by omega), if_pos h']
    · subst h
      rw [if_neg (by omega), if_neg (by simp)]
      dsimp only
      rw [sub_self, ← unit_share_plane ha]
      intro he
      exact hc ⟨rfl, by rwa [abs_of_nonneg hρ] at he⟩
    · have h' : ¬ (0 : ℝ) < c - x := not_lt.2 (sub_nonpos.2 (by exact_mod_cast h.le))
      rw [if_pos h, if_neg h']

/-- With the documented radius of a quarter of the side there are points on the circle: the centre
of the string is on the lattice and the field there is not a number. -/
theorem C67_loop_quarter {b : Box} {ic : Ic} {q z : ℕ} (u : ℕ → ℝ) (hq : 0 < q) (hb : b.Lx = 4 * q)
    (hn : b.Lx < 2 ^ 31) (hm : ic.mode0 = 0.25) (hz : ic.kCrit = z) (hT : z < b.Tz) :
    pointVal .stringxy b ic (3 * q) (2 * q) z u = none := by
  have hs : zisOf b ic z = 0 := by
    unfold zisOf
    dsimp only
    have : (0 : ℝ) < b.Tz := by exact_mod_cast (by omega : 0 < b.Tz)
    rw [hz, sub_self, if_neg (show ¬ (0 : ℝ) > b.Tz / 2 by linarith), if_neg (by linarith)]
  rw [C67_loop_xy u hn (by omega) (by omega) (Or.inl hs.le), if_pos]
  refine ⟨hs, ?_⟩
  have h2 : b.Lx / 2 = 2 * q := by omega
  have hR : ic.strR = 0.25 := by
    unfold Ic.strR; rw [hm, if_pos (by norm_num)]
  rw [h2, hR, hb]
  have : ((3 * q : ℕ) - (2 * q : ℕ) : ℝ) ^ 2 + ((2 * q : ℕ) - (2 * q : ℕ) : ℝ) ^ 2 = (q : ℝ) ^ 2 := by
    push_cast; ring
  rw [this, Real.sqrt_sq (Nat.cast_nonneg q)]
  push_cast; ring

example : (Box.mk 16 16 1 1).Lx = 4 * 4 := rfl

/-- The default radius avoids the lattice: no site divides by zero for sides below 10000. -/
theorem C67_loop_default {b : Box} {ic : Ic} {x y z : ℕ} (u : ℕ → ℝ) (hn : b.Lx < 10000)
    (hm : ic.mode0 ≤ 0) (hx : x < b.Lx) (hy : y < b.Lx)
    (hs : zisOf b ic z ≤ 0 ∨ 0.01 < zisOf b ic z) :
    (pointVal .stringxy b ic x y z u).isSome := by
  rw [C67_loop_xy u (by omega) hx hy hs, if_neg]
  · rfl
  rintro ⟨_, h⟩
  have hR : ic.strR = 0.2501 := by
    unfold Ic.strR; rw [if_neg (not_lt.2 hm)]
  rw [hR] at h
  generalize b.Lx / 2 = c at h
  have h2 : ((x : ℝ) - c) ^ 2 + ((y : ℝ) - c) ^ 2 = (b.Lx * 0.2501) ^ 2 := by
    rw [← h, Real.sq_sqrt (by positivity)]
  have h3 : ((10000 ^ 2 * (((x : ℤ) - c) ^ 2 + ((y : ℤ) - c) ^ 2) : ℤ) : ℝ) =
      (((2501 * b.Lx : ℤ) ^ 2 : ℤ) : ℝ) := by
    push_cast
    rw [h2]; ring
  have h4 : (10000 : ℤ) ^ 2 ∣ (2501 * b.Lx : ℤ) ^ 2 := ⟨_, (Int.cast_injective h3).symm⟩
  have h5 : (10000 : ℤ) ∣ 2501 * b.Lx := (Int.pow_dvd_pow_iff two_ne_zero).1 h4
  omega

example : zisOf ⟨8, 8, 1, 1⟩ ⟨0, 1, 1, 1, 0, 0, 3⟩ 5 = 2 := by
  unfold zisOf; norm_num

/-! ### Straight strings -/

theorem waveColumn_eq (b : Box) (ic : Ic) (m : Heap ℕ (Option ℂ)) (idx : ℕ) :
    waveColumn b ic m idx = updCells (fun z : Option ℂ => z.map fun z =>
      z * unit (waveAngle b ic (idx % b.Sf % b.Lx) (idx % b.Sf / b.Lx)))
      (fun iz => idx + iz * b.Sf) b.Lz m := rfl

theorem column_inj {S i j k l : ℕ} (hi : i < S) (hj : j < S) (h : i + k * S = j + l * S) :
    i = j ∧ k = l := by
  have := pair_inj (b := S) (q := k) (q' := l) hi hj (by omega)
  omega

/-- Straight strings multiply the field found in memory in the first `Lx/ranks` slices; other slices
are left alone. -/
theorem C67_strwave {b : Box} {ic : Ic} {order : List ℕ} {m : Heap ℕ (Option ℂ)}
    (ho : order.Perm (List.range b.Sf)) (hm : ∀ a < b.Lz * b.Sf, (m a).isSome) :
    ∃ m', strWave b ic order m = some m' ∧
      (∀ x < b.Lx, ∀ y < b.Lx, ∀ k < b.Lz, m' (b.cell x y k) =
        (m (b.cell x y k)).map fun z => z.map (· * unit (waveAngle b ic x y))) ∧
      (∀ a, b.Lz * b.Sf ≤ a → m' a = m a) := by
  have hmem : ∀ i, i ∈ order ↔ i < b.Sf := fun i => by rw [ho.mem_iff, List.mem_range]
  have hnd : order.Nodup := ho.nodup_iff.2 List.nodup_range
  obtain ⟨m', e1, e2, e3, _⟩ := foldlM_inv (f := waveColumn b ic) (s := m)
    (P := fun pre t =>
      (∀ i ∈ pre, ∀ k < b.Lz, t (i + k * b.Sf) = (m (i + k * b.Sf)).map fun z => z.map
        (· * unit (waveAngle b ic (i % b.Sf % b.Lx) (i % b.Sf / b.Lx)))) ∧
      (∀ a, (∀ i ∈ pre, ∀ k < b.Lz, a ≠ i + k * b.Sf) → t a = m a) ∧
      (∀ a, (t a).isSome = (m a).isSome)) order
    ⟨fun i hi => by simp at hi, fun _ _ => rfl, fun _ => rfl⟩
    (by
      rintro pre i post hL t ⟨t1, t2, t3⟩
      have hi : i < b.Sf := (hmem i).1 (by rw [hL]; simp)
      have hpre : ∀ j ∈ pre, j < b.Sf ∧ j ≠ i := by
        intro j hj
        refine ⟨(hmem j).1 (by rw [hL]; simp [hj]), ?_⟩
        rintro rfl
        rw [hL] at hnd
        exact (List.nodup_append.1 hnd).2.2 j hj j (by simp) rfl
      have hal : ∀ k < b.Lz, (t (i + k * b.Sf)).isSome := by
        intro k hk
        rw [t3]
        refine hm _ ?_
        have := pair_lt (b := b.Sf) hk hi
        omega
      obtain ⟨t', f1, f2, f3⟩ := updCells_spec (fun z : Option ℂ => z.map fun z =>
        z * unit (waveAngle b ic (i % b.Sf % b.Lx) (i % b.Sf / b.Lx)))
        (fun iz => i + iz * b.Sf) b.Lz t hal (fun k _ l _ h => (column_inj hi hi h).2)
      have hcur : ∀ k < b.Lz, t (i + k * b.Sf) = m (i + k * b.Sf) := by
        intro k hk
        refine t2 _ ?_
        intro j hj l hl hc
        exact (hpre j hj).2 (column_inj hi (hpre j hj).1 hc).1.symm
      refine ⟨t', by rw [waveColumn_eq]; exact f1, ?_, ?_, ?_⟩
      · intro j hj k hk
        rcases List.mem_append.1 hj with hj | hj
        · rw [f3 _ (fun l hl hc => (hpre j hj).2 (column_inj (hpre j hj).1 hi hc).1)]
          exact t1 j hj k hk
        · rw [List.mem_singleton] at hj
          subst hj
          rw [f2 k hk, hcur k hk]
      · intro a ha
        rw [f3 a (fun k hk => ha i (by simp) k hk)]
        exact t2 a fun j hj k hk => ha j (by simp [hj]) k hk
      · intro a
        by_cases h : ∃ k < b.Lz, a = i + k * b.Sf
        · obtain ⟨k, hk, rfl⟩ := h
          rw [f2 k hk, Option.isSome_map, t3]
        · rw [f3 a (fun k hk hc => h ⟨k, hk, hc⟩), t3])
  refine ⟨m', e1, ?_, ?_⟩
  · intro x hx y hy k hk
    have h1 : y * b.Lx + x < b.Sf := by
      unfold Box.Sf
      exact pair_lt hy hx
    have e : b.cell x y k = (y * b.Lx + x) + k * b.Sf := by unfold Box.cell; ring
    rw [e, e2 _ ((hmem _).2 h1) k hk, Nat.mod_eq_of_lt h1, mod_of hx, div_of hx]
  · intro a ha
    refine e3 a ?_
    intro i hi k hk hc
    have := pair_lt (b := b.Sf) hk ((hmem i).1 hi)
    omega

example : [3, 1, 0, 2].Perm (List.range (Box.mk 2 2 1 1).Sf) := by
  unfold Box.Sf; decide

/-- From cleared memory the strings are lost: the field is zero. -/
theorem C67_strwave_zero {b : Box} {ic : Ic} {order : List ℕ} {m m' : Heap ℕ (Option ℂ)}
    (ho : order.Perm (List.range b.Sf)) (hm : ∀ a < b.Lz * b.Sf, m a = some (some 0))
    (h : strWave b ic order m = some m') {x y k : ℕ} (hx : x < b.Lx) (hy : y < b.Lx) (hk : k < b.Lz) :
    m' (b.cell x y k) = some (some 0) := by
  obtain ⟨t, e1, e2, _⟩ := C67_strwave (ic := ic) ho (m := m) (fun a ha => by rw [hm a ha]; rfl)
  rw [h, Option.some.injEq] at e1
  subst e1
  have h1 : y * b.Lx + x < b.Sf := by
    unfold Box.Sf
    exact pair_lt hy hx
  have h2 := pair_lt (b := b.Sf) hk h1
  rw [e2 x hx y hy k hk, hm _ (by unfold Box.cell; omega)]
  simp

/-- The loop stays inside the field of the rank and reaches all of it exactly if the grid is as deep
as it is wide, up to the remainders of the divisions. -/
theorem C67_strwave_depth {b : Box} (hx : 0 < b.Lx) :
    (∀ a, a < b.Lz * b.Sf ↔ a < b.V) ↔ b.Lx / b.ranks = b.Tz / b.ranks := by
  have hS : 0 < b.Sf := by unfold Box.Sf; positivity
  show (∀ a, a < b.Lx / b.ranks * b.Sf ↔ a < b.Tz / b.ranks * b.Sf) ↔ _
  constructor
  · intro h
    have h1 : ¬ b.Tz / b.ranks * b.Sf < b.Lx / b.ranks * b.Sf := fun hc => by
      have := (h _).1 hc; omega
    have h2 : ¬ b.Lx / b.ranks * b.Sf < b.Tz / b.ranks * b.Sf := fun hc => by
      have := (h _).2 hc; omega
    exact Nat.eq_of_mul_eq_mul_right hS (by omega)
  · intro h a
    rw [h]

end Jaxions.RandConf
