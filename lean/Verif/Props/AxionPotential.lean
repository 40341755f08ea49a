import Verif.Props.AxionSpectrum

/-
**C72** The arrays of the potential, and those of the older way to the spectra.
-/

namespace Jaxions.AxSpec

open Complex

variable {g : Grid} {T z0 : ℕ} {M : Mem} {φ ω : ℕ → ℕ → ℕ → ℂ} {hit : ℕ → ℕ → ℕ → Bool}

/-- The cell of the field itself, seen from `mStart()`. -/
theorem start_eq (hg : g.Ok) (h : Holds g T z0 M φ ω hit) {p : Site} (hp : g.In p) :
    M.m (g.Ng * g.S + g.bare p) = some (φ p.1 p.2.1 (z0 + p.2.2)) := by
  have e := h.m p.1 p.2.1 (p.2.2 + 1) hp.1 hp.2.1 (by have := hp.2.2; omega)
  have hr := h.room
  have hz := hp.2.2
  rw [show z0 + (p.2.2 + 1) + T - 1 = z0 + p.2.2 + T by omega, Nat.add_mod_right,
    Nat.mod_eq_of_lt (by omega)] at e
  rw [← e]
  congr 1
  unfold Grid.ma Grid.bare
  obtain ⟨n, hn⟩ := Nat.exists_eq_add_of_le hg.Ng
  rw [hn, Nat.add_sub_cancel_left]
  ring

/-- Factor of the mask on the potential. -/
noncomputable def potFactor (k : Mask) (R : ℝ) (w : ℂ) (hit : Bool) (q : ℝ) : ℝ :=
  match k with
  | .redo | .ball => if hit then 0 else R
  | .gaus | .diff => q * R
  | .vil => ‖w‖ / R * R
  | .vil2 => ‖w‖ ^ 2 / R ^ 2 * R
  | _ => R

/-- The mask is kept in the second half. -/
def Kept (k : Mask) : Prop := k = .gaus ∨ k = .diff

/-- **C72** The array of the potential: in the padded cell of a site twice the sine of half the
phase, times the factor of the mask; the second half gets, unless it holds the mask, the angle
`atan2` of the real over the imaginary part, with the same factor. -/
theorem C72_potential (hg : g.Ok) {order : List Site} (ho : g.Order order) {t : M2} (hr : g.Room t)
    (h : Holds g T z0 M φ ω hit) (P : Par) (k : Mask) (q : Site → ℝ)
    (hq : Kept k → ∀ p, g.In p → t (g.v3 + g.bare p) = some (some (q p))) :
    ∃ t', sweep (stepV g k P M) order t = some t' ∧
      (∀ x y z, x < g.L → y < g.L → z < g.Lz →
        t' (g.pad (x, y, z)) = some (some (potFactor k P.R (φ x y (z0 + z) - P.shift)
          (hit x y (z0 + z)) (q (x, y, z)) * (2 * Real.sin (arg (φ x y (z0 + z) - P.shift) / 2)))) ∧
        (¬ Kept k → t' (g.v3 + g.pad (x, y, z)) =
          some (some (potFactor k P.R (φ x y (z0 + z) - P.shift) (hit x y (z0 + z)) (q (x, y, z)) *
            arg ⟨(φ x y (z0 + z) - P.shift).im, (φ x y (z0 + z) - P.shift).re⟩)))) ∧
      (Kept k → ∀ a, g.v3 ≤ a → t' a = t a) := by
  have hhalf : ∀ a : ℝ, (0.5 : ℝ) * a = a / 2 := fun a => by norm_num; ring
  by_cases hk : Kept k
  · have hb : k.built = .diff := (built_diff k).2 hk
    obtain ⟨t', e1, e2, e3⟩ := one_write hg ho hr (step := stepV g k P M)
      (fun p => some (q p * P.R * (2 * Real.sin (arg (φ p.1 p.2.1 (z0 + p.2.2) - P.shift) / 2))))
      (by
        intro p hp t1 h1
        unfold stepV
        rw [start_eq hg h hp]
        simp only [Option.bind_eq_bind, Option.bind_some, hb, h1, hq hk p hp, Option.map_some,
          Gadget.atan2, hhalf]
        congr 2
        ring)
    refine ⟨t', e1, ?_, ?_⟩
    · intro x y z hx hy hz
      refine ⟨?_, fun hc => absurd hk hc⟩
      rw [e2 (x, y, z) ⟨hx, hy, hz⟩]
      rcases hk with rfl | rfl <;> rfl
    · intro _ a ha
      refine e3 a fun p hp => ?_
      have := pad_lt hg p hp
      omega
  · have hb : k.built ≠ .diff := fun hc => hk ((built_diff k).1 hc)
    obtain ⟨t', e1, e2, _⟩ := two_writes hg ho hr (step := stepV g k P M) (fun p => g.v3 + g.pad p)
      (fun p => some (potFactor k P.R (φ p.1 p.2.1 (z0 + p.2.2) - P.shift)
        (hit p.1 p.2.1 (z0 + p.2.2)) (q p) * (2 * Real.sin (arg (φ p.1 p.2.1 (z0 + p.2.2) - P.shift) / 2))))
      (fun p => some (potFactor k P.R (φ p.1 p.2.1 (z0 + p.2.2) - P.shift)
        (hit p.1 p.2.1 (z0 + p.2.2)) (q p) *
        arg ⟨(φ p.1 p.2.1 (z0 + p.2.2) - P.shift).im, (φ p.1 p.2.1 (z0 + p.2.2) - P.shift).re⟩))
      (fun p hp => by have := pad_lt hg p hp; omega)
      (fun p p' hp hp' hpp => pad_inj p p' hp hp' (by omega))
      (by
        intro p hp t1 h1
        have hs := hit_of h hp
        unfold stepV
        rw [start_eq hg h hp]
        simp only [Option.bind_eq_bind, Option.bind_some]
        generalize φ p.1 p.2.1 (z0 + p.2.2) - P.shift = w
        generalize hit p.1 p.2.1 (z0 + p.2.2) = b at hs
        have hn := norm_sq' w
        have hsq := sqrt_norm w
        cases k
        case gaus | diff => exact absurd rfl hb
        case redo | ball =>
          simp only [Mask.built, hs, Option.bind_some, vilWeight, potFactor, Gadget.atan2, hhalf]
          cases b <;> simp; ring_nf
        case vil =>
          simp only [Mask.built, vilWeight, potFactor, Gadget.atan2, hhalf, hsq]
          congr 1
          · congr 2; ring
        case vil2 =>
          simp only [Mask.built, vilWeight, potFactor, Gadget.atan2, hhalf, hn]
          rw [div_div, ← pow_two P.R]
          congr 1
          · congr 2; ring
        all_goals
          simp only [Mask.built, vilWeight, potFactor, Gadget.atan2, hhalf, one_mul]
          congr 1
          · congr 2; ring)
    refine ⟨t', e1, ?_, fun hc => absurd hc hk⟩
    intro x y z hx hy hz
    have := e2 (x, y, z) ⟨hx, hy, hz⟩
    exact ⟨this.1, fun _ => this.2⟩

/-- **C72** The square of the first number is the cosine potential: `2 R² (1 - cos θ)`. -/
theorem C72_potential_cosine (R θ : ℝ) :
    (R * (2 * Real.sin (θ / 2))) ^ 2 = 2 * R ^ 2 * (1 - Real.cos θ) := by
  have h := Real.cos_sq (θ / 2)
  have h2 := Real.sin_sq (θ / 2)
  rw [show 2 * (θ / 2) = θ by ring] at h
  rw [mul_pow, mul_pow, h2, h]
  ring

/-- **C72** (negative) The second number is meant to be the phase; its arguments are exchanged, and
it is the phase of a field that does not vanish exactly in two directions, an eighth of a turn and
the opposite one. -/
theorem C72_potential_linear {w : ℂ} (hw : w ≠ 0) :
    arg ⟨w.im, w.re⟩ = arg w ↔ arg w = Real.pi / 4 ∨ arg w = -(3 * Real.pi / 4) := by
  have hn : ‖w‖ ≠ 0 := norm_ne_zero_iff.2 hw
  have hre := norm_mul_cos_arg w
  have him := norm_mul_sin_arg w
  have hpi := Real.pi_pos
  constructor
  · intro h
    have h1 : (⟨w.im, w.re⟩ : ℂ) = w := by
      have hnn : ‖(⟨w.im, w.re⟩ : ℂ)‖ = ‖w‖ := by
        rw [Complex.norm_def, Complex.norm_def, normSq_apply, normSq_apply, add_comm]
      exact Complex.ext_norm_arg hnn h
    have h2 : w.im = w.re := congrArg Complex.re h1
    have h3 : Real.sin (arg w) = Real.cos (arg w) :=
      mul_left_cancel₀ hn (by rw [him, hre, h2])
    have h4 : Real.sin (arg w - Real.pi / 4) = 0 := by
      rw [Real.sin_sub, Real.cos_pi_div_four, Real.sin_pi_div_four, h3]; ring
    obtain ⟨n, hn'⟩ := Real.sin_eq_zero_iff.1 h4
    have hl := neg_pi_lt_arg w
    have hu := arg_le_pi w
    have n1 : -2 < n := by
      have : (-2 : ℝ) < n := by
        by_contra hc; push Not at hc; nlinarith
      exact_mod_cast this
    have n2 : n < 1 := by
      have : (n : ℝ) < 1 := by
        by_contra hc; push Not at hc; nlinarith
      exact_mod_cast this
    have : n = -1 ∨ n = 0 := by omega
    rcases this with rfl | rfl
    · right; push_cast at hn'; linarith
    · left; push_cast at hn'; linarith
  · intro h
    have h3 : Real.sin (arg w) = Real.cos (arg w) := by
      rcases h with h | h <;> rw [h]
      · rw [Real.cos_pi_div_four, Real.sin_pi_div_four]
      · rw [Real.sin_neg, Real.cos_neg, show 3 * Real.pi / 4 = Real.pi - Real.pi / 4 by ring,
          Real.sin_pi_sub, Real.cos_pi_sub, Real.cos_pi_div_four, Real.sin_pi_div_four]
    have h2 : w.im = w.re := by rw [← him, ← hre, h3]
    congr 1
    exact Complex.ext h2 h2.symm

/-- **C72** (negative) In the vacuum, where the phase is 0, the number stored is a quarter of a
turn. -/
theorem C72_potential_vacuum {w : ℂ} (hr : 0 < w.re) (hi : w.im = 0) :
    arg w = 0 ∧ arg ⟨w.im, w.re⟩ = Real.pi / 2 := by
  constructor
  · rw [arg_eq_zero_iff]; exact ⟨hr.le, hi⟩
  · rw [arg_eq_pi_div_two_iff]; exact ⟨hi, hr⟩

/-! ### The older loops -/

/-- Masks with a case of their own in the older gradient loops. -/
def OldCase (k : Mask) : Prop := k ≠ .ball ∧ k ≠ .other ∧ k ≠ .saxi

theorem slope_some {s a c : ℂ} (h : a + c - s - s ≠ 0) :
    slope s a c = some (2 * ((a - c) / (a + c - s - s)).im) := if_neg h

/-- **C72** The older array of the gradient along x: twice the imaginary part of difference over
sum of the site and its next neighbour, over the spacing, times the factor of the mask. -/
theorem C72_old_gradient_x (hg : g.Ok) {order : List Site} (ho : g.Order order) {t : M2}
    (hr : g.Room t) (h : Holds g T z0 M φ ω hit) (P : Par) (k : Mask) (hk : OldCase k) (q : Site → ℝ)
    (hq : Kept k → ∀ p, g.In p → t (g.v3 + g.bare p) = some (some (q p))) :
    ∃ t', sweep (stepCGX g k P M) order t = some t' ∧
      (∀ x y z, x < g.L → y < g.L → z < g.Lz → ∀ r,
        slope P.shift (φ ((x + 1) % g.L) y (z0 + z)) (φ x y (z0 + z)) = some r →
        t' (g.pad (x, y, z)) = some (some (1 / P.delta * maskedRate k P.R
          (φ x y (z0 + z) - P.shift) (hit x y (z0 + z)) (q (x, y, z)) r))) ∧
      ∀ a, (∀ p, g.In p → a ≠ g.pad p) → t' a = t a := by
  have hw : ∀ p, g.In p → ∀ v, ∃ x, weigh g k.built P.R (1 / P.delta)
      ((around g.L T φ p.1 p.2.1 (z0 + p.2.2)).c - P.shift) M t p v = some x := fun p hp v =>
    weigh_some (hit_of h hp) (room_bare2 hg hr hp) _ _ _ _ _
  obtain ⟨t', e1, e2, e3⟩ := one_write hg ho hr (step := stepCGX g k P M)
    (fun p => (weigh g k.built P.R (1 / P.delta)
      ((around g.L T φ p.1 p.2.1 (z0 + p.2.2)).c - P.shift) M t p
      (slope P.shift (around g.L T φ p.1 p.2.1 (z0 + p.2.2)).xp
        (around g.L T φ p.1 p.2.1 (z0 + p.2.2)).c)).getD none)
    (by
      intro p hp t1 h1
      obtain ⟨x, hx⟩ := hw p hp (slope P.shift (around g.L T φ p.1 p.2.1 (z0 + p.2.2)).xp
        (around g.L T φ p.1 p.2.1 (z0 + p.2.2)).c)
      unfold stepCGX
      rw [near_spec h hp]
      simp only [Option.bind_eq_bind, Option.bind_some]
      rw [hx]
      split
      · exact absurd rfl hk.1
      · exact absurd rfl hk.2.1
      · exact absurd rfl hk.2.2
      · rw [weigh_congr h1, hx]; rfl)
  refine ⟨t', e1, ?_, e3⟩
  intro x y z hx hy hz r hs
  have hp : g.In (x, y, z) := ⟨hx, hy, hz⟩
  rw [e2 _ hp]
  dsimp only [around]
  rw [hs, weigh_spec k P.R (1 / P.delta) _ M t (x, y, z) _ (q (x, y, z)) r (hit_of h hp)
    fun hk' => hq hk' _ hp]
  rfl

/-- **C72** The same along y and z. -/
theorem C72_old_gradient_yz (hg : g.Ok) {order : List Site} (ho : g.Order order) {t : M2}
    (hr : g.Room t) (h : Holds g T z0 M φ ω hit) (P : Par) (k : Mask) (hk : OldCase k) (q : Site → ℝ)
    (hq : Kept k → ∀ p, g.In p → t (g.v3 + g.bare p) = some (some (q p))) :
    ∃ t', sweep (stepCGYZ g k P M) order t = some t' ∧
      (∀ x y z, x < g.L → y < g.L → z < g.Lz → ∀ r,
        (slope P.shift (φ x ((y + 1) % g.L) (z0 + z)) (φ x y (z0 + z)) = some r →
          t' (g.pad (x, y, z)) = some (some (1 / P.delta * maskedRate k P.R
            (φ x y (z0 + z) - P.shift) (hit x y (z0 + z)) (q (x, y, z)) r))) ∧
        (slope P.shift (φ x y ((z0 + z + 1) % T)) (φ x y (z0 + z)) = some r →
          t' (g.zcell k (x, y, z)) = some (some (1 / P.delta * maskedRate k P.R
            (φ x y (z0 + z) - P.shift) (hit x y (z0 + z)) (q (x, y, z)) r)))) ∧
      ∀ a, (∀ p, g.In p → a ≠ g.pad p ∧ a ≠ g.zcell k p) → t' a = t a := by
  have hw : ∀ p, g.In p → ∀ v, ∃ x, weigh g k.built P.R (1 / P.delta)
      ((around g.L T φ p.1 p.2.1 (z0 + p.2.2)).c - P.shift) M t p v = some x := fun p hp v =>
    weigh_some (hit_of h hp) (room_bare2 hg hr hp) _ _ _ _ _
  obtain ⟨t', e1, e2, e3⟩ := two_writes hg ho hr (step := stepCGYZ g k P M) (g.zcell k)
    (fun p => (weigh g k.built P.R (1 / P.delta)
      ((around g.L T φ p.1 p.2.1 (z0 + p.2.2)).c - P.shift) M t p
      (slope P.shift (around g.L T φ p.1 p.2.1 (z0 + p.2.2)).yp
        (around g.L T φ p.1 p.2.1 (z0 + p.2.2)).c)).getD none)
    (fun p => (weigh g k.built P.R (1 / P.delta)
      ((around g.L T φ p.1 p.2.1 (z0 + p.2.2)).c - P.shift) M t p
      (slope P.shift (around g.L T φ p.1 p.2.1 (z0 + p.2.2)).zp
        (around g.L T φ p.1 p.2.1 (z0 + p.2.2)).c)).getD none)
    (zcell_bounds hg k) (zcell_inj k)
    (by
      intro p hp t1 h1
      obtain ⟨x, hx⟩ := hw p hp (slope P.shift (around g.L T φ p.1 p.2.1 (z0 + p.2.2)).yp
        (around g.L T φ p.1 p.2.1 (z0 + p.2.2)).c)
      obtain ⟨x', hx'⟩ := hw p hp (slope P.shift (around g.L T φ p.1 p.2.1 (z0 + p.2.2)).zp
        (around g.L T φ p.1 p.2.1 (z0 + p.2.2)).c)
      unfold stepCGYZ
      rw [near_spec h hp]
      simp only [Option.bind_eq_bind, Option.bind_some]
      rw [hx, hx']
      split
      · exact absurd rfl hk.1
      · exact absurd rfl hk.2.1
      · exact absurd rfl hk.2.2
      · rw [weigh_congr' h1, weigh_congr' h1, hx, hx']; rfl)
  refine ⟨t', e1, ?_, e3⟩
  intro x y z hx hy hz r
  have hp : g.In (x, y, z) := ⟨hx, hy, hz⟩
  have key : ∀ v, v = some r → (weigh g k.built P.R (1 / P.delta) (φ x y (z0 + z) - P.shift) M t
      (x, y, z) v) = some (some (1 / P.delta * maskedRate k P.R (φ x y (z0 + z) - P.shift)
        (hit x y (z0 + z)) (q (x, y, z)) r)) := fun v hv => by
    rw [hv]
    exact weigh_spec k P.R (1 / P.delta) _ M t (x, y, z) _ (q (x, y, z)) r (hit_of h hp)
      fun hk' => hq hk' _ hp
  constructor
  · intro hs
    rw [(e2 _ hp).1]
    dsimp only [around]
    rw [key _ hs]; rfl
  · intro hs
    rw [(e2 _ hp).2]
    dsimp only [around]
    rw [key _ hs]; rfl

theorem sweep_id {step : M2 → Site → Option M2} {order : List Site} {t : M2}
    (h : ∀ p ∈ order, step t p = some t) : sweep step order t = some t := by
  unfold sweep
  induction order with
  | nil => rfl
  | cons p l ih =>
    rw [List.foldlM_cons, h p (by simp)]
    exact ih fun q hq => h q (by simp [hq])

/-- **C72** (negative) With the mask `BALL` the older gradient loops write nothing, and the older
potential loop nothing for `BALL`, `GAUS`, `DIFF` and `SAXI`: what the array held before is
transformed and stored. -/
theorem C72_old_nothing {order : List Site} (ho : g.Order order) (t : M2)
    (h : Holds g T z0 M φ ω hit) (P : Par) (mass : ℝ) :
    sweep (stepCGX g .ball P M) order t = some t ∧ sweep (stepCGYZ g .ball P M) order t = some t ∧
      ∀ k, k = .ball ∨ k = .gaus ∨ k = .diff ∨ k = .saxi →
        sweep (stepCV g k P mass M) order t = some t := by
  have hn : ∀ p ∈ order, near g M.m p = some (around g.L T φ p.1 p.2.1 (z0 + p.2.2)) := fun p hp =>
    near_spec h ((ho.mem p).1 hp)
  have hm : ∀ p ∈ order, ∃ c, M.m (g.ma (g.bare p)) = some c := by
    intro p hp
    have hp' := (ho.mem p).1 hp
    exact ⟨_, h.m p.1 p.2.1 p.2.2 hp'.1 hp'.2.1 (by have := hp'.2.2; omega)⟩
  refine ⟨sweep_id fun p hp => ?_, sweep_id fun p hp => ?_, fun k hk => sweep_id fun p hp => ?_⟩
  · unfold stepCGX; rw [hn p hp]; rfl
  · unfold stepCGYZ; rw [hn p hp]; rfl
  · obtain ⟨c, hc⟩ := hm p hp
    unfold stepCV
    rw [hc]
    rcases hk with rfl | rfl | rfl | rfl <;> rfl

/-- **C72** (negative) The older array of the potential holds in the cell of a slice the phase of
the field one slice before, masked with the map of the slice itself. -/
theorem C72_old_potential (hg : g.Ok) {order : List Site} (ho : g.Order order) {t : M2}
    (hr : g.Room t) (h : Holds g T z0 M φ ω hit) (P : Par) (mass : ℝ) (k : Mask)
    (hk : k = .flat ∨ k = .redo) :
    ∃ t', sweep (stepCV g k P mass M) order t = some t' ∧
      ∀ x y z, x < g.L → y < g.L → z < g.Lz → t' (g.pad (x, y, z)) = some (some
        (if k = .redo ∧ hit x y (z0 + z) = true then 0
          else mass * P.R * arg (φ x y ((z0 + z + T - 1) % T) - P.shift))) := by
  obtain ⟨t', e1, e2, _⟩ := one_write hg ho hr (step := stepCV g k P mass M)
    (fun p => some (if k = .redo ∧ hit p.1 p.2.1 (z0 + p.2.2) = true then 0
      else mass * P.R * arg (φ p.1 p.2.1 ((z0 + p.2.2 + T - 1) % T) - P.shift)))
    (by
      intro p hp t1 h1
      have hm : M.m (g.ma (g.bare p)) = some (φ p.1 p.2.1 ((z0 + p.2.2 + T - 1) % T)) :=
        h.m p.1 p.2.1 p.2.2 hp.1 hp.2.1 (by have := hp.2.2; omega)
      unfold stepCV
      rw [hm]
      rcases hk with rfl | rfl
      · simp
      · simp [hit_of h hp])
  exact ⟨t', e1, fun x y z hx hy hz => e2 (x, y, z) ⟨hx, hy, hz⟩⟩

end Jaxions.AxSpec
