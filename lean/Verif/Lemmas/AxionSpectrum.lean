import Verif.Spec.AxionSpectrum
import Verif.Basic.DivMod
import Verif.Basic.Fold
import Mathlib.Tactic.Ring
import Mathlib.Tactic.Linarith

namespace Jaxions.AxSpec

/-- Sweeps whose sites do not meet: `W p` the cells site `p` writes, `D p` those it depends on. -/
theorem sweep_spec {step : M2 → Site → Option M2} {order : List Site} {t0 : M2}
    (W D : Site → ℕ → Prop) (val : Site → ℕ → Val) (hnd : order.Nodup)
    (hd : ∀ p ∈ order, ∀ q ∈ order, p ≠ q → ∀ a, W p a → ¬ D q a)
    (hWD : ∀ p a, W p a → D p a)
    (hstep : ∀ p ∈ order, ∀ t : M2, (∀ a, D p a → t a = t0 a) → ∃ t', step t p = some t' ∧
      (∀ a, W p a → t' a = some (val p a)) ∧ ∀ a, ¬ W p a → t' a = t a) :
    ∃ t', sweep step order t0 = some t' ∧ (∀ p ∈ order, ∀ a, W p a → t' a = some (val p a)) ∧
      ∀ a, (∀ p ∈ order, ¬ W p a) → t' a = t0 a := by
  unfold sweep
  have := foldlM_inv (f := step) (s := t0)
    (P := fun pre t => (∀ p ∈ pre, ∀ a, W p a → t a = some (val p a)) ∧
      ∀ a, (∀ p ∈ pre, ¬ W p a) → t a = t0 a) order
    ⟨by simp, by simp⟩
    (by
      intro pre p post hL t ⟨h1, h2⟩
      have hp : p ∈ order := by rw [hL]; simp
      have hpre : ∀ q ∈ pre, q ∈ order ∧ q ≠ p := by
        intro q hq
        refine ⟨by rw [hL]; simp [hq], ?_⟩
        rintro rfl
        rw [hL, List.nodup_append] at hnd
        exact hnd.2.2 q hq q (by simp) rfl
      obtain ⟨t', e1, e2, e3⟩ := hstep p hp t (fun a ha => h2 a fun q hq hw =>
        hd q (hpre q hq).1 p hp (hpre q hq).2 a hw ha)
      refine ⟨t', e1, ?_, ?_⟩
      · intro q hq a ha
        rcases List.mem_append.1 hq with hq | hq
        · rw [e3 a fun hw => hd q (hpre q hq).1 p hp (hpre q hq).2 a ha (hWD p a hw)]
          exact h1 q hq a ha
        · rw [List.mem_singleton.1 hq] at ha ⊢
          exact e2 a ha
      · intro a ha
        rw [e3 a (ha p (by simp))]
        exact h2 a fun q hq => ha q (by simp [hq]))
  exact this

theorem write_some (t : M2) (a : ℕ) (x : Val) (h : (t a).isSome) :
    ∃ t', t.write a x = some t' ∧ t' a = some x ∧ ∀ b, b ≠ a → t' b = t b :=
  ⟨_, write_eq t a x h, by simp, fun b hb => by simp [hb]⟩

variable {g : Grid}

theorem pad_inj (p q : Site) (hp : g.In p) (hq : g.In q) (h : g.pad p = g.pad q) : p = q := by
  obtain ⟨x, y, z⟩ := p
  obtain ⟨x', y', z'⟩ := q
  obtain ⟨hx, hy, hz⟩ := hp
  obtain ⟨hx', hy', hz'⟩ := hq
  dsimp only [Grid.pad] at *
  have h' : (z * g.L + y) * (g.L + 2) + x = (z' * g.L + y') * (g.L + 2) + x' := by
    linarith
  obtain ⟨h1, h2⟩ := pair_inj (by omega) (by omega) h'
  obtain ⟨h3, h4⟩ := pair_inj hy hy' h1
  rw [h2, h3, h4]

theorem bare_inj (p q : Site) (hp : g.In p) (hq : g.In q) (h : g.bare p = g.bare q) : p = q := by
  obtain ⟨x, y, z⟩ := p
  obtain ⟨x', y', z'⟩ := q
  obtain ⟨hx, hy, hz⟩ := hp
  obtain ⟨hx', hy', hz'⟩ := hq
  dsimp only [Grid.bare, Grid.S] at *
  have h' : (z * g.L + y) * g.L + x = (z' * g.L + y') * g.L + x' := by
    linarith
  obtain ⟨h1, h2⟩ := pair_inj (by omega) (by omega) h'
  obtain ⟨h3, h4⟩ := pair_inj hy hy' h1
  rw [h2, h3, h4]

theorem pad_lt (h : g.Ok) (p : Site) (hp : g.In p) : g.pad p < g.v3 := by
  obtain ⟨x, y, z⟩ := p
  obtain ⟨hx, hy, hz⟩ := hp
  dsimp only [Grid.pad, Grid.v3, Grid.S] at *
  have h1 : (z * g.L + y) * (g.L + 2) + x < g.Lz * g.L * (g.L + 2) := pair_lt (pair_lt hz hy) (by omega)
  have h2 : g.Lz * g.L ≤ g.Ng * g.L * g.L := Nat.mul_le_mul_right _ h.fits
  have h3 : g.Lz * g.L * (g.L + 2) ≤ g.L * g.L * (g.Lz + 2 * g.Ng) := by nlinarith
  calc x + (g.L + 2) * y + g.L * (g.L + 2) * z = (z * g.L + y) * (g.L + 2) + x := by ring
    _ < _ := h1
    _ ≤ _ := h3

theorem bare_lt (h : g.Ok) (p : Site) (hp : g.In p) : g.bare p < g.v3 := by
  refine lt_of_le_of_lt ?_ (pad_lt h p hp)
  obtain ⟨x, y, z⟩ := p
  dsimp only [Grid.pad, Grid.bare, Grid.S]
  nlinarith [Nat.zero_le (g.L * z), Nat.zero_le y]

theorem room_pad (h : g.Ok) {t : M2} (r : g.Room t) {p : Site} (hp : g.In p) :
    (t (g.pad p)).isSome := r _ (by have := pad_lt h p hp; omega)

theorem room_pad2 (h : g.Ok) {t : M2} (r : g.Room t) {p : Site} (hp : g.In p) :
    (t (g.v3 + g.pad p)).isSome := r _ (by have := pad_lt h p hp; omega)

theorem room_bare2 (h : g.Ok) {t : M2} (r : g.Room t) {p : Site} (hp : g.In p) :
    (t (g.v3 + g.bare p)).isSome := r _ (by have := bare_lt h p hp; omega)

/-- Reading a site and its neighbours. -/
theorem near_spec {T z0 : ℕ} {M : Mem} {φ ω : ℕ → ℕ → ℕ → ℂ} {hit : ℕ → ℕ → ℕ → Bool}
    (h : Holds g T z0 M φ ω hit) {p : Site} (hp : g.In p) :
    near g M.m p = some (around g.L T φ p.1 p.2.1 (z0 + p.2.2)) := by
  obtain ⟨x, y, z⟩ := p
  obtain ⟨hx, hy, hz⟩ := hp
  dsimp only at hx hy hz
  have hr := h.room
  have hmod : ∀ a, a % g.L < g.L := fun a => Nat.mod_lt _ (by omega)
  have e0 : (z0 + (z + 1) + T - 1) % T = z0 + z := by
    rw [show z0 + (z + 1) + T - 1 = z0 + z + T by omega, Nat.add_mod_right, Nat.mod_eq_of_lt (by omega)]
  have e1 : (z0 + (z + 2) + T - 1) % T = (z0 + z + 1) % T := by
    rw [show z0 + (z + 2) + T - 1 = z0 + z + 1 + T by omega, Nat.add_mod_right]
  unfold near
  dsimp only
  rw [h.m x y (z + 1) hx hy (by omega), h.m _ y (z + 1) (hmod _) hy (by omega),
    h.m _ y (z + 1) (hmod _) hy (by omega), h.m x _ (z + 1) hx (hmod _) (by omega),
    h.m x _ (z + 1) hx (hmod _) (by omega), h.m x y (z + 2) hx hy (by omega),
    h.m x y z hx hy (by omega), e0, e1]
  simp only [Option.bind_eq_bind, Option.bind_some, around]
  rw [show g.L + x - 1 = x + g.L - 1 by omega, show g.L + y - 1 = y + g.L - 1 by omega]

/-- The code's quotient is the rate of the phase. -/
theorem ratio_eq {w : ℂ} (hw : w ≠ 0) (u : ℂ) : ratio w u = some (phaseRate w u) := by
  have h0 : w.re * w.re + w.im * w.im ≠ 0 := by
    intro h
    exact hw (Complex.normSq_eq_zero.1 (by rw [Complex.normSq_apply]; exact h))
  unfold ratio phaseRate
  rw [if_neg h0, Complex.div_im, Complex.normSq_apply]
  congr 1
  field_simp

theorem sqrt_norm (w : ℂ) : √(w.re * w.re + w.im * w.im) = ‖w‖ := by
  rw [Complex.norm_def, Complex.normSq_apply]

theorem norm_sq' (w : ℂ) : w.re * w.re + w.im * w.im = ‖w‖ ^ 2 := by
  rw [← Complex.normSq_eq_norm_sq, Complex.normSq_apply]

/-- The masks, when the field does not vanish. -/
theorem weigh_spec (k : Mask) (R f : ℝ) (w : ℂ) (M : Mem) (t : M2) (p : Site) (hit : Bool) (q r : ℝ)
    (hs : M.sd (g.bare p) = some hit)
    (hq : k = .gaus ∨ k = .diff → t (g.v3 + g.bare p) = some (some q)) :
    weigh g k.built R f w M t p (some r) = some (some (f * maskedRate k R w hit q r)) := by
  have hsq := sqrt_norm w
  have hn := norm_sq' w
  cases k <;> simp only [Mask.built, weigh, maskedRate, maskFactor, hs, Option.map_some,
    Option.bind_eq_bind, Option.bind_some, hsq]
  case gaus | diff =>
    rw [hq (by simp)]
    simp only [Option.bind_some]
    congr 2; ring
  case redo | ball => cases hit <;> simp; ring
  case vil2 => rw [hn]; congr 2; ring
  all_goals congr 2; ring

/-- At a masked site nothing is divided. -/
theorem weigh_hit (k : Mask) (R f : ℝ) (w : ℂ) (M : Mem) (t : M2) (p : Site) (v : Val)
    (hk : k = .redo ∨ k = .ball) (hs : M.sd (g.bare p) = some true) :
    weigh g k.built R f w M t p v = some (some 0) := by
  rcases hk with rfl | rfl <;> simp [Mask.built, weigh, hs]

end Jaxions.AxSpec
