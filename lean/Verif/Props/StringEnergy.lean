import Verif.Lemmas.StringEnergy
import Mathlib.Tactic.Positivity

/-!
# C76: the energy of strings

What `stringenergy` stores, for every field, mask, box and number of ranks.
-/

namespace Jaxions
namespace StrEn

open Complex Finset StrLen

/-! ## Parts of the energy of a site -/

theorem cquo_some {x y : ℂ} (h : y ≠ 0) : cquo x y = some (x / y) := if_neg h

/-- **C76, parts.**  The kinetic energy of a site is that of the angle, weighted by the squared distance,
plus that of the distance; and the gradient energy of the distance is at most that of the field.  So
what the code takes for axions (once) and saxions is never more than the energy there is. -/
theorem C76_parts {E : Env} (hR : E.R ≠ 0) {m v : ℂ} (hm : m ≠ E.s) (mx my mz : ℂ) :
    ∃ a s g : ℝ, rhoakin E m v = some a ∧ rhoskin E m v = some s ∧ saxion E m v mx my mz = some g ∧
      0 ≤ a ∧ 0 ≤ s ∧ rhokin E m v = (‖m - E.s‖ / E.R) ^ 2 * a + s ∧
      rhosgrad E m mx my mz ≤ rhograd E m mx my mz ∧
      (‖m - E.s‖ / E.R) ^ 2 * a + g ≤
        rhokin E m v + rhograd E m mx my mz + rhopot E m := by
  have hd : m - E.s ≠ 0 := sub_ne_zero.mpr hm
  set w := v - E.Hc * m with hw
  set d := m - (E.s : ℂ) with hd'
  have hn : ‖d‖ ≠ 0 := norm_ne_zero_iff.mpr hd
  have e1 : rhoakin E m v = some ((1 / 2) * (w / d).im * (w / d).im / (E.R * E.R)) := by
    unfold rhoakin; rw [← hw, ← hd', cquo_some hd]; rfl
  have e2 : rhoskin E m v = some ((1 / 2) * (‖d‖ * (w / d).re) * (‖d‖ * (w / d).re) /
      (E.R * E.R * E.R * E.R)) := by
    unfold rhoskin
    rw [← hw, ← hd', cquo_some hd, Option.map_some]
    have : w * (‖d‖ : ℝ) / d = (‖d‖ : ℝ) * (w / d) := by ring
    rw [this, Complex.re_ofReal_mul]
  have hnw : ‖w‖ ^ 2 = ‖d‖ ^ 2 * ((w / d).re ^ 2 + (w / d).im ^ 2) := by
    have : w = d * (w / d) := by field_simp
    have k : ‖w‖ ^ 2 = ‖d‖ ^ 2 * ‖w / d‖ ^ 2 := by rw [← mul_pow, ← norm_mul, ← this]
    rw [k, Complex.sq_norm (w / d), Complex.normSq_apply]; ring
  have e3 : rhokin E m v = (‖d‖ / E.R) ^ 2 * ((1 / 2) * (w / d).im * (w / d).im / (E.R * E.R)) +
      (1 / 2) * (‖d‖ * (w / d).re) * (‖d‖ * (w / d).re) / (E.R * E.R * E.R * E.R) := by
    unfold rhokin
    rw [← hw]
    have : (1 / 2) * ‖w‖ * ‖w‖ = (1 / 2) * (‖d‖ ^ 2 * ((w / d).re ^ 2 + (w / d).im ^ 2)) := by
      rw [← hnw]; ring
    rw [this]
    generalize (w / d).re = x
    generalize (w / d).im = y
    field_simp
    ring
  have e4 : rhosgrad E m mx my mz ≤ rhograd E m mx my mz := by
    unfold rhosgrad rhograd
    have key : ∀ u : ℂ, (‖u - E.s‖ - ‖m - E.s‖) * (‖u - E.s‖ - ‖m - E.s‖) ≤ ‖u - m‖ * ‖u - m‖ := by
      intro u
      have := abs_norm_sub_norm_le (u - E.s) (m - E.s)
      rw [sub_sub_sub_cancel_right] at this
      rw [← abs_mul_abs_self (‖u - E.s‖ - ‖m - E.s‖)]
      exact mul_self_le_mul_self (abs_nonneg _) this
    apply div_le_div_of_nonneg_right
    · have := key mx; have := key my; have := key mz
      linarith
    · have : E.R * E.R * E.R * E.R * E.depta * E.depta = (E.R * E.R * E.depta) ^ 2 := by ring
      rw [this]; positivity
  have p4 : (0 : ℝ) ≤ E.R * E.R * E.R * E.R := by
    have : E.R * E.R * E.R * E.R = (E.R * E.R) ^ 2 := by ring
    rw [this]; positivity
  refine ⟨_, _, _, e1, e2, by unfold saxion; rw [e2]; rfl, ?_, ?_, e3, e4, ?_⟩
  · apply div_nonneg _ (mul_self_nonneg _)
    rw [mul_assoc]; exact mul_nonneg (by norm_num) (mul_self_nonneg _)
  · apply div_nonneg _ p4
    rw [mul_assoc]; exact mul_nonneg (by norm_num) (mul_self_nonneg _)
  · rw [e3]; linarith

/-- A case: a field that turns and grows, beside one it is turned from. -/
example : ∃ a s : ℝ, rhoakin ⟨2, 0, 0, 1, 1⟩ 2 (1 + I) = some a ∧
    rhoskin ⟨2, 0, 0, 1, 1⟩ 2 (1 + I) = some s ∧
    rhokin ⟨2, 0, 0, 1, 1⟩ 2 (1 + I) = (‖(2 : ℂ) - ((0 : ℝ) : ℂ)‖ / 2) ^ 2 * a + s := by
  obtain ⟨a, s, g, h1, h2, -, -, -, h3, -⟩ :=
    C76_parts (E := ⟨2, 0, 0, 1, 1⟩) (m := 2) (v := 1 + I) (by norm_num)
      (by norm_num) (2 * I) 2 2
  exact ⟨a, s, h1, h2, h3⟩

/-! ## What is stored -/

/-- The arrays of rank `r`: the field with the slice above, the velocities and the mask without. -/
structure Rank (E : Env) (P : Polar) (out : ℤ → ℤ → ℤ → Bool) (Lx Lz r : ℕ) (ma va : ℕ → ℂ)
    (sd : ℕ → ℕ) : Prop where
  m : ∀ x y z : ℕ, x < Lx → y < Lx → z ≤ Lz →
    ma (x + Lx * y + Lx * Lx * z) = E.R * P.field x y (r * Lz + z : ℕ)
  v : ∀ x y z : ℕ, x < Lx → y < Lx → z < Lz → va (x + Lx * y + Lx * Lx * z) =
    E.R * E.R * P.rate x y (r * Lz + z : ℕ) + E.Hc * (E.R * P.field x y (r * Lz + z : ℕ))
  s : ∀ x y z : ℕ, x < Lx → y < Lx → z < Lz →
    (sd (x + Lx * y + Lx * Lx * z) &&& STRING_MASK = 0 ↔ out x y (r * Lz + z : ℕ) = true)

theorem wrap {α : Type} {L i : ℕ} (hi : i < L) {f : ℤ → α} (hf : ∀ x, f (x + L) = f x) :
    f ((i + 1) % L : ℕ) = f (i + 1) := by
  by_cases h : i + 1 < L
  · rw [Nat.mod_eq_of_lt h]; push_cast; rfl
  · have : i + 1 = L := by omega
    rw [this, Nat.mod_self]
    have e : ((i : ℤ) + 1) = 0 + (L : ℤ) := by omega
    rw [e, hf]; rfl

theorem turn_of {E : Env} {P : Polar} {out : ℤ → ℤ → ℤ → Bool} {Lx Lz r : ℕ} {ma va : ℕ → ℂ}
    {sd : ℕ → ℕ} (hR : 0 < E.R) (hs : E.s = E.R * P.σ) (hρ : ∀ x y z, 0 < P.ρ x y z)
    (hc : P.Closed Lx) (h : Rank E P out Lx Lz r ma va sd) {p : ℕ × ℕ × ℕ} (hx : p.1 < Lx)
    (hy : p.2.1 < Lx) (hz : p.2.2 < Lz) :
    let c := corner Lx p.1 p.2.1 p.2.2
    let z : ℤ := (r * Lz + p.2.2 : ℕ)
    let f : Turn := ⟨P.total (E.R * E.depta) E.lam p.1 p.2.1 z, P.dθ p.1 p.2.1 z ^ 2 / 2,
      P.sax (E.R * E.depta) E.lam p.1 p.2.1 z, P.ρ p.1 p.2.1 z ^ 2, out p.1 p.2.1 z⟩
    rhoakin E (ma c.o) (va c.o) = some f.k ∧
      saxion E (ma c.o) (va c.o) (ma c.x) (ma c.y) (ma c.z) = some f.g ∧
      (‖ma c.o - E.s‖ / E.R) ^ 2 = f.w ∧
      rhokin E (ma c.o) (va c.o) + rhograd E (ma c.o) (ma c.x) (ma c.y) (ma c.z) + rhopot E (ma c.o) =
        f.tot ∧ (sd c.o &&& STRING_MASK = 0 ↔ f.out = true) := by
  obtain ⟨x, y, z⟩ := p
  dsimp only at hx hy hz ⊢
  have hL : 0 < Lx := by omega
  have ez : ((r * Lz + (z + 1) : ℕ) : ℤ) = ((r * Lz + z : ℕ) : ℤ) + 1 := by push_cast; ring
  set Z : ℤ := ((r * Lz + z : ℕ) : ℤ) with hZ
  have m0 : ma (corner Lx x y z).o = E.R * P.field x y Z := h.m x y z hx hy hz.le
  have m1 : ma (corner Lx x y z).x = E.R * P.field (x + 1) y Z := by
    refine (h.m _ y z (Nat.mod_lt _ hL) hy hz.le).trans ?_
    rw [wrap (f := fun i => P.field i y Z) hx (fun i => (hc i y Z).1)]
  have m2 : ma (corner Lx x y z).y = E.R * P.field x (y + 1) Z := by
    refine (h.m x _ z hx (Nat.mod_lt _ hL) hz.le).trans ?_
    rw [wrap (f := fun i => P.field x i Z) hy (fun i => (hc x i Z).2)]
  have m3 : ma (corner Lx x y z).z = E.R * P.field x y (Z + 1) := by
    refine (h.m x y (z + 1) hx hy hz).trans ?_
    rw [ez]
  have v0 : va (corner Lx x y z).o = E.R * E.R * P.rate x y Z + E.Hc * (E.R * P.field x y Z) :=
    h.v x y z hx hy hz
  rw [m0, m1, m2, m3, v0]
  have hRc : (E.R : ℂ) ≠ 0 := Complex.ofReal_ne_zero.mpr hR.ne'
  have hn : ∀ i j k, ‖(E.R : ℂ) * P.field i j k - E.s‖ = E.R * P.ρ i j k := by
    intro i j k
    rw [hs]
    have : (E.R : ℂ) * P.field i j k - ((E.R * P.σ : ℝ) : ℂ) =
        E.R * ((P.ρ i j k : ℂ) * exp (P.θ i j k * I)) := by
      unfold Polar.field; push_cast; ring
    rw [this, norm_mul, norm_polar _ _ (hρ i j k).le, Complex.norm_real, Real.norm_of_nonneg hR.le]
  have hw : ((E.R : ℂ) * E.R * P.rate x y Z + E.Hc * (E.R * P.field x y Z)) -
      E.Hc * (E.R * P.field x y Z) = E.R * E.R * P.rate x y Z := by ring
  have hd : (E.R : ℂ) * P.field x y Z - E.s ≠ 0 := by
    rw [← norm_ne_zero_iff, hn]; exact (mul_pos hR (hρ _ _ _)).ne'
  have hq : ((E.R : ℂ) * E.R * P.rate x y Z) / (E.R * P.field x y Z - E.s) =
      ((E.R * (P.dρ x y Z / P.ρ x y Z) : ℝ) : ℂ) + ((E.R * P.dθ x y Z : ℝ) : ℂ) * I := by
    have k := ratio (P.ρ x y Z) (P.θ x y Z) (P.dρ x y Z) (P.dθ x y Z) (hρ x y Z).ne'
    have e : (E.R : ℂ) * P.field x y Z - E.s = E.R * ((P.ρ x y Z : ℂ) * exp (P.θ x y Z * I)) := by
      rw [hs]; unfold Polar.field; push_cast; ring
    rw [e, mul_assoc, mul_div_mul_left _ _ hRc, mul_div_assoc, Polar.rate, k]
    push_cast; ring
  have nf : ∀ u : ℂ, ‖(E.R : ℂ) * u‖ = E.R * ‖u‖ := by
    intro u; rw [norm_mul, Complex.norm_real, Real.norm_of_nonneg hR.le]
  have hpot : rhopot E (E.R * P.field x y Z) = P.pot E.lam x y Z := by
    unfold rhopot Polar.pot
    rw [nf]
    have hR' := hR.ne'
    have : E.R * ‖P.field x y Z‖ * (E.R * ‖P.field x y Z‖) / (E.R * E.R) = ‖P.field x y Z‖ ^ 2 := by
      field_simp
    rw [this]; ring
  have hρ' := (hρ x y Z).ne'
  have hR' := hR.ne'
  refine ⟨?_, ?_, ?_, ?_, h.s x y z hx hy hz⟩
  · unfold rhoakin
    rw [hw, cquo_some hd, hq, Option.map_some, Option.some.injEq]
    simp only [Complex.add_im, Complex.ofReal_im, Complex.im_ofReal_mul, Complex.I_im, zero_add, mul_one]
    field_simp
  · unfold saxion rhoskin
    rw [hw, cquo_some hd, Option.map_some, Option.map_some, Option.some.injEq, hpot]
    have : (E.R : ℂ) * E.R * P.rate x y Z * ((‖(E.R : ℂ) * P.field x y Z - E.s‖ : ℝ) : ℂ) /
        (E.R * P.field x y Z - E.s) = ((E.R * P.ρ x y Z : ℝ) : ℂ) *
        (((E.R * (P.dρ x y Z / P.ρ x y Z) : ℝ) : ℂ) + ((E.R * P.dθ x y Z : ℝ) : ℂ) * I) := by
      rw [← hq, hn]; ring
    rw [this, Complex.re_ofReal_mul]
    unfold rhosgrad Polar.sax
    simp only [hn, Complex.add_re, Complex.ofReal_re, Complex.re_ofReal_mul, Complex.I_re, mul_zero,
      add_zero]
    congr 1
    congr 1
    · field_simp
    · rw [← mul_sub, ← mul_sub, ← mul_sub]
      generalize P.ρ (x + 1) y Z - P.ρ x y Z = a
      generalize P.ρ x (y + 1) Z - P.ρ x y Z = b
      generalize P.ρ x y (Z + 1) - P.ρ x y Z = c
      by_cases hdp : E.depta = 0
      · simp [hdp]
      · field_simp
  · rw [hn]; field_simp
  · rw [hpot]
    unfold rhokin rhograd Polar.total
    rw [hw, ← mul_sub, ← mul_sub, ← mul_sub, nf, nf, nf,
      mul_assoc (E.R : ℂ), nf, nf]
    have hr : ‖P.rate x y Z‖ ^ 2 = P.dρ x y Z ^ 2 + P.ρ x y Z ^ 2 * P.dθ x y Z ^ 2 := by
      unfold Polar.rate
      rw [norm_mul, exp_norm, mul_one, Complex.sq_norm, Complex.normSq_apply]
      simp
      ring
    congr 1
    congr 1
    · rw [← hr]; field_simp
    · generalize ‖P.field (x + 1) y Z - P.field x y Z‖ = a
      generalize ‖P.field x (y + 1) Z - P.field x y Z‖ = b
      generalize ‖P.field x y (Z + 1) - P.field x y Z‖ = c
      by_cases hdp : E.depta = 0
      · simp [hdp]
      · field_simp

/-- The quantities of `StringEnergyData` for a field, a mask and a box of `L × L × N` sites.  The sums that
carry no mask are divided by `L³`. -/
structure Stored (D : Data) (P : Polar) (out : ℤ → ℤ → ℤ → Bool) (h lam : ℝ) (L N : ℕ) : Prop where
  nout : D.nout = count L N out
  a : count L N out ≠ 0 → D.rho_a = some (box L N (only out fun x y z => P.dθ x y z ^ 2) / count L N out)
  s : count L N out ≠ 0 → D.rho_s = some (box L N (only out (P.sax h lam)) / count L N out)
  str : count L N out ≠ 0 → D.rho_str = some (box L N (P.total h lam) / L ^ 3 -
    box L N (only out fun x y z => P.dθ x y z ^ 2) / count L N out -
    box L N (only out (P.sax h lam)) / count L N out)
  none : count L N out = 0 → D.rho_a = none ∧ D.rho_s = none ∧ D.rho_str = none
  aV : D.rho_a_Vil = some (box L N (fun x y z => P.ρ x y z ^ 2 * P.dθ x y z ^ 2) / L ^ 3)
  sV : D.rho_s_Vil = some (box L N (fun x y z => P.ρ x y z ^ 2 * P.sax h lam x y z) / L ^ 3)
  strV : D.rho_str_Vil = some (box L N (P.total h lam) / L ^ 3 -
    box L N (fun x y z => P.ρ x y z ^ 2 * P.dθ x y z ^ 2) / L ^ 3 -
    box L N (fun x y z => P.ρ x y z ^ 2 * P.sax h lam x y z) / L ^ 3)

theorem mem_cells' {Lx Lz : ℕ} {p : ℕ × ℕ × ℕ} (h : p ∈ cells Lx Lz) :
    p.1 < Lx ∧ p.2.1 < Lx ∧ p.2.2 < Lz := StrLen.mem_cells.mp h

theorem rank_sums {E : Env} {P : Polar} {out : ℤ → ℤ → ℤ → Bool} {Lx Lz r : ℕ} {ma va : ℕ → ℂ}
    {sd : ℕ → ℕ} (hR : 0 < E.R) (hs : E.s = E.R * P.σ) (hρ : ∀ x y z, 0 < P.ρ x y z)
    (hc : P.Closed Lx) (h : Rank E P out Lx Lz r ma va sd) :
    let S := fun f : ℤ → ℤ → ℤ → ℝ =>
      ∑ z ∈ range Lz, ∑ y ∈ range Lx, ∑ x ∈ range Lx, f x y (r * Lz + z : ℕ)
    rankSums E ma va sd Lx Lz = ⟨S (P.total (E.R * E.depta) E.lam),
      some (S (only out fun x y z => P.dθ x y z ^ 2)),
      some (S (only out (P.sax (E.R * E.depta) E.lam))),
      some (S fun x y z => P.ρ x y z ^ 2 * P.dθ x y z ^ 2),
      some (S fun x y z => P.ρ x y z ^ 2 * P.sax (E.R * E.depta) E.lam x y z),
      ∑ z ∈ range Lz, ∑ y ∈ range Lx, ∑ x ∈ range Lx, if out x y (r * Lz + z : ℕ) then 1 else 0⟩ := by
  intro S
  unfold rankSums Sums.zero
  rw [fold_turns ma va sd Lx (fun p => ⟨P.total (E.R * E.depta) E.lam p.1 p.2.1 (r * Lz + p.2.2 : ℕ),
    P.dθ p.1 p.2.1 (r * Lz + p.2.2 : ℕ) ^ 2 / 2,
    P.sax (E.R * E.depta) E.lam p.1 p.2.1 (r * Lz + p.2.2 : ℕ), P.ρ p.1 p.2.1 (r * Lz + p.2.2 : ℕ) ^ 2,
    out p.1 p.2.1 (r * Lz + p.2.2 : ℕ)⟩) (cells Lx Lz) (fun p hp =>
      turn_of hR hs hρ hc h (mem_cells' hp).1 (mem_cells' hp).2.1 (mem_cells' hp).2.2)]
  simp only [sum_cells, zero_add]
  congr 2
  all_goals refine sum_congr rfl fun z _ => sum_congr rfl fun y _ => sum_congr rfl fun x _ => ?_
  · unfold only
    split_ifs <;> ring
  · ring

theorem reduce_range (n : ℕ) (t a s aV sV : ℕ → ℝ) (o : ℕ → ℕ) :
    reduce ((List.range n).map fun r => ⟨t r, some (a r), some (s r), some (aV r), some (sV r), o r⟩) =
      ⟨∑ r ∈ range n, t r, some (∑ r ∈ range n, a r), some (∑ r ∈ range n, s r),
        some (∑ r ∈ range n, aV r), some (∑ r ∈ range n, sV r), ∑ r ∈ range n, o r⟩ := by
  unfold reduce
  induction n with
  | zero => rfl
  | succ n ih =>
    rw [List.range_succ, List.map_append, List.foldl_append, ih]
    simp only [List.map_cons, List.map_nil, List.foldl_cons, List.foldl_nil, plus_some, sum_range_succ]

/-- **C76, what is stored.**  For every field that is nowhere at `σ`, every mask, every number of ranks
and every size of the slabs: the axion energy is twice the kinetic energy of the angle, the saxion
energy that of the distance and of the potential, each averaged over the sites left by the mask, and the
energy of strings is what remains of the total; in the second set of numbers the mask is the squared
distance instead. -/
theorem C76_stored {E : Env} {P : Polar} {out : ℤ → ℤ → ℤ → Bool} {n Lx Lz : ℕ} {ma va : ℕ → ℕ → ℂ}
    {sd : ℕ → ℕ → ℕ} (hL : 0 < Lx) (hR : 0 < E.R) (hs : E.s = E.R * P.σ)
    (hρ : ∀ x y z, 0 < P.ρ x y z) (hc : P.Closed Lx)
    (h : ∀ r < n, Rank E P out Lx Lz r (ma r) (va r) (sd r)) :
    Stored (stringenergy E n ma va sd Lx Lz) P out (E.R * E.depta) E.lam Lx (n * Lz) := by
  have hb : ∀ f : ℤ → ℤ → ℤ → ℝ, ∑ r ∈ range n, ∑ z ∈ range Lz, ∑ y ∈ range Lx, ∑ x ∈ range Lx,
      f x y (r * Lz + z : ℕ) = box Lx (n * Lz) f := fun f =>
    sum_slabs n Lz (fun k => ∑ y ∈ range Lx, ∑ x ∈ range Lx, f x y k)
  have hk : ∑ r ∈ range n, ∑ z ∈ range Lz, ∑ y ∈ range Lx, ∑ x ∈ range Lx,
      (if out x y (r * Lz + z : ℕ) then 1 else 0) = count Lx (n * Lz) out :=
    sum_slabs n Lz (fun k => ∑ y ∈ range Lx, ∑ x ∈ range Lx, if out x y k then 1 else 0)
  have hm : ((List.range n).map fun r => rankSums E (ma r) (va r) (sd r) Lx Lz) = _ :=
    List.map_congr_left fun r hr => rank_sums hR hs hρ hc (h r (List.mem_range.mp hr))
  have e : stringenergy E n ma va sd Lx Lz = result Lx ⟨box Lx (n * Lz) (P.total (E.R * E.depta) E.lam),
      some (box Lx (n * Lz) (only out fun x y z => P.dθ x y z ^ 2)),
      some (box Lx (n * Lz) (only out (P.sax (E.R * E.depta) E.lam))),
      some (box Lx (n * Lz) fun x y z => P.ρ x y z ^ 2 * P.dθ x y z ^ 2),
      some (box Lx (n * Lz) fun x y z => P.ρ x y z ^ 2 * P.sax (E.R * E.depta) E.lam x y z),
      count Lx (n * Lz) out⟩ := by
    unfold stringenergy
    have h1 := hb (fun x y z => P.ρ x y z ^ 2 * P.dθ x y z ^ 2)
    have h2 := hb (fun x y z => P.ρ x y z ^ 2 * P.sax (E.R * E.depta) E.lam x y z)
    rw [hm, reduce_range]
    simp only [hb, hk, h1, h2]
  have hV : ((Lx * Lx * Lx : ℕ) : ℝ) ≠ 0 := by
    have : 0 < Lx * Lx * Lx := by positivity
    exact_mod_cast this.ne'
  have hV' : ((Lx * Lx * Lx : ℕ) : ℝ) = (Lx : ℝ) ^ 3 := by push_cast; ring
  rw [hV'] at hV
  rw [e]
  unfold result quo
  constructor
  · rfl
  · intro h0
    have h0 : ((count Lx (n * Lz) out : ℕ) : ℝ) ≠ 0 := by exact_mod_cast h0
    simp only [Option.bind_some, if_neg h0]
  · intro h0
    have h0 : ((count Lx (n * Lz) out : ℕ) : ℝ) ≠ 0 := by exact_mod_cast h0
    simp only [Option.bind_some, if_neg h0]
  · intro h0
    have h0 : ((count Lx (n * Lz) out : ℕ) : ℝ) ≠ 0 := by exact_mod_cast h0
    simp only [Option.bind_some, if_neg h0, if_neg hV, Option.map_some, plus_some, hV', sub_eq_add_neg]
  · intro h0
    have h0 : ((count Lx (n * Lz) out : ℕ) : ℝ) = 0 := by exact_mod_cast h0
    simp only [Option.bind_some, if_pos h0, Option.map_none, plus_none, and_self]
  · simp only [Option.bind_some, if_neg hV, hV']
  · simp only [Option.bind_some, if_neg hV, hV']
  · simp only [Option.bind_some, if_neg hV, Option.map_some, plus_some, hV', sub_eq_add_neg]

/-- Every field that is nowhere at `σ`, with every rate, is one of those of `C76_stored`. -/
theorem C76_any (σ : ℝ) (φ u : ℤ → ℤ → ℤ → ℂ) (h : ∀ x y z, φ x y z ≠ σ) :
    ∃ P : Polar, P.σ = σ ∧ P.field = φ ∧ P.rate = u ∧ ∀ x y z, 0 < P.ρ x y z := by
  have hp : ∀ x y z, 0 < ‖φ x y z - σ‖ := fun x y z => norm_pos_iff.mpr (sub_ne_zero.mpr (h x y z))
  refine ⟨⟨σ, fun x y z => ‖φ x y z - σ‖, fun x y z => (φ x y z - σ).arg,
    fun x y z => (u x y z / exp ((φ x y z - σ).arg * I)).re,
    fun x y z => (u x y z / exp ((φ x y z - σ).arg * I)).im / ‖φ x y z - σ‖⟩, rfl, ?_, ?_, hp⟩
  · funext x y z
    simp only [Polar.field]
    rw [Complex.norm_mul_exp_arg_mul_I]; ring
  · funext x y z
    simp only [Polar.rate]
    set e := exp ((φ x y z - σ).arg * I)
    have he : e ≠ 0 := Complex.exp_ne_zero _
    have hn : (‖φ x y z - σ‖ : ℂ) ≠ 0 := Complex.ofReal_ne_zero.mpr (hp x y z).ne'
    push_cast
    rw [mul_div_cancel₀ _ hn, Complex.re_add_im, div_mul_cancel₀ _ he]

end StrEn
end Jaxions
