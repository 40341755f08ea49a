import Verif.Lemmas.AxionSpectrum
import Mathlib.Tactic.NormNum
import Mathlib.Tactic.FieldSimp
import Mathlib.Tactic.Positivity

/-
**C72** The correction near strings: the tables of `stringcorre`.
-/

namespace Jaxions.AxSpec

/-- Tables with all their 85176 entries. -/
def Tables.Full (T : Tables) : Prop := ∀ i, i < 85176 → (T.c i).isSome ∧ (T.s i).isSome

theorem interp_some {T : ℕ → Option ℝ} {i0 : ℕ} (h : ∀ i, i ≤ i0 + 54 → (T i).isSome)
    (dA dB dE dC : ℝ) : ∃ r, interp T i0 dA dB dE dC = some r := by
  have hg : ∀ i, i ≤ i0 + 54 → ∃ x, T i = some x := fun i hi => Option.isSome_iff_exists.1 (h i hi)
  obtain ⟨a0, ha0⟩ := hg i0 (by omega)
  obtain ⟨a1, ha1⟩ := hg (i0 + 1) (by omega)
  obtain ⟨b0, hb0⟩ := hg (i0 + 21) (by omega)
  obtain ⟨b1, hb1⟩ := hg (i0 + 21 + 1) (by omega)
  obtain ⟨c0, hc0⟩ := hg (i0 + 6) (by omega)
  obtain ⟨c1, hc1⟩ := hg (i0 + 6 + 1) (by omega)
  obtain ⟨d0, hd0⟩ := hg (i0 + 6 + 21) (by omega)
  obtain ⟨d1, hd1⟩ := hg (i0 + 6 + 21 + 1) (by omega)
  obtain ⟨e0, he0⟩ := hg (i0 + 26) (by omega)
  obtain ⟨f0, hf0⟩ := hg (i0 + 26 + 21) (by omega)
  obtain ⟨f1, hf1⟩ := hg (i0 + 26 + 21 + 1) (by omega)
  obtain ⟨g0, hg0⟩ := hg (i0 + 26 + 6) (by omega)
  obtain ⟨g1, hg1⟩ := hg (i0 + 26 + 6 + 1) (by omega)
  obtain ⟨h0, hh0⟩ := hg (i0 + 26 + 6 + 21) (by omega)
  obtain ⟨h1, hh1⟩ := hg (i0 + 26 + 6 + 21 + 1) (by omega)
  unfold interp
  simp only [nC, nE, nB, ha0, ha1, hb0, hb1, hc0, hc1, hd0, hd1, he0, hf0, hf1, hg0, hg1, hh0,
    hh1, Option.bind_eq_bind, Option.bind_some]
  exact ⟨_, rfl⟩

theorem len_sq (a : V3) : len a ^ 2 = a.1 * a.1 + a.2.1 * a.2.1 + a.2.2 * a.2.2 := by
  unfold len
  rw [Real.sq_sqrt]
  nlinarith [mul_self_nonneg a.1, mul_self_nonneg a.2.1, mul_self_nonneg a.2.2]

theorem len_nonneg (a : V3) : 0 ≤ len a := Real.sqrt_nonneg _

/-- A number below five times each component is below three times the length. -/
theorem below_len {x : ℝ} {a : V3} (h1 : |x| ≤ |5 * a.1|) (h2 : |x| ≤ |5 * a.2.1|)
    (h3 : |x| ≤ |5 * a.2.2|) (h0 : len a ≠ 0) : |x| < 3 * len a := by
  have hl : 0 < len a := lt_of_le_of_ne (len_nonneg a) (Ne.symm h0)
  have e1 := sq_le_sq.2 h1
  have e2 := sq_le_sq.2 h2
  have e3 := sq_le_sq.2 h3
  have e := len_sq a
  by_contra hc
  push Not at hc
  have : (3 * len a) ^ 2 ≤ |x| ^ 2 := by
    exact pow_le_pow_left₀ (by positivity) hc 2
  rw [sq_abs] at this
  nlinarith [pow_pos hl 2]

theorem neg_if (x : ℝ) : (if x < 0 then -x else x) = |x| := by
  split
  · rw [abs_of_neg ‹_›]
  · rw [abs_of_nonneg (not_lt.1 ‹_›)]

theorem prep_A (w : ℂ) (gr gi : V3) : (prep w gr gi).A =
    |if len gr < len gi then w.im / len gi else w.re / len gr| := by
  unfold prep
  dsimp only
  rw [neg_if]

theorem prep_B (w : ℂ) (gr gi : V3) : (prep w gr gi).B =
    |if len gr < len gi then w.re / len gi else w.im / len gr| := by
  unfold prep
  dsimp only
  rw [neg_if]
  by_cases h : (if len gr < len gi then w.im / len gi else w.re / len gr) < 0
  · rw [if_pos h, abs_neg]
  · rw [if_neg h]

/-- **C72** The six comparisons before the call keep the correction inside its tables: no site
makes `stringcorre` read past their end, whatever the field. -/
theorem C72_table_inside {T : Tables} (hT : T.Full) (w : ℂ) (gr gi : V3) (h : ¬ skipLUT w gr gi)
    (u : ℂ) : ∃ r, stringcorre T w gr gi u = some r := by
  unfold stringcorre
  by_cases h0 : len gr = 0 ∨ len gi = 0
  · rw [if_pos h0]; exact ⟨_, rfl⟩
  rw [if_neg h0]
  push Not at h0
  dsimp only
  by_cases hc : (prep w gr gi).A ≤ 5 ∧ (prep w gr gi).B ≤ 5 ∧ (prep w gr gi).e ≤ 1 ∧
      (prep w gr gi).cb ≤ 1 ∧ -1 ≤ (prep w gr gi).cb
  · rw [if_pos hc]
    simp only [skipLUT, not_or, gt_iff_lt, not_lt] at h
    obtain ⟨a1, b1, a2, b2, a3, b3⟩ := h
    have hr := below_len a1 a2 a3 h0.1
    have hi := below_len b1 b2 b3 h0.2
    have pr : 0 < len gr := lt_of_le_of_ne (len_nonneg _) (Ne.symm h0.1)
    have pi : 0 < len gi := lt_of_le_of_ne (len_nonneg _) (Ne.symm h0.2)
    have hA : (prep w gr gi).A < 3 := by
      rw [prep_A]
      split
      · rw [abs_div, abs_of_pos pi, div_lt_iff₀ pi]; exact hi
      · rw [abs_div, abs_of_pos pr, div_lt_iff₀ pr]; exact hr
    have hB : (prep w gr gi).B < 3 := by
      rw [prep_B]
      split
      · rw [abs_div, abs_of_pos pi, div_lt_iff₀ pi]; linarith
      · rw [abs_div, abs_of_pos pr, div_lt_iff₀ pr]; linarith
    have key : ∀ q : Prep, q.A < 3 → q.B < 3 → q.e ≤ 1 → q.cb ≤ 1 → q.coord.i0 + 54 < 85176 := by
      intro q h1 h2 h3 h4
      have f1 : ⌊q.coord.A⌋₊ ≤ 15 := by
        refine Nat.floor_le_of_le ?_
        simp only [Prep.coord, nA]; norm_num; linarith
      have f2 : ⌊q.coord.B⌋₊ ≤ 15 := by
        refine Nat.floor_le_of_le ?_
        simp only [Prep.coord, nB]; norm_num; linarith
      have f3 : ⌊q.coord.E⌋₊ ≤ 5 := by
        refine Nat.floor_le_of_le ?_
        simp only [Prep.coord, nE]; norm_num; linarith
      have f4 : ⌊q.coord.C⌋₊ ≤ 20 := by
        refine Nat.floor_le_of_le ?_
        simp only [Prep.coord, nC]; norm_num; linarith
      unfold Coord.i0
      simp only [nC, nE, nB, nCE, nCEB]
      omega
    have hk := key _ hA hB hc.2.2.1 hc.2.2.2.1
    obtain ⟨lc, e1⟩ := interp_some (T := T.c) (i0 := (prep w gr gi).coord.i0)
      (fun i hi => (hT i (by omega)).1) ((prep w gr gi).coord.A - ⌊(prep w gr gi).coord.A⌋₊)
      ((prep w gr gi).coord.B - ⌊(prep w gr gi).coord.B⌋₊)
      ((prep w gr gi).coord.E - ⌊(prep w gr gi).coord.E⌋₊)
      ((prep w gr gi).coord.C - ⌊(prep w gr gi).coord.C⌋₊)
    obtain ⟨ls, e2⟩ := interp_some (T := T.s) (i0 := (prep w gr gi).coord.i0)
      (fun i hi => (hT i (by omega)).2) ((prep w gr gi).coord.A - ⌊(prep w gr gi).coord.A⌋₊)
      ((prep w gr gi).coord.B - ⌊(prep w gr gi).coord.B⌋₊)
      ((prep w gr gi).coord.E - ⌊(prep w gr gi).coord.E⌋₊)
      ((prep w gr gi).coord.C - ⌊(prep w gr gi).coord.C⌋₊)
    unfold lookup
    rw [e1, e2]
    exact ⟨_, rfl⟩
  · rw [if_neg hc]; exact ⟨_, rfl⟩

/-- **C72** Without them it can: at `A = B = 5` with parallel gradients of equal length the last
reads are past the end. -/
theorem C72_table_outside (T : Tables) (hT : ∀ i, 85176 ≤ i → T.c i = none) (x : ℝ) (hx : 0 < x)
    (u : ℂ) : stringcorre T ⟨5 * x, 5 * x⟩ (x, 0, 0) (x, 0, 0) u = none := by
  have hl : len (x, 0, 0) = x := by
    unfold len; simp [Real.sqrt_mul_self hx.le]
  have hp : prep ⟨5 * x, 5 * x⟩ (x, 0, 0) (x, 0, 0) = ⟨5, 5, 1, 1, 1, 1⟩ := by
    unfold prep
    simp only [hl, lt_irrefl, if_false, mul_zero, add_zero, div_self hx.ne',
      mul_div_assoc, mul_one]
    norm_num
    exact div_self hx.ne'
  unfold stringcorre
  rw [if_neg (by rw [hl]; simp [hx.ne']), hp]
  dsimp only
  rw [if_pos (by norm_num)]
  have : lookup T.c (Prep.coord ⟨5, 5, 1, 1, 1, 1⟩) = none := by
    have f1 : ⌊(5 : ℝ) * ((26 : ℕ) - 1) / 5⌋₊ = 25 := by norm_num
    have f3 : ⌊(1 : ℝ) * ((6 : ℕ) - 1)⌋₊ = 5 := by norm_num
    have f4 : ⌊((1 : ℝ) + 1) * ((21 : ℕ) - 1) / 2⌋₊ = 20 := by norm_num
    unfold lookup Coord.i0 Prep.coord
    simp only [nA, nB, nE, nC, nCE, nCEB, f1, f3, f4]
    unfold interp
    simp only [nC, nE, nB]
    rw [hT _ (by norm_num : 85176 ≤ 20 + 21 * 5 + 21 * 6 * 25 + 21 * 6 * 26 * 25 + 1)]
    cases T.c (20 + 21 * 5 + 21 * 6 * 25 + 21 * 6 * 26 * 25) <;> rfl
  rw [this]
  rfl

/-! ### Between the nodes -/

/-- The value between the sixteen surrounding nodes, linear in each of the four coordinates; the
order of the table is that of its index. -/
def multilinear (T : ℕ → ℝ) (i0 : ℕ) (dA dB dE dC : ℝ) : ℝ :=
  let c (i : ℕ) := T i * (1 - dC) + T (i + 1) * dC
  let e (i : ℕ) := c i * (1 - dE) + c (i + nC) * dE
  let b (i : ℕ) := e i * (1 - dB) + e (i + nCE) * dB
  b i0 * (1 - dA) + b (i0 + nCEB) * dA

/-- **C72** (negative) The interpolation takes the neighbours in the first two coordinates 26 and
6 entries further on instead of 3276 and 126: it agrees with the linear interpolation for every
table exactly when the point lies on the nodes of both. -/
theorem C72_table_neighbours (i0 : ℕ) (dA dB dE dC : ℝ) :
    (∀ T : ℕ → ℝ, interp (fun i => some (T i)) i0 dA dB dE dC = some (multilinear T i0 dA dB dE dC)) ↔
      dA = 0 ∧ dB = 0 := by
  constructor
  · intro h
    have hA : dA = 0 := by
      have := h fun i => if i0 + 1000 ≤ i then 1 else 0
      simp only [interp, multilinear, nC, nE, nB, nCE, nCEB, Option.bind_eq_bind,
        Option.bind_some] at this
      simp [Nat.add_assoc] at this
      linarith
    refine ⟨hA, ?_⟩
    have := h fun i => if i0 + 100 ≤ i then 1 else 0
    simp only [interp, multilinear, nC, nE, nB, nCE, nCEB, Option.bind_eq_bind,
      Option.bind_some, hA] at this
    simp [Nat.add_assoc] at this
    linarith
  · rintro ⟨rfl, rfl⟩ T
    simp only [interp, multilinear, nC, nE, nB, nCE, nCEB, Option.bind_eq_bind, Option.bind_some]
    congr 1
    simp

/-- **C72** At the nodes the table entry itself is used. -/
theorem C72_table_nodes (T : ℕ → ℝ) (i0 : ℕ) : interp (fun i => some (T i)) i0 0 0 0 0 = some (T i0) := by
  simp [interp]

/-- **C72** (negative) A table that depends on the first coordinate only is not interpolated at
all: the value jumps from node to node. -/
theorem C72_table_jumps (f : ℕ → ℝ) (i0 : ℕ) (h : i0 % nCEB + 54 < nCEB) (dA dB dE dC : ℝ) :
    interp (fun i => some (f (i / nCEB))) i0 dA dB dE dC = some (f (i0 / nCEB)) := by
  have e : ∀ j, j ≤ 54 → (i0 + j) / nCEB = i0 / nCEB := by
    intro j hj
    simp only [nCEB, nCE, nC, nE, nB] at *
    omega
  simp only [interp, nC, nE, nB, Option.bind_eq_bind, Option.bind_some, Nat.add_assoc]
  simp only [e 1 (by omega), e 21 (by omega), e (21 + 1) (by omega), e 6 (by omega),
    e (6 + 1) (by omega), e (6 + 21) (by omega), e (6 + (21 + 1)) (by omega), e 26 (by omega),
    e (26 + 21) (by omega), e (26 + (21 + 1)) (by omega),
    e (26 + 6) (by omega), e (26 + (6 + 1)) (by omega), e (26 + (6 + 21)) (by omega),
    e (26 + (6 + (21 + 1))) (by omega)]
  congr 1
  ring

/-! ### Symmetries -/

theorem ratio_neg (w u : ℂ) : ratio (-w) u = (ratio w u).map fun r => -r := by
  unfold ratio
  simp only [Complex.neg_re, Complex.neg_im, neg_mul_neg]
  split
  · rfl
  · rw [Option.map_some]; congr 1; ring

theorem ratio_smul (c : ℝ) (hc : c ≠ 0) (w u : ℂ) : ratio (c * w) (c * u) = ratio w u := by
  unfold ratio
  simp only [Complex.re_ofReal_mul, Complex.im_ofReal_mul]
  have e : c * w.re * (c * w.re) + c * w.im * (c * w.im) = c ^ 2 * (w.re * w.re + w.im * w.im) := by ring
  rw [e]
  by_cases h : w.re * w.re + w.im * w.im = 0
  · rw [if_pos h, if_pos (by rw [h, mul_zero])]
  · rw [if_neg h, if_neg (mul_ne_zero (pow_ne_zero 2 hc) h)]
    congr 1
    generalize w.re * w.re + w.im * w.im = d at h
    field_simp

/-- **C72** Turning the field by half a turn, with its derivative left as it is, changes the sign of
the result: the rate of the phase is odd, with the tables too. -/
theorem C72_table_odd (T : Tables) (w : ℂ) (gr gi : V3) (u : ℂ)
    (h : (if len gr < len gi then w.im else w.re) ≠ 0) :
    stringcorre T (-w) gr gi u = (stringcorre T w gr gi u).map fun v => v.map fun r => -r := by
  unfold stringcorre
  by_cases h0 : len gr = 0 ∨ len gi = 0
  · rw [if_pos h0, if_pos h0, ratio_neg]; rfl
  rw [if_neg h0, if_neg h0]
  have h0' := h0
  push Not at h0
  have hA : (if len gr < len gi then w.im / len gi else w.re / len gr) ≠ 0 := by
    by_cases hf : len gr < len gi
    · rw [if_pos hf] at h ⊢; exact div_ne_zero h h0.2
    · rw [if_neg hf] at h ⊢; exact div_ne_zero h h0.1
  have hp : prep (-w) gr gi = { prep w gr gi with s1 := -(prep w gr gi).s1, s2 := -(prep w gr gi).s2 } := by
    unfold prep
    dsimp only
    have e1 : (if len gr < len gi then (-w).im / len gi else (-w).re / len gr) =
        -(if len gr < len gi then w.im / len gi else w.re / len gr) := by
      split <;> simp [neg_div]
    have e2 : (if len gr < len gi then (-w).re / len gi else (-w).im / len gr) =
        -(if len gr < len gi then w.re / len gi else w.im / len gr) := by
      split <;> simp [neg_div]
    rw [e1, e2]
    generalize (if len gr < len gi then w.im / len gi else w.re / len gr) = a at hA ⊢
    generalize (if len gr < len gi then w.re / len gi else w.im / len gr) = b
    rcases lt_or_gt_of_ne hA with ha | ha
    · simp only [if_pos ha, if_neg (show ¬ -a < 0 by linarith), neg_neg]
      by_cases hb : -b < 0
      · simp [hb]
      · simp [hb]
    · simp only [if_neg (show ¬ a < 0 by linarith), if_pos (show -a < 0 by linarith), neg_neg]
      by_cases hb : b < 0
      · simp [hb]
      · simp [hb]
  rw [hp, ratio_neg]
  dsimp only [Prep.coord]
  by_cases hc : (prep w gr gi).A ≤ 5 ∧ (prep w gr gi).B ≤ 5 ∧ (prep w gr gi).e ≤ 1 ∧
      (prep w gr gi).cb ≤ 1 ∧ -1 ≤ (prep w gr gi).cb
  · rw [if_pos hc, if_pos hc]
    generalize lookup T.c _ = lc
    generalize lookup T.s _ = ls
    cases lc with
    | none => rfl
    | some lc =>
      cases ls with
      | none => rfl
      | some ls =>
        simp only [Option.bind_eq_bind, Option.bind_some, Option.map_some]
        congr 2
        split <;> ring
  · rw [if_neg hc, if_neg hc]; rfl

theorem len_smul (c : ℝ) (hc : 0 < c) (a : V3) : len (c * a.1, c * a.2.1, c * a.2.2) = c * len a := by
  unfold len
  dsimp only
  rw [show c * a.1 * (c * a.1) + c * a.2.1 * (c * a.2.1) + c * a.2.2 * (c * a.2.2) =
    c ^ 2 * (a.1 * a.1 + a.2.1 * a.2.1 + a.2.2 * a.2.2) by ring, Real.sqrt_mul (by positivity),
    Real.sqrt_sq hc.le]

/-- **C72** The unit of the field is immaterial: the same result for the field and its derivatives
in any other unit. -/
theorem C72_table_unit (T : Tables) (c : ℝ) (hc : 0 < c) (w : ℂ) (gr gi : V3) (u : ℂ) :
    stringcorre T (c * w) (c * gr.1, c * gr.2.1, c * gr.2.2) (c * gi.1, c * gi.2.1, c * gi.2.2) (c * u) =
      stringcorre T w gr gi u := by
  have hp : prep (c * w) (c * gr.1, c * gr.2.1, c * gr.2.2) (c * gi.1, c * gi.2.1, c * gi.2.2) =
      prep w gr gi := by
    unfold prep
    simp only [len_smul c hc, Complex.re_ofReal_mul, Complex.im_ofReal_mul, mul_lt_mul_iff_right₀ hc,
      mul_div_mul_left _ _ hc.ne']
    have : (c * gr.1 * (c * gi.1) + c * gr.2.1 * (c * gi.2.1) + c * gr.2.2 * (c * gi.2.2)) /
        (c * len gr * (c * len gi)) = (gr.1 * gi.1 + gr.2.1 * gi.2.1 + gr.2.2 * gi.2.2) / (len gr * len gi) := by
      rw [show c * gr.1 * (c * gi.1) + c * gr.2.1 * (c * gi.2.1) + c * gr.2.2 * (c * gi.2.2) =
        c ^ 2 * (gr.1 * gi.1 + gr.2.1 * gi.2.1 + gr.2.2 * gi.2.2) by ring,
        show c * len gr * (c * len gi) = c ^ 2 * (len gr * len gi) by ring,
        mul_div_mul_left _ _ (pow_pos hc 2).ne']
    rw [this]
  unfold stringcorre
  simp only [hp, len_smul c hc, mul_eq_zero, hc.ne', false_or, ratio_smul c hc.ne',
    Complex.re_ofReal_mul, Complex.im_ofReal_mul, mul_lt_mul_iff_right₀ hc]
  by_cases h0 : len gr = 0 ∨ len gi = 0
  · rw [if_pos h0, if_pos h0]
  rw [if_neg h0, if_neg h0]
  refine if_congr Iff.rfl ?_ rfl
  cases lookup T.c (prep w gr gi).coord with
  | none => rfl
  | some lc =>
    cases lookup T.s (prep w gr gi).coord with
    | none => rfl
    | some ls =>
      simp only [Option.bind_eq_bind, Option.bind_some]
      congr 2
      have e : ∀ a b d : ℝ, (a * (c * u.im) - b * (c * u.re)) / (c * d) = (a * u.im - b * u.re) / d := by
        intro a b d
        rw [show a * (c * u.im) - b * (c * u.re) = c * (a * u.im - b * u.re) by ring,
          mul_div_mul_left _ _ hc.ne']
      rw [e, e]

/-- **C72** Exchanging real and imaginary part of everything reverses the phase, and the result
changes sign. -/
theorem C72_table_mirror (T : Tables) (w : ℂ) (gr gi : V3) (u : ℂ) (h : len gr ≠ len gi) :
    stringcorre T ⟨w.im, w.re⟩ gi gr ⟨u.im, u.re⟩ =
      (stringcorre T w gr gi u).map fun v => v.map fun r => -r := by
  have hr : ratio ⟨w.im, w.re⟩ ⟨u.im, u.re⟩ = (ratio w u).map fun r => -r := by
    unfold ratio
    dsimp only
    rw [add_comm (w.im * w.im)]
    split
    · rfl
    · rw [Option.map_some]; congr 1; ring
  have hf : (len gi < len gr) = ¬ (len gr < len gi) := by
    rw [not_lt]
    exact propext ⟨le_of_lt, fun k => lt_of_le_of_ne k (Ne.symm h)⟩
  have hp : prep ⟨w.im, w.re⟩ gi gr = prep w gr gi := by
    unfold prep
    dsimp only
    rw [show gi.1 * gr.1 + gi.2.1 * gr.2.1 + gi.2.2 * gr.2.2 =
      gr.1 * gi.1 + gr.2.1 * gi.2.1 + gr.2.2 * gi.2.2 by ring, mul_comm (len gi) (len gr)]
    by_cases k : len gr < len gi
    · simp only [hf, k, not_true, if_true, if_false]
    · simp only [hf, k, not_false_iff, if_true, if_false]
  unfold stringcorre
  rw [hp, hr]
  by_cases h0 : len gr = 0 ∨ len gi = 0
  · rw [if_pos h0, if_pos h0.symm]; rfl
  rw [if_neg h0, if_neg fun k => h0 k.symm]
  dsimp only
  by_cases hc : (prep w gr gi).A ≤ 5 ∧ (prep w gr gi).B ≤ 5 ∧ (prep w gr gi).e ≤ 1 ∧
      (prep w gr gi).cb ≤ 1 ∧ -1 ≤ (prep w gr gi).cb
  · rw [if_pos hc, if_pos hc]
    cases lookup T.c (prep w gr gi).coord with
    | none => rfl
    | some lc =>
      cases lookup T.s (prep w gr gi).coord with
      | none => rfl
      | some ls =>
        simp only [Option.bind_eq_bind, Option.bind_some, Option.map_some]
        congr 2
        by_cases k : len gr < len gi
        · rw [if_pos k, if_neg (by rw [hf]; exact not_not_intro k)]; ring
        · rw [if_neg k, if_pos (by rw [hf]; exact k)]; ring
  · rw [if_neg hc, if_neg hc]; rfl

/-- **C72** Reversing the imaginary part of everything reverses the phase, and the result changes
sign. -/
theorem C72_table_conj (T : Tables) (w : ℂ) (gr gi : V3) (u : ℂ) (hr : w.re ≠ 0) (hi : w.im ≠ 0) :
    stringcorre T ⟨w.re, -w.im⟩ gr (-gi.1, -gi.2.1, -gi.2.2) ⟨u.re, -u.im⟩ =
      (stringcorre T w gr gi u).map fun v => v.map fun r => -r := by
  have hl : len (-gi.1, -gi.2.1, -gi.2.2) = len gi := by unfold len; simp
  have hq : ratio ⟨w.re, -w.im⟩ ⟨u.re, -u.im⟩ = (ratio w u).map fun r => -r := by
    unfold ratio
    dsimp only
    rw [neg_mul_neg]
    split
    · rfl
    · rw [Option.map_some]; congr 1; ring
  unfold stringcorre
  rw [hl, hq]
  by_cases h0 : len gr = 0 ∨ len gi = 0
  · rw [if_pos h0, if_pos h0]; rfl
  rw [if_neg h0, if_neg h0]
  push Not at h0
  have hp : prep ⟨w.re, -w.im⟩ gr (-gi.1, -gi.2.1, -gi.2.2) =
      { prep w gr gi with
        s1 := if len gr < len gi then -(prep w gr gi).s1 else (prep w gr gi).s1
        s2 := if len gr < len gi then (prep w gr gi).s2 else -(prep w gr gi).s2 } := by
    have eC : (gr.1 * -gi.1 + gr.2.1 * -gi.2.1 + gr.2.2 * -gi.2.2) / (len gr * len gi) =
        -((gr.1 * gi.1 + gr.2.1 * gi.2.1 + gr.2.2 * gi.2.2) / (len gr * len gi)) := by ring
    unfold prep
    dsimp only
    rw [hl, eC]
    generalize (gr.1 * gi.1 + gr.2.1 * gi.2.1 + gr.2.2 * gi.2.2) / (len gr * len gi) = cb
    by_cases k : len gr < len gi
    · have hA : w.im / len gi ≠ 0 := div_ne_zero hi h0.2
      have hB : w.re / len gi ≠ 0 := div_ne_zero hr h0.2
      simp only [if_pos k, neg_div]
      generalize w.im / len gi = a at hA ⊢
      generalize w.re / len gi = b at hB ⊢
      rcases lt_or_gt_of_ne hA with ha | ha <;> rcases lt_or_gt_of_ne hB with hb | hb
      · have : ¬ -a < 0 := by linarith
        have : ¬ -b < 0 := by linarith
        simp [*]
      · have : ¬ -a < 0 := by linarith
        have : -b < 0 := by linarith
        have : ¬ b < 0 := by linarith
        simp [*]
      · have : ¬ a < 0 := by linarith
        have : -a < 0 := by linarith
        have : ¬ -b < 0 := by linarith
        simp [*]
      · have : ¬ a < 0 := by linarith
        have : -a < 0 := by linarith
        have : ¬ b < 0 := by linarith
        have : -b < 0 := by linarith
        simp [*]
    · have hA : w.re / len gr ≠ 0 := div_ne_zero hr h0.1
      have hB : w.im / len gr ≠ 0 := div_ne_zero hi h0.1
      simp only [if_neg k, neg_div]
      generalize w.re / len gr = a at hA ⊢
      generalize w.im / len gr = b at hB ⊢
      rcases lt_or_gt_of_ne hA with ha | ha <;> rcases lt_or_gt_of_ne hB with hb | hb
      · have : ¬ -b < 0 := by linarith
        simp [*]
      · have : -b < 0 := by linarith
        have : ¬ b < 0 := by linarith
        simp [*]
      · have : ¬ a < 0 := by linarith
        have : ¬ -b < 0 := by linarith
        simp [*]
      · have : ¬ a < 0 := by linarith
        have : ¬ b < 0 := by linarith
        have : -b < 0 := by linarith
        simp [*]
  rw [hp]
  dsimp only [Prep.coord]
  by_cases hc : (prep w gr gi).A ≤ 5 ∧ (prep w gr gi).B ≤ 5 ∧ (prep w gr gi).e ≤ 1 ∧
      (prep w gr gi).cb ≤ 1 ∧ -1 ≤ (prep w gr gi).cb
  · rw [if_pos hc, if_pos hc]
    generalize lookup T.c _ = lc
    generalize lookup T.s _ = ls
    cases lc with
    | none => rfl
    | some lc =>
      cases ls with
      | none => rfl
      | some ls =>
        simp only [Option.bind_eq_bind, Option.bind_some, Option.map_some]
        congr 2
        by_cases k : len gr < len gi
        · simp only [if_pos k]; ring
        · simp only [if_neg k]; ring
  · rw [if_neg hc, if_neg hc]; rfl

/-! ### The gradient -/

/-- **C72** Around a site of a field that is linear there, the gradient given to the tables is
`2 pre` times that of the field, and the centre does not enter. -/
theorem C72_gradient (pre : ℝ) (c a gx gy gz : ℂ) :
    gradRe pre ⟨c, a + gx, a - gx, a + gy, a - gy, a + gz, a - gz⟩ =
      (2 * pre * gx.re, 2 * pre * gy.re, 2 * pre * gz.re) ∧
    gradIm pre ⟨c, a + gx, a - gx, a + gy, a - gy, a + gz, a - gz⟩ =
      (2 * pre * gx.im, 2 * pre * gy.im, 2 * pre * gz.im) := by
  simp only [gradRe, gradIm, Complex.add_re, Complex.sub_re, Complex.add_im, Complex.sub_im,
    Prod.mk.injEq]
  refine ⟨⟨?_, ?_, ?_⟩, ?_, ?_, ?_⟩ <;> ring

/-! ### A case -/

/-- Constant tables. -/
def flatTables : Tables := ⟨fun i => if i < 85176 then some 1 else none,
  fun i => if i < 85176 then some 2 else none⟩

theorem flatTables_full : flatTables.Full := by
  intro i hi
  simp [flatTables, hi]

example : ¬ skipLUT (1 / 2 : ℂ) (1, 2, 3) (0, 1, 1) := by
  simp only [skipLUT]
  norm_num

example : ∃ r, stringcorre flatTables (1 / 2 : ℂ) (1, 2, 3) (0, 1, 1) 1 = some r :=
  C72_table_inside flatTables_full _ _ _ (by simp only [skipLUT]; norm_num) _

example : interp (fun i => some ((i / nCEB : ℕ) : ℝ)) (3 * nCEB + 40) (1 / 2) 0 0 0 = some 3 := by
  rw [C72_table_jumps (fun i => (i : ℝ)) _ (by decide)]
  norm_num [nCEB, nCE, nC, nE, nB]

end Jaxions.AxSpec
