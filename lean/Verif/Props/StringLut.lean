import Verif.Spec.StringLut
import Mathlib.Tactic.Linarith
import Mathlib.Tactic.Ring
import Mathlib.Tactic.FieldSimp
import Mathlib.Tactic.NormNum

/-!
# C96: the correction of velocities next to strings
-/

namespace Jaxions.StringLut

theorem getD_get {T : List ℝ} {i : ℕ} (h : i < T.length) : T.getD i 0 = T[i] := by
  rw [List.getD_eq_getElem?_getD, List.getElem?_eq_getElem h]
  rfl

theorem get_some {T : List ℝ} {i : ℕ} (h : i < T.length) : T[i]? = some (T.getD i 0) := by
  rw [List.getElem?_eq_getElem h, getD_get h]

theorem faceC_some {T : List ℝ} {i : ℕ} {dC : ℝ} (h : i + 1 < T.length) :
    faceC T i dC = some (mix (T.getD i 0) (T.getD (i + 1) 0) dC) := by
  unfold faceC
  rw [get_some (by omega : i < T.length), get_some h]
  rfl

/-- What is read, with every offset. -/
theorem read_some {T : List ℝ} {i : ℕ} {dA dB dE dC : ℝ} (h : i + 54 < T.length) :
    read T i dA dB dE dC = some
      (let g (o : ℕ) := mix (T.getD (i + o) 0) (T.getD (i + o + 1) 0) dC
      mix (mix (mix (g 0) (g 21) dE) (mix (g 6) (g 27) dE) dB)
        (mix (mix (g 26) (g 47) dE) (mix (g 32) (g 53) dE) dB) dA) := by
  unfold read nB nE nC
  rw [faceC_some (by omega), faceC_some (by omega), faceC_some (by omega), faceC_some (by omega),
    faceC_some (by omega), faceC_some (by omega), faceC_some (by omega), faceC_some (by omega)]
  rfl

theorem read_none {T : List ℝ} {i : ℕ} {dA dB dE dC : ℝ} (h : T.length ≤ i + 1) :
    read T i dA dB dE dC = none := by
  have : faceC T i dC = none := by
    unfold faceC
    rw [List.getElem?_eq_none h]
    cases T[i]? <;> rfl
  unfold read
  rw [this]
  rfl

theorem abs_mix {x y t M : ℝ} (hx : |x| ≤ M) (hy : |y| ≤ M) (h0 : 0 ≤ t) (h1 : t ≤ 1) :
    |mix x y t| ≤ M := by
  unfold mix
  rw [abs_le] at hx hy ⊢
  constructor <;> nlinarith

theorem floor_diff {x : ℝ} (h : 0 ≤ x) : 0 ≤ x - ⌊x⌋₊ ∧ x - ⌊x⌋₊ ≤ 1 :=
  ⟨by have := Nat.floor_le h; linarith, by have := Nat.lt_floor_add_one x; linarith⟩

theorem floor_le' {x : ℝ} {n : ℕ} (h : x ≤ n) : ⌊x⌋₊ ≤ n := by
  have := Nat.floor_mono h
  rwa [Nat.floor_natCast] at this

theorem floor_lt' {x : ℝ} {n : ℕ} (hx : 0 ≤ x) (h : x < n) : ⌊x⌋₊ < n := (Nat.floor_lt hx).2 h

/-- Inside the range, away from the last corner, the table is long enough. -/
theorem look_some {T : List ℝ} (hT : T.length = 85176) {A B e cb M : ℝ} (hA0 : 0 ≤ A) (hB0 : 0 ≤ B)
    (he0 : 0 ≤ e) (hA : A ≤ 5) (hB : B ≤ 5) (he : e ≤ 1) (hc : cb ≤ 1) (hc0 : -1 ≤ cb)
    (hAB : A < 5 ∨ B < 5) (hM : ∀ x ∈ T, |x| ≤ M) :
    ∃ L, look T A B e cb = some L ∧ |L| ≤ M := by
  have iA : ⌊A * 25 / 5⌋₊ ≤ 25 := floor_le' (by push_cast; linarith)
  have iB : ⌊B * 25 / 5⌋₊ ≤ 25 := floor_le' (by push_cast; linarith)
  have iE : ⌊e * 5⌋₊ ≤ 5 := floor_le' (by push_cast; linarith)
  have iC : ⌊(cb + 1) * 20 / 2⌋₊ ≤ 20 := floor_le' (by push_cast; linarith)
  have hAB' : ⌊A * 25 / 5⌋₊ < 25 ∨ ⌊B * 25 / 5⌋₊ < 25 := by
    rcases hAB with h | h
    · exact Or.inl (floor_lt' (by linarith) (by push_cast; linarith))
    · exact Or.inr (floor_lt' (by linarith) (by push_cast; linarith))
  have hlen : ⌊(cb + 1) * 20 / 2⌋₊ + nC * ⌊e * 5⌋₊ + nCE * ⌊B * 25 / 5⌋₊ + nCEB * ⌊A * 25 / 5⌋₊ + 54 <
      T.length := by
    rw [hT]
    simp only [nC, nCE, nCEB, nE, nB]
    rcases hAB' with h | h <;> omega
  refine ⟨_, read_some hlen, ?_⟩
  obtain ⟨a0, a1⟩ := floor_diff (x := A * 25 / 5) (by linarith)
  obtain ⟨b0, b1⟩ := floor_diff (x := B * 25 / 5) (by linarith)
  obtain ⟨e0, e1⟩ := floor_diff (x := e * 5) (by linarith)
  obtain ⟨c0, c1⟩ := floor_diff (x := (cb + 1) * 20 / 2) (by linarith)
  have g : ∀ i, i < T.length → |T.getD i 0| ≤ M := by
    intro i hi
    rw [getD_get hi]
    exact hM _ (List.getElem_mem hi)
  have g2 : ∀ o, o ≤ 53 → ∀ i, i + 54 < T.length →
      |mix (T.getD (i + o) 0) (T.getD (i + o + 1) 0) ((cb + 1) * 20 / 2 - ⌊(cb + 1) * 20 / 2⌋₊)| ≤ M :=
    fun o ho i hi => abs_mix (g _ (by omega)) (g _ (by omega)) c0 c1
  refine abs_mix (abs_mix (abs_mix ?_ ?_ e0 e1) (abs_mix ?_ ?_ e0 e1) b0 b1)
    (abs_mix (abs_mix ?_ ?_ e0 e1) (abs_mix ?_ ?_ e0 e1) b0 b1) a0 a1 <;>
  exact g2 _ (by omega) _ hlen

theorem signs_A (A B cb : ℝ) : (signs A B cb).A = |A| := by
  unfold signs
  rcases lt_or_ge A 0 with h | h
  · simp only [if_pos h, abs_of_neg h]; split_ifs <;> rfl
  · simp only [if_neg (not_lt.2 h), abs_of_nonneg h]; split_ifs <;> rfl

theorem signs_B (A B cb : ℝ) : (signs A B cb).B = |B| := by
  unfold signs
  rcases lt_or_ge A 0 with h | h
  · simp only [if_pos h]
    split_ifs with h2
    · rw [neg_neg, abs_of_nonneg (by linarith)]
    · show -B = |B|
      rw [abs_of_nonpos (by linarith)]
  · simp only [if_neg (not_lt.2 h)]
    split_ifs with h2
    · show -B = |B|
      rw [abs_of_neg h2]
    · show B = |B|
      rw [abs_of_nonneg (by linarith)]

theorem signs_s (A B cb : ℝ) : |(signs A B cb).s1| = 1 ∧ |(signs A B cb).s2| = 1 ∧
    |(signs A B cb).cb| = |cb| := by
  unfold signs
  rcases lt_or_ge A 0 with h | h
  · simp only [if_pos h]
    split_ifs <;> simp
  · simp only [if_neg (not_lt.2 h)]
    split_ifs <;> simp

theorem ma_nonneg (d : Da) : 0 ≤ d.ma := Real.sqrt_nonneg _
theorem mb_nonneg (d : Da) : 0 ≤ d.mb := Real.sqrt_nonneg _
theorem ma_sq (d : Da) : d.ma ^ 2 = d.a0 * d.a0 + d.a1 * d.a1 + d.a2 * d.a2 :=
  Real.sq_sqrt (by nlinarith [mul_self_nonneg d.a0, mul_self_nonneg d.a1, mul_self_nonneg d.a2])
theorem mb_sq (d : Da) : d.mb ^ 2 = d.b0 * d.b0 + d.b1 * d.b1 + d.b2 * d.b2 :=
  Real.sq_sqrt (by nlinarith [mul_self_nonneg d.b0, mul_self_nonneg d.b1, mul_self_nonneg d.b2])

/-- The ratio and the cosine are in the range of the table. -/
theorem ranges {d : Da} (ha : d.ma ≠ 0) (hb : d.mb ≠ 0) :
    0 ≤ d.e ∧ d.e ≤ 1 ∧ d.place.cb ≤ 1 ∧ -1 ≤ d.place.cb := by
  have ha' : 0 < d.ma := lt_of_le_of_ne (ma_nonneg d) (Ne.symm ha)
  have hb' : 0 < d.mb := lt_of_le_of_ne (mb_nonneg d) (Ne.symm hb)
  have he : 0 ≤ d.e ∧ d.e ≤ 1 := by
    unfold Da.e Da.flip
    by_cases h : d.ma < d.mb
    · simp only [h, decide_true, if_true]
      exact ⟨by positivity, (div_le_one hb').2 h.le⟩
    · simp only [h, decide_false, Bool.false_eq_true, if_false]
      exact ⟨by positivity, (div_le_one ha').2 (not_lt.1 h)⟩
  have hc : |d.place.cb| ≤ 1 := by
    unfold Da.place
    rw [(signs_s _ _ _).2.2, abs_div, abs_of_pos (mul_pos ha' hb'), div_le_one (mul_pos ha' hb')]
    refine abs_le_of_sq_le_sq ?_ (mul_pos ha' hb').le
    rw [mul_pow, ma_sq, mb_sq]
    nlinarith [sq_nonneg (d.a0 * d.b1 - d.a1 * d.b0), sq_nonneg (d.a0 * d.b2 - d.a2 * d.b0),
      sq_nonneg (d.a1 * d.b2 - d.a2 * d.b1)]
  exact ⟨he.1, he.2, (abs_le.1 hc).2, (abs_le.1 hc).1⟩

theorem plain_ne_outside (d : Da) : plain d ≠ .outside := by
  unfold plain
  split_ifs <;> simp

/-- Inside the range and away from the corner the table answers, and the answer is bounded. -/
theorem corre_table {Tc Ts : List ℝ} (hc : Tc.length = 85176) (hs : Ts.length = 85176) {M : ℝ}
    (hMc : ∀ x ∈ Tc, |x| ≤ M) (hMs : ∀ x ∈ Ts, |x| ≤ M) {d : Da} (ha : d.ma ≠ 0) (hb : d.mb ≠ 0)
    (hA : d.place.A ≤ 5) (hB : d.place.B ≤ 5) (h : d.place.A < 5 ∨ d.place.B < 5) :
    ∃ r, corre Tc Ts d = .val r ∧ |r| ≤ M * (|d.v0| + |d.v1|) / max d.ma d.mb := by
  obtain ⟨e0, e1, c1, c0⟩ := ranges ha hb
  have ha' : 0 < d.ma := lt_of_le_of_ne (ma_nonneg d) (Ne.symm ha)
  have hb' : 0 < d.mb := lt_of_le_of_ne (mb_nonneg d) (Ne.symm hb)
  have A0 : 0 ≤ d.place.A := by unfold Da.place; rw [signs_A]; exact abs_nonneg _
  have B0 : 0 ≤ d.place.B := by unfold Da.place; rw [signs_B]; exact abs_nonneg _
  obtain ⟨Lc, h1, m1⟩ := look_some hc A0 B0 e0 hA hB e1 c1 c0 h hMc
  obtain ⟨Ls, h2, m2⟩ := look_some hs A0 B0 e0 hA hB e1 c1 c0 h hMs
  have s1 : |d.place.s1| = 1 := (signs_s _ _ _).1
  have s2 : |d.place.s2| = 1 := (signs_s _ _ _).2.1
  have M0 : 0 ≤ M := (abs_nonneg _).trans m1
  have k1 : ∀ v, |d.place.s1 * Lc * v| ≤ M * |v| := fun v => by
    rw [abs_mul, abs_mul, s1, one_mul]; exact mul_le_mul_of_nonneg_right m1 (abs_nonneg _)
  have k2 : ∀ v, |d.place.s2 * Ls * v| ≤ M * |v| := fun v => by
    rw [abs_mul, abs_mul, s2, one_mul]; exact mul_le_mul_of_nonneg_right m2 (abs_nonneg _)
  refine ⟨if d.flip then (d.place.s2 * Ls * d.v1 - d.place.s1 * Lc * d.v0) / d.mb
    else (d.place.s1 * Lc * d.v1 - d.place.s2 * Ls * d.v0) / d.ma, ?_, ?_⟩
  · unfold corre
    rw [if_neg (by tauto)]
    simp only [h1, h2]
    rw [if_pos ⟨hA, hB, e1, c1, c0⟩]
  · unfold Da.flip
    by_cases hf : d.ma < d.mb
    · simp only [hf, decide_true, if_true]
      rw [max_eq_right hf.le, abs_div, abs_of_pos hb']
      refine div_le_div_of_nonneg_right ?_ hb'.le
      have := abs_sub (d.place.s2 * Ls * d.v1) (d.place.s1 * Lc * d.v0)
      linarith [k1 d.v0, k2 d.v1]
    · simp only [hf, decide_false, Bool.false_eq_true, if_false]
      rw [max_eq_left (not_lt.1 hf), abs_div, abs_of_pos ha']
      refine div_le_div_of_nonneg_right ?_ ha'.le
      have := abs_sub (d.place.s1 * Lc * d.v1) (d.place.s2 * Ls * d.v0)
      linarith [k1 d.v1, k2 d.v0]

theorem third' {m x y z r : ℝ} (hr : 0 < r) (h2 : x * x + y * y + z * z ≤ r ^ 2) (hx : |m| ≤ |5 * x|)
    (hy : |m| ≤ |5 * y|) (hz : |m| ≤ |5 * z|) : |m / r| < 5 := by
  rw [abs_div, abs_of_pos hr, div_lt_iff₀ hr]
  have sx := sq_le_sq.2 hx
  have sy := sq_le_sq.2 hy
  have sz := sq_le_sq.2 hz
  refine abs_lt_of_sq_lt_sq ?_ (by positivity)
  nlinarith [sq_nonneg m, pow_pos hr 2]

theorem near_place {d : Da} (h : Near d) (ha : d.ma ≠ 0) (hb : d.mb ≠ 0) :
    d.place.A < 5 ∧ d.place.B < 5 := by
  have ha' : 0 < d.ma := lt_of_le_of_ne (ma_nonneg d) (Ne.symm ha)
  have hb' : 0 < d.mb := lt_of_le_of_ne (mb_nonneg d) (Ne.symm hb)
  unfold Da.place
  rw [signs_A, signs_B]
  unfold Da.flip
  by_cases hf : d.ma < d.mb
  · simp only [hf, decide_true, if_true]
    refine ⟨third' hb' (mb_sq d).ge h.b0 h.b1 h.b2, third' hb' ?_ h.a0 h.a1 h.a2⟩
    rw [← ma_sq]
    nlinarith
  · simp only [hf, decide_false, Bool.false_eq_true, if_false]
    refine ⟨third' ha' (ma_sq d).ge h.a0 h.a1 h.a2, third' ha' ?_ h.b0 h.b1 h.b2⟩
    rw [← mb_sq]
    nlinarith [not_lt.1 hf]

/-- **C96** Velocities and gradients of the axion at a site: with tables of the right length no entry
behind the end is read, and the result is a number unless the field is exactly zero. With the table
(wherever field and both gradients satisfy the conditions and the gradients do not vanish) it is at most
the largest entry times the velocity over the larger gradient, without it it is the velocity of the
phase. -/
theorem C96_site {Tc Ts : List ℝ} (hc : Tc.length = 85176) (hs : Ts.length = 85176) {M : ℝ}
    (hMc : ∀ x ∈ Tc, |x| ≤ M) (hMs : ∀ x ∈ Ts, |x| ≤ M) (lut : Bool) (d : Da) :
    (lut = true → Near d → d.ma ≠ 0 → d.mb ≠ 0 →
      ∃ r, site lut Tc Ts d = .val r ∧ |r| ≤ M * (|d.v0| + |d.v1|) / max d.ma d.mb) ∧
    (¬ (lut = true ∧ Near d ∧ d.ma ≠ 0 ∧ d.mb ≠ 0) → (d.m0 ≠ 0 ∨ d.m1 ≠ 0) →
      site lut Tc Ts d = .val ((d.m0 * d.v1 - d.m1 * d.v0) / (d.m0 ^ 2 + d.m1 ^ 2))) ∧
    (site lut Tc Ts d = .nan → d.m0 = 0 ∧ d.m1 = 0) ∧ site lut Tc Ts d ≠ .outside := by
  have p0 : (d.m0 ≠ 0 ∨ d.m1 ≠ 0) →
      plain d = .val ((d.m0 * d.v1 - d.m1 * d.v0) / (d.m0 ^ 2 + d.m1 ^ 2)) := by
    intro h
    unfold plain
    rw [if_neg, ← sq, ← sq]
    intro h0
    have : d.m0 = 0 ∧ d.m1 = 0 := by
      constructor <;> nlinarith [mul_self_nonneg d.m0, mul_self_nonneg d.m1]
    tauto
  have pn : plain d = .nan → d.m0 = 0 ∧ d.m1 = 0 := by
    intro h
    by_contra hn
    rw [p0 (by tauto)] at h
    cases h
  have key : (∀ (_ : lut = true) (_ : Near d) (_ : d.ma ≠ 0) (_ : d.mb ≠ 0),
      site lut Tc Ts d = corre Tc Ts d) ∧
      (¬ (lut = true ∧ Near d ∧ d.ma ≠ 0 ∧ d.mb ≠ 0) → site lut Tc Ts d = plain d) := by
    constructor
    · intro hl h _ _
      unfold site
      rw [if_pos hl, if_neg h.a0.not_gt, if_neg h.b0.not_gt, if_neg h.a1.not_gt, if_neg h.b1.not_gt,
        if_neg h.a2.not_gt, if_neg h.b2.not_gt]
    · intro h
      unfold site
      split_ifs with h1 h2 h3 h4 h5 h6 h7
      any_goals rfl
      unfold corre
      rw [if_pos]
      by_contra hn
      push Not at hn
      exact h ⟨h1, ⟨not_lt.1 h2, not_lt.1 h3, not_lt.1 h4, not_lt.1 h5, not_lt.1 h6, not_lt.1 h7⟩, hn⟩
  have k1 : lut = true → Near d → d.ma ≠ 0 → d.mb ≠ 0 →
      ∃ r, site lut Tc Ts d = .val r ∧ |r| ≤ M * (|d.v0| + |d.v1|) / max d.ma d.mb := by
    intro hl h ha hb
    rw [key.1 hl h ha hb]
    obtain ⟨h1, h2⟩ := near_place h ha hb
    exact corre_table hc hs hMc hMs ha hb h1.le h2.le (Or.inl h1)
  refine ⟨k1, fun h hm => ?_, fun h => ?_, fun h => ?_⟩
  · rw [key.2 h, p0 hm]
  · by_cases hh : lut = true ∧ Near d ∧ d.ma ≠ 0 ∧ d.mb ≠ 0
    · obtain ⟨r, hr, -⟩ := k1 hh.1 hh.2.1 hh.2.2.1 hh.2.2.2
      rw [hr] at h; cases h
    · rw [key.2 hh] at h
      exact pn h
  · by_cases hh : lut = true ∧ Near d ∧ d.ma ≠ 0 ∧ d.mb ≠ 0
    · obtain ⟨r, hr, -⟩ := k1 hh.1 hh.2.1 hh.2.2.1 hh.2.2.2
      rw [hr] at h; cases h
    · rw [key.2 hh] at h
      exact plain_ne_outside d h

/-- **C96** The correction on its own reads behind the end of the tables only at the very corner of the
range, which the callers exclude. -/
theorem C96_corner {Tc Ts : List ℝ} (hc : Tc.length = 85176) (hs : Ts.length = 85176) {d : Da}
    (h : corre Tc Ts d = .outside) : d.place.A = 5 ∧ d.place.B = 5 := by
  by_cases hab : d.ma = 0 ∨ d.mb = 0
  · unfold corre at h
    rw [if_pos hab] at h
    exact absurd h (plain_ne_outside d)
  push Not at hab
  by_cases hr : d.place.A ≤ 5 ∧ d.place.B ≤ 5
  · by_contra hn
    have hlt : d.place.A < 5 ∨ d.place.B < 5 := by
      by_contra h2
      push Not at h2
      exact hn ⟨le_antisymm hr.1 h2.1, le_antisymm hr.2 h2.2⟩
    have hb : ∀ T : List ℝ, ∃ M, ∀ x ∈ T, |x| ≤ M := by
      intro T
      induction T with
      | nil => exact ⟨0, fun x hx => absurd hx (List.not_mem_nil)⟩
      | cons y T ih =>
        obtain ⟨M, hM⟩ := ih
        refine ⟨max |y| M, fun x hx => ?_⟩
        rcases List.mem_cons.1 hx with rfl | hx
        · exact le_max_left _ _
        · exact (hM x hx).trans (le_max_right _ _)
    obtain ⟨M1, h1⟩ := hb Tc
    obtain ⟨M2, h2⟩ := hb Ts
    obtain ⟨r, e, -⟩ := corre_table hc hs (M := max M1 M2) (fun x hx => (h1 x hx).trans (le_max_left _ _))
      (fun x hx => (h2 x hx).trans (le_max_right _ _)) hab.1 hab.2 hr.1 hr.2 hlt
    rw [e] at h
    cases h
  · unfold corre at h
    rw [if_neg (by tauto)] at h
    simp only at h
    rw [if_neg (by tauto)] at h
    exact absurd h (plain_ne_outside d)

/-- **C96** At the corner it does. -/
theorem C96_corner_outside {Tc Ts : List ℝ} (hc : Tc.length = 85176) :
    corre Tc Ts ⟨5, 5, 1, 0, 1, 0, 0, 1, 0, 0⟩ = .outside := by
  have h1 : (⟨5, 5, 1, 0, 1, 0, 0, 1, 0, 0⟩ : Da).ma = 1 := by simp [Da.ma]
  have h2 : (⟨5, 5, 1, 0, 1, 0, 0, 1, 0, 0⟩ : Da).mb = 1 := by simp [Da.mb]
  have h3 : (⟨5, 5, 1, 0, 1, 0, 0, 1, 0, 0⟩ : Da).flip = false := by simp [Da.flip, h1, h2]
  have h4 : (⟨5, 5, 1, 0, 1, 0, 0, 1, 0, 0⟩ : Da).e = 1 := by simp [Da.e, h1, h2, h3]
  have h5 : (⟨5, 5, 1, 0, 1, 0, 0, 1, 0, 0⟩ : Da).place = ⟨5, 5, 1, 1, 1⟩ := by
    simp only [Da.place, h1, h2, h3, signs]
    norm_num
  have f1 : ⌊(25 : ℝ)⌋₊ = 25 := Nat.floor_ofNat 25
  have f2 : ⌊(5 : ℝ)⌋₊ = 5 := Nat.floor_ofNat 5
  have f3 : ⌊(20 : ℝ)⌋₊ = 20 := Nat.floor_ofNat 20
  have h6 : look Tc 5 5 1 1 = none := by
    unfold look
    rw [show (5 : ℝ) * 25 / 5 = 25 by norm_num, show (1 : ℝ) * 5 = 5 by norm_num,
      show ((1 : ℝ) + 1) * 20 / 2 = 20 by norm_num, f1, f2, f3]
    exact read_none (by rw [hc]; decide)
  unfold corre
  rw [if_neg (by rw [h1, h2]; norm_num)]
  simp only [h5, h4, h6]
  rw [if_pos (by norm_num)]

theorem mix_zero (x y : ℝ) : mix x y 0 = x := by unfold mix; ring

theorem mix_same (x t : ℝ) : mix x x t = x := by unfold mix; ring

theorem tab_get {T : List ℝ} {f : ℕ → ℕ → ℕ → ℕ → ℝ} (h : Tabulates T f) {a b e c i : ℕ} (ha : a < 26)
    (hb : b < 26) (he : e < 6) (hc : c < 21) (hi : i = ((a * 26 + b) * 6 + e) * 21 + c) :
    T.getD i 0 = f a b e c := by
  have := h.2 a b e c ha hb he hc
  rw [hi, List.getD_eq_getElem?_getD, this]
  rfl

/-- **C96** The interpolation is right along the two last variables: where the first two are on the grid
it is the interpolation of the tabulated function. -/
theorem C96_grid {T : List ℝ} {f : ℕ → ℕ → ℕ → ℕ → ℝ} (hT : Tabulates T f) {i j : ℕ} (hi : i < 25)
    (hj : j < 25) {e cb : ℝ} (he0 : 0 ≤ e) (he : e < 1) (hc0 : -1 ≤ cb) (hc : cb < 1) :
    look T (i / 5) (j / 5) e cb = some (blend f i j (5 * e) (10 * (cb + 1))) := by
  have iE : ⌊5 * e⌋₊ < 5 := floor_lt' (by linarith) (by push_cast; linarith)
  have iC : ⌊10 * (cb + 1)⌋₊ < 20 := floor_lt' (by linarith) (by push_cast; linarith)
  unfold look
  rw [show (i : ℝ) / 5 * 25 / 5 = i by ring, show (j : ℝ) / 5 * 25 / 5 = j by ring,
    show e * 5 = 5 * e by ring, show (cb + 1) * 20 / 2 = 10 * (cb + 1) by ring]
  simp only [Nat.floor_natCast, sub_self]
  rw [read_some (by rw [hT.1]; simp only [nC, nCE, nCEB, nE, nB]; omega)]
  simp only [mix_zero, blend, Nat.floor_natCast, sub_self]
  generalize ⌊5 * e⌋₊ = k at *
  generalize ⌊10 * (cb + 1)⌋₊ = l at *
  rw [tab_get hT (a := i) (b := j) (e := k) (c := l) (by omega) (by omega) (by omega) (by omega)
      (by simp only [nC, nCE, nCEB, nE, nB]; omega),
    tab_get hT (a := i) (b := j) (e := k) (c := l + 1) (by omega) (by omega) (by omega) (by omega)
      (by simp only [nC, nCE, nCEB, nE, nB]; omega),
    tab_get hT (a := i) (b := j) (e := k + 1) (c := l) (by omega) (by omega) (by omega) (by omega)
      (by simp only [nC, nCE, nCEB, nE, nB]; omega),
    tab_get hT (a := i) (b := j) (e := k + 1) (c := l + 1) (by omega) (by omega) (by omega) (by omega)
      (by simp only [nC, nCE, nCEB, nE, nB]; omega)]

/-- **C96** It is wrong along the first variable: the entries taken for the neighbours belong to the same
value of it. Of a table of the first variable itself, whose interpolation is that variable, one gets a
staircase. -/
theorem C96_stairs {T : List ℝ} (hT : Tabulates T fun a _ _ _ => (a : ℝ) / 5) {A B e cb : ℝ} (hA0 : 0 ≤ A)
    (hA : A < 5) (hB0 : 0 ≤ B) (hB : B < 5) (he : e ≤ 1) (hc : cb ≤ 1) :
    look T A B e cb = some ((⌊5 * A⌋₊ : ℝ) / 5) ∧
      blend (fun a _ _ _ => (a : ℝ) / 5) (5 * A) (5 * B) (5 * e) (10 * (cb + 1)) = A := by
  have iA : ⌊5 * A⌋₊ < 25 := floor_lt' (by linarith) (by push_cast; linarith)
  have iB : ⌊5 * B⌋₊ < 25 := floor_lt' (by linarith) (by push_cast; linarith)
  have iE : ⌊5 * e⌋₊ ≤ 5 := floor_le' (by push_cast; linarith)
  have iC : ⌊10 * (cb + 1)⌋₊ ≤ 20 := floor_le' (by push_cast; linarith)
  constructor
  · unfold look
    rw [show A * 25 / 5 = 5 * A by ring, show B * 25 / 5 = 5 * B by ring, show e * 5 = 5 * e by ring,
      show (cb + 1) * 20 / 2 = 10 * (cb + 1) by ring]
    rw [read_some (by rw [hT.1]; simp only [nC, nCE, nCEB, nE, nB]; omega)]
    generalize 5 * A - ⌊5 * A⌋₊ = dA at *
    generalize 5 * B - ⌊5 * B⌋₊ = dB at *
    generalize 5 * e - ⌊5 * e⌋₊ = dE at *
    generalize 10 * (cb + 1) - ⌊10 * (cb + 1)⌋₊ = dC at *
    generalize ⌊5 * A⌋₊ = a at *
    generalize ⌊5 * B⌋₊ = b at *
    generalize ⌊5 * e⌋₊ = k at *
    generalize ⌊10 * (cb + 1)⌋₊ = l at *
    have g : ∀ o, o ≤ 54 → T.getD (l + nC * k + nCE * b + nCEB * a + o) 0 = a / 5 := by
      intro o ho
      refine tab_get (f := fun a _ _ _ => (a : ℝ) / 5) hT (a := a) (b := (l + 21 * k + 126 * b + o) / 126)
        (e := (l + 21 * k + 126 * b + o) % 126 / 21) (c := (l + 21 * k + 126 * b + o) % 21) (by omega)
        (by omega) (by omega) (by omega) ?_
      simp only [nC, nCE, nCEB, nE, nB]
      omega
    have g1 : ∀ o, o ≤ 53 → T.getD (l + nC * k + nCE * b + nCEB * a + o + 1) 0 = a / 5 :=
      fun o ho => g (o + 1) (by omega)
    simp only [g 0 (by omega), g 6 (by omega), g 21 (by omega), g 26 (by omega), g 27 (by omega),
      g 32 (by omega), g 47 (by omega), g 53 (by omega), g1 0 (by omega), g1 6 (by omega),
      g1 21 (by omega), g1 27 (by omega), g1 32 (by omega), g1 47 (by omega),
      g1 53 (by omega), mix_same]
  · simp only [blend, mix_same]
    unfold mix
    push_cast
    ring

/-- **C96** The two disagree, e.g. half way between the first two values. -/
theorem C96_stairs_wrong {T : List ℝ} (hT : Tabulates T fun a _ _ _ => (a : ℝ) / 5) :
    look T (1 / 10) 0 0 0 = some 0 ∧
      blend (fun a _ _ _ => (a : ℝ) / 5) (5 * (1 / 10)) (5 * 0) (5 * 0) (10 * (0 + 1)) = 1 / 10 := by
  obtain ⟨h1, h2⟩ := C96_stairs hT (A := 1 / 10) (B := 0) (e := 0) (cb := 0) (by norm_num) (by norm_num)
    (by norm_num) (by norm_num) (by norm_num) (by norm_num)
  refine ⟨?_, h2⟩
  rw [h1, show ⌊5 * (1 / 10 : ℝ)⌋₊ = 0 from Nat.floor_eq_zero.2 (by norm_num)]
  norm_num

/-! ### Symmetries -/

theorem signs_turn {A : ℝ} (hA : A ≠ 0) (B cb : ℝ) : signs (-A) (-B) cb =
    ⟨(signs A B cb).A, (signs A B cb).B, (signs A B cb).cb, -(signs A B cb).s1, -(signs A B cb).s2⟩ := by
  unfold signs
  rcases lt_or_gt_of_ne hA with h | h
  · simp only [if_pos h, if_neg (show ¬ -A < 0 by linarith)]
    split_ifs <;> simp
  · simp only [if_neg (show ¬ A < 0 by linarith), if_pos (show -A < 0 by linarith), neg_neg]
    split_ifs <;> simp

theorem signs_conj (A : ℝ) {B : ℝ} (hB : B ≠ 0) (cb : ℝ) : signs A (-B) (-cb) =
    ⟨(signs A B cb).A, (signs A B cb).B, (signs A B cb).cb, (signs A B cb).s1, -(signs A B cb).s2⟩ := by
  unfold signs
  rcases lt_or_ge A 0 with h | h <;> rcases lt_or_gt_of_ne hB with h' | h'
  · simp [h, h', h'.not_gt]
  · simp [h, h', h'.not_gt]
  · simp [h.not_gt, h', h'.not_gt]
  · simp [h.not_gt, h', h'.not_gt]

theorem corre_eq {Tc Ts : List ℝ} {d d' : Da} {q q' : Place} (hq : d.place = q) (hq' : d'.place = q')
    (ha : d.ma ≠ 0) (hb : d.mb ≠ 0) (ha' : d'.ma ≠ 0) (hb' : d'.mb ≠ 0)
    (hA : q'.A = q.A) (hB : q'.B = q.B) (he : d'.e = d.e) (hc : q'.cb = q.cb) (t : Res → Res)
    (ho : t .outside = .outside) (hp : plain d' = t (plain d))
    (hv : ∀ Lc Ls : ℝ, Res.val (if d'.flip then (q'.s2 * Ls * d'.v1 - q'.s1 * Lc * d'.v0) / d'.mb
          else (q'.s1 * Lc * d'.v1 - q'.s2 * Ls * d'.v0) / d'.ma) =
        t (.val (if d.flip then (q.s2 * Ls * d.v1 - q.s1 * Lc * d.v0) / d.mb
          else (q.s1 * Lc * d.v1 - q.s2 * Ls * d.v0) / d.ma))) :
    corre Tc Ts d' = t (corre Tc Ts d) := by
  unfold corre
  rw [if_neg (not_or.2 ⟨ha', hb'⟩), if_neg (not_or.2 ⟨ha, hb⟩)]
  simp only [hq, hq', hA, hB, he, hc]
  by_cases hr : q.A ≤ 5 ∧ q.B ≤ 5 ∧ d.e ≤ 1 ∧ q.cb ≤ 1 ∧ -1 ≤ q.cb
  · rw [if_pos hr, if_pos hr]
    cases look Tc q.A q.B d.e q.cb with
    | none => simp only [ho]
    | some Lc =>
      cases look Ts q.A q.B d.e q.cb with
      | none => simp only [ho]
      | some Ls => exact hv Lc Ls
  · rw [if_neg hr, if_neg hr, hp]

/-- **C96** The correction respects the symmetries of the field: half a turn of the field changes
nothing, complex conjugation and (for different gradients) the exchange of real and imaginary part change
the sign, for every content of the tables. -/
theorem C96_symmetric (Tc Ts : List ℝ) {d : Da} (h0 : d.m0 ≠ 0) (h1 : d.m1 ≠ 0) :
    corre Tc Ts d.turned = corre Tc Ts d ∧ corre Tc Ts d.conj = (corre Tc Ts d).neg ∧
      (d.ma ≠ d.mb → corre Tc Ts d.swapped = (corre Tc Ts d).neg) := by
  have m0 : ∀ x y : ℝ, x * x + y * y = -x * -x + -y * -y := fun x y => by ring
  have hm : d.m0 * d.m0 + d.m1 * d.m1 ≠ 0 := by
    nlinarith [mul_self_pos.2 h0, mul_self_nonneg d.m1]
  have tp : plain d.turned = plain d := by
    unfold plain Da.turned
    simp only [neg_mul_neg]
  have cp : plain d.conj = (plain d).neg := by
    unfold plain Da.conj
    simp only [neg_mul_neg, hm, if_false, Res.neg]
    congr 1
    ring
  have sp : plain d.swapped = (plain d).neg := by
    unfold plain Da.swapped
    have hm' : d.m1 * d.m1 + d.m0 * d.m0 ≠ 0 := by rwa [add_comm]
    simp only [hm, hm', if_false, Res.neg]
    congr 1
    rw [add_comm (d.m1 * d.m1)]
    ring
  have tma : d.turned.ma = d.ma := by simp [Da.ma, Da.turned]
  have tmb : d.turned.mb = d.mb := by simp [Da.mb, Da.turned]
  have cma : d.conj.ma = d.ma := rfl
  have cmb : d.conj.mb = d.mb := by simp [Da.mb, Da.conj]
  have sma : d.swapped.ma = d.mb := rfl
  have smb : d.swapped.mb = d.ma := rfl
  by_cases hab : d.ma = 0 ∨ d.mb = 0
  · unfold corre
    rw [if_pos (by rw [tma, tmb]; exact hab), if_pos hab, if_pos (by rw [cma, cmb]; exact hab),
      if_pos (by rw [sma, smb]; tauto)]
    exact ⟨tp, cp, fun _ => sp⟩
  push Not at hab
  obtain ⟨ha, hb⟩ := hab
  have tf : d.turned.flip = d.flip := by simp only [Da.flip, tma, tmb]
  have cf : d.conj.flip = d.flip := by simp only [Da.flip, cma, cmb]
  refine ⟨?_, ?_, fun hne => ?_⟩
  · have hpl : d.turned.place = ⟨d.place.A, d.place.B, d.place.cb, -d.place.s1, -d.place.s2⟩ := by
      unfold Da.place
      rw [tma, tmb, tf, ← signs_turn]
      · cases d.flip <;> simp [Da.turned, neg_div]
      · cases d.flip
        · exact div_ne_zero h0 ha
        · exact div_ne_zero h1 hb
    refine corre_eq rfl hpl ha hb (by rwa [tma]) (by rwa [tmb]) rfl rfl
      (by simp only [Da.e, tma, tmb, tf]) rfl id rfl tp fun Lc Ls => ?_
    rw [tf, tma, tmb]
    cases d.flip <;> simp [Da.turned]
  · have hpl : d.conj.place = if d.flip
        then ⟨d.place.A, d.place.B, d.place.cb, -d.place.s1, d.place.s2⟩
        else ⟨d.place.A, d.place.B, d.place.cb, d.place.s1, -d.place.s2⟩ := by
      unfold Da.place
      rw [cma, cmb, cf]
      have hcb : (d.conj.a0 * d.conj.b0 + d.conj.a1 * d.conj.b1 + d.conj.a2 * d.conj.b2) / (d.ma * d.mb) =
          -((d.a0 * d.b0 + d.a1 * d.b1 + d.a2 * d.b2) / (d.ma * d.mb)) := by
        simp only [Da.conj]
        ring
      rw [hcb]
      cases d.flip
      · simp only [Bool.false_eq_true, if_false]
        rw [← signs_conj _ (div_ne_zero h1 ha)]
        simp [Da.conj, neg_div]
      · simp only [if_true]
        have k1 := signs_conj (d.m1 / d.mb) (div_ne_zero h0 hb)
          ((d.a0 * d.b0 + d.a1 * d.b1 + d.a2 * d.b2) / (d.ma * d.mb))
        have k2 := signs_turn (div_ne_zero h1 hb) (-(d.m0 / d.mb))
          (-((d.a0 * d.b0 + d.a1 * d.b1 + d.a2 * d.b2) / (d.ma * d.mb)))
        rw [k1, neg_neg] at k2
        simpa [Da.conj, neg_div] using k2
    refine corre_eq rfl hpl ha hb (by rwa [cma]) (by rwa [cmb]) ?_ ?_
      (by simp only [Da.e, cma, cmb, cf]) ?_ Res.neg rfl cp fun Lc Ls => ?_
    · cases d.flip <;> rfl
    · cases d.flip <;> rfl
    · cases d.flip <;> rfl
    · rw [cf, cma, cmb]
      cases d.flip
      · simp only [Da.conj, Bool.false_eq_true, if_false, Res.neg]
        congr 1
        ring
      · simp only [Da.conj, if_true, Res.neg]
        congr 1
        ring
  · have sf : d.swapped.flip = !d.flip := by
      simp only [Da.flip, sma, smb]
      rcases lt_or_gt_of_ne hne with h | h
      · simp [h, h.not_gt]
      · simp [h, h.not_gt]
    have hpl : d.swapped.place = d.place := by
      unfold Da.place
      rw [sma, smb, sf]
      have hcb : (d.swapped.a0 * d.swapped.b0 + d.swapped.a1 * d.swapped.b1 +
          d.swapped.a2 * d.swapped.b2) / (d.mb * d.ma) =
          (d.a0 * d.b0 + d.a1 * d.b1 + d.a2 * d.b2) / (d.ma * d.mb) := by
        simp only [Da.swapped]
        rw [mul_comm d.mb d.ma]
        congr 1
        ring
      rw [hcb]
      cases d.flip <;> simp [Da.swapped]
    refine corre_eq rfl hpl ha hb (by rwa [sma]) (by rwa [smb]) rfl rfl ?_ rfl Res.neg rfl sp
      fun Lc Ls => ?_
    · simp only [Da.e, sma, smb, sf]
      cases d.flip <;> rfl
    · rw [sf, sma, smb]
      cases d.flip
      · simp only [Da.swapped, Bool.not_false, Bool.false_eq_true, if_true, if_false, Res.neg]
        congr 1
        ring
      · simp only [Da.swapped, Bool.not_true, Bool.false_eq_true, if_true, if_false, Res.neg]
        congr 1
        ring

/-! ### Examples -/

/-- A site next to a string: both conditions hold and the table answers. -/
example {Tc Ts : List ℝ} (hc : Tc.length = 85176) (hs : Ts.length = 85176) (hMc : ∀ x ∈ Tc, |x| ≤ 1)
    (hMs : ∀ x ∈ Ts, |x| ≤ 1) :
    ∃ r, site true Tc Ts ⟨1, -1, 2, 3, 1, 1, 1, 1, -1, 1⟩ = .val r ∧ |r| ≤ 5 / √3 := by
  have h1 : (⟨1, -1, 2, 3, 1, 1, 1, 1, -1, 1⟩ : Da).ma = √3 := by simp only [Da.ma]; norm_num
  have h2 : (⟨1, -1, 2, 3, 1, 1, 1, 1, -1, 1⟩ : Da).mb = √3 := by simp only [Da.mb]; norm_num
  have h3 : (√3 : ℝ) ≠ 0 := by simp
  obtain ⟨r, hr, hb⟩ := (C96_site hc hs hMc hMs true ⟨1, -1, 2, 3, 1, 1, 1, 1, -1, 1⟩).1 rfl
    (by constructor <;> norm_num) (by rwa [h1]) (by rwa [h2])
  refine ⟨r, hr, ?_⟩
  rw [h1, h2, max_self] at hb
  norm_num at hb
  exact hb

/-- Every function can be tabulated. -/
theorem tabulates_ofFn (f : ℕ → ℕ → ℕ → ℕ → ℝ) :
    Tabulates ((List.range 85176).map fun i => f (i / 3276) (i / 126 % 26) (i / 21 % 6) (i % 21)) f := by
  refine ⟨by rw [List.length_map, List.length_range], fun a b e c ha hb he hc => ?_⟩
  rw [List.getElem?_map, List.getElem?_range (by omega)]
  have e1 : (((a * 26 + b) * 6 + e) * 21 + c) / 3276 = a := by omega
  have e2 : (((a * 26 + b) * 6 + e) * 21 + c) / 126 % 26 = b := by omega
  have e3 : (((a * 26 + b) * 6 + e) * 21 + c) / 21 % 6 = e := by omega
  have e4 : (((a * 26 + b) * 6 + e) * 21 + c) % 21 = c := by omega
  simp only [Option.map_some, e1, e2, e3, e4]

end Jaxions.StringLut
