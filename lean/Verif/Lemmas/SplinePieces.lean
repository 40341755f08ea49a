import Verif.Lemmas.Spline
import Mathlib.Tactic.FieldSimp

/-!
# Splines: the pieces
-/

namespace Jaxions
namespace Spline

variable {K : Type} [Field K] [LinearOrder K] [IsStrictOrderedRing K]

/-! ## The coefficients -/

/-- The system says what the definition of a spline says. -/
theorem solves_iff {n : ℕ} (hn : 2 < n) {x y : ℕ → K} (hx : Increasing n x) {left right : End K} {a b c : ℕ → K}
    (ha : ∀ i, i + 1 < n → a i = 1 / 3 * (b (i + 1) - b i) / (x (i + 1) - x i))
    (hc : ∀ i, i + 1 < n → c i = (y (i + 1) - y i) / (x (i + 1) - x i) -
      1 / 3 * (2 * b i + b (i + 1)) * (x (i + 1) - x i)) :
    IsCubic n x y left right a b c ↔ Solves n (lowC n x right) (diaC n x left right) (uppC x left)
      (rhsC n x y left right) b := by
  have hpos : ∀ i, i + 1 < n → x (i + 1) - x i ≠ 0 := fun i hi => (sub_pos.mpr (hx i hi)).ne'
  obtain ⟨p, rfl⟩ : ∃ p, n = p + 3 := ⟨n - 3, by omega⟩
  have e0 : left.Holds (c 0) (2 * b 0) ↔
      diaC (p + 3) x left right 0 * b 0 + uppC x left 0 * b 1 = rhsC (p + 3) x y left right 0 := by
    have h0 := hpos 0 (by omega)
    unfold diaC uppC rhsC
    rw [if_pos rfl, if_pos rfl, if_pos rfl]
    cases left with
    | second v => simp only [edgeD, edgeO, End.Holds]; constructor <;> intro h <;> linear_combination h
    | first v =>
      simp only [edgeD, edgeO, End.Holds]
      rw [hc 0 (by omega)]
      constructor
      · intro h; linear_combination -3 * h
      · intro h; linear_combination -1 / 3 * h
  have e1 : right.Holds (3 * a (p + 1) * (x (p + 2) - x (p + 1)) ^ 2 +
      2 * b (p + 1) * (x (p + 2) - x (p + 1)) + c (p + 1)) (2 * b (p + 2)) ↔
      lowC (p + 3) x right (p + 2) * b (p + 1) + diaC (p + 3) x left right (p + 2) * b (p + 2) =
        rhsC (p + 3) x y left right (p + 2) := by
    have h0 := hpos (p + 1) (by omega)
    unfold diaC lowC rhsC
    rw [if_pos (by omega), if_neg (by omega), if_pos (by omega), if_neg (by omega), if_pos (by omega)]
    cases right with
    | second v => simp only [edgeD, edgeO, End.Holds]; constructor <;> intro h <;> linear_combination h
    | first v =>
      simp only [edgeD, edgeO, End.Holds]
      have k : 3 * a (p + 1) * (x (p + 2) - x (p + 1)) ^ 2 + 2 * b (p + 1) * (x (p + 2) - x (p + 1)) + c (p + 1) =
          (y (p + 2) - y (p + 1)) / (x (p + 2) - x (p + 1)) +
          1 / 3 * (2 * b (p + 2) + b (p + 1)) * (x (p + 2) - x (p + 1)) := by
        rw [ha (p + 1) (by omega), hc (p + 1) (by omega)]
        field_simp
        ring
      rw [k]
      simp only [show p + 3 - 1 = p + 2 by omega, show p + 3 - 2 = p + 1 by omega]
      constructor
      · intro h; linear_combination 3 * h
      · intro h; linear_combination 1 / 3 * h
  have e2 : ∀ i, i + 2 < p + 3 →
      (3 * a i * (x (i + 1) - x i) ^ 2 + 2 * b i * (x (i + 1) - x i) + c i = c (i + 1) ↔
      lowC (p + 3) x right (i + 1) * b i + diaC (p + 3) x left right (i + 1) * b (i + 1) +
        uppC x left (i + 1) * b (i + 2) = rhsC (p + 3) x y left right (i + 1)) := by
    intro i hi
    have h0 := hpos i (by omega)
    have k : 3 * a i * (x (i + 1) - x i) ^ 2 + 2 * b i * (x (i + 1) - x i) + c i =
        (y (i + 1) - y i) / (x (i + 1) - x i) + 1 / 3 * (2 * b (i + 1) + b i) * (x (i + 1) - x i) := by
      rw [ha i (by omega), hc i (by omega)]
      field_simp
      ring
    rw [k, hc (i + 1) (by omega)]
    unfold diaC lowC uppC rhsC
    rw [if_neg (by omega), if_neg (by omega), if_neg (by omega), if_neg (by omega), if_neg (by omega),
      if_neg (by omega), Nat.add_sub_cancel]
    constructor
    · intro h; linear_combination h
    · intro h; linear_combination h
  constructor
  · rintro ⟨_, hs, _, hl, hr⟩ i hi
    by_cases c0 : i = 0
    · subst c0
      rw [if_neg (lt_irrefl 0), if_pos (by omega), zero_add]
      exact e0.mp hl
    · by_cases c1 : i = p + 2
      · subst c1
        rw [if_pos (by omega), if_neg (by omega), add_zero]
        exact e1.mp hr
      · obtain ⟨j, rfl⟩ : ∃ j, i = j + 1 := ⟨i - 1, by omega⟩
        rw [if_pos (by omega), if_pos (by omega), Nat.add_sub_cancel]
        exact (e2 j (by omega)).mp (hs j (by omega))
  · intro h
    refine ⟨?_, ?_, ?_, ?_, ?_⟩
    · intro i hi
      have h0 := hpos i hi
      rw [ha i hi, hc i hi]
      field_simp
      ring
    · intro i hi
      have := h (i + 1) (by omega)
      rw [if_pos (by omega), if_pos (by omega), Nat.add_sub_cancel] at this
      exact (e2 i hi).mpr this
    · intro i hi
      have h0 := hpos i hi
      rw [ha i hi]
      field_simp
      ring
    · have := h 0 (by omega)
      rw [if_neg (lt_irrefl 0), if_pos (by omega), zero_add] at this
      exact e0.mpr this
    · have := h (p + 2) (by omega)
      rw [if_pos (by omega), if_neg (by omega), add_zero] at this
      exact e1.mpr this

omit [LinearOrder K] [IsStrictOrderedRing K] in
/-- The second derivatives give the other coefficients. -/
theorem IsCubic.ac [CharZero K] {n : ℕ} {x y : ℕ → K} (hx : ∀ i, i + 1 < n → x (i + 1) - x i ≠ 0) {left right : End K}
    {a b c : ℕ → K} (h : IsCubic n x y left right a b c) :
    (∀ i, i + 1 < n → a i = 1 / 3 * (b (i + 1) - b i) / (x (i + 1) - x i)) ∧
    (∀ i, i + 1 < n → c i = (y (i + 1) - y i) / (x (i + 1) - x i) -
      1 / 3 * (2 * b i + b (i + 1)) * (x (i + 1) - x i)) := by
  have hA : ∀ i, i + 1 < n → a i = 1 / 3 * (b (i + 1) - b i) / (x (i + 1) - x i) := by
    intro i hi
    have h0 := hx i hi
    rw [eq_div_iff h0]
    linear_combination 1 / 6 * h.curv i hi
  refine ⟨hA, ?_⟩
  intro i hi
  have h0 := hx i hi
  have e := h.value i hi
  rw [hA i hi] at e
  field_simp at e ⊢
  linear_combination e

/-- What the call leaves. -/
theorem setPoints_cubic {n : ℕ} {x y : ℕ → K} {force : Bool} {left right : End K} {S : Spl K}
    (h : setPoints n x y true force left right = some S) :
    2 < n ∧ Increasing n x ∧ ∃ a b c, IsCubic n x y left right a b c ∧ S = finish n x y force ⟨a, b, c⟩ := by
  unfold setPoints at h
  by_cases g : 2 < n ∧ ∀ i < n - 1, x i < x (i + 1)
  · rw [if_pos g] at h
    obtain ⟨hn, hx⟩ := g
    have hx : Increasing n x := fun i hi => hx i (by omega)
    obtain ⟨s, h1, h2, h3⟩ := rows_spec hn x y left right
    obtain ⟨z, h4, h5⟩ := h2.luSolve (by omega) (dominant hn hx left right) s.rhs
    simp only [coefs, h1, Option.bind_eq_bind, Option.bind_some, h4, pure, Option.map_some] at h
    refine ⟨hn, hx, _, _, _, ?_, (Option.some.inj h).symm⟩
    refine (solves_iff hn hx (fun _ _ => rfl) (fun _ _ => rfl)).mpr ?_
    intro i hi
    rw [← h3 i hi]
    exact h5 i hi
  · rw [if_neg g] at h
    cases h

/-- The call succeeds. -/
theorem setPoints_some {n : ℕ} {x : ℕ → K} (hn : 2 < n) (hx : Increasing n x) (y : ℕ → K) (cubic force : Bool)
    (left right : End K) : ∃ S, setPoints n x y cubic force left right = some S := by
  unfold setPoints
  rw [if_pos ⟨hn, fun i hi => hx i (by omega)⟩]
  cases cubic with
  | false => exact ⟨_, rfl⟩
  | true =>
    obtain ⟨s, h1, h2, h3⟩ := rows_spec hn x y left right
    obtain ⟨z, h4, h5⟩ := h2.luSolve (by omega) (dominant hn hx left right) s.rhs
    simp only [coefs, h1, Option.bind_eq_bind, Option.bind_some, h4, pure, Option.map_some]
    exact ⟨_, rfl⟩

/-- There is one spline. -/
theorem IsCubic.unique {n : ℕ} {x y : ℕ → K} (hn : 2 < n) (hx : Increasing n x) {left right : End K}
    {a b c a' b' c' : ℕ → K} (h : IsCubic n x y left right a b c) (h' : IsCubic n x y left right a' b' c') :
    (∀ i, i < n → b i = b' i) ∧ ∀ i, i + 1 < n → a i = a' i ∧ c i = c' i := by
  have hpos : ∀ i, i + 1 < n → x (i + 1) - x i ≠ 0 := fun i hi => (sub_pos.mpr (hx i hi)).ne'
  obtain ⟨p, q⟩ := h.ac hpos
  obtain ⟨p', q'⟩ := h'.ac hpos
  have hb := (dominant hn hx left right).unique ((solves_iff hn hx p q).mp h) ((solves_iff hn hx p' q').mp h')
  refine ⟨hb, fun i hi => ⟨?_, ?_⟩⟩
  · rw [p i hi, p' i hi, hb i (by omega), hb (i + 1) (by omega)]
  · rw [q i hi, q' i hi, hb i (by omega), hb (i + 1) (by omega)]

/-! ## The index -/

omit [Field K] [IsStrictOrderedRing K] in
theorem Increasing.lt {n : ℕ} {x : ℕ → K} (h : Increasing n x) {i j : ℕ} (hij : i < j) (hj : j < n) : x i < x j := by
  induction j with
  | zero => omega
  | succ j ih =>
    rcases Nat.lt_succ_iff_lt_or_eq.mp hij with g | g
    · exact (ih g (by omega)).trans (h j hj)
    · subst g; exact h i hj

omit [Field K] [IsStrictOrderedRing K] in
theorem Increasing.le {n : ℕ} {x : ℕ → K} (h : Increasing n x) {i j : ℕ} (hij : i ≤ j) (hj : j < n) : x i ≤ x j := by
  rcases hij.lt_or_eq with g | g
  · exact (h.lt g hj).le
  · rw [g]

/-- The first indices, up to the first failure. -/
theorem takeWhile_range (p : ℕ → Bool) {n k : ℕ} (hk : k ≤ n) (h1 : ∀ i < k, p i = true)
    (h2 : k < n → p k = false) : ((List.range n).takeWhile p).length = k := by
  induction n with
  | zero => simp; omega
  | succ n ih =>
    rw [List.range_succ]
    by_cases e : k = n + 1
    · subst e
      rw [List.takeWhile_append_of_pos (by intro a ha; exact h1 a (by have := List.mem_range.mp ha; omega))]
      simp [h1 n (by omega)]
    · have hkn : k ≤ n := by omega
      by_cases e' : k = n
      · subst e'
        rw [List.takeWhile_append_of_pos (by intro a ha; exact h1 a (List.mem_range.mp ha))]
        simp [h2 (by omega)]
      · have := ih hkn (fun _ => h2 (by omega))
        rw [List.takeWhile_append, if_neg (by rw [this, List.length_range]; exact e')]
        exact this

omit [Field K] [IsStrictOrderedRing K] in
theorem idx_first (S : Spl K) {t : K} (h : t ≤ S.x 0) : S.idx t = 0 := by
  unfold Spl.idx
  rw [takeWhile_range (k := 0) _ (by omega) (by omega) (by intro _; simpa using h)]

omit [Field K] [IsStrictOrderedRing K] in
theorem idx_inside (S : Spl K) (hx : Increasing S.n S.x) {t : K} {i : ℕ} (hi : i + 1 < S.n) (h1 : S.x i < t)
    (h2 : t ≤ S.x (i + 1)) : S.idx t = i := by
  unfold Spl.idx
  rw [takeWhile_range (k := i + 1) _ (by omega) ?_ (by intro _; simpa using h2), Nat.add_sub_cancel]
  intro j hj
  simpa using (hx.le (by omega : j ≤ i) (by omega)).trans_lt h1

omit [Field K] [IsStrictOrderedRing K] in
theorem idx_last (S : Spl K) (hx : Increasing S.n S.x) {t : K} (h : S.x (S.n - 1) < t) : S.idx t = S.n - 1 := by
  unfold Spl.idx
  rw [takeWhile_range (k := S.n) _ (by omega) ?_ (by omega)]
  intro j hj
  simpa using (hx.le (by omega : j ≤ S.n - 1) (by omega)).trans_lt h

/-! ## The pieces -/

/-- What the object holds makes a function through the points. -/
structure Meets (S : Spl K) : Prop where
  pts : 2 < S.n
  inc : Increasing S.n S.x
  value : ∀ i, i + 1 < S.n → S.a i * (S.x (i + 1) - S.x i) ^ 3 + S.b i * (S.x (i + 1) - S.x i) ^ 2 +
    S.c i * (S.x (i + 1) - S.x i) + S.y i = S.y (i + 1)

/-- And with a continuous slope. -/
structure Fits (S : Spl K) : Prop extends Meets S where
  slope : ∀ i, i + 1 < S.n → 3 * S.a i * (S.x (i + 1) - S.x i) ^ 2 + 2 * S.b i * (S.x (i + 1) - S.x i) + S.c i =
    S.c (i + 1)
  first : S.c0 = S.c 0

omit [IsStrictOrderedRing K] in
/-- The three values, by intervals. -/
theorem eval_left (S : Spl K) {t : K} (h : t ≤ S.x 0) :
    t < S.x 0 → S.eval t = S.b0 * (t - S.x 0) ^ 2 + S.c0 * (t - S.x 0) + S.y 0 := by
  intro g
  unfold Spl.eval
  simp only [idx_first S h, if_pos g]
  ring

omit [IsStrictOrderedRing K] in
theorem Meets.evalL {S : Spl K} (F : Meets S) {t : K} (h : t ≤ S.x 0) :
    S.eval t = S.b0 * (t - S.x 0) ^ 2 + S.c0 * (t - S.x 0) + S.y 0 := by
  rcases h.lt_or_eq with g | g
  · exact eval_left S h g
  · have := F.inc.lt (show 0 < S.n - 1 by have := F.pts; omega) (by have := F.pts; omega)
    unfold Spl.eval
    simp only [idx_first S h]
    rw [if_neg (by rw [g]; exact lt_irrefl _), if_neg (by rw [g]; exact not_lt.mpr this.le), g]
    ring

theorem Meets.evalI {S : Spl K} (F : Meets S) {t : K} {i : ℕ} (hi : i + 1 < S.n) (h1 : S.x i ≤ t)
    (h2 : t ≤ S.x (i + 1)) :
    S.eval t = S.a i * (t - S.x i) ^ 3 + S.b i * (t - S.x i) ^ 2 + S.c i * (t - S.x i) + S.y i := by
  have c0 : ¬ t < S.x 0 := not_lt.mpr ((F.inc.le (Nat.zero_le i) (by omega)).trans h1)
  have c1 : ¬ S.x (S.n - 1) < t := not_lt.mpr (h2.trans (F.inc.le (by omega) (by omega)))
  unfold Spl.eval
  simp only [if_neg c0, if_neg c1]
  rcases h1.lt_or_eq with g | g
  · rw [idx_inside S F.inc hi g h2]; ring
  · rw [← g]
    cases i with
    | zero => rw [idx_first S (le_refl _)]; ring
    | succ k =>
      rw [idx_inside S F.inc (by omega) (F.inc k (by omega)) (le_refl _)]
      linear_combination F.value k (by omega)

theorem Meets.evalR {S : Spl K} (F : Meets S) {t : K} (h : S.x (S.n - 1) ≤ t) :
    S.eval t = S.b (S.n - 1) * (t - S.x (S.n - 1)) ^ 2 + S.c (S.n - 1) * (t - S.x (S.n - 1)) + S.y (S.n - 1) := by
  have hp := F.pts
  have c0 : ¬ t < S.x 0 := not_lt.mpr ((F.inc.le (Nat.zero_le _) (by omega)).trans h)
  rcases h.lt_or_eq with g | g
  · unfold Spl.eval
    simp only [if_neg c0, if_pos g, idx_last S F.inc g]
    ring
  · have e : S.n - 2 + 1 = S.n - 1 := by omega
    have k := F.value (S.n - 2) (by omega)
    have hx := F.inc (S.n - 2) (by omega)
    have q := F.evalI (i := S.n - 2) (t := t) (by omega) (by rw [← g, ← e]; exact hx.le) (by rw [e]; exact g.symm.le)
    rw [q, ← g]
    rw [e] at k
    linear_combination k

omit [IsStrictOrderedRing K] in
theorem Fits.derivL {S : Spl K} (F : Fits S) {t : K} (h : t ≤ S.x 0) :
    S.deriv1 t = 2 * S.b0 * (t - S.x 0) + S.c0 := by
  rcases h.lt_or_eq with g | g
  · unfold Spl.deriv1
    simp only [idx_first S h, if_pos g]
  · have := F.inc.lt (show 0 < S.n - 1 by have := F.pts; omega) (by have := F.pts; omega)
    unfold Spl.deriv1
    simp only [idx_first S h]
    rw [if_neg (by rw [g]; exact lt_irrefl _), if_neg (by rw [g]; exact not_lt.mpr this.le), g, F.first]
    ring

theorem Fits.derivI {S : Spl K} (F : Fits S) {t : K} {i : ℕ} (hi : i + 1 < S.n) (h1 : S.x i ≤ t)
    (h2 : t ≤ S.x (i + 1)) :
    S.deriv1 t = 3 * S.a i * (t - S.x i) ^ 2 + 2 * S.b i * (t - S.x i) + S.c i := by
  have c0 : ¬ t < S.x 0 := not_lt.mpr ((F.inc.le (Nat.zero_le i) (by omega)).trans h1)
  have c1 : ¬ S.x (S.n - 1) < t := not_lt.mpr (h2.trans (F.inc.le (by omega) (by omega)))
  unfold Spl.deriv1
  simp only [if_neg c0, if_neg c1]
  rcases h1.lt_or_eq with g | g
  · rw [idx_inside S F.inc hi g h2]; ring
  · rw [← g]
    cases i with
    | zero => rw [idx_first S (le_refl _)]; ring
    | succ k =>
      rw [idx_inside S F.inc (by omega) (F.inc k (by omega)) (le_refl _)]
      linear_combination F.slope k (by omega)

theorem Fits.derivR {S : Spl K} (F : Fits S) {t : K} (h : S.x (S.n - 1) ≤ t) :
    S.deriv1 t = 2 * S.b (S.n - 1) * (t - S.x (S.n - 1)) + S.c (S.n - 1) := by
  have hp := F.pts
  have c0 : ¬ t < S.x 0 := not_lt.mpr ((F.inc.le (Nat.zero_le _) (by omega)).trans h)
  rcases h.lt_or_eq with g | g
  · unfold Spl.deriv1
    simp only [if_neg c0, if_pos g, idx_last S F.inc g]
  · have e : S.n - 2 + 1 = S.n - 1 := by omega
    have k := F.slope (S.n - 2) (by omega)
    have hx := F.inc (S.n - 2) (by omega)
    have q := F.derivI (i := S.n - 2) (t := t) (by omega) (by rw [← g, ← e]; exact hx.le) (by rw [e]; exact g.symm.le)
    rw [q, ← g]
    rw [e] at k
    linear_combination k

/-- The second derivative of a cubic spline without forced lines. -/
theorem Fits.curvI {S : Spl K} (F : Fits S)
    (hc : ∀ i, i + 2 < S.n → 6 * S.a i * (S.x (i + 1) - S.x i) + 2 * S.b i = 2 * S.b (i + 1)) {t : K} {i : ℕ}
    (hi : i + 1 < S.n) (h1 : S.x i ≤ t) (h2 : t ≤ S.x (i + 1)) :
    S.deriv2 t = 6 * S.a i * (t - S.x i) + 2 * S.b i := by
  have c0 : ¬ t < S.x 0 := not_lt.mpr ((F.inc.le (Nat.zero_le i) (by omega)).trans h1)
  have c1 : ¬ S.x (S.n - 1) < t := not_lt.mpr (h2.trans (F.inc.le (by omega) (by omega)))
  unfold Spl.deriv2
  simp only [if_neg c0, if_neg c1]
  rcases h1.lt_or_eq with g | g
  · rw [idx_inside S F.inc hi g h2]
  · rw [← g]
    cases i with
    | zero => rw [idx_first S (le_refl _)]
    | succ k =>
      rw [idx_inside S F.inc (by omega) (F.inc k (by omega)) (le_refl _)]
      linear_combination hc k (by omega)

theorem Fits.curvR {S : Spl K} (F : Fits S)
    (hc : ∀ i, i + 1 < S.n → 6 * S.a i * (S.x (i + 1) - S.x i) + 2 * S.b i = 2 * S.b (i + 1)) {t : K}
    (h : S.x (S.n - 1) ≤ t) : S.deriv2 t = 2 * S.b (S.n - 1) := by
  have hp := F.pts
  have c0 : ¬ t < S.x 0 := not_lt.mpr ((F.inc.le (Nat.zero_le _) (by omega)).trans h)
  rcases h.lt_or_eq with g | g
  · unfold Spl.deriv2
    simp only [if_neg c0, if_pos g]
  · have e : S.n - 2 + 1 = S.n - 1 := by omega
    have k := hc (S.n - 2) (by omega)
    have hx := F.inc (S.n - 2) (by omega)
    have q := F.curvI (fun i hi => hc i (by omega)) (i := S.n - 2) (t := t) (by omega)
      (by rw [← g, ← e]; exact hx.le) (by rw [e]; exact g.symm.le)
    rw [q, ← g]
    rw [e] at k
    exact k

/-! ## The object of the code -/

omit [IsStrictOrderedRing K] in
theorem fits_cubic {n : ℕ} {x y : ℕ → K} (hn : 2 < n) (hx : Increasing n x) {left right : End K} {a b c : ℕ → K}
    (h : IsCubic n x y left right a b c) (force : Bool) : Fits (finish n x y force ⟨a, b, c⟩) := by
  have hb : ∀ i, i + 1 < n → (finish n x y force ⟨a, b, c⟩).b i = b i := by
    intro i hi
    cases force
    · rfl
    · exact Function.update_of_ne (by omega) _ _
  refine ⟨⟨hn, hx, ?_⟩, ?_, (Function.update_of_ne (by show 0 ≠ n - 1; omega) _ _).symm⟩
  · intro i hi
    have ha : (finish n x y force ⟨a, b, c⟩).a i = a i := Function.update_of_ne (by have : i + 1 < n := hi; omega) _ _
    have hc : (finish n x y force ⟨a, b, c⟩).c i = c i := Function.update_of_ne (by have : i + 1 < n := hi; omega) _ _
    rw [ha, hc, hb i hi]
    exact h.value i hi
  · intro i hi
    have hi' : i + 1 < n := hi
    have ha : (finish n x y force ⟨a, b, c⟩).a i = a i := Function.update_of_ne (by omega) _ _
    have hc : (finish n x y force ⟨a, b, c⟩).c i = c i := Function.update_of_ne (by omega) _ _
    rw [ha, hc, hb i hi]
    by_cases e : i + 2 < n
    · have hc' : (finish n x y force ⟨a, b, c⟩).c (i + 1) = c (i + 1) := Function.update_of_ne (by omega) _ _
      rw [hc']
      exact h.slope i e
    · obtain rfl : n = i + 2 := by omega
      have hc' : (finish (i + 2) x y force ⟨a, b, c⟩).c (i + 1) =
          3 * (Function.update a (i + 1) 0) i * (x (i + 1) - x i) * (x (i + 1) - x i) +
            2 * b i * (x (i + 1) - x i) + c i := Function.update_self _ _ _
      rw [hc', Function.update_of_ne (by omega)]
      show 3 * a i * (x (i + 1) - x i) ^ 2 + 2 * b i * (x (i + 1) - x i) + c i = _
      ring

omit [IsStrictOrderedRing K] in
/-- The straight lines of the other mode. -/
theorem meets_line {n : ℕ} {x y : ℕ → K} (hn : 2 < n) (hx : Increasing n x) (force : Bool) :
    Meets (finish n x y force ⟨fun _ => 0, fun _ => 0, fun i => (y (i + 1) - y i) / (x (i + 1) - x i)⟩) := by
  refine ⟨hn, hx, ?_⟩
  intro i hi
  have hi' : i + 1 < n := hi
  have ha : (finish n x y force ⟨fun _ => 0, fun _ => 0, fun i => (y (i + 1) - y i) / (x (i + 1) - x i)⟩).a i = 0 :=
    Function.update_of_ne (by omega) _ _
  have hc : (finish n x y force ⟨fun _ => 0, fun _ => 0, fun i => (y (i + 1) - y i) / (x (i + 1) - x i)⟩).c i =
      (y (i + 1) - y i) / (x (i + 1) - x i) := Function.update_of_ne (by omega) _ _
  have hb : (finish n x y force ⟨fun _ => 0, fun _ => 0, fun i => (y (i + 1) - y i) / (x (i + 1) - x i)⟩).b i = 0 := by
    cases force
    · rfl
    · exact Function.update_of_ne (by omega) _ _
  rw [ha, hb, hc]
  show 0 * (x (i + 1) - x i) ^ 3 + 0 * (x (i + 1) - x i) ^ 2 +
    (y (i + 1) - y i) / (x (i + 1) - x i) * (x (i + 1) - x i) + y i = y (i + 1)
  rw [div_mul_cancel₀ _ (sub_ne_zero.mpr (hx i hi').ne')]
  ring

omit [IsStrictOrderedRing K] in
/-- Every point is on some piece. -/
theorem Meets.where_ {S : Spl K} (F : Meets S) (t : K) : t ≤ S.x 0 ∨
    (∃ i, i + 1 < S.n ∧ S.x i < t ∧ t ≤ S.x (i + 1)) ∨ S.x (S.n - 1) < t := by
  have key : ∀ m, m < S.n → S.x m < t ∨ t ≤ S.x 0 ∨ ∃ i, i + 1 < S.n ∧ S.x i < t ∧ t ≤ S.x (i + 1) := by
    intro m
    induction m with
    | zero =>
      intro _
      rcases lt_or_ge (S.x 0) t with g | g
      · exact Or.inl g
      · exact Or.inr (Or.inl g)
    | succ m ih =>
      intro hm
      rcases ih (by omega) with g | g
      · rcases lt_or_ge (S.x (m + 1)) t with k | k
        · exact Or.inl k
        · exact Or.inr (Or.inr ⟨m, hm, g, k⟩)
      · exact Or.inr g
  rcases key (S.n - 1) (by have := F.pts; omega) with g | g | g
  · exact Or.inr (Or.inr g)
  · exact Or.inl g
  · exact Or.inr (Or.inl g)

omit [IsStrictOrderedRing K] in
/-- The same, with the other ends. -/
theorem Meets.where' {S : Spl K} (F : Meets S) (t : K) : t < S.x 0 ∨
    (∃ i, i + 1 < S.n ∧ S.x i ≤ t ∧ t < S.x (i + 1)) ∨ S.x (S.n - 1) ≤ t := by
  have hp := F.pts
  rcases F.where_ t with g | ⟨i, hi, h1, h2⟩ | g
  · rcases g.lt_or_eq with k | k
    · exact Or.inl k
    · exact Or.inr (Or.inl ⟨0, by omega, k.ge, k ▸ F.inc 0 (by omega)⟩)
  · rcases h2.lt_or_eq with k | k
    · exact Or.inr (Or.inl ⟨i, hi, h1.le, k⟩)
    · by_cases e : i + 2 < S.n
      · exact Or.inr (Or.inl ⟨i + 1, e, k.ge, k ▸ F.inc (i + 1) e⟩)
      · exact Or.inr (Or.inr (by rw [k, show S.n - 1 = i + 1 by omega]))
  · exact Or.inr (Or.inr g.le)

end Spline
end Jaxions
