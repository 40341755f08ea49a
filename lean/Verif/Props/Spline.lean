import Verif.Lemmas.SplineReal
import Mathlib.Tactic.NormNum
import Mathlib.Analysis.Calculus.ContDiff.Basic
import Mathlib.Analysis.Calculus.ContDiff.Deriv

/-!
# C77: splines
-/

namespace Jaxions
namespace Spline

section Field
variable {K : Type} [Field K] [LinearOrder K] [IsStrictOrderedRing K]

/-- Three points or more with increasing abscissae are all `set_points` needs: no assertion fails, no pivot
vanishes, whatever the values, the end conditions and the two flags.  In every other case an assertion
stops the program. -/
theorem C77_called (n : ℕ) (x y : ℕ → K) (cubic force : Bool) (left right : End K) :
    (∃ S, setPoints n x y cubic force left right = some S) ↔ 2 < n ∧ Increasing n x := by
  constructor
  · rintro ⟨S, h⟩
    unfold setPoints at h
    by_cases g : 2 < n ∧ ∀ i < n - 1, x i < x (i + 1)
    · exact ⟨g.1, fun i hi => g.2 i (by omega)⟩
    · rw [if_neg g] at h; cases h
  · rintro ⟨hn, hx⟩
    exact setPoints_some hn hx y cubic force left right

example : ∃ S, setPoints 4 (fun i => (i : ℚ) ^ 2) (fun i => 1 / (i + 1)) true false (.second 0) (.first 1) = some S :=
  (C77_called _ _ _ _ _ _ _).mpr ⟨by omega, fun i _ => by push_cast; nlinarith [Nat.cast_nonneg (α := ℚ) i]⟩

/-- The mode of straight lines, unfolded. -/
theorem setPoints_line {n : ℕ} {x y : ℕ → K} {force : Bool} {left right : End K} {S : Spl K}
    (h : setPoints n x y false force left right = some S) :
    2 < n ∧ Increasing n x ∧ Meets S ∧
      S = finish n x y force ⟨fun _ => 0, fun _ => 0, fun i => (y (i + 1) - y i) / (x (i + 1) - x i)⟩ := by
  obtain ⟨hn, hx⟩ := (C77_called n x y false force left right).mp ⟨S, h⟩
  unfold setPoints at h
  rw [if_pos ⟨hn, fun i hi => hx i (by omega)⟩] at h
  simp only [coefs, Option.map_some] at h
  obtain rfl := Option.some.inj h
  exact ⟨hn, hx, meets_line hn hx force, rfl⟩

/-- The object goes through its points, whatever the flags. -/
theorem meets {n : ℕ} {x y : ℕ → K} {cubic force : Bool} {left right : End K} {S : Spl K}
    (h : setPoints n x y cubic force left right = some S) : Meets S ∧ S.n = n ∧ S.x = x ∧ S.y = y := by
  cases cubic with
  | true =>
    obtain ⟨hn, hx, a, b, c, hs, rfl⟩ := setPoints_cubic h
    exact ⟨(fits_cubic hn hx hs force).toMeets, rfl, rfl, rfl⟩
  | false =>
    obtain ⟨_, _, hm, rfl⟩ := setPoints_line h
    exact ⟨hm, rfl, rfl, rfl⟩

/-- **The interpolation gives back the tabulated values**, in both modes, with any end conditions. -/
theorem C77_through {n : ℕ} {x y : ℕ → K} {cubic force : Bool} {left right : End K} {S : Spl K}
    (h : setPoints n x y cubic force left right = some S) {i : ℕ} (hi : i < n) : S.eval (x i) = y i := by
  obtain ⟨F, rfl, rfl, rfl⟩ := meets h
  by_cases e : i + 1 < S.n
  · rw [F.evalI e (le_refl _) (F.inc i e).le]; ring
  · rw [show i = S.n - 1 by omega, F.evalR (le_refl _)]; ring

example : (setPoints 4 (fun i => (i : ℚ) ^ 2) (fun i => 1 / (i + 1)) true false (.second 0) (.first 1)).map
    (fun S => S.eval 4) = some (1 / 3) := by
  obtain ⟨S, h⟩ := (C77_called 4 (fun i => (i : ℚ) ^ 2) (fun i => 1 / (i + 1)) true false (.second 0)
    (.first 1)).mpr ⟨by omega, fun i _ => by push_cast; nlinarith [Nat.cast_nonneg (α := ℚ) i]⟩
  have := C77_through h (show 2 < 4 by omega)
  rw [h, Option.map_some, show (4 : ℚ) = ((2 : ℕ) : ℚ) ^ 2 by norm_num, this]
  norm_num

/-- **Straight lines.**  Without the cubic mode the value between two points lies on the line through them,
and the first and last lines go on outside. -/
theorem C77_lines {n : ℕ} {x y : ℕ → K} {force : Bool} {left right : End K} {S : Spl K}
    (h : setPoints n x y false force left right = some S) (t : K) :
    (∀ i, i + 1 < n → x i ≤ t → t ≤ x (i + 1) →
      S.eval t = y i + (y (i + 1) - y i) / (x (i + 1) - x i) * (t - x i)) ∧
    (t ≤ x 0 → S.eval t = y 0 + (y 1 - y 0) / (x 1 - x 0) * (t - x 0)) ∧
    (x (n - 1) ≤ t → S.eval t = y (n - 1) + (y (n - 1) - y (n - 2)) / (x (n - 1) - x (n - 2)) * (t - x (n - 1))) := by
  obtain ⟨hn, hx, F, rfl⟩ := setPoints_line h
  refine ⟨?_, ?_, ?_⟩
  · intro i hi h1 h2
    rw [F.evalI (i := i) hi h1 h2]
    have ha : (finish n x y force ⟨fun _ => 0, fun _ => 0, fun i => (y (i + 1) - y i) / (x (i + 1) - x i)⟩).a i = 0 :=
      Function.update_of_ne (by omega) _ _
    have hc : (finish n x y force ⟨fun _ => 0, fun _ => 0, fun i => (y (i + 1) - y i) / (x (i + 1) - x i)⟩).c i =
        (y (i + 1) - y i) / (x (i + 1) - x i) := Function.update_of_ne (by omega) _ _
    have hb : (finish n x y force
        ⟨fun _ => 0, fun _ => 0, fun i => (y (i + 1) - y i) / (x (i + 1) - x i)⟩).b i = 0 := by
      cases force
      · rfl
      · exact Function.update_of_ne (by omega) _ _
    rw [ha, hb, hc]
    show 0 * (t - x i) ^ 3 + 0 * (t - x i) ^ 2 + _ * (t - x i) + y i = _
    ring
  · intro h1
    rw [F.evalL h1]
    have hb : (finish n x y force
        ⟨fun _ => 0, fun _ => 0, fun i => (y (i + 1) - y i) / (x (i + 1) - x i)⟩).b0 = 0 := by
      cases force <;> rfl
    rw [hb]
    show 0 * (t - x 0) ^ 2 + (y 1 - y 0) / (x 1 - x 0) * (t - x 0) + y 0 = _
    ring
  · intro h1
    obtain ⟨p, rfl⟩ : ∃ p, n = p + 2 := ⟨n - 2, by omega⟩
    rw [F.evalR h1]
    have hb : (finish (p + 2) x y force
        ⟨fun _ => 0, fun _ => 0, fun i => (y (i + 1) - y i) / (x (i + 1) - x i)⟩).b (p + 1) = 0 := by
      cases force
      · rfl
      · exact Function.update_self _ _ _
    have hc : (finish (p + 2) x y force
        ⟨fun _ => 0, fun _ => 0, fun i => (y (i + 1) - y i) / (x (i + 1) - x i)⟩).c (p + 1) =
        (y (p + 1) - y p) / (x (p + 1) - x p) := by
      have : (finish (p + 2) x y force
        ⟨fun _ => 0, fun _ => 0, fun i => (y (i + 1) - y i) / (x (i + 1) - x i)⟩).c (p + 1) =
          3 * (Function.update (fun _ => (0 : K)) (p + 1) 0) p * (x (p + 1) - x p) * (x (p + 1) - x p) +
            2 * 0 * (x (p + 1) - x p) + (y (p + 1) - y p) / (x (p + 1) - x p) := Function.update_self _ _ _
      rw [this, Function.update_of_ne (by omega)]
      ring
    show (finish (p + 2) x y force _).b (p + 1) * (t - x (p + 1)) ^ 2 +
      (finish (p + 2) x y force _).c (p + 1) * (t - x (p + 1)) + y (p + 1) = y (p + 1) +
      (y (p + 1) - y p) / (x (p + 1) - x p) * (t - x (p + 1))
    rw [hb, hc]
    ring

/-- **The end conditions hold**: the slope, or the second derivative, at the first and at the last point is
the value asked for.  The forced straight lines outside do not change that. -/
theorem C77_ends {n : ℕ} {x y : ℕ → K} {force : Bool} {left right : End K} {S : Spl K}
    (h : setPoints n x y true force left right = some S) :
    left.Holds (S.deriv1 (x 0)) (S.deriv2 (x 0)) ∧ right.Holds (S.deriv1 (x (n - 1))) (S.deriv2 (x (n - 1))) := by
  obtain ⟨hn, hx, a, b, c, hs, rfl⟩ := setPoints_cubic h
  have F := fits_cubic hn hx hs force
  obtain ⟨p, rfl⟩ : ∃ p, n = p + 3 := ⟨n - 3, by omega⟩
  set S := finish (p + 3) x y force ⟨a, b, c⟩ with hS
  have hb : ∀ i, i < p + 2 → S.b i = b i := by
    intro i hi
    cases force
    · rfl
    · exact Function.update_of_ne (by show i ≠ p + 2; omega) _ _
  have ha : ∀ i, i < p + 2 → S.a i = a i := fun i hi => Function.update_of_ne (by show i ≠ p + 2; omega) _ _
  have hc : ∀ i, i < p + 2 → S.c i = c i := fun i hi => Function.update_of_ne (by show i ≠ p + 2; omega) _ _
  have hcurv : ∀ i, i + 2 < S.n → 6 * S.a i * (S.x (i + 1) - S.x i) + 2 * S.b i = 2 * S.b (i + 1) := by
    intro i hi
    have hi' : i + 2 < p + 3 := hi
    rw [ha i (by omega), hb i (by omega), hb (i + 1) (by omega)]
    exact hs.curv i (by omega)
  have x01 := hx 0 (by omega)
  have xpp := hx (p + 1) (by omega)
  have d0 : S.deriv1 (x 0) = c 0 := by
    rw [F.derivI (t := x 0) (i := 0) (show 0 + 1 < p + 3 by omega) (le_refl _) x01.le, ha 0 (by omega), hb 0 (by omega),
      hc 0 (by omega)]
    show 3 * a 0 * (x 0 - x 0) ^ 2 + 2 * b 0 * (x 0 - x 0) + c 0 = c 0
    ring
  have s0 : S.deriv2 (x 0) = 2 * b 0 := by
    rw [F.curvI hcurv (t := x 0) (i := 0) (show 0 + 1 < p + 3 by omega) (le_refl _) x01.le, ha 0 (by omega), hb 0 (by omega)]
    show 6 * a 0 * (x 0 - x 0) + 2 * b 0 = 2 * b 0
    ring
  have d1 : S.deriv1 (x (p + 2)) = 3 * a (p + 1) * (x (p + 2) - x (p + 1)) ^ 2 +
      2 * b (p + 1) * (x (p + 2) - x (p + 1)) + c (p + 1) := by
    rw [F.derivI (t := x (p + 2)) (i := p + 1) (show p + 1 + 1 < p + 3 by omega) xpp.le (le_refl _), ha _ (by omega), hb _ (by omega),
      hc _ (by omega)]
    rfl
  have s1 : S.deriv2 (x (p + 2)) = 2 * b (p + 2) := by
    rw [F.curvI hcurv (t := x (p + 2)) (i := p + 1) (show p + 1 + 1 < p + 3 by omega) xpp.le (le_refl _), ha _ (by omega),
      hb _ (by omega)]
    exact hs.curv (p + 1) (by omega)
  refine ⟨?_, ?_⟩
  · rw [d0, s0]; exact hs.left
  · show right.Holds (S.deriv1 (x (p + 2))) (S.deriv2 (x (p + 2)))
    rw [d1, s1]; exact hs.right

/-- **There is one such function.**  Whatever other cubics, one per interval, go through the points with
matching slopes and second derivatives and meet the same end conditions, they are the ones the code
evaluates between the first and the last point. -/
theorem C77_unique {n : ℕ} {x y : ℕ → K} {force : Bool} {left right : End K} {S : Spl K}
    (h : setPoints n x y true force left right = some S) {a b c : ℕ → K} (hs : IsCubic n x y left right a b c)
    {t : K} {i : ℕ} (hi : i + 1 < n) (h1 : x i ≤ t) (h2 : t ≤ x (i + 1)) :
    S.eval t = a i * (t - x i) ^ 3 + b i * (t - x i) ^ 2 + c i * (t - x i) + y i := by
  obtain ⟨hn, hx, a', b', c', hs', rfl⟩ := setPoints_cubic h
  have F := fits_cubic hn hx hs' force
  obtain ⟨u, v⟩ := hs'.unique hn hx hs
  rw [F.evalI (i := i) hi h1 h2]
  have hb : (finish n x y force ⟨a', b', c'⟩).b i = b i := by
    rw [← u i (by omega)]
    cases force
    · rfl
    · exact Function.update_of_ne (by omega) _ _
  have ha : (finish n x y force ⟨a', b', c'⟩).a i = a i := by
    rw [← (v i hi).1]
    exact Function.update_of_ne (by omega) _ _
  have hc : (finish n x y force ⟨a', b', c'⟩).c i = c i := by
    rw [← (v i hi).2]
    exact Function.update_of_ne (by omega) _ _
  rw [ha, hb, hc]
  rfl

/-- **Cubics are reproduced.**  If the values are those of a polynomial of degree three at most, and the end
conditions are its own, the interpolation equals the polynomial between the first and the last point. -/
theorem C77_cubic {n : ℕ} {x : ℕ → K} {force : Bool} {left right : End K} {S : Spl K} (p q r s : K)
    (h : setPoints n x (fun i => p * x i ^ 3 + q * x i ^ 2 + r * x i + s) true force left right = some S)
    (hl : left.Holds (3 * p * x 0 ^ 2 + 2 * q * x 0 + r) (6 * p * x 0 + 2 * q))
    (hr : right.Holds (3 * p * x (n - 1) ^ 2 + 2 * q * x (n - 1) + r) (6 * p * x (n - 1) + 2 * q)) {t : K}
    (h1 : x 0 ≤ t) (h2 : t ≤ x (n - 1)) : S.eval t = p * t ^ 3 + q * t ^ 2 + r * t + s := by
  obtain ⟨hn, hx⟩ := (C77_called _ _ _ _ _ _ _).mp ⟨S, h⟩
  have hs : IsCubic n x (fun i => p * x i ^ 3 + q * x i ^ 2 + r * x i + s) left right (fun _ => p)
      (fun i => 3 * p * x i + q) (fun i => 3 * p * x i ^ 2 + 2 * q * x i + r) := by
    refine ⟨fun i _ => by ring, fun i _ => by ring, fun i _ => by ring, ?_, ?_⟩
    · convert hl using 1; ring
    · convert hr using 1 <;> ring
  obtain ⟨F, hSn, hSx, _⟩ := meets h
  have key : ∀ i, i + 1 < n → x i ≤ t → t ≤ x (i + 1) → S.eval t = p * t ^ 3 + q * t ^ 2 + r * t + s := by
    intro i hi g1 g2
    rw [C77_unique h hs hi g1 g2]
    ring
  rcases F.where_ t with g | ⟨i, hi, g1, g2⟩ | g
  · rw [hSx] at g
    exact key 0 (by omega) h1 (g.trans (hx 0 (by omega)).le)
  · rw [hSx] at g1 g2
    rw [hSn] at hi
    exact key i hi g1.le g2
  · rw [hSx, hSn] at g
    exact absurd h2 (not_le.mpr g)

/-- The cube on uneven points, with its own slopes at the ends, between the points. -/
example (S : Spl ℚ) (h : setPoints 4 (fun i => (i : ℚ) ^ 2) (fun i => 1 * ((i : ℚ) ^ 2) ^ 3 + 0 * ((i : ℚ) ^ 2) ^ 2 +
    0 * (i : ℚ) ^ 2 + 0) true false (.first 0) (.first 243) = some S) : S.eval (5 / 2) = 125 / 8 := by
  rw [C77_cubic 1 0 0 0 h (by simp [End.Holds]) (by norm_num [End.Holds]) (by norm_num) (by norm_num)]
  norm_num

/-- **Straight data stay straight.**  With the default end conditions the interpolation of values on a line
is that line, also outside. -/
theorem C77_straight {n : ℕ} {x : ℕ → K} {force : Bool} {S : Spl K} (r s : K)
    (h : setPoints n x (fun i => r * x i + s) true force (.second 0) (.second 0) = some S) (t : K) :
    S.eval t = r * t + s := by
  obtain ⟨hn, hx, a, b, c, hs, rfl⟩ := setPoints_cubic h
  have F := fits_cubic hn hx hs force
  have hs' : IsCubic n x (fun i => r * x i + s) (.second 0) (.second 0) (fun _ => 0) (fun _ => 0) (fun _ => r) :=
    ⟨fun i _ => by ring, fun i _ => by ring, fun i _ => by ring, by simp [End.Holds], by simp [End.Holds]⟩
  obtain ⟨u, v⟩ := hs.unique hn hx hs'
  obtain ⟨p, rfl⟩ : ∃ p, n = p + 3 := ⟨n - 3, by omega⟩
  rcases F.where_ t with g | ⟨i, hi, g1, g2⟩ | g
  · rw [F.evalL g]
    have hb : (finish (p + 3) x (fun i => r * x i + s) force ⟨a, b, c⟩).b0 = 0 := by
      cases force
      · exact u 0 (by omega)
      · rfl
    have hc : (finish (p + 3) x (fun i => r * x i + s) force ⟨a, b, c⟩).c0 = r := (v 0 (by omega)).2
    rw [hb, hc]
    show 0 * (t - x 0) ^ 2 + r * (t - x 0) + (r * x 0 + s) = _
    ring
  · rw [C77_unique h hs' (i := i) hi g1.le g2]
    ring
  · rw [F.evalR g.le]
    have hb : (finish (p + 3) x (fun i => r * x i + s) force ⟨a, b, c⟩).b (p + 2) = 0 := by
      cases force
      · exact u (p + 2) (by omega)
      · exact Function.update_self _ _ _
    have hc : (finish (p + 3) x (fun i => r * x i + s) force ⟨a, b, c⟩).c (p + 2) = r := by
      have : (finish (p + 3) x (fun i => r * x i + s) force ⟨a, b, c⟩).c (p + 2) =
          3 * (Function.update a (p + 2) (0 : K)) (p + 1) * (x (p + 2) - x (p + 1)) * (x (p + 2) - x (p + 1)) +
            2 * b (p + 1) * (x (p + 2) - x (p + 1)) + c (p + 1) := Function.update_self _ _ _
      rw [this, Function.update_of_ne (by omega), (v (p + 1) (by omega)).1, (v (p + 1) (by omega)).2,
        u (p + 1) (by omega)]
      ring
    show (finish (p + 3) x _ force _).b (p + 2) * (t - x (p + 2)) ^ 2 +
      (finish (p + 3) x _ force _).c (p + 2) * (t - x (p + 2)) + (r * x (p + 2) + s) = _
    rw [hb, hc]
    ring

example (S : Spl ℚ) (h : setPoints 5 (fun i => (i : ℚ) ^ 2) (fun i => 3 * (i : ℚ) ^ 2 + 7) true false (.second 0)
    (.second 0) = some S) : S.eval (-1) = 4 ∧ S.eval 100 = 307 := by
  constructor <;> rw [C77_straight 3 7 h] <;> norm_num

/-- **Overshoot.**  Positive values are no guarantee: this table is positive and its interpolation is not. -/
theorem C77_overshoot : ∃ (y : ℕ → ℚ) (S : Spl ℚ), (∀ i, 0 < y i) ∧
    setPoints 4 (fun i => (i : ℚ)) y true false (.second 0) (.second 0) = some S ∧ S.eval (3 / 2) < 0 := by
  let y : ℕ → ℚ := fun i => if i = 1 ∨ i = 2 then 1 / 10 else 10
  obtain ⟨S, h⟩ := (C77_called 4 (fun i => (i : ℚ)) y true false (.second 0) (.second 0)).mpr
    ⟨by omega, fun i _ => by push_cast; linarith⟩
  refine ⟨y, S, ?_, h, ?_⟩
  · intro i
    show 0 < (if i = 1 ∨ i = 2 then (1 / 10 : ℚ) else 10)
    split_ifs <;> norm_num
  · have hs : IsCubic 4 (fun i => (i : ℚ)) y (.second 0) (.second 0)
        (fun i => if i = 0 then 297 / 150 else if i = 1 then 0 else -297 / 150)
        (fun i => if i = 1 ∨ i = 2 then 297 / 50 else 0)
        (fun i => if i = 0 then -297 / 25 else if i = 1 then -297 / 50 else 297 / 50) := by
      have c3 : ∀ P : ℕ → Prop, P 0 → P 1 → P 2 → ∀ i, i + 1 < 4 → P i := by
        intro P h0 h1 h2 i hi
        obtain rfl | rfl | rfl : i = 0 ∨ i = 1 ∨ i = 2 := by omega
        · exact h0
        · exact h1
        · exact h2
      have c2 : ∀ P : ℕ → Prop, P 0 → P 1 → ∀ i, i + 2 < 4 → P i := by
        intro P h0 h1 i hi
        obtain rfl | rfl : i = 0 ∨ i = 1 := by omega
        · exact h0
        · exact h1
      refine ⟨?_, ?_, ?_, ?_, ?_⟩
      · apply c3 <;> norm_num [y]
      · apply c2 <;> norm_num
      · apply c3 <;> norm_num
      · norm_num [End.Holds]
      · norm_num [End.Holds]
    rw [C77_unique h hs (i := 1) (by omega) (by norm_num) (by norm_num)]
    norm_num [y]

/-- **Sums.**  The interpolation of a combination of two tables is the combination of the interpolations,
with the default ends, between the first and the last point. -/
theorem C77_sum {n : ℕ} {x y y' : ℕ → K} {force : Bool} {S S' T : Spl K} (α β : K)
    (h : setPoints n x y true force (.second 0) (.second 0) = some S)
    (h' : setPoints n x y' true force (.second 0) (.second 0) = some S')
    (hT : setPoints n x (fun i => α * y i + β * y' i) true force (.second 0) (.second 0) = some T) {t : K}
    (h1 : x 0 ≤ t) (h2 : t ≤ x (n - 1)) : T.eval t = α * S.eval t + β * S'.eval t := by
  obtain ⟨hn, hx, a, b, c, hs, -⟩ := setPoints_cubic h
  obtain ⟨-, -, a', b', c', hs', -⟩ := setPoints_cubic h'
  have hh : IsCubic n x (fun i => α * y i + β * y' i) (.second 0) (.second 0) (fun i => α * a i + β * a' i)
      (fun i => α * b i + β * b' i) (fun i => α * c i + β * c' i) := by
    refine ⟨fun i hi => ?_, fun i hi => ?_, fun i hi => ?_, ?_, ?_⟩
    · linear_combination α * hs.value i hi + β * hs'.value i hi
    · linear_combination α * hs.slope i hi + β * hs'.slope i hi
    · linear_combination α * hs.curv i hi + β * hs'.curv i hi
    · have e1 : 2 * b 0 = 0 := hs.left
      have e2 : 2 * b' 0 = 0 := hs'.left
      show 2 * (α * b 0 + β * b' 0) = 0
      linear_combination α * e1 + β * e2
    · have e1 : 2 * b (n - 1) = 0 := hs.right
      have e2 : 2 * b' (n - 1) = 0 := hs'.right
      show 2 * (α * b (n - 1) + β * b' (n - 1)) = 0
      linear_combination α * e1 + β * e2
  have key : ∀ i, i + 1 < n → x i ≤ t → t ≤ x (i + 1) → T.eval t = α * S.eval t + β * S'.eval t := by
    intro i hi g1 g2
    rw [C77_unique hT hh hi g1 g2, C77_unique h hs hi g1 g2, C77_unique h' hs' hi g1 g2]
    ring
  obtain ⟨F, hSn, hSx, _⟩ := meets h
  rcases F.where_ t with g | ⟨i, hi, g1, g2⟩ | g
  · rw [hSx] at g
    exact key 0 (by omega) h1 (g.trans (hx 0 (by omega)).le)
  · rw [hSx] at g1 g2
    rw [hSn] at hi
    exact key i hi g1.le g2
  · rw [hSx, hSn] at g
    exact absurd h2 (not_le.mpr g)

end Field

/-! ## Real functions -/

/-- The second derivatives of the object agree. -/
theorem curv_cubic {n : ℕ} {x y : ℕ → ℝ} {left right : End ℝ} {a b c : ℕ → ℝ}
    (hs : IsCubic n x y left right a b c) : ∀ i, i + 1 < (finish n x y false ⟨a, b, c⟩).n →
      6 * (finish n x y false ⟨a, b, c⟩).a i * ((finish n x y false ⟨a, b, c⟩).x (i + 1) -
        (finish n x y false ⟨a, b, c⟩).x i) + 2 * (finish n x y false ⟨a, b, c⟩).b i =
      2 * (finish n x y false ⟨a, b, c⟩).b (i + 1) := by
  intro i hi
  have hi' : i + 1 < n := hi
  have ha : (finish n x y false ⟨a, b, c⟩).a i = a i := Function.update_of_ne (by omega) _ _
  rw [ha]
  exact hs.curv i hi'

/-- **Smooth, and `deriv(1,x)` is the slope**: at every real number, the points and the outside included,
the interpolation is differentiable and `deriv(1,x)` is its derivative, forced lines or not. -/
theorem C77_slope {n : ℕ} {x y : ℕ → ℝ} {force : Bool} {left right : End ℝ} {S : Spl ℝ}
    (h : setPoints n x y true force left right = some S) (t : ℝ) : HasDerivAt S.eval (S.deriv1 t) t := by
  obtain ⟨hn, hx, a, b, c, hs, rfl⟩ := setPoints_cubic h
  exact (fits_cubic hn hx hs force).deriv t

/-- **Twice continuously differentiable** on the whole line when the lines outside are not forced. -/
theorem C77_smooth {n : ℕ} {x y : ℕ → ℝ} {left right : End ℝ} {S : Spl ℝ}
    (h : setPoints n x y true false left right = some S) : ContDiff ℝ 2 S.eval := by
  obtain ⟨hn, hx, a, b, c, hs, rfl⟩ := setPoints_cubic h
  have F := fits_cubic hn hx hs false
  have hc := curv_cubic hs
  set S := finish n x y false ⟨a, b, c⟩
  have d1 : _root_.deriv S.eval = S.deriv1 := funext fun t => (F.deriv t).deriv
  have d2 : _root_.deriv S.deriv1 = second S := funext fun t => (F.second_deriv hc rfl t).deriv
  rw [show (2 : WithTop ℕ∞) = 1 + 1 by norm_num, contDiff_succ_iff_deriv]
  refine ⟨fun t => (F.deriv t).differentiableAt, by simp, ?_⟩
  rw [d1, contDiff_one_iff_deriv, d2]
  exact ⟨fun t => (F.second_deriv hc rfl t).differentiableAt, F.second_cont hc rfl⟩

/-- **`deriv(2,x)` is the second derivative from the first point on; to the left of it only if the second
derivative there vanishes.**  The code returns `2*b0*h` where it should return `2*b0`
(`spline.h:419`).  Under the default ends `b0` is zero and nothing is lost. -/
theorem C77_curvature {n : ℕ} {x y : ℕ → ℝ} {left right : End ℝ} {S : Spl ℝ}
    (h : setPoints n x y true false left right = some S) (t : ℝ) :
    (x 0 ≤ t → HasDerivAt S.deriv1 (S.deriv2 t) t) ∧
    (t < x 0 → (HasDerivAt S.deriv1 (S.deriv2 t) t ↔ S.deriv2 (x 0) = 0)) := by
  obtain ⟨hn, hx, a, b, c, hs, rfl⟩ := setPoints_cubic h
  have F := fits_cubic hn hx hs false
  have hc := curv_cubic hs
  have hb0 : (finish n x y false ⟨a, b, c⟩).b0 = (finish n x y false ⟨a, b, c⟩).b 0 := rfl
  have hx0 : (finish n x y false ⟨a, b, c⟩).x = x := rfl
  set S := finish n x y false ⟨a, b, c⟩
  have hd := F.second_deriv hc hb0 t
  refine ⟨fun g => ?_, fun g => ?_⟩
  · unfold second at hd
    rwa [if_neg (by rw [hx0]; exact not_lt.mpr g)] at hd
  · have e0 : S.deriv2 (x 0) = 2 * S.b0 := by
      have := second_left F hc hb0 (le_refl (S.x 0))
      unfold second at this
      rwa [if_neg (lt_irrefl _)] at this
    have e1 : S.deriv2 t = 2 * S.b0 * (t - x 0) := by
      unfold Spl.deriv2
      simp only [idx_first S (show t ≤ S.x 0 by rw [hx0]; exact g.le), hx0, if_pos g]
    have e2 : second S t = 2 * S.b0 := second_left F hc hb0 (by rw [hx0]; exact g.le)
    rw [e2] at hd
    rw [e0, e1]
    constructor
    · intro k
      have q := k.unique hd
      have : 2 * S.b0 * (x 0 - t + 1) = 0 := by linear_combination -q
      rcases mul_eq_zero.mp this with w | w
      · exact w
      · linarith
    · intro k
      rw [k, zero_mul]
      rw [k] at hd
      exact hd

/-- A spline whose `deriv(2,x)` is wrong on the left: end condition one on the second derivative. -/
theorem C77_curvature_fails : ∃ S : Spl ℝ, setPoints 3 (fun i => (i : ℝ)) (fun _ => 0) true false (.second 1)
    (.second 0) = some S ∧ ∀ t < 0, ¬ HasDerivAt S.deriv1 (S.deriv2 t) t := by
  obtain ⟨S, h⟩ := (C77_called 3 (fun i => (i : ℝ)) (fun _ => 0) true false (.second 1) (.second 0)).mpr
    ⟨by omega, fun i _ => by push_cast; linarith⟩
  refine ⟨S, h, fun t ht => ?_⟩
  rw [(C77_curvature h t).2 (by simpa using ht)]
  have := (C77_ends h).1
  simp only [End.Holds] at this
  rw [this]
  norm_num

/-- The default ends: `deriv(2,x)` is the second derivative everywhere. -/
theorem C77_default {n : ℕ} {x y : ℕ → ℝ} {right : End ℝ} {S : Spl ℝ}
    (h : setPoints n x y true false (.second 0) right = some S) (t : ℝ) : HasDerivAt S.deriv1 (S.deriv2 t) t := by
  rcases lt_or_ge t (x 0) with g | g
  · exact ((C77_curvature h t).2 g).mpr (C77_ends h).1
  · exact (C77_curvature h t).1 g

example : ∃ S : Spl ℝ, setPoints 5 (fun i => (i : ℝ)) (fun i => (i : ℝ) ^ 4) true false (.second 0) (.first 2) =
    some S ∧ ContDiff ℝ 2 S.eval ∧ ∀ t, HasDerivAt S.deriv1 (S.deriv2 t) t := by
  obtain ⟨S, h⟩ := (C77_called 5 (fun i => (i : ℝ)) (fun i => (i : ℝ) ^ 4) true false (.second 0) (.first 2)).mpr
    ⟨by omega, fun i _ => by push_cast; linarith⟩
  exact ⟨S, h, C77_smooth h, C77_default h⟩

end Spline
end Jaxions
