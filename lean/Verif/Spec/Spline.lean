import Verif.Model.Spline

/-!
# What a cubic spline is
-/

namespace Jaxions
namespace Spline

variable {K : Type} [Field K] [LinearOrder K]

/-- The condition at an end, on the slope and the second derivative there. -/
def End.Holds (slope curv : K) : End K → Prop
  | .first v => slope = v
  | .second v => curv = v

/-- On interval `i` the function is `a (t - x i)³ + b (t - x i)² + c (t - x i) + y i`; it goes through the
points, has a continuous slope and a continuous second derivative (twice `b i` at point `i`), and meets
the conditions at the ends. -/
structure IsCubic (n : ℕ) (x y : ℕ → K) (left right : End K) (a b c : ℕ → K) : Prop where
  value : ∀ i, i + 1 < n → a i * (x (i + 1) - x i) ^ 3 + b i * (x (i + 1) - x i) ^ 2 +
    c i * (x (i + 1) - x i) + y i = y (i + 1)
  slope : ∀ i, i + 2 < n → 3 * a i * (x (i + 1) - x i) ^ 2 + 2 * b i * (x (i + 1) - x i) + c i = c (i + 1)
  curv : ∀ i, i + 1 < n → 6 * a i * (x (i + 1) - x i) + 2 * b i = 2 * b (i + 1)
  left : left.Holds (c 0) (2 * b 0)
  right : right.Holds (3 * a (n - 2) * (x (n - 1) - x (n - 2)) ^ 2 + 2 * b (n - 2) * (x (n - 1) - x (n - 2)) +
    c (n - 2)) (2 * b (n - 1))

/-- The abscissae increase. -/
def Increasing (n : ℕ) (x : ℕ → K) : Prop := ∀ i, i + 1 < n → x i < x (i + 1)

end Spline
end Jaxions
