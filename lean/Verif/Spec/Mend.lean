import Mathlib.Algebra.Order.Floor.Ring
import Mathlib.Algebra.Order.Archimedean.Basic
import Mathlib.Algebra.Order.Field.Basic

/-!
# What mending should do

Angles along a closed line, in units in which a turn is `2 zP`.
-/

namespace Jaxions
namespace Mend

variable {K : Type} [Field K] [LinearOrder K] [FloorRing K]

/-- The whole turns that bring a difference `d` into `[-zP, zP)`. -/
def turnsV (zP d : K) : Int := -⌊(d + zP) / (2 * zP)⌋

/-- The fewest whole turns that bring a difference `d` into `[-zP, zP]`. -/
def turnsS (zP d : K) : Int :=
  if d > zP then -⌈(d - zP) / (2 * zP)⌉ else if d < -zP then ⌈(-zP - d) / (2 * zP)⌉ else 0

omit [LinearOrder K] [FloorRing K] in
/-- Turns given to the sites of a line by going along it, each site relative to the one before; the
first site is given `k0` turns. -/
def scan (σ : K → Int) (c : K) (k0 : Int) (g : Nat → K) : Nat → Int
  | 0 => k0
  | x + 1 => σ (g (x + 1) - (g x + scan σ c k0 g x * c))

/-- The closed line of `L` sites in the other direction. -/
def back (L : Nat) (g : Nat → K) (j : Nat) : K := g ((L - j) % L)

/-- Turns given to the sites of a closed line: those on which both directions agree. -/
def mended (σ : K → Int) (c : K) (L : Nat) (g : Nat → K) (x : Nat) : Int :=
  if scan σ c 0 g x = scan σ c 0 (back L g) (L - x) then scan σ c 0 g x else 0

/-- Turns that both scans of a line meet stay within a limit. -/
def RowFuel (σ : K → Int) (c : K) (L N : Nat) (g : Nat → K) : Prop :=
  ∀ j, j < L → (scan σ c 0 g j).natAbs ≤ N ∧ (scan σ c 0 (back L g) j).natAbs ≤ N

/-- Neighbours on the closed line differ by less than half a turn. -/
def SmoothLine (zP : K) (L : Nat) (Θ : Nat → K) : Prop :=
  (∀ x, x + 1 < L → |Θ (x + 1) - Θ x| < zP) ∧ |Θ 0 - Θ (L - 1)| < zP

/-- The same on a periodic lattice of `L × L × N` sites. -/
def Smooth (zP : K) (L N : Nat) (Θ : Nat → Nat → Nat → K) : Prop :=
  (∀ y z, y < L → z < N → SmoothLine zP L fun x => Θ x y z) ∧
  (∀ x z, x < L → z < N → SmoothLine zP L fun y => Θ x y z) ∧
  ∀ x y, x < L → y < L → SmoothLine zP N fun z => Θ x y z

/-- Turns of the line along z through `(0,0)`, which starts from the last site as it was. -/
def turnsZ (zP : K) (N : Nat) (g : Nat → Nat → Nat → K) : Nat → Int :=
  scan (turnsS zP) (2 * zP) (turnsS zP (g 0 0 0 - g 0 0 (N - 1))) (g 0 0)

/-- Angles after it. -/
def afterZ (zP : K) (N : Nat) (g : Nat → Nat → Nat → K) (x y z : Nat) : K :=
  g x y z + (if x = 0 ∧ y = 0 then turnsZ zP N g z else 0 : Int) * (2 * zP)

/-- Turns of the line along y at `x = 0` of each slice. -/
def turnsY (zP : K) (L N : Nat) (g : Nat → Nat → Nat → K) (y z : Nat) : Int :=
  mended (turnsS zP) (2 * zP) L (fun y => afterZ zP N g 0 y z) y

/-- Angles after these. -/
def afterY (zP : K) (L N : Nat) (g : Nat → Nat → Nat → K) (x y z : Nat) : K :=
  afterZ zP N g x y z + (if x = 0 then turnsY zP L N g y z else 0 : Int) * (2 * zP)

/-- Turns of the lines along x. -/
def turnsX (zP : K) (L N : Nat) (g : Nat → Nat → Nat → K) (x y z : Nat) : Int :=
  mended (turnsV zP) (2 * zP) L (fun x => afterY zP L N g x y z) x

/-- All turns given to a site. -/
def turns (zP : K) (L N : Nat) (g : Nat → Nat → Nat → K) (x y z : Nat) : Int :=
  (if x = 0 ∧ y = 0 then turnsZ zP N g z else 0) + (if x = 0 then turnsY zP L N g y z else 0) +
    turnsX zP L N g x y z

end Mend
end Jaxions
