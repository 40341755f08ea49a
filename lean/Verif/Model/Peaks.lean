import Verif.Basic.Heap
import Mathlib.Algebra.Field.Defs
import Mathlib.Order.Defs.LinearOrder
/-
The peak finder `Scalar::axitonfinder`, /repo/lib/scalar/scalarField.cpp:1584-1714.
-/
namespace Jaxions.Peaks

variable {K : Type}

/-- An entry: `ct_local[i]`, `ar_local[i]`. -/
abbrev Entry (K : Type) := K × Nat

/-- The two arrays of `numaxitons` entries and `size`. -/
structure Lst (K : Type) where
  a : Heap Nat (Entry K)
  size : Nat

section
variable [LT K] [DecidableLT K]

/-- scalarField.cpp:1688-1692: `if (pos < numaxitons-1) { entry[pos+1] = entry[pos]; }`. -/
def moveUp (cap p : Nat) (e : Entry K) (a : Heap Nat (Entry K)) : Option (Heap Nat (Entry K)) :=
  if (p : Int) < (cap : Int) - 1 then a.write (p + 1) e else some a

/-- scalarField.cpp:1684-1692: `pos = size; while (pos > 0 && ct_local[pos-1] < val) { pos--;
if (pos < numaxitons-1) { entry[pos+1] = entry[pos]; } }`. Returns `pos` and the arrays. -/
def shiftDown (cap : Nat) (val : K) : Nat → Heap Nat (Entry K) → Option (Nat × Heap Nat (Entry K))
  | 0, a => some (0, a)
  | p + 1, a => do
    let e ← a p
    if e.1 < val then do
      let a' ← moveUp cap p e a
      shiftDown cap val p a'
    else some (p + 1, a)

/-- scalarField.cpp:1684-1698: insertion of one candidate. -/
def insertPeak (cap : Nat) (l : Lst K) (e : Entry K) : Option (Lst K) := do
  let (pos, a) ← shiftDown cap e.1 l.size l.a
  let size := if l.size < cap then l.size + 1 else l.size
  let a ← if pos < size then a.write pos e else some a
  return ⟨a, size⟩

/-- scalarField.cpp:1596-1600 and 1608: start. -/
def start [Zero K] (cap : Nat) : Lst K := ⟨fun i => if i < cap then some (0, 0) else none, 0⟩

/-- The candidates one after the other. -/
def insertAll (cap : Nat) (l : Lst K) (es : List (Entry K)) : Option (Lst K) :=
  es.foldlM (insertPeak cap) l

end

/-- scalarField.cpp:1629-1643: index in the (possibly folded) field of site `idx` of the density. -/
def fidx (n1 shift : Nat) (folded : Bool) (idx : Nat) : Nat :=
  let n2 := n1 * n1
  let cues := n1 / shift
  let iz := idx / n2
  let iy := idx % n2 / n1
  let ix := idx % n2 % n1
  if folded then
    let sy := iy / cues
    let iiy := iy - sy * cues
    iz * n2 + iiy * n1 * shift + ix * shift + sy
  else idx

/-- scalarField.cpp:1621-1680: is site `idx` a candidate? `D` is the density (unfolded), `big` the
test `abs(mTheta[n2+fidx]/(*z)) < 3.14` negated. The comparisons in x and y skip a site whose
neighbour is smaller, the ones in z a site whose neighbour is larger. -/
def candidate [Field K] [LinearOrder K] (n1 Lz : Nat) (thr : K) (D : Nat → K) (big : Nat → Bool)
    (idx : Nat) : Bool :=
  let n2 := n1 * n1
  let val := D idx
  let iz := idx / n2
  let iy := idx % n2 / n1
  let ix := idx % n2 % n1
  decide (D idx > thr) && big idx &&
  !decide (D ((ix + 1) % n1 + iy * n1 + iz * n2) - val < 0) &&
  !decide (D ((ix + n1 - 1) % n1 + iy * n1 + iz * n2) - val < 0) &&
  !decide (D (ix + (iy + 1) % n1 * n1 + iz * n2) - val < 0) &&
  !decide (D (ix + (iy + n1 - 1) % n1 * n1 + iz * n2) - val < 0) &&
  !decide (D (ix + iy * n1 + (iz + 1) % Lz * n2) - val > 0) &&
  !decide (D (ix + iy * n1 + (iz + Lz - 1) % Lz * n2) - val > 0)

/-- The whole scan over `n3 = n1*n1*Lz` sites of an axion field. -/
def axitonfinder [Field K] [LinearOrder K] (n1 Lz shift : Nat) (folded : Bool) (thr : K) (D : Nat → K)
    (big : Nat → Bool) (cap : Nat) : Option (Lst K) :=
  insertAll cap (start cap)
    (((List.range (n1 * n1 * Lz)).filter (candidate n1 Lz thr D big)).map
      fun idx => (D idx, fidx n1 shift folded idx))

end Jaxions.Peaks
