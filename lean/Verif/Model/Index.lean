/-
Model of /repo/include/utils/index.h (namespace indexXeon).

`size_t` values are integers here.  The code subtracts before it adds in a few places
(`idx - L + 1`), where the unsigned intermediate value may wrap; since wrapping arithmetic is
exact modulo 2^64 the final value is right whenever the exact value lies in the `size_t` range,
which the theorems establish (results are site numbers of the grid).
-/
namespace Jaxions

/-- index.h:5-12 `idx2Vec`: (x[0], x[1], x[2]). -/
def idx2Vec (idx Lx : Nat) : Nat × Nat × Nat :=
  let tmp := idx / Lx
  let x2 := tmp / Lx
  (idx - tmp * Lx, tmp - x2 * Lx, x2)

/-- index.h:14-22 `idx2VecPad`. -/
def idx2VecPad (idx Lx : Nat) : Nat × Nat × Nat :=
  let tmp := idx / (Lx + 2)
  let x2 := tmp / Lx
  (idx - tmp * (Lx + 2), tmp - x2 * Lx, x2)

/-- index.h:24-27 `vec2Idx`. -/
def vec2Idx (x : Nat × Nat × Nat) (Lx : Nat) : Nat := x.1 + Lx * (x.2.1 + Lx * x.2.2)

/-- The four outputs `O[0..3]` of `idx2VecNeigh`. -/
structure Neigh where
  px : Int
  mx : Int
  py : Int
  my : Int
  deriving DecidableEq, Repr

/-- index.h:29-65 `idx2VecNeigh`, the coordinates. -/
def idx2VecNeighX (idx L : Nat) : Nat × Nat × Nat :=
  let tmp := idx / L
  let x2 := tmp / L
  (idx - tmp * L, tmp - x2 * L, x2)

/-- index.h:38-62 `idx2VecNeigh`, the neighbours. -/
def idx2VecNeighO (idx L : Nat) : Neigh :=
  let X := idx2VecNeighX idx L
  let i : Int := idx
  let l : Int := L
  let S : Int := l * l
  let (px, mx) :=
    if X.1 = 0 then (i + 1, i + l - 1)
    else if X.1 = L - 1 then (i - l + 1, i - 1)
    else (i + 1, i - 1)
  let (py, my) :=
    if X.2.1 = 0 then (i + l, i + S - l)
    else if X.2.1 = L - 1 then (i - S + l, i - l)
    else (i + l, i - l)
  ⟨px, mx, py, my⟩

end Jaxions
