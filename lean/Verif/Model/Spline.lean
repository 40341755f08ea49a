import Mathlib.Algebra.Order.Field.Basic
import Mathlib.Data.Nat.Notation
import Mathlib.Logic.Function.Basic

/-!
# Splines

`tk::band_matrix` and `tk::spline` (`include/WKB/spline.h`), through which the cosmology read from a
file and the phases of the WKB stage are interpolated.  Arithmetic is exact.  An assertion that fails
and a quotient by zero have no outcome.  Vectors are functions of the index with their length beside
them; only indices below the length are used.
-/

namespace Jaxions
namespace Spline

variable {K : Type} [Field K] [LinearOrder K]

/-- `band_matrix` (`spline.h:45-50`): `m_upper[k][i]`, `m_lower[k][i]`; `num_upper()` and `num_lower()` are
`nu`, `nl`. -/
structure Band (K : Type) where
  dim : ℕ
  nu : ℕ
  nl : ℕ
  up : ℕ → ℕ → K
  lo : ℕ → ℕ → K

namespace Band

/-- The assertions of `operator()` (`spline.h:160-161`). -/
def Inside (A : Band K) (i j : ℕ) : Prop := i < A.dim ∧ j < A.dim ∧ j ≤ i + A.nu ∧ i ≤ j + A.nl

instance (A : Band K) (i j : ℕ) : Decidable (A.Inside i j) := by unfold Inside; infer_instance

/-- `operator() (i,j) const` (`spline.h:166-174`). -/
def get (A : Band K) (i j : ℕ) : Option K :=
  if A.Inside i j then some (if i ≤ j then A.up (j - i) i else A.lo (i - j) i) else none

/-- Assignment through `operator() (i,j)` (`spline.h:157-165`). -/
def set (A : Band K) (i j : ℕ) (v : K) : Option (Band K) :=
  if A.Inside i j then
    some (if i ≤ j then { A with up := Function.update A.up (j - i) (Function.update (A.up (j - i)) i v) }
      else { A with lo := Function.update A.lo (i - j) (Function.update (A.lo (i - j)) i v) })
  else none

/-- Assignment through `saved_diag(i)` (`spline.h:181-185`). -/
def save (A : Band K) (i : ℕ) (v : K) : Band K :=
  { A with lo := Function.update A.lo 0 (Function.update (A.lo 0) i v) }

/-- `for (int j=a; j<=b; j++)`. -/
def upto (a b : ℕ) : List ℕ := List.range' a (b + 1 - a)

/-- One turn of the first loop of `lu_decompose` (`spline.h:196-205`). -/
def scaleRow (A : Band K) (i : ℕ) : Option (Band K) := do
  let d ← A.get i i
  if d = 0 then none
  else
    let A := A.save i (1 / d)
    let A ← (upto (i - A.nl) (min (A.dim - 1) (i + A.nu))).foldlM
      (fun A j => do A.set i j ((← A.get i j) * A.lo 0 i)) A
    A.set i i 1

/-- One turn of the loop over `i` of the second (`spline.h:210-218`). -/
def elim (A : Band K) (k i : ℕ) : Option (Band K) := do
  let p ← A.get k k
  if p = 0 then none
  else
    let x := -(← A.get i k) / p
    let A ← A.set i k (-x)
    (upto (k + 1) (min (A.dim - 1) (k + A.nu))).foldlM
      (fun A j => do A.set i j ((← A.get i j) + x * (← A.get k j))) A

/-- `lu_decompose` (`spline.h:188-221`). -/
def lu (A : Band K) : Option (Band K) := do
  let A ← (List.range A.dim).foldlM scaleRow A
  (List.range A.dim).foldlM
    (fun A k => (upto (k + 1) (min (A.dim - 1) (k + A.nl))).foldlM (fun A i => A.elim k i) A) A

/-- `l_solve` (`spline.h:223-236`). -/
def lSolve (A : Band K) (b : ℕ → K) : Option (ℕ → K) :=
  (List.range A.dim).foldlM (fun x i => do
    let sum ← (List.range' (i - A.nl) (i - (i - A.nl))).foldlM
      (fun s j => do return s + (← A.get i j) * x j) 0
    return Function.update x i (b i * A.lo 0 i - sum)) (fun _ => 0)

/-- `r_solve` (`spline.h:238-251`). -/
def rSolve (A : Band K) (b : ℕ → K) : Option (ℕ → K) :=
  (List.range A.dim).reverse.foldlM (fun x i => do
    let sum ← (upto (i + 1) (min (A.dim - 1) (i + A.nu))).foldlM
      (fun s j => do return s + (← A.get i j) * x j) 0
    let p ← A.get i i
    if p = 0 then none else return Function.update x i ((b i - sum) / p)) (fun _ => 0)

/-- `lu_solve` (`spline.h:253-264`) with its default argument. -/
def luSolve (A : Band K) (b : ℕ → K) : Option (ℕ → K) := do
  let A ← A.lu
  let y ← A.lSolve b
  A.rSolve y

end Band

/-- A condition at an end: `bd_type` and the value (`spline.h:83-86, 95-96`). -/
inductive End (K : Type) where
  | first (v : K)
  | second (v : K)

/-- The members of `spline` after `set_points` (`spline.h:89-97`), `n` points. -/
structure Spl (K : Type) where
  n : ℕ
  x : ℕ → K
  y : ℕ → K
  a : ℕ → K
  b : ℕ → K
  c : ℕ → K
  b0 : K
  c0 : K

/-- `A` and `rhs` (`spline.h:301-302`). -/
structure Sys (K : Type) where
  A : Band K
  rhs : ℕ → K

/-- An inner row (`spline.h:303-308`). -/
def Sys.inner (x y : ℕ → K) (s : Sys K) (i : ℕ) : Option (Sys K) := do
  let A ← s.A.set i (i - 1) (1 / 3 * (x i - x (i - 1)))
  let A ← A.set i i (2 / 3 * (x (i + 1) - x (i - 1)))
  let A ← A.set i (i + 1) (1 / 3 * (x (i + 1) - x i))
  return ⟨A, Function.update s.rhs i
    ((y (i + 1) - y i) / (x (i + 1) - x i) - (y i - y (i - 1)) / (x i - x (i - 1)))⟩

/-- The first row (`spline.h:310-323`). -/
def Sys.left (x y : ℕ → K) (s : Sys K) : End K → Option (Sys K)
  | .second v => do
    let A ← s.A.set 0 0 2
    let A ← A.set 0 1 0
    return ⟨A, Function.update s.rhs 0 v⟩
  | .first v => do
    let A ← s.A.set 0 0 (2 * (x 1 - x 0))
    let A ← A.set 0 1 (1 * (x 1 - x 0))
    return ⟨A, Function.update s.rhs 0 (3 * ((y 1 - y 0) / (x 1 - x 0) - v))⟩

/-- The last row (`spline.h:324-338`). -/
def Sys.right (n : ℕ) (x y : ℕ → K) (s : Sys K) : End K → Option (Sys K)
  | .second v => do
    let A ← s.A.set (n - 1) (n - 1) 2
    let A ← A.set (n - 1) (n - 2) 0
    return ⟨A, Function.update s.rhs (n - 1) v⟩
  | .first v => do
    let A ← s.A.set (n - 1) (n - 1) (2 * (x (n - 1) - x (n - 2)))
    let A ← A.set (n - 1) (n - 2) (1 * (x (n - 1) - x (n - 2)))
    return ⟨A, Function.update s.rhs (n - 1)
      (3 * (v - (y (n - 1) - y (n - 2)) / (x (n - 1) - x (n - 2))))⟩

/-- The matrix and the right hand side (`spline.h:301-338`).  `band_matrix A(n,1,1)` is zero to begin
with. -/
def rows (n : ℕ) (x y : ℕ → K) (left right : End K) : Option (Sys K) := do
  let s ← (List.range' 1 (n - 2)).foldlM (Sys.inner x y) ⟨⟨n, 1, 1, fun _ _ => 0, fun _ _ => 0⟩, fun _ => 0⟩
  let s ← s.left x y left
  s.right n x y right

/-- The coefficients `m_a`, `m_b`, `m_c` of the intervals (`spline.h:340-361`). -/
structure Coef (K : Type) where
  a : ℕ → K
  b : ℕ → K
  c : ℕ → K

/-- The branches on `cubic_spline` (`spline.h:298-361`).  Without it the vectors are taken to be new, so
that `m_b[n-1]` is zero. -/
def coefs (n : ℕ) (x y : ℕ → K) (left right : End K) : Bool → Option (Coef K)
  | true => do
    let s ← rows n x y left right
    let b ← s.A.luSolve s.rhs
    return ⟨fun i => 1 / 3 * (b (i + 1) - b i) / (x (i + 1) - x i), b,
      fun i => (y (i + 1) - y i) / (x (i + 1) - x i) - 1 / 3 * (2 * b i + b (i + 1)) * (x (i + 1) - x i)⟩
  | false => some ⟨fun _ => 0, fun _ => 0, fun i => (y (i + 1) - y i) / (x (i + 1) - x i)⟩

/-- The coefficients outside (`spline.h:363-373`). -/
def finish (n : ℕ) (x y : ℕ → K) (force : Bool) (C : Coef K) : Spl K :=
  let h := x (n - 1) - x (n - 2)
  let a := Function.update C.a (n - 1) 0
  { n, x, y, a
    b := if force then Function.update C.b (n - 1) 0 else C.b
    c := Function.update C.c (n - 1) (3 * a (n - 2) * h * h + 2 * C.b (n - 2) * h + C.c (n - 2))
    b0 := if force then 0 else C.b 0
    c0 := C.c 0 }

/-- `set_points` (`spline.h:285-374`); `force` is `m_force_linear_extrapolation`. -/
def setPoints (n : ℕ) (x y : ℕ → K) (cubic force : Bool) (left right : End K) : Option (Spl K) :=
  if 2 < n ∧ ∀ i < n - 1, x i < x (i + 1) then (coefs n x y left right cubic).map (finish n x y force)
  else none

/-- `idx` (`spline.h:379-382`): `std::lower_bound` gives the first index whose abscissa is not below `t`. -/
def Spl.idx (S : Spl K) (t : K) : ℕ := ((List.range S.n).takeWhile fun i => S.x i < t).length - 1

/-- `operator()` (`spline.h:376-397`). -/
def Spl.eval (S : Spl K) (t : K) : K :=
  let i := S.idx t
  let h := t - S.x i
  if t < S.x 0 then (S.b0 * h + S.c0) * h + S.y 0
  else if S.x (S.n - 1) < t then (S.b (S.n - 1) * h + S.c (S.n - 1)) * h + S.y (S.n - 1)
  else ((S.a i * h + S.b i) * h + S.c i) * h + S.y i

/-- `deriv` (`spline.h:399-456`) for `order` 1. -/
def Spl.deriv1 (S : Spl K) (t : K) : K :=
  let i := S.idx t
  let h := t - S.x i
  if t < S.x 0 then 2 * S.b0 * h + S.c0
  else if S.x (S.n - 1) < t then 2 * S.b (S.n - 1) * h + S.c (S.n - 1)
  else (3 * S.a i * h + 2 * S.b i) * h + S.c i

/-- `deriv` (`spline.h:399-456`) for `order` 2. -/
def Spl.deriv2 (S : Spl K) (t : K) : K :=
  let i := S.idx t
  let h := t - S.x i
  if t < S.x 0 then 2 * S.b0 * h
  else if S.x (S.n - 1) < t then 2 * S.b (S.n - 1)
  else 6 * S.a i * h + 2 * S.b i

end Spline
end Jaxions
