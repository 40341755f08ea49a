import Mathlib.Algebra.Order.Field.Basic

/-!
# Winding around one plaquette

The test behind every string count: `stringHand` in `lib/strings/stringCpu.cpp` (scalar) and
`stringHandD/S`, `stringWallD/S` in `lib/strings/stringXeon.cpp` (vector), which look at the sign of
the imaginary part at the four corners of a plaquette.  Arithmetic is exact, over an ordered field;
rounding and NaN are left out.
-/

namespace Jaxions
namespace Winding

/-- A complex number, kept as two neighbouring lanes (real part, imaginary part) of a vector. -/
structure Cx (K : Type) where
  re : K
  im : K
deriving DecidableEq

variable {K : Type} [Field K] [LinearOrder K]

/-- `(a*conj(b)).imag()` (`stringCpu.cpp:17`): `a.re * (-b.im) + a.im * b.re`. -/
def imMulConj (a b : Cx K) : K := a.re * (-b.im) + a.im * b.re

/-- One of the four tests of `stringHand` (`stringCpu.cpp:15-21`): what the side from `a` to `b` adds
to `hand`. -/
def side (a b : Cx K) : Int :=
  if decide (a.im > 0) != decide (b.im > 0) then
    if imMulConj a b > 0 then 1 else -1
  else 0

/-- `stringHand` (`stringCpu.cpp:10-50`). -/
def stringHand (s1 s2 s3 s4 : Cx K) : Int :=
  0 + side s1 s2 + side s2 s3 + side s3 s4 + side s4 s1

/-! ## The vector version, one pair of lanes at a time -/

/-- `mul_pd`/`mul_ps`. -/
def lmul (a b : Cx K) : Cx K := ⟨a.re * b.re, a.im * b.im⟩
/-- `add_pd`/`add_ps`. -/
def ladd (a b : Cx K) : Cx K := ⟨a.re + b.re, a.im + b.im⟩
/-- `sub_pd`/`sub_ps`. -/
def lsub (a b : Cx K) : Cx K := ⟨a.re - b.re, a.im - b.im⟩
/-- `permute_pd(…,0b0101)`, `permute_ps(…,0b10110001)`, `shuffle_epi32(…,_MM_PERM_BADC)`: exchange
the two lanes of each pair. -/
def lswap (a : Cx K) : Cx K := ⟨a.im, a.re⟩
/-- The constant `{1,-1,1,-1,…}` (`stringXeon.cpp:32,62`; `set_pd(-1.,1.,…)` in 197, 231, 371). -/
def lconj : Cx K := ⟨1, -1⟩

/-- `tp2` after the `add` (`stringXeon.cpp:41-44`, 70-73, 197-200, 231-234, 371-374, 393-396). -/
def crossL (s1 s2 : Cx K) : Cx K :=
  let tp3 := lmul s2 lconj
  let tp2 := lswap tp3
  let tp3 := lmul s1 tp2
  ladd tp3 (lswap tp3)

/-- Which instruction set the file was compiled for (`stringXeon.cpp:28,187,361` and the
`__AVX2__` tests inside). -/
inductive Isa | avx512 | avx2 | avx | sse
deriving DecidableEq, Repr

/-- `stringHandD`/`stringHandS`: what is added to `hand` of this lane pair.
AVX-512 (`stringXeon.cpp:29-57`) uses bit masks; AVX2 (205-216) and SSE (375-381) compute
`((gt & 2) - 1) & lt` as integers; AVX (208-219) stores `((gt & 2) | 1) & lt` and adds
`(h & 2) - (h & 1)`. -/
def sideV (isa : Isa) (s1 s2 : Cx K) : Int :=
  let lt : Bool := decide ((lmul s1 s2).im < 0)
  let gt : Bool := decide ((crossL s1 s2).im > 0)
  let le : Bool := decide ((crossL s1 s2).im ≤ 0)
  match isa with
  | .avx512 => ((gt && lt).toNat : Int) - ((le && lt).toNat : Int)
  | .avx2 | .sse => if lt then (if gt then 2 else 0) - 1 else 0
  | .avx =>
    let h : Nat := if lt then (if gt then 2 else 0) ||| 1 else 0
    ((h &&& 2 : Nat) : Int) - ((h &&& 1 : Nat) : Int)

/-- The wall bit of `stringWallD`/`stringWallS` (`stringXeon.cpp:107-112`, 274-280, 420-424): the
first side crosses the axis and `tp2 * (s1 - s2)` is negative in the imaginary lane. -/
def wallV (s1 s2 : Cx K) : Bool :=
  decide ((lmul (crossL s1 s2) (lsub s1 s2)).im < 0) && decide ((lmul s1 s2).im < 0)

/-- `hand` of one lane pair after the four calls for one plaquette
(`stringXeon.cpp:625-628, 667-670, 709-712`). -/
def handV (isa : Isa) (s1 s2 s3 s4 : Cx K) : Int :=
  0 + sideV isa s1 s2 + sideV isa s2 s3 + sideV isa s3 s4 + sideV isa s4 s1

end Winding
end Jaxions
