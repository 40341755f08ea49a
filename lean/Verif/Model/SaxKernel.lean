import Verif.Model.Simd
import Mathlib.Algebra.Order.Field.Basic
import Mathlib.Algebra.Group.Pi.Basic
import Mathlib.Algebra.Ring.Pi
/-
The arithmetic of the saxion kernel, `propagateKernelXeon` (/repo/include/propagator/propXeon.h
34-868), from the point where the Laplacian `lap` of a vector of sites is known (line 239 double,
627 single) to the stores (430-431, 859-860).  Registers hold `sites` complex numbers, real part in
the even lane, imaginary part in the odd lane.  Which permute instruction and which immediate is
used where depends on the precision and the instruction set, and is modelled lane by lane.

Simplified: numbers are those of an ordered field and `sq` stands for the square root instruction
(no rounding); `fmadd` is a product and a sum; division by zero is division by zero of the field,
the theorems ask for a nonzero field value.  The addressing and the neighbour sums are modelled in
`Verif/Model/Stencil.lean`.
-/
namespace Jaxions.SaxKernel
open Jaxions.Simd

/-- Lanes of a register of the saxion kernel. -/
abbrev W (p : Prec) (i : Isa) : Nat := 2 * sites .saxion p i

variable {K : Type _}

/-- Exchange of real and imaginary part in single precision: immediate 0b10110001, the only one
used (propXeon.h:634-636, 722-737, 770-781, 820-822; triSimd.h md2_ps). -/
def swapSingle : (i : Isa) → Vec (W .single i) K → Vec (W .single i) K
  | .avx512 => fun a => permutePs (q := 4) 0b10110001 a
  | .avx2 => fun a => permutePs (q := 2) 0b10110001 a
  | .avx => fun a => permutePs (q := 2) 0b10110001 a
  | .sse => fun a => shufflePs 0b10110001 a a

/-- `permute_pd` with immediate `imm` if there is AVX, `shuffle_pd` with `immS` otherwise. -/
def permDouble (imm immS : Nat) : (i : Isa) → Vec (W .double i) K → Vec (W .double i) K
  | .avx512 => fun a => permutePd (q := 4) imm a
  | .avx2 => fun a => permutePd (q := 2) imm a
  | .avx => fun a => permutePd (q := 2) imm a
  | .sse => fun a => shufflePd immS a a

/-- The exchange in the sum of squares, propXeon.h:243-249 (double), 633-637 (single).  With AVX-512
and doubles it is `shuffle_epi32` with `_MM_PERM_BADC`: 32 bit lanes 2,3,0,1 in every group of
four, so the two doubles of a group change places. -/
def swNorm : (p : Prec) → (i : Isa) → Vec (W p i) K → Vec (W p i) K
  | .double, .avx512 => fun a => permuteVar (n := 8) ![1, 0, 3, 2, 5, 4, 7, 6] a
  | .double, .avx2 => fun a => permDouble 0b00000101 1 .avx2 a
  | .double, .avx => fun a => permDouble 0b00000101 1 .avx a
  | .double, .sse => fun a => permDouble 0b00000101 1 .sse a
  | .single, i => fun a => swapSingle i a

/-- The exchanges of the projection on the angle, propXeon.h:329-347, 720-738. -/
def swTheta : (p : Prec) → (i : Isa) → Vec (W p i) K → Vec (W p i) K
  | .double, i => fun a => permDouble 0b01010101 1 i a
  | .single, i => fun a => swapSingle i a

/-- The exchange in `vecmv` of the radial damping, propXeon.h:373-377, 769-773. -/
def swMV : (p : Prec) → (i : Isa) → Vec (W p i) K → Vec (W p i) K
  | .double, i => fun a => permDouble 0b00000101 1 i a
  | .single, i => fun a => swapSingle i a

/-- The exchange in `vecma` of the radial damping, propXeon.h:382-386, 778-782. -/
def swMA : (p : Prec) → (i : Isa) → Vec (W p i) K → Vec (W p i) K
  | .double, i => fun a => permDouble 0b00000001 1 i a
  | .single, i => fun a => swapSingle i a

/-- The exchange in the projection on the radius, propXeon.h:417-421, 819-823. -/
def swRho : (p : Prec) → (i : Isa) → Vec (W p i) K → Vec (W p i) K
  | .double, i => fun a => permDouble 0b00000101 1 i a
  | .single, i => fun a => swapSingle i a

/-- `vqcd0`, triSimd.h:528-536 (double), 915-923 (single). -/
def vqcd0 [Mul K] : (p : Prec) → (i : Isa) → Vec (W p i) K → Vec (W p i) K
  | .double, i => fun a => permDouble 0b00010001 0b0001 i a * permDouble 0b01010101 0b0101 i a
  | .single, .avx512 => fun a =>
    permutePs (q := 4) 0b10110001 a * permutePs (q := 4) 0b11110101 a
  | .single, .avx2 => fun a =>
    permutePs (q := 2) 0b10110001 a * permutePs (q := 2) 0b11110101 a
  | .single, .avx => fun a =>
    permutePs (q := 2) 0b10110001 a * permutePs (q := 2) 0b11110101 a
  | .single, .sse => fun a => shufflePs 0b10110001 a a * shufflePs 0b11110101 a a

/-- A constant register {a, b, a, b, ..} such as `zQAux`, `zNAux`, `zRAux`, `cjgAux`
(propXeon.h:113-116, 126-129, 134-137, 492-496, 507-511, 516-520). -/
def pairs {n : Nat} (a b : K) : Vec n K := fun l => if l.1 % 2 = 0 then a else b

/-- `set1`. -/
def set1 {n : Nat} (a : K) : Vec n K := fun _ => a

variable [Field K] [LinearOrder K]

/-- `kkk`, triSimd.h:467-483, 852-870: `a` where `c >= d`, `b` where `c < d`. -/
def kkk {n : Nat} (a b c d : Vec n K) : Vec n K := fun l => if c l < d l then b l else a l

inductive Pq | pq1 | pq2 | pq3
  deriving DecidableEq, Repr
inductive Qcd | qcd0 | qcd1 | qcdV | qcd2 | qcdL | qcdC
  deriving DecidableEq, Repr
inductive Damp | none | rho | all
  deriving DecidableEq, Repr

/-- The template argument `VQcd` (enum-field.h:103-290): the two potentials and the flags. -/
structure Pot where
  pq : Pq
  qcd : Qcd
  damp : Damp
  evolTheta : Bool
  evolRho : Bool

/-- What the kernel takes from `PropParms` and its arguments (propXeon.h:38-55). -/
structure Par (K : Type _) where
  R : K
  Rp : K
  Rpp : K
  mA2 : K
  LL : K
  gamma : K
  deti : K
  dz : K
  c : K
  d : K

namespace Par
variable (q : Par K)

/-- propXeon.h:77-78. -/
def dzc : K := q.dz * q.c
def dzd : K := q.dz * q.d
/-- propXeon.h:80. -/
def zQ : K := q.mA2 * (q.R * q.R) * q.R
/-- propXeon.h:81-93. -/
def zN : Qcd → K
  | .qcd2 => q.mA2 * (q.R * q.R) / 2
  | _ => q.mA2 * (q.R * q.R) * (q.R * q.R)
/-- propXeon.h:96. -/
def LaLa : K := q.LL * 2 / (q.R * q.R * (q.R * q.R))
/-- propXeon.h:97-99. -/
def G : K := if 0 < q.deti then q.gamma / q.R * (q.R * q.R / q.deti) else q.gamma / q.R
/-- propXeon.h:100-103. -/
def mola : K := q.G * q.dzc / 2
def damp1 : K := 1 / (1 + q.mola)
def damp2 : K := (1 - q.mola) * q.damp1
def epsi : K := q.mola / (1 + q.mola)

end Par

variable (sq : K → K) (q : Par K)

/-- `mPx`, the squared modulus in both lanes, propXeon.h:241-249, 630-637. -/
def norm2 (p : Prec) (i : Isa) (mel : Vec (W p i) K) : Vec (W p i) K :=
  swNorm p i (mel * mel) + mel * mel

/-- The factor in front of the field in the PQ part, propXeon.h:259-295, 647-683. -/
def pqFactor (pq : Pq) {n : Nat} (mPx : Vec n K) : Vec n K :=
  match pq with
  | .pq1 => (mPx - set1 (q.R * q.R)) * set1 q.LL
  | .pq3 =>
    kkk (set1 (2 * (q.R * q.R)) * (set1 1 - set1 q.R / fun l => sq (mPx l)))
      (mPx - set1 (q.R * q.R)) mPx (set1 (q.R * q.R)) * set1 q.LL
  | .pq2 => (mPx * mPx - set1 (q.R * q.R * (q.R * q.R))) * (mPx * set1 q.LaLa)

/-- The QCD part added to the acceleration, propXeon.h:298-321 (double), 686-711 (single). -/
def qcdPart (p : Prec) (i : Isa) (qcd : Qcd) (mel mPx : Vec (W p i) K) : Vec (W p i) K :=
  let cosine := pairs (q.zN qcd) (-q.zN qcd) *
    (vqcd0 p i mel / fun l => sq ((mPx * (mPx * mPx)) l))
  match qcd with
  | .qcd1 => pairs q.zQ 0
  | .qcdV => set1 q.zQ * (pairs q.R 0 - mel)
  | .qcd2 =>
    if p = .double then -(pairs (q.zN qcd) (-q.zN qcd) * mel)
    else pairs (q.zN qcd) (-q.zN qcd) * mel
  | .qcdC => cosine
  | .qcdL => if p = .double then 0 else cosine
  | .qcd0 => 0

/-- The acceleration `mMx`, propXeon.h:256-321, 644-711. -/
def accel (p : Prec) (i : Isa) (pot : Pot) (mel lap : Vec (W p i) K) : Vec (W p i) K :=
  let mPx := norm2 p i mel
  let a := if pot.evolTheta then lap
    else lap - mel * (pqFactor sq q pot.pq mPx - set1 q.Rpp)
  if pot.evolRho then a else a + qcdPart sq q p i pot.qcd mel mPx

/-- Projection of acceleration and velocity on the angle, propXeon.h:327-356, 718-747:
new `(mMx, mPy)`. -/
def projTheta (p : Prec) (i : Isa) (mel acc vel : Vec (W p i) K) :
    Vec (W p i) K × Vec (W p i) K :=
  let mPx := norm2 p i mel
  let lap := swTheta p i (mel * pairs 1 (-1))
  let vecma := swTheta p i (acc * lap) + acc * lap
  let vecmv := swTheta p i (vel * lap) + vel * lap
  (lap * vecma / mPx + mel * set1 q.Rpp, lap * vecmv / mPx + mel * set1 q.Rp)

/-- The new velocity without projections, propXeon.h:358-412, 750-810. -/
def kick (p : Prec) (i : Isa) (damp : Damp) (mel acc vel : Vec (W p i) K) : Vec (W p i) K :=
  match damp with
  | .none => vel + acc * set1 q.dzc
  | .rho =>
    let mPx := norm2 p i mel
    let vecmv := swMV p i (mel * vel) + mel * vel
    let vecma := swMA p i (mel * acc) + mel * acc
    (vel + acc * set1 q.dzc) - set1 q.epsi * (mel / mPx) *
      ((vecmv - mPx * set1 q.Rp) * set1 2 + vecma * set1 q.dzc)
  | .all => vel * set1 q.damp2 + acc * set1 (q.damp1 * q.dzc)

/-- Projection of the new velocity on the radius, propXeon.h:414-423, 814-826. -/
def projRho (p : Prec) (i : Isa) (mel tmp : Vec (W p i) K) : Vec (W p i) K :=
  let vecma := swRho p i (mel * tmp) + mel * tmp
  mel * vecma / norm2 p i mel

/-- New velocity from field, acceleration and old velocity, propXeon.h:327-423, 718-826. -/
def newVel (p : Prec) (i : Isa) (pot : Pot) (mel acc vel : Vec (W p i) K) : Vec (W p i) K :=
  let av := if pot.evolTheta then projTheta q p i mel acc vel else (acc, vel)
  let tmp := kick q p i pot.damp mel av.1 av.2
  if pot.evolRho then projRho p i mel tmp else tmp

/-- The body of the loop, propXeon.h:241-431, 630-860: what is stored in `v` and in `m2`. -/
def kernel (p : Prec) (i : Isa) (pot : Pot) (mel lap vel : Vec (W p i) K) :
    Vec (W p i) K × Vec (W p i) K :=
  let v := newVel q p i pot mel (accel sq q p i pot mel lap) vel
  (v, mel + v * set1 q.dzd)

end Jaxions.SaxKernel
