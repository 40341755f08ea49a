import Verif.Model.EnergyTheta
/-
Model of the energy kernel of the Paxion, /repo/lib/energy/energyPaxionXeon.cpp:29-530.

`m` holds the real part of the nonrelativistic field and `v` its imaginary part, both with ghost
slices and read with the same index.  Exact arithmetic; `pow` with a literal exponent is a power.
The vectors, the loop and the rotations are those of `Verif.Model.EnergyLoop` and
`Verif.Model.EnergyTheta`; the y neighbours of `m` (lines 111-176, 330-390) are written as in the
kernel of the angle, those of `v` are not in some builds.  The variables `mPyp`, `mMyp` have no
initial value (lines 79, 297): reading one that was not assigned in the iteration is `none`.  (In a
later iteration such a variable holds a value left by an earlier one; the first iteration of the
first thread is at row 0, so a run in which one row 0 goes wrong has an indeterminate read.)
-/
namespace Jaxions.Energy

open Stencil Simd

variable {K : Type} [Field K]

/-- What the caller computes (lines 492-516). -/
structure PaxPar (K : Type) where
  R : K
  mA : K
  δ : K

namespace PaxPar
variable (P : PaxPar K)
/-- Line 514: `0.25/massA/pow(PhysSize/Length,2)/pow(R,5)`. -/
def ood2a : K := 1 / 4 / P.mA / P.δ ^ 2 / P.R ^ 5
/-- Line 515. -/
def beta : K := -1 / 16 / P.R ^ 6
/-- Line 34: the kernel divides once more. -/
def o2 : K := P.ood2a / P.R / P.R
end PaxPar

/-- Lane of the vector below from which lane `l` of `mMyp` is taken at the first row of a block.
Single precision AVX without AVX2: `permute_ps(.., 0b00000101)` gives the lanes `1 1 0 0` of each
half, `permute2f128_ps` swaps the halves, `blend_ps(.., 0b00010001)` takes lanes 0 and 4 from the
swapped register (lines 347-349).  The others rotate by one. -/
def backV (i : Isa) (p : Prec) (S l : Nat) : Nat :=
  match i, p with
  | .avx, .single => ([5, 1, 0, 0, 1, 5, 4, 4] : List Nat).getD l 0
  | _, _ => (l + S - 1) % S

/-- The y+1 and y-1 neighbours of the imaginary part; `mY` holds those of the real part, of which
the double precision AVX-512 build adds one (lines 119, 149).  The single precision AVX-512 build
stores the lower neighbour in the variable of the upper one (line 339). -/
def enYv (i : Isa) (p : Prec) (s : Shape) (v : Heap Nat K) (mY : K × K) (X1 idx l : Nat) :
    Option (K × K) :=
  if X1 = 0 then do
    let mPyp ← load v (some (idx + s.XC + l))
    let a ← load v ((sub? (idx + s.Sf) s.XC).map (· + backV i p s.step l))
    match i, p with
    | .avx512, .single => none
    | _, _ => return (mPyp, a + extra i p mY.1)
  else do
    let mMyp ← load v ((sub? idx s.XC).map (· + l))
    if X1 + 1 = s.YC then
      let a ← load v ((sub? (idx + s.XC) s.Sf).map (· + (l + 1) % s.step))
      return (a + extra i p mY.2, mMyp)
    else
      let mPyp ← load v (some (idx + s.XC + l))
      return (mPyp, mMyp)

/-- Sum of the squares of a difference of both components. -/
def sq2 (a b c d : K) : K := (a - b) * (a - b) + (c - d) * (c - d)

/-- The five numbers of a lane (lines 178-228 and 392-453), before the factors: gradients, number
density, its square. -/
def paxTerms (i : Isa) (p : Prec) (s : Shape) (m v : Heap Nat K) (c : Nat × Nat) :
    Option (Terms K) := do
  let idx := c.1
  let l := c.2
  let X0 := idx % s.XC
  let X1 := idx / s.XC % s.YC
  let y ← enY i p s m X1 idx l
  let yv ← enYv i p s v y X1 idx l
  let mel ← load m (some (idx + l))
  let vel ← load v (some (idx + l))
  let px ← load m ((enPx s X0 idx).map (· + l))
  let pxv ← load v ((enPx s X0 idx).map (· + l))
  let mx ← load m ((enMx s X0 idx).map (· + l))
  let mxv ← load v ((enMx s X0 idx).map (· + l))
  let pz ← load m (some (idx + s.Sf + l))
  let pzv ← load v (some (idx + s.Sf + l))
  let mz ← load m ((sub? idx s.Sf).map (· + l))
  let mzv ← load v ((sub? idx s.Sf).map (· + l))
  let n := mel * mel + vel * vel
  return fun q => match q with
    | 0 => sq2 px mel pxv vel + sq2 mx mel mxv vel
    | 1 => sq2 y.1 mel yv.1 vel + sq2 y.2 mel yv.2 vel
    | 2 => sq2 pz mel pzv vel + sq2 mz mel mzv vel
    | 3 => n
    | 4 => n * n
    | _ => 0

/-- Ghost slices removed from the coordinate: one in double precision (line 98), `Ng` in single
precision (line 316). -/
def ghostsOff (p : Prec) (NN : Nat) : Nat :=
  match p with
  | .double => 1
  | .single => NN

/-- `iNx` (lines 246, 471). -/
def paxSite (p : Prec) (s : Shape) (c : Nat × Nat) : Nat :=
  c.1 % s.XC / s.step + (c.1 / s.XC % s.YC + c.2 * s.YC) * s.Lx +
    (c.1 / s.XC / s.YC - ghostsOff p s.NN) * s.Sf

/-- Line 36: `Vh = Vf + Ng*Vo` with `Vo = Ng*Sf`, `Vf = Vo + Size` (lines 496-497). -/
def secondMap (s : Shape) (Lz : Nat) : Nat := s.NN * s.Sf + Lz * s.Sf + s.NN * (s.NN * s.Sf)

/-- Lines 248, 473. -/
def paxDens (P : PaxPar K) (t : Terms K) : K := (t 0 + t 1 + t 2) * P.o2 + t 4 * P.beta

/-- Lines 245-249 and 470-474. -/
def paxOut (map : Bool) (P : PaxPar K) (p : Prec) (s : Shape) (Lz : Nat) (c : Nat × Nat)
    (t : Terms K) : List (Nat × K) :=
  if map then [(paxSite p s c, t 3), (paxSite p s c + secondMap s Lz, paxDens P t)] else []

/-- Lines 254, 479-488. -/
def paxScale (P : PaxPar K) (t : Terms K) : Terms K := fun q => match q with
  | 0 => t 0 * P.o2
  | 1 => t 1 * P.o2
  | 2 => t 2 * P.o2
  | 3 => t 3
  | 4 => t 4 * P.beta
  | _ => 0

/-- The kernel on one rank: its result and the maps. -/
def energyPaxion (i : Isa) (p : Prec) (map : Bool) (P : PaxPar K) (s : Shape) (Lz : Nat)
    (m v : Heap Nat K) (order : List Nat) (m2 : Heap Nat K) : Option (Terms K × Heap Nat K) := do
  let r ← run s (fun c => (paxTerms i p s m v c).map fun t => (t, paxOut map P p s Lz c t)) order m2
  return (paxScale P r.1, r.2)

end Jaxions.Energy
