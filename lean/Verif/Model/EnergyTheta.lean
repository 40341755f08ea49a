import Verif.Model.EnergyLoop
/-
Model of the energy kernel of the axion angle, /repo/lib/energy/energyThetaXeon.cpp:29-488, and of
the wrap to the nearest representative, /repo/include/utils/triSimd.h:484-512 and 875-903.

Exact arithmetic in an ordered field; `sin` and `M_PI` are parameters.  A lane holds one site.  As
in `Verif.Model.Stencil` a rotation of a register is a rotation of the lanes (`C04_rotations`; the
instructions of lines 132-161 and 353-383 are those of propThetaXeon.h).
-/
namespace Jaxions.Energy

open Stencil Simd

variable {K : Type} [Field K] [LinearOrder K]

/-- triSimd.h:484-512: the candidates `x+md`, `x-md`, `x` whose square equals the minimum of the
three squares are *added*. -/
def modPd (x md : K) : K :=
  let xP := x + md
  let xM := x - md
  let mn := min (min (xP * xP) (xM * xM)) (x * x)
  (if mn = xP * xP then xP else 0) + (if mn = xM * xM then xM else 0) + (if mn = x * x then x else 0)

/-- Arguments of the kernel (energyThetaXeon.cpp:30-32), `M_PI` and `sin`. -/
structure ThetaPar (K : Type) where
  zR : K
  zz : K
  frw : K
  ood2 : K
  aMass2 : K
  pi : K
  sn : K → K

namespace ThetaPar
variable (P : ThetaPar K)
/-- Lines 60-66. -/
def iz : K := 1 / P.zR
def d1 : K := P.frw * P.zR / P.zz
def iz2 : K := P.iz * P.iz
def iz4 : K := P.iz2 * P.iz2
def zQ : K := P.aMass2
def o2 : K := P.ood2 * P.iz2 * P.iz2
def tV : K := 2 * P.pi * P.zR
end ThetaPar

/-- Lines 182-222: square of a difference, wrapped if `wMod`. -/
def sqDiff (P : ThetaPar K) (wMod : Bool) (d : K) : K :=
  if wMod then modPd d P.tV * modPd d P.tV else d * d

/-- Lines 115-123. -/
def enPx (s : Shape) (X0 idx : Nat) : Option Nat :=
  if X0 + s.step = s.XC then sub? (idx + s.step) s.XC else some (idx + s.step)
def enMx (s : Shape) (X0 idx : Nat) : Option Nat :=
  if X0 = 0 then sub? (idx + s.XC) s.step else sub? idx s.step

/-- Lines 131 and 152: only the double precision AVX-512 build adds the other neighbour to the
rotated one. -/
def extra (i : Isa) (p : Prec) (a : K) : K :=
  match i, p with
  | .avx512, .double => a
  | _, _ => 0

/-- The y+1 and y-1 neighbours of lane `l` (lines 125-169, single precision 347-391). -/
def enY (i : Isa) (p : Prec) (s : Shape) (m : Heap Nat K) (X1 idx l : Nat) : Option (K × K) :=
  if X1 = 0 then do
    let mPy ← load m (some (idx + s.XC + l))
    let a ← load m ((sub? (idx + s.Sf) s.XC).map (· + (l + s.step - 1) % s.step))
    return (mPy, a + extra i p mPy)
  else do
    let mMy ← load m ((sub? idx s.XC).map (· + l))
    if X1 + 1 = s.YC then
      let a ← load m ((sub? (idx + s.XC) s.Sf).map (· + (l + 1) % s.step))
      return (a + extra i p mMy, mMy)
    else
      let mPy ← load m (some (idx + s.XC + l))
      return (mPy, mMy)

/-- The five numbers of a lane (lines 173-247), before the factors of line 257. -/
def thetaTerms (i : Isa) (p : Prec) (wMod : Bool) (P : ThetaPar K) (s : Shape) (m v : Heap Nat K)
    (c : Nat × Nat) : Option (Terms K) := do
  let idx := c.1
  let l := c.2
  let X0 := idx % s.XC
  let X1 := idx / s.XC % s.YC
  let y ← enY i p s m X1 idx l
  let mel ← load m (some (idx + l))
  let vel ← load v ((sub? idx (s.NN * s.Sf)).map (· + l))
  let px ← load m ((enPx s X0 idx).map (· + l))
  let mx ← load m ((enMx s X0 idx).map (· + l))
  let pz ← load m (some (idx + s.Sf + l))
  let mz ← load m ((sub? idx s.Sf).map (· + l))
  let k := vel - P.d1 * (mel * P.iz)
  let sh := P.sn (1 / 2 * (mel * P.iz))
  return fun q => match q with
    | 0 => sqDiff P wMod (px - mel) + sqDiff P wMod (mx - mel)
    | 1 => sqDiff P wMod (y.1 - mel) + sqDiff P wMod (y.2 - mel)
    | 2 => sqDiff P wMod (pz - mel) + sqDiff P wMod (mz - mel)
    | 3 => k * k
    | 4 => sh * sh * 2
    | _ => 0

/-- Line 251. -/
def thetaDens (P : ThetaPar K) (t : Terms K) : K :=
  (t 0 + t 1 + t 2) * P.o2 + t 3 * P.iz4 * (1 / 2) + t 4 * P.zQ

/-- Lines 249-252. -/
def thetaOut (map : Bool) (P : ThetaPar K) (s : Shape) (c : Nat × Nat) (t : Terms K) :
    List (Nat × K) :=
  if map then [(siteOf s c, thetaDens P t)] else []

/-- Lines 257 and 482-486: the five entries of the result. -/
def thetaScale (P : ThetaPar K) (t : Terms K) : Terms K := fun q => match q with
  | 0 => t 0 * P.o2
  | 1 => t 1 * P.o2
  | 2 => t 2 * P.o2
  | 3 => t 3 * (P.iz4 * (1 / 2))
  | 4 => t 4 * P.zQ
  | _ => 0

/-- The kernel on one rank: its result and the map. -/
def energyTheta (i : Isa) (p : Prec) (wMod map : Bool) (P : ThetaPar K) (s : Shape)
    (m v : Heap Nat K) (order : List Nat) (m2 : Heap Nat K) : Option (Terms K × Heap Nat K) := do
  let r ← run s (fun c => (thetaTerms i p wMod P s m v c).map fun t => (t, thetaOut map P s c t))
    order m2
  return (thetaScale P r.1, r.2)

end Jaxions.Energy
