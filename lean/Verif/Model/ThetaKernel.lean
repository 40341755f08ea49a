import Verif.Model.EnergyTheta
/-
Model of the kick and drift of the axion angle on the CPU,
/repo/include/propagator/propThetaXeon.h:29-603 (template), 605-749 (`updateMThetaXeon`) and
758-816 (choice of the template).

Exact arithmetic in an ordered field; `sin` and `M_PI` are parameters.  The single precision branch
also rounds `R`, `dz*c`, ... to `float` (342-349): not modelled.  `mod_pd` is `Energy.modPd`.
-/
namespace Jaxions.ThetaKernel

open Stencil Simd Energy

variable {K : Type} [Field K] [LinearOrder K]

/-- Members of `PropParms` the kernel reads (lines 33-43), `dz`, `c`, `d`, `M_PI` and `sin`. -/
structure Par (K : Type) where
  PC : List K
  ood2 : K
  R : K
  Rpp : K
  mA2 : K
  beta : K
  dz : K
  c : K
  d : K
  pi : K
  sn : K → K

namespace Par
variable (P : Par K)
/-- Lines 66-70 (single precision 342-347). -/
def dzc : K := P.dz * P.c
def dzd : K := P.dz * P.d
def zQ : K := P.mA2 * P.R * P.R * P.R
def iz : K := 1 / P.R
def tV : K := 2 * P.pi * P.R
end Par

/-- Lines 225-267 (single 499-534): the six neighbours at distance `nv`, differences wrapped if `wMod`. -/
def ringT (wMod : Bool) (tV : K) (s : Shape) (m : Heap Nat K) (idx l nv : Nat) : Option K := do
  let q ← six s m idx l nv
  return if wMod then
      modPd (q.my - q.mel) tV + (modPd (q.py - q.mel) tV + (modPd (q.mz - q.mel) tV +
        (modPd (q.pz - q.mel) tV + (modPd (q.mx - q.mel) tV + modPd (q.px - q.mel) tV))))
    else ((q.py + q.my) + ((q.px + q.mx) + (q.pz + q.mz))) + q.mel * (-6)

/-- Lines 160-271: the neighbour loop. -/
def lapT (wMod : Bool) (P : Par K) (s : Shape) (m : Heap Nat K) (idx l : Nat) : Option K :=
  (List.range s.NN).foldlM (fun lap k => do
    let acu ← ringT wMod P.tV s m idx l (k + 1)
    let w ← cov P.PC P.ood2 k
    return lap + acu * w) 0

/-- The values of the template parameter `VQcd` that are instantiated. -/
inductive Pot | qcdC | qcd0 | qcdL
deriving DecidableEq

/-- Lines 275-299 (double) and 547-574 (single): acceleration.  The linear potential differs. -/
def accel (pot : Pot) (p : Prec) (P : Par K) (lap mel : K) : K :=
  match pot, p with
  | .qcdC, _ => lap - (P.zQ * P.sn (mel * P.iz) - P.Rpp * mel)
  | .qcd0, _ => lap + P.Rpp * mel
  | .qcdL, .double => lap - (P.zQ * (mel * P.iz) - P.Rpp * mel)
  | .qcdL, .single =>
    let t := mel * P.iz
    let u := t * t * (1666667 / 10000000 * P.beta)
    let t2 := t * (1 - (u - u * u * (3 / 10)))
    lap - (P.zQ * t2 - P.Rpp * mel)

/-- Lines 301-317 (single 580-595): new field and new velocity. -/
def kick (pot : Pot) (p : Prec) (wMod : Bool) (P : Par K) (lap mel vel : K) : K × K :=
  let acu := accel pot p P lap mel
  let tmp := vel + acu * P.dzc
  let mMy := mel + tmp * P.dzd
  (if wMod then modPd mMy P.tV else mMy, tmp)

/-- Lines 758-816: which template is called for `VQcd`; `none` when only the error message is
printed.  `sat` is the constant `false` (763), so the saturated potential is never used. -/
def route (vq : Nat) : Option Pot :=
  match vq &&& 63 with
  | 1 | 0 => some .qcd0
  | 2 | 4 | 32 => some .qcdC
  | 16 => some .qcdL
  | _ => none

/-- The kernel calls of a substep that visit the vectors `order`. -/
def call (p : Prec) (wMod : Bool) (vq : Nat) (P : Par K) (s : Shape) (m : Heap Nat K)
    (order : List Nat) (o : Out K) : Option (Out K) :=
  match route vq with
  | some pot => sweepWith s (lapT wMod P s m) (kick pot p wMod P) m order o
  | none => some o

/-! ### The drift -/

/-- Lines 612-629 and 677-692: the shift used for `XC` and `YC` is that of the vector, except in the
double precision AVX-512 branch (617-618), where it is 16 for vectors of 8. -/
def driftMult (p : Prec) (i : Isa) : Nat :=
  match p, i with
  | .double, .avx512 => 16
  | p, i => sites .axion p i

/-- Lines 608-610, 636-654: the vectors visited. -/
def driftVisits (mult step Lx bY bZ Vo Vf : Nat) : List Nat :=
  Tile.visits ⟨Lx * mult, Lx / mult, step, Vo / (Lx * Lx), Vf / (Lx * Lx), bY, bZ⟩

/-- Lines 656-668: one lane, `m[idx] += dzd*v[idx - Vo]`. -/
def driftSite (Vo : Nat) (dzd : K) (v : Heap Nat K) (m : Heap Nat K) (c : Nat × Nat) :
    Option (Heap Nat K) := do
  let i ← sub? c.1 Vo
  let vIn ← v (i + c.2)
  let mIn ← m (c.1 + c.2)
  m.write (c.1 + c.2) (mIn + dzd * vIn)

/-- The whole call, the vectors in the order `order`. -/
def drift (step Vo : Nat) (dzd : K) (v : Heap Nat K) (order : List Nat) (m : Heap Nat K) :
    Option (Heap Nat K) :=
  (order.flatMap fun idx => (List.range step).map fun l => (idx, l)).foldlM (driftSite Vo dzd v) m

end Jaxions.ThetaKernel
