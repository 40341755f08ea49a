import Verif.Model.EnergyTheta
import Verif.Model.SaxKernel
/-
Model of the energy kernel of the complex field, /repo/lib/energy/energyXeon.cpp:31-1338
(`energyKernelXeon`) and of the choice of its template arguments in `energyCpu` (1341-1476).

Registers hold `sites` complex numbers.  Every lane operation depends on the precision and the
instruction set and is modelled as in the source.  Memory is addressed by site, a site holds a pair.

Simplified: exact arithmetic in an ordered field, `sq` is the square root instruction and `trunc`
the conversion of a number to `size_t`; `exchangeGhosts` (1366) is not part of the kernel, ghosts are
taken as they are; the `memset` of m2 for `EN_MAPMASK` (1363-1364) is left out because the kernel
writes both numbers of every site anyway; the mask `strdaa[n] & STRING_MASK` is a function.
-/
namespace Jaxions.Energy

open Stencil Simd SaxKernel

/-! ### Requests (enum-field.h:731-743) -/

/-- The values for which `CASE_MULTIE_` (energyXeon.cpp:1386-1394) instantiates the kernel. -/
inductive Req | ene | map | mask | enemask | mapmask | enemapmask
  deriving DecidableEq, Repr

/-- enum-field.h:734-740. -/
def Req.value : Req → Nat
  | .ene => 1
  | .map => 3
  | .mask => 4
  | .enemask => 5
  | .mapmask => 6
  | .enemapmask => 7

/-- `emask & EN_ENE`, `emask & EN_MAP`, `emask & EN_MASK`. -/
def Req.hasEne (r : Req) : Bool := Nat.land r.value 1 != 0
def Req.hasMap (r : Req) : Bool := Nat.land r.value 3 != 0
def Req.hasMask (r : Req) : Bool := Nat.land r.value 4 != 0

/-- The potential the kernel is instantiated with, energyXeon.cpp:1400-1474: `V_QCD1` uses the
cosine, the linear one has no case and falls back to the first. -/
def dispatch : Pq × Qcd → Pq × Qcd
  | (pq, .qcd1) => (pq, .qcdC)
  | (_, .qcdL) => (.pq1, .qcdC)
  | a => a

/-! ### Lane operations -/

section lanes
variable {K : Type} [Field K]

/-- `mask_add`: `a + b` where the bit is set, `src` elsewhere. -/
def maskAdd {n : Nat} (src : Vec n K) (imm : Nat) (a b : Vec n K) : Vec n K := fun l =>
  if imm / 2 ^ (l : Nat) % 2 = 1 then a l + b l else src l

/-- `hadd_pd`: in every group of two lanes the sum of the two of `a`, then of the two of `b`. -/
def haddPd {q : Nat} (a b : Vec (2 * q) K) : Vec (2 * q) K := fun l =>
  let c := if (l : Nat) % 2 = 0 then a else b
  c ⟨2 * (l / 2), by have := l.2; omega⟩ + c ⟨2 * (l / 2) + 1, by have := l.2; omega⟩

/-- `hadd_ps`: in every group of four lanes the two sums of neighbours of `a`, then of `b`. -/
def haddPs {q : Nat} (a b : Vec (4 * q) K) : Vec (4 * q) K := fun l =>
  let c := if (l : Nat) % 4 < 2 then a else b
  c ⟨4 * (l / 4) + 2 * (l % 2), by have := l.2; omega⟩ +
    c ⟨4 * (l / 4) + 2 * (l % 2) + 1, by have := l.2; omega⟩

/-- `md2`, triSimd.h: sum of the two lanes of every site in both.  Double: permute_pd 0b01010101
with AVX-512, 0b00000101 with AVX, shuffle_pd 1; single 0b10110001. -/
def md2 : (p : Prec) → (i : Isa) → Vec (W p i) K → Vec (W p i) K
  | .double, .avx512 => fun a => permDouble 0b01010101 1 .avx512 a + a
  | .double, .avx2 => fun a => permDouble 0b00000101 1 .avx2 a + a
  | .double, .avx => fun a => permDouble 0b00000101 1 .avx a + a
  | .double, .sse => fun a => permDouble 0b00000101 1 .sse a + a
  | .single, i => fun a => swapSingle i a + a

/-- The exchange in `mSg`, lines 269-273, 892-896. -/
def swSg : (p : Prec) → (i : Isa) → Vec (W p i) K → Vec (W p i) K
  | .double, i => fun a => permDouble 0b01010101 1 i a
  | .single, i => fun a => swapSingle i a

/-- From `a` and `b` the register whose even lanes are the pair sums of `a` and whose odd lanes
those of `b`: lines 276-382 (double), 899-1032 (single).  AVX-512: shuffle_epi32 BADC exchanges the
two doubles of a pair. -/
def gsum : (p : Prec) → (i : Isa) → Vec (W p i) K → Vec (W p i) K → Vec (W p i) K
  | .double, .avx512 => fun a b =>
    let z := maskAdd (n := 8) (swNorm .double .avx512 b) 0b01010101 (swNorm .double .avx512 a) a
    maskAdd (n := 8) z 0b10101010 z b
  | .double, .avx2 => fun a b => haddPd (q := 2) a b
  | .double, .avx => fun a b => haddPd (q := 2) a b
  | .double, .sse => fun a b => haddPd (q := 1) a b
  | .single, .avx512 => fun a b =>
    let z := maskAdd (n := 16) (swapSingle .avx512 b) 0b0101010101010101 (swapSingle .avx512 a) a
    maskAdd (n := 16) z 0b1010101010101010 z b
  | .single, .avx2 => fun a b => permutePs (q := 2) 0b11011000 (haddPs (q := 2) a b)
  | .single, .avx => fun a b => permutePs (q := 2) 0b11011000 (haddPs (q := 2) a b)
  | .single, .sse => fun a b =>
    let z := haddPs (q := 1) a b
    shufflePs 0b11011000 z z

/-- `tVp`, lines 448-454, 1108-1117: even lanes from `mod`, odd lanes from the even lanes of
`mCg`. -/
def tVp : (p : Prec) → (i : Isa) → Vec (W p i) K → Vec (W p i) K → Vec (W p i) K
  | .double, .avx512 => fun mod mCg =>
    blend (n := 8) 0b10101010 mod (permDouble 0b01010101 1 .avx512 mCg)
  | .double, .avx2 => fun mod mCg =>
    blend (n := 4) 0b00001010 mod (permDouble 0b00000101 1 .avx2 mCg)
  | .double, .avx => fun mod mCg =>
    blend (n := 4) 0b00001010 mod (permDouble 0b00000101 1 .avx mCg)
  | .double, .sse => fun mod mCg => shufflePd 0b00000001 mod mCg
  | .single, .avx512 => fun mod mCg =>
    blend (n := 16) 0b1010101010101010 mod (swapSingle .avx512 mCg)
  | .single, .avx2 => fun mod mCg => blend (n := 8) 0b10101010 mod (swapSingle .avx2 mCg)
  | .single, .avx => fun mod mCg => blend (n := 8) 0b10101010 mod (swapSingle .avx mCg)
  | .single, .sse => fun mod mCg =>
    let z := shufflePs 0b10001000 mod mCg
    shufflePs 0b11011000 z z

end lanes

/-! ### Densities of a vector -/

variable {K : Type} [Field K] [LinearOrder K]

/-- What the kernel takes from its arguments (lines 41-47). -/
structure SaxPar (K : Type) where
  R : K
  ood2a : K
  massA2 : K
  lambda : K
  Rpp : K
  shift : K

namespace SaxPar
variable (P : SaxPar K)
/-- Lines 42-44. -/
def o2 : K := P.ood2a / P.R / P.R
def aMass2 : K := P.massA2 / P.R / P.R
def LL : K := P.lambda / P.R / P.R
/-- Lines 78-83. -/
def iz : K := 1 / P.R
def iz2 : K := P.iz * P.iz
def zQ : K := P.aMass2 * P.R * P.R
def lZ : K := 1 / 4 * P.LL * P.R * P.R
end SaxPar

/-- The registers that are summed. -/
structure Regs (n : Nat) (K : Type) where
  tGx : Vec n K
  tGy : Vec n K
  tGz : Vec n K
  tKp : Vec n K
  tVp : Vec n K
  Frho : Vec n K

/-- Loaded vectors: the site and its neighbours, the velocity. -/
structure Loaded (n : Nat) (K : Type) where
  mel : Vec n K
  vel : Vec n K
  px : Vec n K
  mx : Vec n K
  py : Vec n K
  my : Vec n K
  pz : Vec n K
  mz : Vec n K

/-- Sum of the squares of the parts of a forward and a backward difference (lines 276-380). -/
def grad (p : Prec) (i : Isa) (mCg mSg fwd bwd : Vec (W p i) K) : Vec (W p i) K :=
  let f := gsum p i (fwd * mCg) (fwd * mSg)
  let b := gsum p i (bwd * mCg) (bwd * mSg)
  f * f + b * b

/-- Symmetry breaking potential without its factor (lines 398-417, 1050-1068). -/
def pqPot (sq : K → K) {n : Nat} (pq : Pq) (Gry : Vec n K) : Vec n K :=
  match pq with
  | .pq1 => (Gry - set1 1) * (Gry - set1 1)
  | .pq3 =>
    let a := (fun l => sq (Gry l)) - set1 1
    kkk (set1 4 * (a * a)) ((Gry - set1 1) * (Gry - set1 1)) Gry (set1 1)
  | .pq2 => (Gry * Gry - set1 1) * (Gry * Gry - set1 1)

/-- QCD potential without its factor, in the even lanes (lines 418-445, 1070-1105); `mCg` is the
value of the register before. -/
def qcdPot (sq : K → K) (P : SaxPar K) (p : Prec) (i : Isa) (qcd : Qcd)
    (mCg Grx Gry Grz : Vec (W p i) K) : Vec (W p i) K :=
  match qcd with
  | .qcd1 => set1 1 - Grx / fun l => sq (Grz l)
  | .qcdC => set1 1 - Grx / fun l => sq (Grz l)
  | .qcdV =>
    let a := pairs 1 0 - Grx * set1 P.iz
    set1 (1 / 2) * md2 p i (a * a)
  | .qcd2 => set1 (1 / 2) * (set1 1 - Gry / Grz)
  | .qcdL => mCg
  | .qcd0 => mCg

/-- Lines 243-454, 868-1117. -/
def regs (sq : K → K) (P : SaxPar K) (p : Prec) (i : Isa) (pq : Pq) (qcd : Qcd)
    (L : Loaded (W p i) K) : Regs (W p i) K :=
  let mTp := md2 p i (L.mel * L.mel)
  let mod := mTp * set1 P.iz2
  let mCg := L.mel / mTp
  let mSg := swSg p i mCg * pairs 1 (-1)
  let mdv := gsum p i (L.vel * mCg) (L.vel * mSg) - set1 P.Rpp * pairs P.iz 0
  let Grx := L.mel - pairs P.shift 0
  let Grz := md2 p i (Grx * Grx)
  let Gry := Grz * set1 P.iz2
  { tGx := mod * grad p i mCg mSg (L.px - L.mel) (L.mel - L.mx)
    tGy := mod * grad p i mCg mSg (L.py - L.mel) (L.mel - L.my)
    tGz := mod * grad p i mCg mSg (L.pz - L.mel) (L.mel - L.mz)
    tKp := mod * (mdv * mdv)
    tVp := tVp p i (pqPot sq pq Gry) (qcdPot sq P p i qcd mCg Grx Gry Grz)
    Frho := fun l => sq (Gry l) }

/-- Lines 455-461, 1118-1124: the register stored in the map. -/
def mapReg (P : SaxPar K) {n : Nat} (r : Regs n K) : Vec n K :=
  r.tKp * (set1 (1 / 2) * set1 P.iz2) + (r.tGx + (r.tGy + r.tGz)) * set1 P.o2 +
    pairs P.lZ P.zQ * r.tVp

/-! ### Loads -/

/-- A register from the sites `a .. a+step-1`; `none` if one of them is not allocated. -/
def loadReg (p : Prec) (i : Isa) (m : Heap Nat (K × K)) (a : Option Nat) :
    Option (Vec (W p i) K) := do
  let a ← a
  if h : ∀ s : Fin (sites .saxion p i), (m (a + s)).isSome then
    return fun l =>
      let c := (m (a + l / 2)).get (h ⟨l / 2, by have := l.2; unfold W at this; omega⟩)
      if (l : Nat) % 2 = 0 then c.1 else c.2
  else none

/-- Lines 205-241, 817-866: the y neighbours. -/
def loadY (p : Prec) (i : Isa) (s : Shape) (m : Heap Nat (K × K)) (X1 idx : Nat) :
    Option (Vec (W p i) K × Vec (W p i) K) :=
  if X1 = 0 then do
    let py ← loadReg p i m (some (idx + s.XC))
    let my ← loadReg p i m (sub? (idx + s.Sf) s.XC)
    return (py, rotMinus .saxion p i my)
  else do
    let my ← loadReg p i m (sub? idx s.XC)
    if X1 + 1 = s.YC then
      let py ← loadReg p i m (sub? (idx + s.XC) s.Sf)
      return (rotPlus .saxion p i py, my)
    else
      let py ← loadReg p i m (some (idx + s.XC))
      return (py, my)

/-- Lines 144-251, 756-877. -/
def loadAll (p : Prec) (i : Isa) (s : Shape) (m v : Heap Nat (K × K)) (idx : Nat) :
    Option (Loaded (W p i) K) := do
  let X0 := idx % s.XC
  let X1 := idx / s.XC % s.YC
  let mel ← loadReg p i m (some idx)
  let y ← loadY p i s m X1 idx
  let px ← loadReg p i m (enPx s X0 idx)
  let mx ← loadReg p i m (enMx s X0 idx)
  let pz ← loadReg p i m (some (idx + s.Sf))
  let mz ← loadReg p i m (sub? idx s.Sf)
  let vel ← loadReg p i v (sub? idx (s.NN * s.Sf))
  return ⟨mel, vel, px, mx, y.1, y.2, pz, mz⟩

/-! ### One lane, the loop, the result -/

/-- The eleven numbers of lane `l` (`TH_GRX .. RH_RHO`, enum-field.h:370-380): theta parts in odd
lanes, rho parts in even lanes (lines 478-547). -/
def laneTerms {p : Prec} {i : Isa} (r : Regs (W p i) K) (l : Fin (sites .saxion p i)) : Terms K :=
  let ev (a : Vec (W p i) K) : K := a ⟨2 * l, by have := l.2; unfold W; omega⟩
  let od (a : Vec (W p i) K) : K := a ⟨2 * l + 1, by have := l.2; unfold W; omega⟩
  fun q => match q with
  | 0 => od r.tGx
  | 1 => od r.tGy
  | 2 => od r.tGz
  | 3 => od r.tKp
  | 4 => od r.tVp
  | 5 => ev r.tGx
  | 6 => ev r.tGy
  | 7 => ev r.tGz
  | 8 => ev r.tKp
  | 9 => ev r.tVp
  | 10 => ev r.Frho
  | _ => 0

/-- Number of masked sites of a vector (lines 172-180). -/
def ups (mk : Nat → Bool) (s : Shape) (idx : Nat) : Nat :=
  ((List.range s.step).filter fun h => mk (siteOf s (idx, h))).length

/-- What the 23 sums get from lane `l` (lines 477-628): the eleven numbers if the total is
requested, the eleven masked ones and the count if the mask is. -/
def allTerms (req : Req) (t : Terms K) (msk : Bool) : Terms K := fun q =>
  if q < 11 then (if req.hasEne then t q else 0)
  else if q < 22 then (if req.hasMask && msk then t (q - 11) else 0)
  else if q = 22 then (if req.hasMask && msk then 1 else 0)
  else 0

/-- One lane of a vector: additions to the sums and writes.  `none`: undefined behaviour; with
doubles and AVX the masked sum of line 607 reads `tmpS[4]` and `tmpS[6]` of an array of four. -/
def saxLane (sq : K → K) (P : SaxPar K) (p : Prec) (i : Isa) (pot : Pq × Qcd) (req : Req)
    (mk : Nat → Bool) (Vt : Nat) (s : Shape) (m v : Heap Nat (K × K)) (c : Nat × Nat) :
    Option (Terms K × List (Nat × K)) :=
  let n := siteOf s c
  let u := if req.hasMask then ups mk s c.1 else 0
  if req = .mask ∧ u = 0 then some (fun _ => 0, [])
  else if req = .mapmask ∧ u = 0 then some (fun _ => 0, [(n, 0), (n + Vt, 0)])
  else if u ≠ 0 ∧ p = .double ∧ (i = .avx ∨ i = .avx2) then none
  else if h : c.2 < sites .saxion p i then do
    let L ← loadAll p i s m v c.1
    let r := regs sq P p i pot.1 pot.2 L
    let l : Fin (sites .saxion p i) := ⟨c.2, h⟩
    let d := mapReg P r
    let dr := d ⟨2 * c.2, by unfold W; omega⟩
    let dt := d ⟨2 * c.2 + 1, by unfold W; omega⟩
    let w : K := if req = .mapmask then (if mk n then 1 else 0) else 1
    let out := if req.hasMap then [(n, dt * w), (n + Vt, dr * w)] else []
    return (allTerms req (laneTerms r l) (mk n), out)
  else none

/-- Factor of entry `q` of the result (lines 631-656 and 1259-1285).  With doubles the kinetic ones
are multiplied by `iR2`, which is a `size_t` (line 50). -/
def saxFactor (trunc : K → Nat) (P : SaxPar K) (p : Prec) (q : Nat) : K :=
  let kin : K := if p = .double then 1 / 2 * (trunc (1 / P.R / P.R) : K) else 1 / 2 * P.iz2
  match q % 11 with
  | 3 => kin
  | 8 => kin
  | 4 => P.zQ
  | 9 => P.lZ
  | 10 => 1
  | _ => P.o2

/-- Entry `q` of `eRes` after the kernel; `none`: not determined by the program.  With doubles the
entry `RH_RHO` is never written, and the sum of the masked radius and the number of masked sites
are shared by the threads without being in the reduction clause (line 137). -/
def saxResult (trunc : K → Nat) (P : SaxPar K) (p : Prec) (threads : Nat) (t : Terms K)
    (q : Nat) : Option K :=
  if p = .double ∧ q = 10 then none
  else if p = .double ∧ 1 < threads ∧ (q = 21 ∨ q = 22) then none
  else if q = 22 then some (t 22)
  else some (t q * saxFactor trunc P p q)

/-- The kernel on one rank: its result and the map. -/
def energySax (sq : K → K) (trunc : K → Nat) (P : SaxPar K) (p : Prec) (i : Isa) (threads : Nat)
    (pot : Pq × Qcd) (req : Req) (mk : Nat → Bool) (Vt : Nat) (s : Shape)
    (m v : Heap Nat (K × K)) (order : List Nat) (m2 : Heap Nat K) :
    Option ((Nat → Option K) × Heap Nat K) := do
  let r ← run s (saxLane sq P p i (dispatch pot) req mk Vt s m v) order m2
  return (saxResult trunc P p threads r.1, r.2)

end Jaxions.Energy
