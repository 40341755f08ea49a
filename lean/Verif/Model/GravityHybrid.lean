import Verif.Model.Gravity
import Verif.Model.Stencil
import Mathlib.Analysis.Real.Sqrt
import Mathlib.Analysis.SpecialFunctions.Complex.Circle
/-
Model of the hybrid calculation of the gravitational potential, piece by piece: mean, reduced grid,
expansion, modes of the reduced grid (/repo/include/gravity/potentialClass.h:531-803), relaxation
(/repo/include/gravity/gravityPaxionXeon.h), and of `normaliseFields` (potentialClass.h:824-853).

Arithmetic is exact.  Numbers of `m2` are counted from `m2Cpu`; `m2Start` is `BO = Ng*Lx*Lx` further.
`exit` and reading through a pointer that was never set give nothing.
-/
namespace Jaxions.Gravity

/-! ### Mean and normalisation -/

/-- `mean` on rank `r` (potentialClass.h:787-803): `x q` are the numbers of rank `q`.  The sum over
the ranks goes to `eAl`, which is not used. -/
def meanOf {K : Type} [Field K] (n : ℕ) (x : ℕ → List K) (tsize r : ℕ) : K :=
  let eA := (x r).sum
  let _eAl := ((List.range n).map fun q => (x q).sum).sum
  eA / tsize

/-- `KIDI_ADD` with `beta = -eA` on rank `r` (potentialClass.h:407-410). -/
def contrast {K : Type} [Field K] (n : ℕ) (x : ℕ → List K) (tsize r : ℕ) : List K :=
  (x r).map fun a => a + -meanOf n x tsize r

/-- Real and imaginary part of the field on every rank, and the self-coupling. -/
structure Pax where
  m : ℕ → List ℝ
  v : ℕ → List ℝ
  beta : ℝ

/-- `normaliseFields` on `n` ranks (potentialClass.h:824-853). -/
noncomputable def normalise (n tsize : ℕ) (s : Pax) : Pax :=
  let eAl : ℕ → ℝ := fun r => ((s.m r).map (· ^ 2)).sum + ((s.v r).map (· ^ 2)).sum
  let eA := ((List.range n).map eAl).sum / tsize
  let nn := 1 / Real.sqrt eA
  ⟨fun r => (s.m r).map (· * nn), fun r => (s.v r).map (· * nn), s.beta * eA⟩

/-! ### Modes of the reduced grid -/

/-- Wave numbers of mode `idx` of the reduced grid on rank `r` (potentialClass.h:616-653).  `zBase`
is that of the constructor (110), made for the full grid. -/
def numberRed (g : Geo) (ref r idx : ℕ) : ℤ × ℤ × ℤ :=
  let rLx := g.Lx / ref
  let rTz := g.Tz / ref
  let hrLx := rLx / 2 + 1
  let hrLy := rLx / 2
  let hrTz := rTz / 2
  let tmp := idx / hrLx
  let kx : ℤ := (idx - tmp * hrLx : ℕ)
  let ky : ℤ := (tmp / rTz : ℕ)
  let kz : ℤ := (tmp - tmp / rTz * rTz : ℕ)
  let ky := ky + g.zBase r
  let ky := if ky > hrLy then ky - rLx else ky
  let kz := if kz > hrTz then kz - rTz else kz
  (kx, ky, kz)

/-- Phase of the displacement by half a cell (658-661, 670). -/
noncomputable def displa (rLx rTz : ℕ) (k : ℤ × ℤ × ℤ) : ℂ :=
  Complex.exp (Complex.I * ((Real.pi * (k.1 / rLx) + Real.pi * (k.2.1 / rLx) +
    Real.pi * (k.2.2 / rTz) : ℝ) : ℂ))

/-- `m2[idx] *= rnorm/k2*displa` (655-671). -/
noncomputable def ilapRedMode (g : Geo) (ref : ℕ) (rnorm : ℝ) (r : ℕ) (a : ℕ → Option ℂ) (idx : ℕ) :
    ℕ → Option ℂ :=
  let k := numberRed g ref r idx
  let k2 := k.1 * k.1 + k.2.1 * k.2.1 + k.2.2 * k.2.2
  fun i => if i = idx then (a idx).bind fun c =>
    if k2 = 0 then none
    else some (c * ((rnorm : ℂ) / (k2 : ℝ) * displa (g.Lx / ref) (g.Tz / ref) k)) else a i

/-- `ilap` (606-681). -/
noncomputable def ilapRed (g : Geo) (ref : ℕ) (k₀ : ℝ) (r : ℕ) (order : List ℕ) (a : ℕ → Option ℂ) :
    Option (ℕ → Option ℂ) :=
  if ref * (g.Lx / ref) ≠ g.Lx ∨ ref * (g.Lz / ref) ≠ g.Lz then none else
  let rnorm := -1 / (k₀ * k₀ * (g.Lx / ref * (g.Lx / ref) * (g.Tz / ref) : ℕ))
  let a := order.foldl (ilapRedMode g ref rnorm r) a
  some (if r = 0 then fun i => if i = 0 then some 0 else a i else a)

/-! ### Reduction and expansion -/

/-- Side, depth, numbers per vector, ghost slices, reduction. -/
structure Red where
  Lx : ℕ
  Lz : ℕ
  shift : ℕ
  Ng : ℕ
  ref : ℕ

namespace Red
variable (s : Red) {α : Type}

def S : ℕ := s.Lx * s.Lx
def BO : ℕ := s.Ng * s.S
def rLx : ℕ := s.Lx / s.ref
def rLz : ℕ := s.Lz / s.ref

/-- Body of `rfuap` for `(riy, rix)` (576-582). -/
def rfuapCell (riz : ℕ) (m2 : Heap ℕ α) (c : ℕ × ℕ) : Option (Heap ℕ α) :=
  let riy := c.1
  let rix := c.2
  let sy := s.ref * riy / (s.Lx / s.shift)
  let iiy := s.ref * riy - sy * s.Lx / s.shift
  let fIdx := s.ref * (riz * s.S + rix * s.shift) + iiy * s.Lx * s.shift + sy
  let uIdx := (s.rLx + 2) * (riz * s.rLx + riy) + rix
  copyCell m2 uIdx (s.BO + fIdx)

/-- `rfuap` (544-590); `order riz` is the order in which the threads handle the sites of a slice. -/
def rfuap (order : ℕ → List (ℕ × ℕ)) (m2 : Heap ℕ α) : Option (Heap ℕ α) :=
  if s.ref * s.rLx ≠ s.Lx ∨ s.ref * s.rLz ≠ s.Lz then none else
  loop s.rLz (fun riz m2 => (order riz).foldlM (s.rfuapCell riz) m2) m2

/-- Place of `(rix*ref + xx, riy*ref + yy, iz)` in `m2S` (725, 733-736). -/
def egufIdx (iz riy rix yy xx : ℕ) : ℕ :=
  let su := iz * s.Lx * s.Lx
  let sy := (s.ref * riy + yy) / (s.Lx / s.shift)
  let iiy := s.ref * riy + yy - sy * (s.Lx / s.shift)
  su + iiy * s.Lx * s.shift + (rix * s.ref + xx) * s.shift + sy

/-- Body of `eguf` for `(riy, rix)` (730-741). -/
def egufCell (iz : ℕ) (m2 : Heap ℕ α) (c : ℕ × ℕ) : Option (Heap ℕ α) := do
  let rsu := iz / s.ref * (s.rLx + 2) * s.rLx
  let wui ← m2 (rsu + c.1 * (s.rLx + 2) + c.2)
  writeAll ((List.range s.ref ×ˢ List.range s.ref).map fun p =>
    (s.BO + s.egufIdx iz c.1 c.2 p.1 p.2, wui)) m2

/-- `eguf` for `ref > 1` (698-744), slices from the last to the first. -/
def eguf (order : ℕ → List (ℕ × ℕ)) (m2 : Heap ℕ α) : Option (Heap ℕ α) :=
  if s.ref * s.rLx ≠ s.Lx ∨ s.ref * s.rLz ≠ s.Lz then none else
  loop s.Lz (fun j m2 => (order (s.Lz - 1 - j)).foldlM (s.egufCell (s.Lz - 1 - j)) m2) m2

end Red

/-! ### Relaxation -/

open Stencil

variable {K : Type} [Field K]

/-- `ood2 = sum/6` (gravityPaxionXeon.h:55-59). -/
def ood2Of (PC : List K) (NN : ℕ) : K := (PC.take NN).sum / 6

/-- New value of lane `l` of the vector at `idx` in `KIDI_SOR`, single precision
(gravityPaxionXeon.h:150-241); `ρ` is `m2_`, `m` is `m2h_`. -/
def sorLane (s : Shape) (PC : List K) (b : K) (ρ m : Heap ℕ K) (idx l : ℕ) : Option K := do
  let mel ← m (idx + l)
  let L ← lap s PC (ood2Of PC s.NN) m idx l
  let vel ← ρ (idx + l)
  return mel + (L - b * ood2Of PC s.NN * vel)

/-- The vector at `idx`: all lanes are computed before the store (243). -/
def sorVec (s : Shape) (PC : List K) (b : K) (ρ m : Heap ℕ K) (idx : ℕ) : Option (Heap ℕ K) := do
  let xs ← readAll (List.range s.step) (sorLane s PC b ρ m idx)
  writeAll ((List.range s.step).zip xs |>.map fun p => (idx + p.1, p.2)) m

/-- A sweep over vectors, in place. -/
def sor (s : Shape) (PC : List K) (b : K) (ρ : Heap ℕ K) (order : List ℕ) (m : Heap ℕ K) :
    Option (Heap ℕ K) :=
  order.foldlM (sorVec s PC b ρ) m

/-- The same in double precision (356-450): the neighbours come from `m_`, which the callers set to
`nada`, a pointer never given a value (potentialClass.h:384, 438-441, 497-500). -/
def sorLaneD (s : Shape) (PC : List K) (b : K) (nada ρ m : Heap ℕ K) (idx l : ℕ) : Option K := do
  let mel ← m (idx + l)
  let L ← (List.range s.NN).foldlM (fun acc k => do
    let my ← load nada (s.yMinus (k + 1) (idx / s.XC % s.YC) idx l)
    let py ← load nada (s.yPlus (k + 1) (idx / s.XC % s.YC) idx l)
    let px ← load nada ((s.idxPx (k + 1) (idx % s.XC) idx).map (· + l))
    let mx ← load nada ((s.idxMx (k + 1) (idx % s.XC) idx).map (· + l))
    let pz ← load nada ((s.idxPz (k + 1) idx).map (· + l))
    let mz ← load nada ((s.idxMz (k + 1) idx).map (· + l))
    let w ← cov PC (ood2Of PC s.NN) k
    return acc + w * ((py + my) + ((px + mx) + (pz + mz)) + mel * -6)) 0
  let vel ← ρ (idx + l)
  return mel + (L - b * ood2Of PC s.NN * vel)

def sorVecD (s : Shape) (PC : List K) (b : K) (nada ρ m : Heap ℕ K) (idx : ℕ) :
    Option (Heap ℕ K) := do
  let xs ← readAll (List.range s.step) (sorLaneD s PC b nada ρ m idx)
  writeAll ((List.range s.step).zip xs |>.map fun p => (idx + p.1, p.2)) m

def sorD (s : Shape) (PC : List K) (b : K) (nada ρ : Heap ℕ K) (order : List ℕ) (m : Heap ℕ K) :
    Option (Heap ℕ K) :=
  order.foldlM (sorVecD s PC b nada ρ) m

end Jaxions.Gravity
