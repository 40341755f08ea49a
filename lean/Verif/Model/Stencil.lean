import Verif.Basic.Heap
import Verif.Model.Passes
import Mathlib.Algebra.Module.Defs
import Mathlib.Algebra.Field.Defs
/-
Model of the body of the CPU kernels: neighbour addresses, Laplacian, update.

Sources: /repo/include/propagator/propXeon.h:156-432 (Saxion double; single 532-870 the same) and
/repo/include/propagator/propThetaXeon.h:115-318 (Axion).  Addresses are in lattice sites: the
Saxion kernel multiplies them by two (`<< 1`) because a site holds two scalars.  `size_t`
subtraction below zero would wrap to an address far outside the array: outcome `none`.
The rotation of lanes is taken as a rotation of sites here; that the instructions do this is the
subject of `Verif.Model.Simd`.
-/
namespace Jaxions.Stencil

/-- `size_t` subtraction used in an address. -/
def sub? (a b : Nat) : Option Nat := if b ≤ a then some (a - b) else none

/-- Grid length, sites per vector, ghost width (`NN = ppar.Ng`, also the stencil radius). -/
structure Shape where
  Lx : Nat
  step : Nat
  NN : Nat

namespace Shape
variable (s : Shape)

/-- propXeon.h:110 `XC = Lx<<2` etc. -/
def XC : Nat := s.Lx * s.step
/-- propXeon.h:111 `YC = Lx>>2` etc. -/
def YC : Nat := s.Lx / s.step
/-- propXeon.h:45. -/
def Sf : Nat := s.Lx * s.Lx

/-- propXeon.h:182-185, propThetaXeon.h:158-161. -/
def idxMx (nv X0 idx : Nat) : Option Nat :=
  if X0 < nv * s.step then sub? (idx + s.XC) (nv * s.step) else sub? idx (nv * s.step)

/-- propXeon.h:187-190, propThetaXeon.h:163-166 (`idx - XC + nv*step`, the same modulo 2^64). -/
def idxPx (nv X0 idx : Nat) : Option Nat :=
  if X0 + nv * s.step ≥ s.XC then sub? (idx + nv * s.step) s.XC else some (idx + nv * s.step)

/-- Address whose value ends up in lane `l` as y-1 neighbour: propXeon.h:192-207,
propThetaXeon.h:168-194 (rotation in the first rows of a block). -/
def yMinus (nv X1 idx l : Nat) : Option Nat :=
  if X1 < nv then (sub? (idx + s.Sf) (nv * s.XC)).map (· + (l + s.step - 1) % s.step)
  else (sub? idx (nv * s.XC)).map (· + l)

/-- Same for y+1: propXeon.h:195, 209-226, propThetaXeon.h:171-173, 196-216. -/
def yPlus (nv X1 idx l : Nat) : Option Nat :=
  if X1 < nv then some (idx + nv * s.XC + l)
  else if X1 + nv ≥ s.YC then (sub? (idx + nv * s.XC) s.Sf).map (· + (l + 1) % s.step)
  else some (idx + nv * s.XC + l)

/-- propXeon.h:231-232. -/
def idxPz (nv idx : Nat) : Option Nat := some (idx + nv * s.Sf)
def idxMz (nv idx : Nat) : Option Nat := sub? idx (nv * s.Sf)

end Shape

variable {K α : Type} [Field K] [AddCommGroup α] [Module K α]

/-- Load from an address that may be undefined or outside the array. -/
def load (m : Heap Nat α) (a : Option Nat) : Option α := a.bind m

/-- A site and its six neighbours at some distance. -/
structure Six (α : Type) where
  mel : α
  my : α
  py : α
  px : α
  mx : α
  mz : α
  pz : α

/-- Loads of lane `l` of the vector at `idx` for the neighbours at distance `nv`
(propXeon.h:180-234, propThetaXeon.h:156-216). -/
def six (s : Shape) (m : Heap Nat α) (idx l nv : Nat) : Option (Six α) := do
  let X0 := idx % s.XC
  let X1 := idx / s.XC % s.YC
  let mel ← load m (some (idx + l))
  let my ← load m (s.yMinus nv X1 idx l)
  let py ← load m (s.yPlus nv X1 idx l)
  let px ← load m ((s.idxPx nv X0 idx).map (· + l))
  let mx ← load m ((s.idxMx nv X0 idx).map (· + l))
  let mz ← load m ((s.idxMz nv idx).map (· + l))
  let pz ← load m ((s.idxPz nv idx).map (· + l))
  return ⟨mel, my, py, px, mx, mz, pz⟩

/-- Sum over the six neighbours at distance `nv` minus six times the centre (propXeon.h:208-234). -/
def ring (s : Shape) (m : Heap Nat α) (idx l nv : Nat) : Option α := do
  let q ← six s m idx l nv
  return (q.my + q.py) + (q.px + q.mx) + (q.mz + q.pz) + (-6 : K) • q.mel

/-- propXeon.h:103-105: `COV[5]`, filled from `PC` for `nv < NN`; reading entry 5 or an entry `PC`
does not have is out of bounds. -/
def cov (PC : List K) (ood2 : K) (k : Nat) : Option K := if k < 5 then (PC[k]?).map (· * ood2) else none

/-- Neighbour loop (propXeon.h:178-239). -/
def lap (s : Shape) (PC : List K) (ood2 : K) (m : Heap Nat α) (idx l : Nat) : Option α :=
  (List.range s.NN).foldlM (fun acc k => do
    let t ← ring (K := K) s m idx l (k + 1)
    let w ← cov PC ood2 k
    return acc + w • t) 0

/-- Destination arrays of a kernel call. -/
structure Out (α : Type) where
  v : Heap Nat α
  m2 : Heap Nat α

/-- Update of one site, `lapF` computing the sum over the neighbours: `law lap mel vel` gives the new field and the new velocity (potential,
damping and the two multiply-adds, propXeon.h:241-432); velocity is at `idx - NSf` (171), the field
goes to `m2`.  A vector updates its lanes together; as lane `l` reads and writes only cell `l` of
`v` and nothing reads `m2`, one lane after the other gives the same. -/
def updateWith (s : Shape) (lapF : Nat → Nat → Option α) (law : α → α → α → α × α)
    (m : Heap Nat α) (o : Out α) (c : Nat × Nat) : Option (Out α) := do
  let mel ← m (c.1 + c.2)
  let L ← lapF c.1 c.2
  let i ← sub? c.1 (s.NN * s.Sf)
  let vel ← o.v (i + c.2)
  let r := law L mel vel
  let m2 ← o.m2.write (c.1 + c.2) r.1
  let v ← o.v.write (i + c.2) r.2
  return ⟨v, m2⟩

/-- The same with the Laplacian of the Saxion kernel. -/
def updateSite (s : Shape) (PC : List K) (ood2 : K) (law : α → α → α → α × α) (m : Heap Nat α) :
    Out α → Nat × Nat → Option (Out α) := updateWith s (lap s PC ood2 m) law m

/-- The lanes of the vectors in the order `order`. -/
def lanes (s : Shape) (order : List Nat) : List (Nat × Nat) :=
  order.flatMap fun idx => (List.range s.step).map fun l => (idx, l)

/-- Kernel calls that visit the vectors `order`; `lapF` computes the sum over the neighbours. -/
def sweepWith (s : Shape) (lapF : Nat → Nat → Option α) (law : α → α → α → α × α)
    (m : Heap Nat α) (order : List Nat) (o : Out α) : Option (Out α) :=
  (lanes s order).foldlM (updateWith s lapF law m) o

/-- Kernel calls of the Saxion kernel. -/
def sweep (s : Shape) (PC : List K) (ood2 : K) (law : α → α → α → α × α) (m : Heap Nat α)
    (order : List Nat) (o : Out α) : Option (Out α) :=
  (lanes s order).foldlM (updateSite s PC ood2 law m) o

end Jaxions.Stencil
