import Verif.Model.Pad
import Verif.Basic.Cells
import Mathlib.Data.Complex.Basic
import Mathlib.Data.Nat.Notation
import Mathlib.Data.Int.Notation
/-
Model of the gravitational potential without grid reduction: `GraVi::GraCpu`
(/repo/include/gravity/potentialClass.h:255-371), on all ranks.

An array is the list of its numbers from `m2Start`, counted in numbers of the field's precision.  The
density is already there (`KIDI_ENE` or the energy map).  Arithmetic is exact; a division by zero
gives no number.  The transforms of the plan "m2Sr2c" are parameters: forward they turn the padded
rows of all ranks into modes, backward modes into padded rows.  The modes take the place of the rows;
in the model they are an array of their own.
-/
namespace Jaxions.Gravity

/-- Number of ranks, length, local depth (potentialClass.h:35-37, 104). -/
structure Geo where
  n : ℕ
  Lx : ℕ
  Lz : ℕ

namespace Geo
variable (g : Geo)

/-- `TotalDepth()`. -/
def Tz : ℕ := g.n * g.Lz
/-- `hLx`, `hLy`, `hTz` (106). -/
def hLx : ℕ := g.Lx / 2 + 1
def hLy : ℕ := g.Lx / 2
def hTz : ℕ := g.Tz / 2
/-- `nModeshc` (106). -/
def modes : ℕ := g.Lx * g.hLx * g.Lz
/-- `ss` (107). -/
def lines : ℕ := g.Lz * g.Lx
/-- Numbers of a rank. -/
def vol : ℕ := g.Lz * (g.Lx * g.Lx)
/-- `zBase` (110). -/
def zBase (r : ℕ) : ℕ := g.Lx / g.n * r

/-- Wave numbers of mode `idx` (327-333). -/
def number (r idx : ℕ) : ℤ × ℤ × ℤ :=
  let tmp := idx / g.hLx
  let kx : ℤ := (idx - tmp * g.hLx : ℕ)
  let ky : ℤ := (tmp / g.Tz : ℕ)
  let kz : ℤ := (tmp - g.Tz * (tmp / g.Tz) : ℕ)
  let ky := ky + g.zBase r
  let ky := if ky > g.hLy then ky - g.Lx else ky
  let kz := if kz > g.hTz then kz - g.Tz else kz
  (kx, ky, kz)

end Geo

/-- `m2[idx] *= fnorm/k2` (334-335). -/
noncomputable def ilapMode (g : Geo) (norm : ℝ) (r : ℕ) (a : ℕ → Option ℂ) (idx : ℕ) :
    ℕ → Option ℂ :=
  let k := g.number r idx
  let k2 := k.1 * k.1 + k.2.1 * k.2.1 + k.2.2 * k.2.2
  fun i => if i = idx then (a idx).bind fun c =>
    if k2 = 0 then none else some (c * ((norm : ℂ) / (k2 : ℝ))) else a i

/-- The loop over the modes, in the order in which the threads run it, and the zero mode
(325-339). -/
noncomputable def ilap (g : Geo) (norm : ℝ) (r : ℕ) (order : List ℕ) (a : ℕ → Option ℂ) :
    ℕ → Option ℂ :=
  let a := order.foldl (ilapMode g norm r) a
  if r = 0 then fun i => if i = 0 then some 0 else a i else a

/-- The transforms: numbers of all ranks to modes of each rank and back; the latter gives nothing if
a mode is not a number. -/
structure Plan where
  fwd : List ℝ → ℕ → ℕ → Option ℂ
  bck : (ℕ → ℕ → Option ℂ) → Option (ℕ → ℝ)

/-- Place of number `i` in padded rows. -/
def rowIx (Lx i : ℕ) : ℕ := i / Lx * (Lx + 2) + i % Lx

/-- A step on every rank. -/
def onAll {α : Type} (n : ℕ) (f : ℕ → Heap ℕ α → Option (Heap ℕ α)) (w : ℕ → Heap ℕ α) :
    Option (ℕ → Heap ℕ α) :=
  loop n (fun r w => (f r (w r)).map fun h r' => if r' = r then h else w r') w

/-- `for (int l = ss-1; l>0; l--)` (303). -/
def downTo1 (ss : ℕ) : List ℕ := ((List.range (ss - 1)).map (· + 1)).reverse

/-- `GraCpu` from the padding on (298-355); `order r` is the order of the modes on rank `r`. -/
noncomputable def graCpu (g : Geo) (P : Plan) (k₀ : ℝ) (order : ℕ → List ℕ) (w : ℕ → Heap ℕ ℝ) :
    Option (ℕ → Heap ℕ ℝ) := do
  let norm := -1 / (k₀ * k₀ * (g.Lx * g.Lx * g.Tz : ℕ))
  let w ← onAll g.n (fun _ h => Pad.moveLines 0 g.Lx 0 (g.Lx + 2) g.Lx (downTo1 g.lines) h) w
  let xs ← readAll ((List.range (g.n * g.vol)).map fun i => (i / g.vol, rowIx g.Lx (i % g.vol)))
    (fun p : ℕ × ℕ => w p.1 p.2)
  let A := P.fwd xs
  let Φ ← P.bck fun r => ilap g norm r (order r) (A r)
  let w ← onAll g.n (fun r h => writeAll ((List.range g.vol).map fun i =>
    (rowIx g.Lx i, Φ (r * g.vol + i))) h) w
  onAll g.n (fun _ h => Pad.moveLines 0 (g.Lx + 2) 0 g.Lx g.Lx (Pad.up g.lines) h) w

end Jaxions.Gravity
