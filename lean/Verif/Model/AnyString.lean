import Verif.Basic.Fold
import Mathlib.Analysis.SpecialFunctions.Sqrt
import Mathlib.Analysis.SpecialFunctions.Trigonometric.Basic
import Mathlib.Analysis.Complex.Exponential
import Mathlib.Data.Int.Notation
/-
Strings given by a list of points: `int0`, `mora`, `anystringXeon`, lib/gen/anystringXeon.cpp, and
the list of points made by `confstring2`, lib/gen/genConf.cpp.

Simplifications: arithmetic on reals is exact.  `none` stands for a read or write out of bounds and
also for a division by zero (the code prints "morcilla" and goes on with not-a-number).  The three
sums done in one loop over the segments are written as three sums.  The array `eps` holds the fourth
column of the file; the format of the file and the store of `%d` into a `bool` (genConf.cpp:1488,
1498) are not modelled.
-/
noncomputable section

namespace Jaxions.AnyString

abbrev Pt := ℝ × ℝ × ℝ

/-- Cyclic renaming of the axes, lib/gen/anystringXeon.cpp:131, 143, 154. -/
def rot (p : Pt) : Pt := (p.2.1, p.2.2, p.1)

/-- Division; `none` if the divisor is zero. -/
def quot (a b : ℝ) : Option ℝ := if b = 0 then none else some (a / b)

/-- `int0`, lib/gen/anystringXeon.cpp:26-39. -/
def int0 (dx dy dz : ℝ) : Option ℝ :=
  let a2 := dy ^ 2 + dz ^ 2
  let ddx := 1
  if dx = -0.5 then quot 1 (a2 * Real.sqrt (a2 + 0.25))
  else
    let s1 := Real.sqrt (dx ^ 2 + a2)
    let s2 := Real.sqrt ((dx + ddx) ^ 2 + a2)
    quot (ddx * (ddx + 2 * dx)) (s1 * s2 * ((dx + ddx) * s1 + dx * s2))

/-- One of the ten terms near a segment, lib/gen/anystringXeon.cpp:58-63. -/
def nearTerm (v d : Pt) (i : ℕ) : Option ℝ :=
  let fdx := d.1 + v.1 * (-0.5 + i / 10)
  let fdy := d.2.1 + v.2.1 * (-0.5 + i / 10)
  let fdz := d.2.2 + v.2.2 * (-0.5 + i / 10)
  (int0 fdx fdy fdz).map fun q => 0.1 * (v.2.1 * fdz - v.2.2 * fdy) * q

/-- `mora` for the segment from `P` to `Q`, lib/gen/anystringXeon.cpp:41-70. -/
def mora (P Q X : Pt) : Option ℝ :=
  let v : Pt := (Q.1 - P.1, Q.2.1 - P.2.1, Q.2.2 - P.2.2)
  let d : Pt := (X.1 - 0.5 * (Q.1 + P.1), X.2.1 - 0.5 * (Q.2.1 + P.2.1),
    X.2.2 - 0.5 * (Q.2.2 + P.2.2))
  let dist := d.1 ^ 2 + d.2.1 ^ 2 + d.2.2 ^ 2
  if dist < 1 then
    (List.range 10).foldlM (fun res i => (nearTerm v d i).map fun t => res + t) 0
  else
    let prefa := v.2.1 * d.2.2 - v.2.2 * d.2.1
    (int0 d.1 d.2.1 d.2.2).map fun q => prefa * q

/-- `i * axionField->TotalDepth()`: the product of an `int` and a `size_t`, modulo `2^64`,
lib/gen/genConf.cpp:1526, include/scalar/scalarField.h:159. -/
def shift (i : ℤ) (Tz : ℕ) : ℝ := ((i * Tz % 2 ^ 64 : ℤ) : ℝ)

/-- The list of points: those of the file and the copies `i = -1` and `i = 1`,
lib/gen/genConf.cpp:1511-1529. -/
def copies (Tz : ℕ) (pts : List Pt) : List Pt :=
  pts ++ pts.map (fun p => (p.1, p.2.1, p.2.2 + shift (-1) Tz)) ++
    pts.map (fun p => (p.1, p.2.1, p.2.2 + shift 1 Tz))

/-- One segment of the loop, lib/gen/anystringXeon.cpp:118-159; `r` names the axes. -/
def segStep (pts : List Pt) (eps : List ℤ) (r : Pt → Pt) (X : Pt) (b : ℝ) (il : ℕ) : Option ℝ := do
  let e ← eps[il % eps.length]?
  if e = 1 then some b
  else
    let P ← pts[il]?
    let Q ← pts[il + 1]?
    let t ← mora (r P) (r Q) (r X)
    some (b + t)

/-- Sum over the segments, lib/gen/anystringXeon.cpp:118-163. -/
def segSum (pts : List Pt) (eps : List ℤ) (r : Pt → Pt) (X : Pt) : Option ℝ :=
  (List.range pts.length).foldlM (segStep pts eps r X) 0

/-- The grid, lib/gen/anystringXeon.cpp:77-97; `v3` is the number of cells of a field with its ghosts. -/
structure Box where
  Lx : ℕ
  Tz : ℕ
  ranks : ℕ
  v3 : ℕ

def Box.Sf (b : Box) : ℕ := b.Lx * b.Lx
def Box.nz (b : Box) : ℕ := b.Tz / b.ranks
def Box.V (b : Box) : ℕ := b.nz * b.Sf

/-- Addresses in `m2`, counted in `Float`: `Bx`, `By = m2half()`, `Bz = m2half() + 2*Sf`,
lib/gen/anystringXeon.cpp:84-87, include/scalar/scalarField.h (`m2half`). -/
def Box.atBx (_ : Box) (idx : ℕ) : ℕ := idx
def Box.atBy (b : Box) (iy iz : ℕ) : ℕ := b.v3 + (iy + b.Lx * iz)
def Box.atBz (b : Box) (iz : ℕ) : ℕ := b.v3 + 2 * b.Sf + iz

/-- Position of a cell, lib/gen/anystringXeon.cpp:95-115: the height of the slab is
`rank*(Lx/commSize())`. -/
def Box.pos (b : Box) (rank idx : ℕ) : Pt :=
  (((idx % b.Sf % b.Lx : ℕ) : ℝ), ((idx % b.Sf / b.Lx : ℕ) : ℝ),
    ((idx / b.Sf + rank * (b.Lx / b.ranks) : ℕ) : ℝ))

/-- One iteration of the loop over the volume, lib/gen/anystringXeon.cpp:102-213. -/
def gradCell (b : Box) (pts : List Pt) (eps : List ℤ) (rank : ℕ) (m2 : Heap ℕ ℝ) (idx : ℕ) :
    Option (Heap ℕ ℝ) := do
  let X := b.pos rank idx
  let bx ← segSum pts eps id X
  let m2 ← m2.write (b.atBx idx) (0.5 * bx)
  if idx % b.Sf % b.Lx = 0 then
    let by' ← segSum pts eps rot X
    let m2 ← m2.write (b.atBy (idx % b.Sf / b.Lx) (idx / b.Sf)) (0.5 * by')
    if idx % b.Sf / b.Lx = 0 then
      let bz ← segSum pts eps (fun p => rot (rot p)) X
      m2.write (b.atBz (idx / b.Sf)) (0.5 * bz)
    else some m2
  else some m2

/-- The parallel loop, iterations in any order, lib/gen/anystringXeon.cpp:101-213. -/
def gradAll (b : Box) (pts : List Pt) (eps : List ℤ) (rank : ℕ) (order : List ℕ)
    (m2 : Heap ℕ ℝ) : Option (Heap ℕ ℝ) :=
  order.foldlM (gradCell b pts eps rank) m2

/-- One step along the edge, lib/gen/anystringXeon.cpp:233-237. -/
def lineStep (b : Box) (m2 : Heap ℕ ℝ) (th : Heap ℕ ℝ) (iz : ℕ) : Option (Heap ℕ ℝ) := do
  let t ← th (b.Sf + iz * b.Sf - b.Sf)
  let z ← m2 (b.atBz iz)
  th.write (b.Sf + iz * b.Sf) (t + z)

/-- The edge of a rank, lib/gen/anystringXeon.cpp:232-237. -/
def line (b : Box) (m2 th : Heap ℕ ℝ) : Option (Heap ℕ ℝ) :=
  (List.range b.nz).foldlM (lineStep b m2) th

/-- The turn of rank `c`: its line, then the last value of the rank behind goes into its first cell;
with one rank the first cell is set to zero, lib/gen/anystringXeon.cpp:229-255.  The comparison
`th[0] == 0.;` (line 224) has no effect. -/
def turn (b : Box) (m2 : ℕ → Heap ℕ ℝ) (w : ℕ → Heap ℕ ℝ) (c : ℕ) : Option (ℕ → Heap ℕ ℝ) := do
  let l ← line b (m2 c) (w c)
  let w := Function.update w c l
  if b.ranks = 1 then
    let l ← (w c).write 0 0
    some (Function.update w c l)
  else
    let t ← w ((c + b.ranks - 1) % b.ranks) (b.Sf * b.nz)
    let l ← (w c).write 0 t
    some (Function.update w c l)

/-- Turns of all ranks, lib/gen/anystringXeon.cpp:227-256. -/
def edge (b : Box) (m2 w : ℕ → Heap ℕ ℝ) : Option (ℕ → Heap ℕ ℝ) :=
  (List.range b.ranks).foldlM (turn b m2) w

/-- `th[iz*Sf+iy*Lx] = th[iz*Sf+(iy-1)*Lx] + By[iy-1 + Lx*iz]`, lib/gen/anystringXeon.cpp:269. -/
def yStep (b : Box) (m2 : Heap ℕ ℝ) (iz : ℕ) (th : Heap ℕ ℝ) (iy : ℕ) : Option (Heap ℕ ℝ) := do
  let t ← th (iz * b.Sf + (iy - 1) * b.Lx)
  let g ← m2 (b.atBy (iy - 1) iz)
  th.write (iz * b.Sf + iy * b.Lx) (t + g)

/-- One slice of the face, lib/gen/anystringXeon.cpp:268-269. -/
def ySlice (b : Box) (m2 : Heap ℕ ℝ) (th : Heap ℕ ℝ) (iz : ℕ) : Option (Heap ℕ ℝ) :=
  ((List.range (b.Lx - 1)).map (· + 1)).foldlM (yStep b m2 iz) th

/-- `th[os+ix] = th[os+ix-1] + Bx[os+ix-1]`, lib/gen/anystringXeon.cpp:284. -/
def xStep (b : Box) (m2 : Heap ℕ ℝ) (os : ℕ) (th : Heap ℕ ℝ) (ix : ℕ) : Option (Heap ℕ ℝ) := do
  let t ← th (os + ix - 1)
  let g ← m2 (b.atBx (os + ix - 1))
  th.write (os + ix) (t + g)

/-- One row, lib/gen/anystringXeon.cpp:282-286. -/
def xRow (b : Box) (m2 : Heap ℕ ℝ) (iz : ℕ) (th : Heap ℕ ℝ) (iy : ℕ) : Option (Heap ℕ ℝ) :=
  ((List.range (b.Lx - 1)).map (· + 1)).foldlM (xStep b m2 (iz * b.Sf + iy * b.Lx)) th

/-- One slice, lib/gen/anystringXeon.cpp:280-287. -/
def xSlice (b : Box) (m2 : Heap ℕ ℝ) (th : Heap ℕ ℝ) (iz : ℕ) : Option (Heap ℕ ℝ) :=
  (List.range b.Lx).foldlM (xRow b m2 iz) th

/-- The volume of a rank from its edge; the slices in any order,
lib/gen/anystringXeon.cpp:265-287. -/
def volume (b : Box) (m2 : Heap ℕ ℝ) (ordY ordX : List ℕ) (th : Heap ℕ ℝ) : Option (Heap ℕ ℝ) := do
  let th ← ordY.foldlM (ySlice b m2) th
  ordX.foldlM (xSlice b m2) th

/-- `mc[idx] = exp(i th[idx])` in any order, lib/gen/anystringXeon.cpp:295-299.  `mc` is the complex
field, in another array than `th`. -/
def expCell (th : Heap ℕ ℝ) (mc : Heap ℕ ℂ) (idx : ℕ) : Option (Heap ℕ ℂ) := do
  let t ← th idx
  mc.write idx (Complex.exp ⟨0, t⟩)

/-- `vc[idx] = 0`, the complex velocity in the array of the angles,
lib/gen/anystringXeon.cpp:301-305. -/
def zeroCell (th : Heap ℕ ℝ) (idx : ℕ) : Option (Heap ℕ ℝ) := do
  let th ← th.write (2 * idx) 0
  th.write (2 * idx + 1) 0

end Jaxions.AnyString
