import Verif.Model.AxionSpectrum

/-
Masks of strings and axitons.

  lib/spectrum/spectrum.cpp:2738-3772  SpecBin::masker
  include/enum-field.h:71-86           StringType
  include/utils/index.h:14-64          idx2VecPad, vec2Idx, idx2VecNeigh

Grids and padded and bare indices are those of `Verif/Model/AxionSpectrum.lean`.  A rank has the
array `m2` (in numbers, `2 * v3` of them), a slice of bytes it sends, and the string map.  The two
slices of bytes lie in the second half of `m2`; they are kept apart here, since nothing else uses the
second half until they are done with.  The threads take the sites in some order; the writes are
atomic and all store the same number.  Arithmetic is exact.
-/

namespace Jaxions.Masker

open AxSpec (Grid Site)

/-- A byte of the string map, enum-field.h:71-86. -/
structure Byte where
  xyp : Bool := false
  yzp : Bool := false
  zxp : Bool := false
  xyn : Bool := false
  yzn : Bool := false
  zxn : Bool := false
  wall : Bool := false
  mask : Bool := false
  deriving DecidableEq

namespace Byte

/-- `& STRING_XY`, `& STRING_YZ`, `& STRING_ZX`, `& STRING_ONLY`. -/
def xy (b : Byte) : Bool := b.xyp || b.xyn
def yz (b : Byte) : Bool := b.yzp || b.yzn
def zx (b : Byte) : Bool := b.zxp || b.zxn
def only (b : Byte) : Bool := b.xy || b.yz || b.zx
/-- `& STRING_DEFECT`. -/
def defect (b : Byte) : Byte := { b with mask := false }
/-- `|= STRING_ONLY`. -/
def addOnly (b : Byte) : Byte :=
  { b with xyp := true, yzp := true, zxp := true, xyn := true, yzn := true, zxn := true }
/-- `|= STRING_MASK`. -/
def addMask (b : Byte) : Byte := { b with mask := true }

end Byte

structure Rank where
  m2 : Heap ℕ ℝ
  out : Heap ℕ Bool
  sd : Heap ℕ Byte

/-- A cell to mark: of `m2`, or of the slice to be sent. -/
abbrev Cell := ℕ ⊕ ℕ

def Rank.put (s : Rank) : Cell → Option Rank
  | .inl a => (s.m2.write a 1).map fun m2 => { s with m2 }
  | .inr a => (s.out.write a true).map fun out => { s with out }

/-- `ix + yo` in a padded slice. -/
def slice (g : Grid) (x y : ℕ) : ℕ := x + (g.L + 2) * y

/-- The cells a site marks, spectrum.cpp:2895-2926 and 2967-2997; `up` is the slice above. -/
def corners (g : Grid) (up : ℕ → ℕ → Cell) (p : Site) (b : Byte) : List Cell :=
  let x' := (p.1 + 1) % g.L
  let y' := (p.2.1 + 1) % g.L
  let here (x y : ℕ) : Cell := .inl (g.pad (x, y, p.2.2))
  if b.only then
    [here p.1 p.2.1] ++
    (if b.xy then [here x' p.2.1, here p.1 y', here x' y'] else []) ++
    (if b.yz then [here p.1 y', up p.1 p.2.1, up p.1 y'] else []) ++
    (if b.zx then [here x' p.2.1, up p.1 p.2.1, up x' p.2.1] else [])
  else []

/-- One site: the mask is taken off, the corners are marked. -/
def mark (g : Grid) (up : ℕ → ℕ → Cell) (s : Rank) (p : Site) : Option Rank := do
  let b ← s.sd (g.bare p)
  let sd ← s.sd.write (g.bare p) b.defect
  (corners g up p b.defect).foldlM Rank.put { s with sd }

/-- Last slice, whose marks above go to the slice to be sent, spectrum.cpp:2877-2928. -/
def markLast (g : Grid) (s : Rank) (p : Site) : Option Rank :=
  mark g (fun x y => .inr (slice g x y)) s p

/-- Other slices, spectrum.cpp:2937-3003. -/
def markRest (g : Grid) (s : Rank) (p : Site) : Option Rank :=
  mark g (fun x y => .inl (g.pad (x, y, p.2.2 + 1))) s p

def marks (g : Grid) (last rest : List Site) (s : Rank) : Option Rank := do
  let s ← last.foldlM (markLast g) s
  rest.foldlM (markRest g) s

/-- The received slice is added to the first one, spectrum.cpp:3028-3040. -/
def fuseSite (g : Grid) (recv : Heap ℕ Bool) (s : Rank) (p : ℕ × ℕ) : Option Rank := do
  let h ← recv (slice g p.1 p.2)
  if h then s.put (.inl (slice g p.1 p.2)) else some s

def fuse (g : Grid) (recv : Heap ℕ Bool) (order : List (ℕ × ℕ)) (s : Rank) : Option Rank :=
  order.foldlM (fuseSite g recv) s

/-- `SPMASK_BALL`: a marked site that is not of the string map gets all its bits,
spectrum.cpp:3062-3086, for the cell `odx`. -/
noncomputable def ballCell (g : Grid) (s : Rank) (odx : ℕ) : Option Rank := do
  let v ← s.m2 odx
  if 0 < v then
    let tmp := odx / (g.L + 2)
    let z := tmp / g.L
    let y := tmp - z * g.L
    let x := odx - tmp * (g.L + 2)
    if x < g.L then
      let idx := x + g.L * (y + g.L * z)
      let b ← s.sd idx
      if b.only then some s else (s.sd.write idx b.addOnly).map fun sd => { s with sd }
    else some s
  else some s

noncomputable def ball (g : Grid) (order : List ℕ) (s : Rank) : Option Rank := order.foldlM (ballCell g) s

/-! ### Diffusion -/

/-- `GR`, spectrum.cpp:3140: `m2Start` in numbers. -/
def GR (g : Grid) : ℕ := g.Ng * g.S * 2

/-- `m2aF`, spectrum.cpp:2849. -/
def aux (g : Grid) : ℕ := 2 * g.v3 - g.S * g.Lz

/-- The last slice to where the last complex slices are, spectrum.cpp:3144-3146, 3157. -/
def stage (g : Grid) (m : Heap ℕ ℝ) : Option (Heap ℕ ℝ) :=
  memcpy (fun i => GR g + 2 * g.S * (g.Lz - g.Ng) + i) (fun i => GR g + g.S * (g.Lz - 1) + i) g.S m

/-- `exchangeGhosts(FIELD_M2)` (C09) of complex slices: `Ng` of them from the rank before, `Ng` from the
next one. -/
def exchange (g : Grid) (prev next me : Heap ℕ ℝ) : Heap ℕ ℝ := fun a =>
  if a < GR g then prev (GR g + 2 * g.S * (g.Lz - g.Ng) + a)
  else if GR g + 2 * g.S * g.Lz ≤ a ∧ a < 2 * g.v3 then next (GR g + (a - (GR g + 2 * g.S * g.Lz)))
  else me a

/-- The two received slices beside the numbers, spectrum.cpp:3160-3162. -/
def place (g : Grid) (m : Heap ℕ ℝ) : Option (Heap ℕ ℝ) := do
  let m ← memmove (fun i => GR g + g.S * g.Lz + i) (fun i => GR g + 2 * g.S * g.Lz + i) g.S m
  memmove (fun i => GR g - g.S + i) (fun i => i) g.S m

/-- `O` of `idx2VecNeigh`, index.h:29-64.  `idx - L + 1` and `idx - S + L` are of `size_t`, hence the order
here. -/
def neigh (L idx : ℕ) : ℕ × ℕ × ℕ × ℕ :=
  let tmp := idx / L
  let S := L * L
  let z := tmp / L
  let y := tmp - z * L
  let x := idx - tmp * L
  (if x = 0 then idx + 1 else if x = L - 1 then idx + 1 - L else idx + 1,
   if x = 0 then idx + L - 1 else idx - 1,
   if y = 0 then idx + L else if y = L - 1 then idx + L - S else idx + L,
   if y = 0 then idx + S - L else idx - L)

/-- Body of the loop of spectrum.cpp:3167-3198 for `idxu`; `grow` is `it < radius_mask_size_t`. -/
noncomputable def diffuse (g : Grid) (grow : Bool) (s : Rank) (j : ℕ) : Option Rank := do
  let b ← s.sd j
  let idx := GR g + j
  let put (s : Rank) (v : ℝ) : Option Rank :=
    (s.m2.write (aux g + j) v).map fun m2 => { s with m2 }
  if b.mask then put s 1
  else
    let O := neigh g.L idx
    let zp ← s.m2 (idx + g.S)
    let zm ← s.m2 (idx - g.S)
    let xp ← s.m2 O.1
    let xm ← s.m2 O.2.1
    let yp ← s.m2 O.2.2.1
    let ym ← s.m2 O.2.2.2
    if grow then
      if 0 < zp ∨ 0 < zm ∨ 0 < xp ∨ 0 < xm ∨ 0 < yp ∨ 0 < ym then do
        let sd ← s.sd.write j b.addMask
        put { s with sd } 1
      else put s 0
    else put s (1 / 6 * (xp + xm + yp + ym + zp + zm))

/-- The new numbers back to their place, spectrum.cpp:3201. -/
def back (g : Grid) (m : Heap ℕ ℝ) : Option (Heap ℕ ℝ) :=
  memmove (fun i => GR g + i) (fun i => aux g + i) (g.S * g.Lz) m

/-- One iteration on one rank after its neighbours have staged their slices. -/
noncomputable def iterRank (g : Grid) (grow : Bool) (order : List ℕ) (prev next : Heap ℕ ℝ) (s : Rank) :
    Option Rank := do
  let m ← place g (exchange g prev next s.m2)
  let s ← order.foldlM (diffuse g grow) { s with m2 := m }
  (back g s.m2).map fun m2 => { s with m2 }

/-- `iter`, `radius_mask_size_t`, spectrum.cpp:3136-3137: truncations. -/
noncomputable def iters (radius : ℝ) : ℕ := ⌊radius * radius⌋₊
noncomputable def grows (radius : ℝ) : ℕ := ⌊radius⌋₊

/-- The first mask, spectrum.cpp:3122-3127. -/
noncomputable def firstMask (s : Rank) (j : ℕ) : Option Rank := do
  let v ← s.m2 j
  if v > 0.5 then
    let b ← s.sd j
    (s.sd.write j b.addMask).map fun sd => { s with sd }
  else some s

/-- What comes before the iterations, spectrum.cpp:3113-3130: the rows are brought together, the mask is
set and the numbers are moved away from the ghosts. -/
noncomputable def begin (g : Grid) (order : List ℕ) (s : Rank) : Option Rank := do
  let m ← AxSpec.squeeze g s.m2
  let s ← order.foldlM firstMask { s with m2 := m }
  (memmove (fun i => GR g + i) (fun i => i) (g.S * g.Lz) s.m2).map fun m2 => { s with m2 }

/-- What comes after them, spectrum.cpp:3206-3211: to the second half and from there, by rows, to the
first. -/
def unfoldRows (g : Grid) (m : Heap ℕ ℝ) : Option (Heap ℕ ℝ) := do
  let m ← memcpy (fun i => g.v3 + i) (fun i => GR g + i) (g.S * g.Lz) m
  (List.range (g.L * g.Lz - 1)).foldlM
    (fun m i => memmove (fun j => (i + 1) * (g.L + 2) + j) (fun j => g.v3 + ((i + 1) * g.L + j)) g.L m) m

/-! ### The final mask -/

/-- `maskcut` for REDO and GAUS, spectrum.cpp:3284-3302; `none`: not a number. -/
noncomputable def maskcut (calib radius : ℝ) : Option ℝ :=
  if calib < 0 then
    if radius = 0 then none
    else if radius > 8 then some (0.21 / (radius * radius))
    else if radius < 4 then some ((0.42772052 - 0.05299264 * |radius|) / (|radius| * |radius|))
    else some ((0.22619714 - 0.00363601 * |radius|) / (|radius| * |radius|))
  else
    if calib * radius = 0 then none
    else some (2.5 * 4 / (2 * Real.pi * (calib * radius) * (calib * radius)) *
      Real.exp (-2 / (calib * calib)))

/-- Masks of strings. -/
inductive SMask
  | redo | gaus | diff | ball
  deriving DecidableEq

/-- What the last loop makes of a site, spectrum.cpp:3311-3372: from the number `v` of the smoothed
strings and the byte, the stored mask and the byte. -/
noncomputable def final (k : SMask) (cut v : ℝ) (b : Byte) : ℝ × Byte :=
  match k with
  | .redo => if v > cut then (0, b.addMask) else (1, b)
  | .ball => (if b.mask then 0 else 1, b)
  | .diff => (1 - v, if v > 0.5 then b.addMask else b)
  | .gaus => if v > cut then (0, b.addMask) else (1 - v / cut, b)

/-- The last loop for the diffused mask, spectrum.cpp:3311-3314, 3347-3353, for a site. -/
noncomputable def lastDiff (g : Grid) (s : Rank) (p : Site) : Option Rank := do
  let v ← s.m2 (g.v3 + g.bare p)
  let b ← s.sd (g.bare p)
  let w := final .diff 0.5 v b
  let sd ← s.sd.write (g.bare p) w.2
  let m ← s.m2.write (g.v3 + g.bare p) w.1
  (m.write (g.pad p) w.1).map fun m2 => { s with m2, sd }

/-- From the end of the iterations to the mask. -/
noncomputable def finish (g : Grid) (order : List Site) (s : Rank) : Option Rank := do
  let m ← unfoldRows g s.m2
  order.foldlM (lastDiff g) { s with m2 := m }

/-! ### Axitons -/

/-- Numbers of the run, spectrum.cpp:3478-3493. -/
structure AxPar where
  ethres : ℝ
  tthres : ℝ
  iR : ℝ
  /-- `l_cummask` -/
  cum : Bool

/-- The byte of a site after the loop of spectrum.cpp:3504-3536 for AXIT and AXIT2. -/
noncomputable def axiton (P : AxPar) (e m : ℝ) (b : Byte) : Byte :=
  if e > P.ethres ∨ |m * P.iR| > P.tthres ∨ (if P.cum then b.wall else b.xyp) = true then
    { wall := true }
  else {}

end Jaxions.Masker
