/-
Model of the N-body snapshot of the "void" kind: /repo/lib/gadget/gadget_output.cpp:28-794 and
the options of /repo/test/gadgetme.cpp:48-64.

Values are real numbers (the code uses `float`, and `double` for the sums); integers are exact
except for the one product the code forms in 32 bits.  Reading or writing outside an allocation
and dividing an integer by zero are `none`.  HDF5, MPI and the FFT plans are not modelled; what a
rank passes to `H5Dwrite` for a slab is the content of the buffer at that time.
-/
import Verif.Model.Index
import Verif.Basic.Heap
import Mathlib.Analysis.SpecialFunctions.Complex.Arg
import Mathlib.Data.Nat.Notation
import Mathlib.Data.Int.Notation

namespace Jaxions
namespace Gadget

/-- The part of the grid of one rank: `L` points per side, `Lz` slices, `Ng` ghost slices on each
side, and the number of ranks (scalarField.h:15-29). -/
structure Grid where
  L : ℕ
  Lz : ℕ
  Ng : ℕ
  ranks : ℕ

/-- `slab`, gadget_output.cpp:446. -/
def Grid.S (g : Grid) : ℕ := g.L * g.L

/-- `rOff`, gadget_output.cpp:447. -/
def Grid.n3 (g : Grid) : ℕ := g.S * g.Lz

/-- `totlZ`, gadget_output.cpp:434-443 (`TotalDepth`). -/
def Grid.Tz (g : Grid) : ℕ := g.Lz * g.ranks

/-- `v3`, the number of points with ghosts (scalarField.h:166). -/
def Grid.v3 (g : Grid) : ℕ := g.S * (g.Lz + 2 * g.Ng)

/-! ### Phases and their gradient -/

/-- The C function `atan2(y, x)` on real numbers. -/
noncomputable def atan2 (y x : ℝ) : ℝ := Complex.arg ⟨x, y⟩

/-- One call of `atan2` in gadget_output.cpp:52-59: `p` the neighbour, `c` the point itself, both
as real and imaginary part. -/
noncomputable def dPhase (p c : ℝ × ℝ) : ℝ :=
  atan2 (-p.1 * c.2 + p.2 * c.1) (p.1 * c.1 + p.2 * c.2)

/-- `(rea[i], ima[i])` with `i` counted from `mStart` and `vStart` (gadget_output.cpp:49-50): the
first slices with ghosts have negative numbers. -/
abbrev Psi := ℤ → Option (ℝ × ℝ)

/-- gadget_output.cpp:35-64 `grad_idx`, and the body of the loop of `set_velo_fields` (96-118),
which is the same text. -/
noncomputable def gradIdx (ψ : Psi) (L idx : ℕ) : Option (ℝ × ℝ × ℝ) := do
  let O := idx2VecNeighO idx L
  let i : ℤ := idx
  let S : ℤ := L * L
  let c ← ψ i
  let px ← ψ O.px
  let mx ← ψ O.mx
  let py ← ψ O.py
  let my ← ψ O.my
  let pz ← ψ (i + S)
  let mz ← ψ (i - S)
  return (0.5 * (dPhase px c - dPhase mx c), 0.5 * (dPhase py c - dPhase my c),
    0.5 * (dPhase pz c - dPhase mz c))

/-- gadget_output.cpp:684-686: what is stored as velocity: gradient divided by time and mass,
times `vel_conv`. -/
noncomputable def velocity (z mA conv : ℝ) (g : ℝ × ℝ × ℝ) : ℝ × ℝ × ℝ :=
  (g.1 / (z * mA) * conv, g.2.1 / (z * mA) * conv, g.2.2 / (z * mA) * conv)

/-! ### Interpolation between the eight corners of a cell -/

/-- The addresses of gadget_output.cpp:227-247; a capital letter is a step of one in that
direction. -/
structure Corners where
  xyz : ℤ
  Xyz : ℤ
  xYz : ℤ
  xyZ : ℤ
  XYz : ℤ
  XyZ : ℤ
  xYZ : ℤ
  XYZ : ℤ

/-- gadget_output.cpp:231-247. -/
def corners (L idx : ℕ) : Corners :=
  let X := idx2VecNeighX idx L
  let O := idx2VecNeighO idx L
  let i : ℤ := idx
  let l : ℤ := L
  let S : ℤ := l * l
  let xyZ := i + S
  { xyz := i
    Xyz := O.px
    xYz := O.py
    xyZ := xyZ
    XYz := if X.2.1 ≠ L - 1 then O.px + l else O.py + 1
    XyZ := if X.1 ≠ L - 1 then xyZ + 1 else xyZ + l
    xYZ := if X.2.1 ≠ L - 1 then xyZ + l else O.py + S
    XYZ := if X.2.1 ≠ L - 1 then O.px + l + S else O.py + 1 + S }

/-- gadget_output.cpp:263-270 and 305-312: the weighted sum, for values `f` at the addresses. -/
noncomputable def cic (f : ℤ → Option ℝ) (C : Corners) (x y z : ℝ) : Option ℝ := do
  let a ← f C.xyz
  let b ← f C.Xyz
  let c ← f C.xYz
  let d ← f C.XYz
  let e ← f C.xyZ
  let g ← f C.XyZ
  let h ← f C.xYZ
  let k ← f C.XYZ
  return a * ((1 - x) * (1 - y) * (1 - z)) + b * (x * (1 - y) * (1 - z))
    + c * ((1 - x) * y * (1 - z)) + d * (x * y * (1 - z))
    + e * ((1 - x) * (1 - y) * z) + g * (x * (1 - y) * z)
    + h * ((1 - x) * y * z) + k * (x * y * z)

/-! ### Densities and masses -/

/-- gadget_output.cpp:475-476: the density at a point. -/
def newEn (p : ℝ × ℝ) : ℝ := p.1 * p.1 + p.2 * p.2

/-- gadget_output.cpp:500-504 and 510-514: the sum taken in pairs; `order` is the order in which
the threads add. -/
def pairSum (e : ℕ → ℝ) (order : List ℕ) : ℝ :=
  (order.map fun i => e (2 * i) + e (2 * i + 1)).sum

/-- gadget_output.cpp:518-520: the mean over all the ranks. -/
noncomputable def eMean (rOff : ℕ) (sums : List ℝ) : ℝ :=
  (sums.map fun s : ℝ => s / (rOff : ℝ)).sum / sums.length

/-- The product `totlX*totlX*totlZ` of gadget_output.cpp:527 and 534: the factors are `uint`, so
it is taken in 32 bits. -/
def cells32 (L Tz : ℕ) : ℕ := L * L * Tz % 2 ^ 32

/-- gadget_output.cpp:527 `neweMean`. -/
noncomputable def newMean (mean : ℝ) (L Tz nPrt : ℕ) : ℝ := mean * cells32 L Tz / nPrt

/-- gadget_output.cpp:534 `pp_grid`. -/
def ppGrid (L Tz nPrt : ℕ) : Option ℕ :=
  if cells32 L Tz = 0 then none else some (nPrt / cells32 L Tz)

/-- gadget_output.cpp:375 `totalMass`. -/
noncomputable def totalMass (Omega0 b H0 G : ℝ) : ℝ :=
  Omega0 * (b * b * b) * (3 * H0 * H0) / (8 * Real.pi * G)

/-- gadget_output.cpp:376, 528-529 and 607-610: the mass stored for the density `e`.  A division
by zero gives no number. -/
noncomputable def mass (total mean : ℝ) (L Tz nPrt : ℕ) (e : ℝ) : Option ℝ :=
  if newMean mean L Tz nPrt = 0 ∨ (nPrt : ℝ) = 0 then none
  else some (e * (1 / newMean mean L Tz nPrt) * (total / nPrt))

/-! ### The particles -/

/-- A particle of the buffer: the local point it belongs to, and its coordinates `xC`, `yC`,
`zC`. -/
structure Part where
  idx : ℕ
  x : ℕ
  y : ℕ
  z : ℕ
  deriving DecidableEq, Repr

/-- gadget_output.cpp:628-634: the coordinates at the start of a slab. -/
def begin_ (g : Grid) (rank lPos : ℕ) : Part :=
  let y := lPos / g.L
  let z := y / g.L
  ⟨lPos, lPos - g.L * y, y - z * g.L, z + rank * g.Lz⟩

/-- gadget_output.cpp:742-746: on to the next point. -/
def advance (g : Grid) (c : Part) : Part :=
  let x := c.x + 1
  let y := if x = g.L then c.y + 1 else c.y
  let x := if x = g.L then 0 else x
  let z := if y = g.L then c.z + 1 else c.z
  let y := if y = g.L then 0 else y
  ⟨c.idx + 1, x, y, z⟩

/-- gadget_output.cpp:637-748: the loop that fills the buffer of a slab: `pp` particles per
point. -/
def fill (g : Grid) (pp : ℕ) (c : Part) (buf : List Part) : ℕ × List Part :=
  if c.idx < g.n3 ∧ buf.length < g.S then
    fill g pp (advance g c) (buf ++ List.replicate pp c)
  else (c.idx, buf)
termination_by g.n3 - c.idx
decreasing_by simp only [advance]; omega

/-- gadget_output.cpp:619-765: the buffers of the slabs of a rank, one after the other. -/
def slabs (g : Grid) (pp rank : ℕ) : ℕ → ℕ → List (List Part)
  | 0, _ => []
  | n + 1, lPos =>
    let r := fill g pp (begin_ g rank lPos) []
    r.2 :: slabs g pp rank n r.1

/-- gadget_output.cpp:585 `Nslabs`. -/
def nSlabs (g : Grid) (nPrt : ℕ) : ℕ := nPrt / g.S / g.ranks

/-- gadget_output.cpp:622 `offset`: where slab `zDim` of a rank starts in the file. -/
def offset (g : Grid) (nPrt rank zDim : ℕ) : ℕ := (rank * nSlabs g nPrt + zDim) * g.S

/-- gadget_output.cpp:750-761: what the file holds at place `j` of slab `zDim` of a rank; `none`
if the loop left that place of the buffer alone. -/
def inFile (g : Grid) (pp nPrt rank zDim j : ℕ) : Option Part :=
  ((slabs g pp rank (nSlabs g nPrt) 0)[zDim]?).bind fun b => b[j]?

/-- gadget_output.cpp:771-781: the identity number at place `j` of slab `zDim` of a rank. -/
def idOf (g : Grid) (nPrt rank zDim j : ℕ) : ℕ := offset g nPrt rank zDim + j

/-- gadget_output.cpp:652-661 (and 1429-1439 for the other kind): a coordinate of the particle,
with displacement `d`, in a box of `n` points and size `b`. -/
noncomputable def place (n : ℕ) (b : ℝ) (c d : ℝ) : ℝ :=
  let x := (c + d) * b / n
  let x := if x < 0 then x + b else x
  if x > b then x - b else x

/-! ### Where the buffers are -/

/-- Allocated `float`s of `m2` and `v` (scalarField.cpp:237-247 and 297-301, a Paxion in single
precision). -/
def m2Room (g : Grid) : ℕ := 2 * g.v3
def vRoom (g : Grid) : ℕ := g.v3

/-- gadget_output.cpp:642: `axOut[3 t + c]`, counted from `m2Cpu`. -/
def posCell (g : Grid) (t c : ℕ) : ℕ := g.S * (g.Lz * 2 + 1) + (3 * t + c)

/-- gadget_output.cpp:644: `mOut[t]`, counted from `m2Cpu`. -/
def massCell (g : Grid) (t : ℕ) : ℕ := g.S * (g.Lz + 1) + t

/-- gadget_output.cpp:643: `vOut[3 t + c]`, counted from the start of `v` (scalarField.h:101
`vBackGhost`). -/
def velCell (g : Grid) (t c : ℕ) : ℕ :=
  (g.S * g.Ng + g.n3) + g.S * (g.Lz * 2 + 1) + (3 * t + c)

/-- gadget_output.cpp:677-716: the three velocities of particle `t` go into `v`. -/
def storeVel (g : Grid) (t : ℕ) (u : ℝ × ℝ × ℝ) (v : Heap ℕ ℝ) : Option (Heap ℕ ℝ) :=
  (v.write (velCell g t 0) u.1).bind fun v =>
    (v.write (velCell g t 1) u.2.1).bind fun v => v.write (velCell g t 2) u.2.2

/-- Four bytes of `m2`: a `float`, or the lower or upper half of a `double`. -/
inductive Word where
  | float (x : ℝ)
  | low (d : ℝ)
  | high (d : ℝ)

/-- The value of a `float`; the bytes of half a `double` read as a `float` are some number that
depends on these bytes alone. -/
def Word.read (bits : Word → ℝ) : Word → ℝ
  | .float x => x
  | w => bits w

/-- gadget_output.cpp:494 and 502: `axArray2[idx] = ...`, a `double` that starts at `m2half`. -/
def pairStep (g : Grid) (bits : Word → ℝ) (m2 : ℕ → Word) (i : ℕ) : ℕ → Word :=
  let d := (m2 (2 * i)).read bits + (m2 (2 * i + 1)).read bits
  fun a => if a = g.v3 + 2 * i then .low d
    else if a = g.v3 + 2 * i + 1 then .high d else m2 a

/-- gadget_output.cpp:496-505: the loop of the sums. -/
def pairLoop (g : Grid) (bits : Word → ℝ) (order : List ℕ) (m2 : ℕ → Word) : ℕ → Word :=
  order.foldl (pairStep g bits) m2

/-- gadget_output.cpp:691 and 703 `vx[idx]`, the smoothed velocity along x, counted from `m2Cpu`. -/
def vxCell (g : Grid) (idx : ℕ) : ℕ := g.v3 + idx

/-! ### The filter -/

/-- The modes of gadget_output.cpp:128-137: `hLx` in x. -/
def nModes (g : Grid) : ℕ := (g.L / 2 + 1) * g.L * g.Lz

/-- gadget_output.cpp:145 `datamove`, in numbers. -/
def moved (g : Grid) : ℕ := (g.L / 2 + 1) * (g.L / 2 + 1) * g.Lz

/-- gadget_output.cpp:189-190. -/
def wrapped (n : ℕ) (k : ℤ) : ℤ := if k > (n / 2 : ℕ) then k - n else k

/-- gadget_output.cpp:183-190: the mode `(kx, ky, kz)` the loop attributes to `idx`. -/
def modeOf (g : Grid) (rank idx : ℕ) : ℤ × ℤ × ℤ :=
  let Lx := g.L / 2 + 1
  let kz := idx / Lx
  let kx := idx - kz * Lx
  let ky := kz / g.Tz
  let kz := kz - ky * g.Tz
  let ky := ky + rank * g.L / g.ranks
  (kx, wrapped g.L ky, wrapped g.Tz kz)

/-- gadget_output.cpp:191-192: the factor of `idx`. -/
noncomputable def filter (g : Grid) (pref norm : ℝ) (rank idx : ℕ) : ℝ :=
  let k := modeOf g rank idx
  Real.exp (-pref * ((k.1 * k.1 + k.2.1 * k.2.1 + k.2.2 * k.2.2 : ℤ) : ℝ)) * norm

/-- gadget_output.cpp:178-193: the loop over the `float`s of `m2`; every thread changes its own. -/
noncomputable def filterLoop (g : Grid) (pref norm : ℝ) (rank : ℕ) (a : ℕ → ℝ) : ℕ → ℝ :=
  fun p => if p < nModes g then a p * filter g pref norm rank p else a p

/-! ### The options -/

/-- The options of the run: `map_velocity`, `sm_vel`, `part_disp` of gadgetme.cpp:48-50. -/
structure Opts where
  mapVel : Bool
  smVel : Bool
  disp : Bool
  deriving DecidableEq, Repr

/-- gadgetme.cpp:48-64: from the flags of the command line to what `createGadget_Void` gets. -/
def options (partVel smVel partDisp : Bool) : Opts :=
  let o : Opts := ⟨false, false, false⟩
  let o := if partVel then { o with mapVel := true } else o
  let o := if smVel then { o with smVel := true } else o
  if partDisp then { o with smVel := true } else o

end Gadget
end Jaxions
