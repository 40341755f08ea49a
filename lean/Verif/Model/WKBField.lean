import Verif.Model.WKB
import Verif.Model.Gravity
/-
Model of the last stage of a run, `WKB` with one field (/repo/lib/WKB/WKB.cpp:195-300, 395-606), on
all ranks: the constructor and `doWKBinplace`, with the arrays as they lie in memory.

An array is counted in numbers of the field's precision.  A mode takes two numbers, its real and its
imaginary part.  The field is an unfolded `FIELD_AXION`, so a site is one number.  `m` and `v` are
parts of one allocation (scalarField.cpp:226-234); here an access beyond the end of `m` is undefined.
The plans "pSpecAx", "WKB m" and "WKB v" are the transforms of `Gravity.Plan`, working in place.
-/
namespace Jaxions.WKB

open Cosmo Gravity

/-- The arrays of a rank: from `mCpu()`, `vCpu()` and `m2Cpu()`. -/
structure Mem where
  m : Heap ℕ ℝ
  v : Heap ℕ ℝ
  m2 : Heap ℕ ℝ

/-- A step on every rank. -/
def ranks {σ : Type} (n : ℕ) (f : ℕ → σ → Option σ) (w : ℕ → σ) : Option (ℕ → σ) :=
  loop n (fun r w => (f r (w r)).map fun h r' => if r' = r then h else w r') w

/-- `v3` (scalarField.cpp:54): numbers in `m`, and where `m2half()` begins. -/
def v3 (g : Geo) (Ng : ℕ) : ℕ := g.Lx * g.Lx * (g.Lz + 2 * Ng)

/-- `mStart()`. -/
def start (g : Geo) (Ng : ℕ) : ℕ := g.Lx * g.Lx * Ng

/-- `memcpy(m2+fOff, or+oOff, dataLine)` (WKB.cpp:248-252, 272-276). -/
def copyLine (Lx : ℕ) (src : Heap ℕ ℝ) (o : ℕ) (dst : Heap ℕ ℝ) (sl : ℕ) : Option (Heap ℕ ℝ) := do
  let xs ← readAll ((List.range Lx).map fun i => o + sl * Lx + i) src
  writeAll (((List.range Lx).map fun i => sl * (Lx + 2) + i).zip xs) dst

/-- The loop over the lines, in the order in which the threads run it. -/
def copyLines (Lx : ℕ) (order : List ℕ) (src : Heap ℕ ℝ) (o : ℕ) (dst : Heap ℕ ℝ) :
    Option (Heap ℕ ℝ) := order.foldlM (copyLine Lx src o) dst

/-- The mode `i` of an array at `o`. -/
def load (h : Heap ℕ ℝ) (o i : ℕ) : Option ℂ := do
  let x ← h (o + 2 * i)
  let y ← h (o + 2 * i + 1)
  return ⟨x, y⟩

/-- Sets the mode `i` of an array. -/
def store (h : Heap ℕ ℝ) (i : ℕ) (c : ℂ) : Option (Heap ℕ ℝ) := do
  let h ← h.write (2 * i) c.re
  h.write (2 * i + 1) c.im

/-- One mode of the output of a transform. -/
def storeMode (A : ℕ → Option ℂ) (h : Heap ℕ ℝ) (i : ℕ) : Option (Heap ℕ ℝ) := do store h i (← A i)

/-- `run(FFT_FWD)` of a plan in place: rows of all ranks to modes. -/
def forward (g : Geo) (P : Plan) (w : ℕ → Heap ℕ ℝ) : Option (ℕ → Heap ℕ ℝ) := do
  let xs ← readAll ((List.range (g.n * g.vol)).map fun i => (i / g.vol, rowIx g.Lx (i % g.vol)))
    (fun p : ℕ × ℕ => w p.1 p.2)
  ranks g.n (fun r h => (List.range g.modes).foldlM (storeMode (P.fwd xs r)) h) w

/-- `run(FFT_BCK)` of a plan in place: modes to rows of all ranks. -/
def backward (g : Geo) (P : Plan) (w : ℕ → Heap ℕ ℝ) : Option (ℕ → Heap ℕ ℝ) := do
  let F ← P.bck fun r i => load (w r) 0 i
  ranks g.n (fun r h => writeAll ((List.range g.vol).map fun i =>
    (rowIx g.Lx i, F (r * g.vol + i))) h) w

/-- The constructor, first half (WKB.cpp:246-267): the spectrum of `v` into `m2half()`. -/
def loadV (g : Geo) (Ng : ℕ) (P : Plan) (order : ℕ → List ℕ) (w : ℕ → Mem) :
    Option (ℕ → Heap ℕ ℝ) := do
  let m2 ← ranks g.n (fun r h => copyLines g.Lx (order r) (w r).v 0 h) fun r => (w r).m2
  let m2 ← forward g P m2
  ranks g.n (fun _ h => memmove (fun i => v3 g Ng + i) (fun i => i) (v3 g Ng) h) m2

/-- The constructor, second half (WKB.cpp:269-285): the spectrum of `m` into `m2`. -/
def loadM (g : Geo) (Ng : ℕ) (P : Plan) (order : ℕ → List ℕ) (w : ℕ → Mem) (m2 : ℕ → Heap ℕ ℝ) :
    Option (ℕ → Heap ℕ ℝ) := do
  let m2 ← ranks g.n (fun r h => copyLines g.Lx (order r) (w r).m (start g Ng) h) m2
  forward g P m2

/-- `kx`, `ky`, `kz` (WKB.cpp:474, 482-493). -/
def number (g : Geo) (r idx : ℕ) : ℤ × ℤ × ℤ :=
  let kz : ℤ := (idx / g.hLx : ℕ)
  let kx : ℤ := idx - kz * g.hLx
  let ky : ℤ := kz / g.Tz
  let kz := kz - ky * g.Tz
  let ky := ky + (g.Lz * r : ℕ)
  let ky := if ky > g.hLy then ky - g.Lx else ky
  let kz := if kz > g.hTz then kz - g.Tz else kz
  (kx, ky, kz)

/-- `k2` (WKB.cpp:459, 496-499). -/
noncomputable def modeK2 (c : Cosmos) (g : Geo) (r idx : ℕ) : ℝ :=
  let k := number g r idx
  ((k.1 * k.1 + k.2.1 * k.2.1 + k.2.2 * k.2.2 : ℤ) : ℝ) *
    (4 * Real.pi * Real.pi / (c.lSize * c.lSize))

/-- The body of the loop over the modes (WKB.cpp:479-535). -/
noncomputable def modeBody (g : Geo) (Ng : ℕ) (c : Cosmos) (S : ℝ → ℝ) (zIni zEnd : ℝ) (r : ℕ)
    (w : Mem) (idx : ℕ) : Option Mem := do
  let M ← load w.m2 0 idx
  let D ← load w.m2 (v3 g Ng) idx
  let MD ← evolve c S zIni zEnd (modeK2 c g r idx) M D
  let m ← store w.m idx MD.1
  let v ← store w.v idx MD.2
  return { w with m := m, v := v }

/-- `/= toton` (WKB.cpp:580-585). -/
noncomputable def scaleCell (n : ℕ) (o : ℕ) (h : Heap ℕ ℝ) (i : ℕ) : Option (Heap ℕ ℝ) := do
  let x ← h (o + i)
  if n = 0 then none else h.write (o + i) (x / (n : ℝ))

/-- From the padded rows to the field (WKB.cpp:550-585). -/
noncomputable def finishRank (g : Geo) (Ng : ℕ) (order : List ℕ) (w : Mem) : Option Mem := do
  let m ← Pad.moveLines 0 (g.Lx + 2) 0 g.Lx g.Lx ((List.range (g.lines - 1)).map (· + 1)) w.m
  let m ← memmove (fun i => start g Ng + i) (fun i => i) g.vol m
  let v ← Pad.moveLines 0 (g.Lx + 2) 0 g.Lx g.Lx (Pad.up g.lines) w.v
  let m ← order.foldlM (scaleCell (g.Lx * g.Lx * g.Tz) (start g Ng)) m
  let v ← order.foldlM (scaleCell (g.Lx * g.Lx * g.Tz) 0) v
  return { w with m := m, v := v }

/-- The orders in which the threads of each rank run the parallel loops. -/
structure Orders where
  linesV : ℕ → List ℕ
  linesM : ℕ → List ℕ
  modes : ℕ → List ℕ
  sites : ℕ → List ℕ

/-- The constructor and `doWKBinplace(zEnd)` (WKB.cpp:195-300, 395-606). -/
noncomputable def wkbInPlace (g : Geo) (Ng : ℕ) (P : Plan) (c : Cosmos) (S : ℝ → ℝ) (o : Orders)
    (zIni zEnd : ℝ) (w : ℕ → Mem) : Option (ℕ → Mem) := do
  let m2 ← loadV g Ng P o.linesV w
  let m2 ← loadM g Ng P o.linesM w m2
  let w ← ranks g.n (fun r w => (o.modes r).foldlM (modeBody g Ng c S zIni zEnd r) w)
    fun r => { w r with m2 := m2 r }
  let m ← backward g P fun r => (w r).m
  let v ← backward g P fun r => (w r).v
  ranks g.n (fun r w => finishRank g Ng (o.sites r) w) fun r => { w r with m := m r, v := v r }

end Jaxions.WKB
