import Verif.Model.SpecLap
import Verif.Model.WKBField
/-
Model of the full spectral propagators, which keep the field in momentum space, on all ranks:
`tFpecCpu` and `sFpecCpu` (/repo/include/propagator/propClass.h:858-1000), their kernels
(/repo/include/propagator/fsPropThetaXeon.h, /repo/include/propagator/fsPropXeon.h) and the calls of
`FTfield` they make (/repo/lib/scalar/fourier.cpp), with `scaleXeon` (/repo/lib/scalar/scaleXeon.cpp).

`m`, `v` and `m2` are arrays of their own: a Saxion, or an Axion that was converted from one.  Those of
an Axion are counted in numbers of the field's precision, a mode takes two; those of a Saxion in complex
numbers.  Arithmetic is exact.  A vector is treated mode by mode.  The sine and the cosine are those of
the real numbers.  What a division by zero gives is a parameter, `bad`.

The transform from modes to rows may destroy the modes (the plans "R2CM22M" and "R2CM22V" lack
`FFTW_PRESERVE_INPUT`, fftCode.cpp:295-309): what the library leaves is a parameter.
-/
namespace Jaxions.FullSpec

open Gravity WKB

/-- The library: the transforms, and what is left of the modes of rank `r` after a transform to rows in
another array. -/
structure Lib where
  plan : Plan
  left : ℕ → Heap ℕ ℝ → Heap ℕ ℝ

/-- `run(FFT_FWD)` from the rows of one array to the modes of another. -/
def fwdTo (g : Gravity.Geo) (P : Plan) (src dst : ℕ → Heap ℕ ℝ) : Option (ℕ → Heap ℕ ℝ) := do
  let xs ← readAll ((List.range (g.n * g.vol)).map fun i => (i / g.vol, rowIx g.Lx (i % g.vol)))
    (fun p : ℕ × ℕ => src p.1 p.2)
  ranks g.n (fun r h => (List.range g.modes).foldlM (storeMode (P.fwd xs r)) h) dst

/-- `run(FFT_BCK)` from the modes of one array to the rows of another. -/
def bckTo (g : Gravity.Geo) (P : Plan) (src dst : ℕ → Heap ℕ ℝ) : Option (ℕ → Heap ℕ ℝ) := do
  let F ← P.bck fun r i => load (src r) 0 i
  ranks g.n (fun r h => writeAll ((List.range g.vol).map fun i =>
    (rowIx g.Lx i, F (r * g.vol + i))) h) dst

/-- `scaleXeon` (scaleXeon.cpp:39-42, 77-80): `Q` numbers times `c`. -/
noncomputable def scale (g : Gravity.Geo) (Q : ℕ) (c : ℝ) (w : ℕ → Heap ℕ ℝ) : Option (ℕ → Heap ℕ ℝ) :=
  ranks g.n (fun _ h => updCells (fun x => x * c) (fun i => i) Q h) w

/-- `scale = 1.0/N` (fourier.cpp:36). -/
noncomputable def norm (g : Gravity.Geo) : ℝ := 1 / (g.Lx * g.Lx * g.Tz : ℕ)

/-- `memmove (de+oOff, m2+fOff, dl)` (fourier.cpp:255-259). -/
def backLine (Lx : ℕ) (src : Heap ℕ ℝ) (o : ℕ) (dst : Heap ℕ ℝ) (sl : ℕ) : Option (Heap ℕ ℝ) := do
  let xs ← readAll ((List.range Lx).map fun i => sl * (Lx + 2) + i) src
  writeAll (((List.range Lx).map fun i => o + sl * Lx + i).zip xs) dst

/-- `unpadfromm2` (fourier.cpp:237-266). -/
def unpad (g : Gravity.Geo) (o : ℕ) (m2 w : ℕ → Heap ℕ ℝ) : Option (ℕ → Heap ℕ ℝ) :=
  ranks g.n (fun r h => (List.range g.lines).foldlM (backLine g.Lx (m2 r) o) h) w

/-- `padtom2` (fourier.cpp:206-235). -/
def pad (g : Gravity.Geo) (o : ℕ) (w m2 : ℕ → Heap ℕ ℝ) : Option (ℕ → Heap ℕ ℝ) :=
  ranks g.n (fun r h => copyLines g.Lx (List.range g.lines) (w r) o h) m2

/-- `ftField(FIELD_MV)` of an Axion in configuration space (fourier.cpp:70-97); `Q` numbers are
scaled. -/
noncomputable def toModes (g : Gravity.Geo) (Ng Q : ℕ) (P : Plan) (w : ℕ → Mem) : Option (ℕ → Mem) := do
  let m2 ← pad g (start g Ng) (fun r => (w r).m) fun r => (w r).m2
  let m ← fwdTo g P m2 fun r => (w r).m
  let m ← scale g Q (norm g) m
  let m2 ← pad g 0 (fun r => (w r).v) m2
  let v ← fwdTo g P m2 fun r => (w r).v
  let v ← scale g Q (norm g) v
  return fun r => ⟨m r, v r, m2 r⟩

/-- `iftField(FIELD_MV)` of an Axion in momentum space (fourier.cpp:156-181). -/
def fromModes (g : Gravity.Geo) (Ng : ℕ) (L : Lib) (w : ℕ → Mem) : Option (ℕ → Mem) := do
  let m2 ← bckTo g L.plan (fun r => (w r).m) fun r => (w r).m2
  let m ← unpad g (start g Ng) m2 fun r => L.left r (w r).m
  let m2 ← bckTo g L.plan (fun r => (w r).v) m2
  let v ← unpad g 0 m2 fun r => L.left r (w r).v
  return fun r => ⟨m r, v r, m2 r⟩

/-- What the loop `for (idx = 0; idx < V; idx += step)` treats, lane by lane: the last vector is
whole. -/
def lanes (V step : ℕ) : List ℕ :=
  (List.range ((V + (step - 1)) / step)).flatMap fun j => (List.range step).map fun l => j * step + l

/-- What the kernels take from the field (`PropParms`): physical size, scale factor, `R''/R`, axion mass
squared, coupling, `dz`, `c`, `d`. -/
structure Par where
  ℓ : ℝ
  R : ℝ
  Rpp : ℝ
  mA2 : ℝ
  LL : ℝ
  dz : ℝ
  c : ℝ
  d : ℝ

/-- Orders of the threads of a rank in the parallel loops of a stage. -/
structure Orders where
  acc : List ℕ
  modes : List ℕ

/-- fsPropThetaXeon.h:54-55, 77-80, 102-104, 129-130: `Rpp ψ - mA2 R³ sin(ψ/R)`. -/
noncomputable def tAcc (p : Par) (mel : ℝ) : ℝ :=
  let zQ := p.mA2 * p.R * p.R * p.R
  let iz := 1 / p.R
  p.Rpp * mel - zQ * Real.sin (mel * iz)

/-- fsPropThetaXeon.h:248-251, 259-262 (and fsPropXeon.h:418-434): kick of a mode and rotation by `p·dz·d`, with `p` from `k²`. -/
noncomputable def turn (p : Par) (bad : ℂ × ℂ) (k2 : ℝ) (m v m2 : ℂ) : ℂ × ℂ :=
  let pV := 2 * Real.pi / p.ℓ * Real.sqrt k2
  let aux := pV * (p.dz * p.d)
  let u := v + m2 * ((p.dz * p.c : ℝ) : ℂ)
  if pV = 0 then bad else
    let u := u / (pV : ℂ)
    (m * (Real.cos aux : ℂ) + u * (Real.sin aux : ℂ),
      (u * (Real.cos aux : ℂ) - m * (Real.sin aux : ℂ)) * (pV : ℂ))

/-- fsPropThetaXeon.h:272-282, and fsPropXeon.h:447-464 with the integrals `I1`, `I2` of the axion mass:
the zero mode from the saved values. -/
noncomputable def zeroMode (p : Par) (I1 I2 : ℝ) (m v m2 : ℂ) : ℂ × ℂ :=
  let u := v + m2 * ((p.dz * p.c : ℝ) : ℂ)
  (m + u * ((p.dz * p.d : ℝ) : ℂ) + (I2 : ℂ), u + (I1 : ℂ))

/-- `kx*kx + ky*ky + kz*kz` of a mode (fsPropThetaXeon.h:221-235). -/
def tK2 (g : Gravity.Geo) (r i : ℕ) : ℤ :=
  let k := g.number r i
  k.1 * k.1 + k.2.1 * k.2.1 + k.2.2 * k.2.2

/-- A mode of the loop of `fsPropKernelThetaXeon` (217-267). -/
noncomputable def tMode (g : Gravity.Geo) (p : Par) (bad : ℂ × ℂ) (r : ℕ) (w : Mem) (i : ℕ) :
    Option Mem := do
  let F ← load w.m2 0 i
  let V ← load w.v 0 i
  let M ← load w.m 0 i
  let MV := turn p bad (tK2 g r i : ℝ) M V F
  let v ← store w.v i MV.2
  let m ← store w.m i MV.1
  return { w with m := m, v := v }

/-- `fsPropKernelThetaXeon` in single precision (153-284). -/
noncomputable def tKernel (g : Gravity.Geo) (p : Par) (bad : ℂ × ℂ) (r : ℕ) (order : List ℕ) (w : Mem) :
    Option Mem :=
  if r = 0 then do
    let m0 ← load w.m 0 0
    let v0 ← load w.v 0 0
    let w ← order.foldlM (tMode g p bad r) w
    let f0 ← load w.m2 0 0
    let MV := zeroMode p 0 0 m0 v0 f0
    let m ← store w.m 0 MV.1
    let v ← store w.v 0 MV.2
    return { w with m := m, v := v }
  else order.foldlM (tMode g p bad r) w

/-- A stage of `tFpecCpu` (propClass.h:967-998).  In double precision `fsPropKernelThetaXeon` does
nothing (285-305). -/
noncomputable def tStage (g : Gravity.Geo) (Q : ℕ) (L : Lib) (double : Bool) (bad : ℂ × ℂ) (p : Par)
    (o : ℕ → Orders) (w : ℕ → Mem) : Option (ℕ → Mem) := do
  let m2 ← bckTo g L.plan (fun r => (w r).m) fun r => (w r).m2
  let w := fun r => { w r with m := L.left r (w r).m }
  let m2 ← ranks g.n (fun r h => (o r).acc.foldlM (updCell (tAcc p) fun i => i) h) m2
  let m2 ← forward g L.plan m2
  let m2 ← scale g Q (norm g) m2
  let w := fun r => { w r with m2 := m2 r }
  if double then some w else ranks g.n (fun r w => tKernel g p bad r (o r).modes w) w

/-- The stages of a step, or of several. -/
noncomputable def tStages (g : Gravity.Geo) (Q : ℕ) (L : Lib) (double : Bool) (bad : ℂ × ℂ) :
    List (Par × (ℕ → Orders)) → (ℕ → Mem) → Option (ℕ → Mem)
  | [], w => some w
  | s :: ss, w => (tStage g Q L double bad s.1 s.2 w).bind (tStages g Q L double bad ss)

/-- `tFpecCpu` on a field in configuration space, called any number of times, and the transform back
that a measurement or the end of the run makes. -/
noncomputable def tRun (g : Gravity.Geo) (Ng Q : ℕ) (L : Lib) (double : Bool) (bad : ℂ × ℂ)
    (ss : List (Par × (ℕ → Orders))) (w : ℕ → Mem) : Option (ℕ → Mem) := do
  let w ← toModes g Ng Q L.plan w
  let w ← tStages g Q L double bad ss w
  fromModes g Ng L w

/-! ### Saxion -/

/-- The arrays of a rank of a Saxion: from `mCpu()`, `vCpu()` and `m2Cpu()`. -/
structure CMem where
  m : Heap ℕ ℂ
  v : Heap ℕ ℂ
  m2 : Heap ℕ ℂ

/-- `run(FFT_FWD)` of the plans "C2CM2M", "C2CV2V" and "C2CM22M2" (fftCode.cpp:136-166): in place, from
`o`. -/
def cFwd (g : Gravity.Geo) (P : SpecLap.CPlan) (o : ℕ) (w : ℕ → Heap ℕ ℂ) : Option (ℕ → Heap ℕ ℂ) := do
  let xs ← readAll ((List.range (g.n * g.vol)).map fun i => (i / g.vol, o + i % g.vol))
    (fun q : ℕ × ℕ => w q.1 q.2)
  ranks g.n (fun r h => writeAll ((List.range g.vol).map fun i => (o + i, P.fwd xs r i)) h) w

/-- `run(FFT_BCK)`: from `o` in one array to `o'` in another, or in the same. -/
def cBck (g : Gravity.Geo) (P : SpecLap.CPlan) (o o' : ℕ) (src dst : ℕ → Heap ℕ ℂ) :
    Option (ℕ → Heap ℕ ℂ) := do
  let F ← P.bck fun r i => src r (o + i)
  ranks g.n (fun r h => writeAll ((List.range g.vol).map fun i => (o' + i, F (r * g.vol + i))) h) dst

/-- `scaleXeon`: `Q` complex numbers. -/
noncomputable def cScale (g : Gravity.Geo) (Q : ℕ) (c : ℝ) (w : ℕ → Heap ℕ ℂ) : Option (ℕ → Heap ℕ ℂ) :=
  ranks g.n (fun _ h => updCells (fun x => x * (c : ℂ)) (fun i => i) Q h) w

/-- `ftField(FIELD_MV)` of a Saxion in configuration space (fourier.cpp:41-60). -/
noncomputable def sToModes (g : Gravity.Geo) (Ng Q : ℕ) (P : SpecLap.CPlan) (w : ℕ → CMem) :
    Option (ℕ → CMem) := do
  let m ← cFwd g P (start g Ng) fun r => (w r).m
  let m ← cScale g Q (norm g) m
  let v ← cFwd g P 0 fun r => (w r).v
  let v ← cScale g Q (norm g) v
  return fun r => ⟨m r, v r, (w r).m2⟩

/-- `iftField(FIELD_MV)` of a Saxion in momentum space (fourier.cpp:129-146). -/
def sFromModes (g : Gravity.Geo) (Ng : ℕ) (P : SpecLap.CPlan) (w : ℕ → CMem) : Option (ℕ → CMem) := do
  let m ← cBck g P (start g Ng) (start g Ng) (fun r => (w r).m) fun r => (w r).m
  let v ← cBck g P 0 0 (fun r => (w r).v) fun r => (w r).v
  return fun r => ⟨m r, v r, (w r).m2⟩

/-- The cases of the switch over the potential (fsPropXeon.h:257-284): `default` with `V_QCD1_PQ1`,
`V_QCD1_PQ2`, `V_QCDV_PQ1`. -/
inductive Switch where
  | pq1 | pq2 | vpq1
  deriving DecidableEq, Repr

/-- fsPropXeon.h:246-284 (single precision).  The last case sets nothing. -/
noncomputable def sAcc (p : Par) (sw : Switch) (mel : ℂ) : Option ℂ :=
  let mPx := mel.re * mel.re + mel.im * mel.im
  let z2 := p.R * p.R
  let z4 := z2 * z2
  match sw with
  | .pq1 => some (mel * (((z2 - mPx) * p.LL : ℝ) : ℂ))
  | .pq2 => some (mel * (((z4 - mPx * mPx) * (p.LL * 2 / z4) : ℝ) : ℂ))
  | .vpq1 => none

/-- A lane of the loop of `fsAccKernelXeon` (234-289). -/
noncomputable def sAccCell (p : Par) (sw : Switch) (h : Heap ℕ ℂ) (i : ℕ) : Option (Heap ℕ ℂ) := do
  let x ← h i
  let a ← sAcc p sw x
  h.write i a

/-- The lanes of the loops of `fsPropKernelXeon` (385-400): `oy`, `oz`, place in the line. -/
def sLanes (g : Gravity.Geo) (step : ℕ) : List (ℕ × ℕ × ℕ) :=
  (List.range (g.Lx / g.n)).flatMap fun oy => (List.range g.Tz).flatMap fun oz =>
    (lanes g.Lx step).map fun ox => (oy, oz, ox)

/-- `idx` (400). -/
def sIdx (g : Gravity.Geo) (o : ℕ × ℕ × ℕ) : ℕ := o.2.2 + o.2.1 * g.Lx + o.1 * (g.Lx * g.Tz)

/-- `ky² + kz² + kx²` (387-412): `kx` of a vector is wrapped as a whole. -/
def sK2 (g : Gravity.Geo) (step r : ℕ) (o : ℕ × ℕ × ℕ) : ℤ :=
  let ky : ℤ := (o.1 + g.Lx / g.n * r : ℕ)
  let ky := if ky > (g.Lx / 2 : ℕ) then ky - g.Lx else ky
  let kz : ℤ := o.2.1
  let kz := if kz > (g.Tz / 2 : ℕ) then kz - g.Tz else kz
  let ox := o.2.2 / step * step
  let kx : ℤ := if g.Lx / 2 ≤ ox then (ox : ℤ) - g.Lx else ox
  let kx := kx + (o.2.2 - ox : ℕ)
  ky * ky + kz * kz + kx * kx

/-- A mode of the loop (398-439). -/
noncomputable def sMode (g : Gravity.Geo) (p : Par) (bad : ℂ × ℂ) (step r : ℕ) (w : CMem)
    (o : ℕ × ℕ × ℕ) : Option CMem := do
  let i := sIdx g o
  let F ← w.m2 i
  let V ← w.v i
  let M ← w.m (i + g.Lx * g.Lx)
  let MV := turn p bad (sK2 g step r o : ℝ) M V F
  let v ← w.v.write i MV.2
  let m ← w.m.write (i + g.Lx * g.Lx) MV.1
  return { w with m := m, v := v }

/-- `fsPropKernelXeon` in single precision (312-472); `I1` and `I2` are `intemas3` and `iintemas3`. -/
noncomputable def sKernel (g : Gravity.Geo) (p : Par) (I1 I2 : ℝ) (bad : ℂ × ℂ) (step r : ℕ)
    (order : List (ℕ × ℕ × ℕ)) (w : CMem) : Option CMem :=
  if r = 0 then do
    let m0 ← w.m (g.Lx * g.Lx)
    let v0 ← w.v 0
    let w ← order.foldlM (sMode g p bad step r) w
    let f0 ← w.m2 0
    let MV := zeroMode p I1 I2 m0 v0 f0
    let m ← w.m.write (g.Lx * g.Lx) MV.1
    let v ← w.v.write 0 MV.2
    return { w with m := m, v := v }
  else order.foldlM (sMode g p bad step r) w

/-- What a stage takes: the parameters, the two integrals of the axion mass, and the orders of the
threads of each rank. -/
structure SIn where
  par : Par
  I1 : ℝ
  I2 : ℝ
  acc : ℕ → List ℕ
  modes : ℕ → List (ℕ × ℕ × ℕ)

/-- A stage of `sFpecCpu` (propClass.h:891-924), in single precision.  (In double precision the force
uses a variable that is not set, fsPropXeon.h:100-160, and the kernel does nothing.) -/
noncomputable def sStage (g : Gravity.Geo) (Ng Q : ℕ) (P : SpecLap.CPlan) (sw : Switch) (bad : ℂ × ℂ)
    (step : ℕ) (s : SIn) (w : ℕ → CMem) : Option (ℕ → CMem) := do
  let m2 ← cBck g P (start g Ng) 0 (fun r => (w r).m) fun r => (w r).m2
  let m2 ← ranks g.n (fun r h => (s.acc r).foldlM (sAccCell s.par sw) h) m2
  let m2 ← cFwd g P 0 m2
  let m2 ← cScale g Q (norm g) m2
  ranks g.n (fun r w => sKernel g s.par s.I1 s.I2 bad step r (s.modes r) w)
    fun r => { w r with m2 := m2 r }

/-- The stages of a step, or of several. -/
noncomputable def sStages (g : Gravity.Geo) (Ng Q : ℕ) (P : SpecLap.CPlan) (sw : Switch) (bad : ℂ × ℂ)
    (step : ℕ) : List SIn → (ℕ → CMem) → Option (ℕ → CMem)
  | [], w => some w
  | s :: ss, w => (sStage g Ng Q P sw bad step s w).bind (sStages g Ng Q P sw bad step ss)

/-- `sFpecCpu` on a field in configuration space, called any number of times, and the transform
back. -/
noncomputable def sRun (g : Gravity.Geo) (Ng Q : ℕ) (P : SpecLap.CPlan) (sw : Switch) (bad : ℂ × ℂ)
    (step : ℕ) (ss : List SIn) (w : ℕ → CMem) : Option (ℕ → CMem) := do
  let w ← sToModes g Ng Q P w
  let w ← sStages g Ng Q P sw bad step ss w
  sFromModes g Ng P w

end Jaxions.FullSpec
