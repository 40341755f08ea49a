import Verif.Model.WKBField
import Verif.Model.Spectral
import Verif.Model.SaxKernel
import Mathlib.Analysis.SpecialFunctions.Trigonometric.Basic
import Mathlib.Data.Complex.Basic
/-
Model of a stage of the spectral propagators on all ranks, with the Laplacian that C46 leaves open:
`Laplacian::lapCpu` (/repo/lib/propagator/laplacian.cpp:64-107), `tSpecCpu` and `sSpecCpu`
(/repo/include/propagator/propClass.h:581-637, 800-856) and the arithmetic of a site in their kernels
(/repo/include/propagator/sPropThetaXeon.h, sPropXeon.h).

Arithmetic is exact.  The axion arrays are counted in numbers, a mode takes two of them; the saxion
arrays are counted in complex numbers.  The transforms are parameters: "pSpecAx" is the `Plan` of the
potential (C60), "SpSx" is `CPlan`.  Not modelled: damping, evolution of the radius alone, GPU.
-/
namespace Jaxions.SpecLap

open Gravity WKB
open Spectral (Upd padIx)
open SaxKernel (Pq Qcd)

/-! ### The loop over the modes -/

/-- `maxLx` (laplacian.cpp:76). -/
def width (g : Gravity.Geo) (half : Bool) : ℕ := if half then g.Lx / 2 + 1 else g.Lx

/-- `Ly` (laplacian.cpp:40). -/
def Ly (g : Gravity.Geo) : ℕ := g.Lx / g.n

/-- `if (p > h) p -= N` (laplacian.cpp:89-96). -/
def wrap (p : ℤ) (N : ℕ) : ℤ := if p > (N / 2 : ℕ) then p - N else p

/-- `p2` (laplacian.cpp:85-98) of the iteration `(oy, oz, ox)`. -/
def p2 (g : Gravity.Geo) (r : ℕ) (o : ℕ × ℕ × ℕ) : ℤ :=
  let px := wrap (o.2.2 : ℕ) g.Lx
  let py := wrap (o.1 + Ly g * r : ℕ) g.Lx
  let pz := wrap (o.2.1 : ℕ) g.Tz
  pz * pz + py * py + px * px

/-- `idx` (laplacian.cpp:83). -/
def idx (g : Gravity.Geo) (half : Bool) (o : ℕ × ℕ × ℕ) : ℕ :=
  o.2.2 + o.1 * (width g half * g.Tz) + o.2.1 * width g half

/-- The iterations (laplacian.cpp:79-82); the threads run them in some order. -/
def iterations (g : Gravity.Geo) (half : Bool) : List (ℕ × ℕ × ℕ) :=
  (List.range (Ly g)).flatMap fun oy => (List.range g.Tz).flatMap fun oz =>
    (List.range (width g half)).map fun ox => (oy, oz, ox)

/-- An array of modes: how a mode is read and written. -/
structure Access (σ : Type) where
  load : σ → ℕ → Option ℂ
  store : σ → ℕ → ℂ → Option σ

/-- Two numbers for a mode. -/
def pairsOf : Access (Heap ℕ ℝ) := ⟨fun h i => WKB.load h 0 i, WKB.store⟩

/-- One complex number for a mode. -/
def single : Access (Heap ℕ ℂ) := ⟨fun h i => h i, Heap.write⟩

variable {σ : Type}

/-- `mData[idx] *= p2` (laplacian.cpp:100). -/
def times (A : Access σ) (g : Gravity.Geo) (half : Bool) (r : ℕ) (h : σ) (o : ℕ × ℕ × ℕ) : Option σ := do
  let c ← A.load h (idx g half o)
  A.store h (idx g half o) (c * (p2 g r o : ℂ))

/-- The loop on a rank. -/
def weigh (A : Access σ) (g : Gravity.Geo) (half : Bool) (r : ℕ) (order : List (ℕ × ℕ × ℕ)) (h : σ) :
    Option σ := order.foldlM (times A g half r) h

/-! ### Axion -/

/-- `tRunCpu` (laplacian.cpp:132-148): in place on the padded rows of `m2`. -/
noncomputable def tLap (g : Gravity.Geo) (P : Plan) (order : ℕ → List (ℕ × ℕ × ℕ)) (m2 : ℕ → Heap ℕ ℝ) :
    Option (ℕ → Heap ℕ ℝ) := do
  let m2 ← forward g P m2
  let m2 ← ranks g.n (fun r h => weigh pairsOf g true r (order r) h) m2
  backward g P m2

/-- An array of a rank. -/
def part {K : Type} (a : Reg) (h : Heap Loc K) : Heap ℕ K := fun i => h ⟨a, i⟩

/-- The rank with another `m2`. -/
def withM2 {K : Type} (x : Heap ℕ K) (h : Heap Loc K) : Heap Loc K :=
  fun l => if l.reg = .m2 then x l.idx else h l

/-- Orders in which the threads of a rank run the loops of a stage: rows, modes, vectors. -/
structure Orders where
  rows : List ℕ
  modes : List (ℕ × ℕ × ℕ)
  lanes : List (ℕ × ℕ)

/-- `fMom` (propClass.h:594, 813). -/
noncomputable def fMom (g : Gravity.Geo) (ℓ : ℝ) : ℝ :=
  -(4 * Real.pi * Real.pi) / (ℓ * ℓ * (g.Lx * g.Lx * g.Tz : ℕ))

/-- What the kernels take from the field: scale factor, `R''/R`, axion mass squared, coupling,
`dz`, `c`, `d`, physical size. -/
structure Par where
  R : ℝ
  Rpp : ℝ
  mA2 : ℝ
  LL : ℝ
  dz : ℝ
  c : ℝ
  d : ℝ
  ℓ : ℝ

/-- sPropThetaXeon.h:47-52, 88-96: kick and drift of a site. -/
noncomputable def tSite (g : Gravity.Geo) (p : Par) : Upd ℝ := fun mel vel m2 =>
  let zQ := p.mA2 * p.R * p.R * p.R
  let acu := fMom g p.ℓ * m2 - zQ * Real.sin (mel * (1 / p.R))
  let tmp := vel + acu * (p.dz * p.c)
  (mel + tmp * (p.dz * p.d), tmp)

/-- A stage of `tSpecCpu` (propClass.h:603-622): rows from one slice after `mCpu()` to `m2`, Laplacian,
kernel from `S` to `V+S`. -/
noncomputable def tStage (g : Gravity.Geo) (P : Plan) (p : Par) (o : ℕ → Orders) (w : ℕ → Heap Loc ℝ) :
    Option (ℕ → Heap Loc ℝ) := do
  let m2 ← ranks g.n (fun r h => copyLines g.Lx (o r).rows (part .m (w r)) (g.Lx * g.Lx) h)
    fun r => part .m2 (w r)
  let m2 ← tLap g P (fun r => (o r).modes) m2
  ranks g.n (fun r h => Spectral.kernel (tSite g p) (g.Lx * g.Lx) (padIx g.Lx) (o r).lanes
    (withM2 (m2 r) h)) w

/-- The stages of a step, or of several (propClass.h:602-636). -/
noncomputable def tRun (g : Gravity.Geo) (P : Plan) :
    List (Par × (ℕ → Orders)) → (ℕ → Heap Loc ℝ) → Option (ℕ → Heap Loc ℝ)
  | [], w => some w
  | s :: ss, w => (tStage g P s.1 s.2 w).bind (tRun g P ss)

/-! ### Saxion -/

/-- The transforms of the plan "SpSx" (fftCode.cpp:236-248): values of all ranks to modes and back. -/
structure CPlan where
  fwd : List ℂ → ℕ → ℕ → ℂ
  bck : (ℕ → ℕ → Option ℂ) → Option (ℕ → ℂ)

/-- `run(FFT_FWD)`: from `mStart()` to `m2`. -/
def cForward (g : Gravity.Geo) (Ng : ℕ) (P : CPlan) (m m2 : ℕ → Heap ℕ ℂ) : Option (ℕ → Heap ℕ ℂ) := do
  let xs ← readAll ((List.range (g.n * g.vol)).map fun i =>
    (i / g.vol, Ng * (g.Lx * g.Lx) + i % g.vol)) (fun q : ℕ × ℕ => m q.1 q.2)
  ranks g.n (fun r h => writeAll ((List.range g.vol).map fun i => (i, P.fwd xs r i)) h) m2

/-- `run(FFT_BCK)`: in place in `m2`. -/
def cBackward (g : Gravity.Geo) (P : CPlan) (m2 : ℕ → Heap ℕ ℂ) : Option (ℕ → Heap ℕ ℂ) := do
  let F ← P.bck fun r i => m2 r i
  ranks g.n (fun r h => writeAll ((List.range g.vol).map fun i => (i, F (r * g.vol + i))) h) m2

/-- `sRunCpu` (laplacian.cpp:106-121). -/
def sLap (g : Gravity.Geo) (Ng : ℕ) (P : CPlan) (order : ℕ → List (ℕ × ℕ × ℕ)) (m m2 : ℕ → Heap ℕ ℂ) :
    Option (ℕ → Heap ℕ ℂ) := do
  let m2 ← cForward g Ng P m m2
  let m2 ← ranks g.n (fun r h => weigh single g false r (order r) h) m2
  cBackward g P m2

/-- The acceleration (sPropXeon.h:149-192, 372-415), without the cosine potential.  The switch over
the symmetry breaking potentials has no case for `V_PQ3`: the variable is not set. -/
noncomputable def sAccel (p : Par) (pq : Pq) (qcd : Qcd) (mel lap : ℂ) : Option ℂ := do
  let mPx := mel.re * mel.re + mel.im * mel.im
  let R2 := p.R * p.R
  let R4 := R2 * R2
  let mMx ← match pq with
    | .pq1 => some (lap - mel * ((mPx - R2) * p.LL - p.Rpp : ℝ))
    | .pq2 => some (lap - mel * ((mPx * mPx - R4) * (mPx * (p.LL * 2 / R4)) - p.Rpp : ℝ))
    | .pq3 => none
  let zQ := p.mA2 * R2 * p.R
  match qcd with
  | .qcd1 => some (mMx + ⟨zQ, 0⟩)
  | .qcdV => some (mMx + zQ * (⟨p.R, 0⟩ - mel))
  | .qcd2 => some (mMx - ⟨p.mA2 * R2 / 2 * mel.re, -(p.mA2 * R2 / 2) * mel.im⟩)
  | .qcdC => none
  | .qcdL => some mMx
  | .qcd0 => some mMx

/-- sPropXeon.h:131-134, 196-205, 263-267: kick and drift of a site, `acc` its acceleration. -/
noncomputable def sSite (g : Gravity.Geo) (p : Par) (acc : ℂ → ℂ → ℂ) : Upd ℂ := fun mel vel m2 =>
  let tmp := vel + acc mel (m2 * (fMom g p.ℓ : ℂ)) * (p.dz * p.c : ℝ)
  (mel + tmp * (p.dz * p.d : ℝ), tmp)

/-- A stage of `sSpecCpu` (propClass.h:825-838). -/
noncomputable def sStage (g : Gravity.Geo) (Ng : ℕ) (P : CPlan) (p : Par) (acc : ℂ → ℂ → ℂ) (o : ℕ → Orders)
    (w : ℕ → Heap Loc ℂ) : Option (ℕ → Heap Loc ℂ) := do
  let m2 ← sLap g Ng P (fun r => (o r).modes) (fun r => part .m (w r)) fun r => part .m2 (w r)
  ranks g.n (fun r h => Spectral.kernel (sSite g p acc) (g.Lx * g.Lx) (fun i => i) (o r).lanes
    (withM2 (m2 r) h)) w

/-- The stages of a step, or of several (propClass.h:825-854). -/
noncomputable def sRun (g : Gravity.Geo) (Ng : ℕ) (P : CPlan) (acc : Par → ℂ → ℂ → ℂ) :
    List (Par × (ℕ → Orders)) → (ℕ → Heap Loc ℂ) → Option (ℕ → Heap Loc ℂ)
  | [], w => some w
  | s :: ss, w => (sStage g Ng P s.1 (acc s.1) s.2 w).bind (sRun g Ng P acc ss)

end Jaxions.SpecLap
