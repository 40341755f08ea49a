import Verif.Model.WKBField
import Verif.Model.Spectrum
import Mathlib.Analysis.SpecialFunctions.Trigonometric.Basic
import Mathlib.Analysis.Complex.Trigonometric
/-
Model of `SpecBin::nRun` for a field that is an axion (/repo/lib/spectrum/spectrum.cpp:1002-1060,
1571-1732), on all ranks: the arrays that are transformed, the transform, the bins.

The field is unfolded.  Arithmetic is exact.  The plan "pSpecAx" is the transform of `Gravity.Plan`,
working in place in `m2`.  The bins of `USE_NN_BINS` are left out.
-/
namespace Jaxions.FieldSpec

open Gravity WKB Spectrum

/-- `SpectrumMaskType`, the values `nRun` is instantiated with (spectrum.cpp:826-990). -/
inductive Mask | flat | vil | vil2 | saxi | redo | diff | gaus | ball | axit | axit2
deriving DecidableEq, Repr

/-- The arrays of a rank and, of every byte of `sData()`, the bit `STRING_MASK`. -/
structure Mem extends WKB.Mem where
  str : Heap ℕ Bool

/-- `sDStatus()`: the bits `SD_MASK` and `SD_AXITONMASK`. -/
structure Status where
  mask : Bool
  axiton : Bool

/-- The test at the top (spectrum.cpp:1009-1048). -/
def ready (st : Status) : Mask → Bool
  | .redo | .gaus | .diff => st.mask
  | .axit2 => st.axiton
  | _ => true

/-- `nrt & bits`. -/
def wants (nrt bits : ℕ) : Bool := nrt &&& bits != 0

/-- `NRUN_G | NRUN_CG | NRUN_V | NRUN_CV` (enum-field.h:619-628). -/
def bitsGV : ℕ := 2 ||| 32 ||| 4 ||| 64
/-- `NRUN_K | NRUN_CK`. -/
def bitsK : ℕ := 1 ||| 16
/-- `NRUN_S | NRUN_CS`. -/
def bitsS : ℕ := 8 ||| 128

/-- `idx` (spectrum.cpp:1605). -/
def bare (L : ℕ) (s : ℕ × ℕ × ℕ) : ℕ := s.1 + L * s.2.1 + L * L * s.2.2
/-- `odx` (spectrum.cpp:1605). -/
def padded (L : ℕ) (s : ℕ × ℕ × ℕ) : ℕ := s.1 + (L + 2) * s.2.1 + L * (L + 2) * s.2.2

/-- The factor of `SPMASK_AXIT` (spectrum.cpp:1609). -/
noncomputable def smear (x : ℝ) : ℝ := 0.5 * (1 - Real.tanh (5 * x - 1))

/-- Body of the loop over the sites for the gradient and the potential (spectrum.cpp:1607-1619); `o` is
where `mStart()` is. -/
noncomputable def gSite (L o : ℕ) (mk : Mask) (w : Mem) (m2 : Heap ℕ ℝ) (s : ℕ × ℕ × ℕ) :
    Option (Heap ℕ ℝ) :=
  match mk with
  | .axit => do
    let a ← w.m (o + bare L s)
    let b ← m2 (bare L s)
    m2.write (padded L s) (a * smear b)
  | _ => do
    if ← w.str (bare L s) then m2.write (padded L s) 0
    else m2.write (padded L s) (← w.m (o + bare L s))

/-- Body of the loop over the sites for the velocity (spectrum.cpp:1656-1668). -/
noncomputable def kSite (L o : ℕ) (mk : Mask) (w : Mem) (m2 : Heap ℕ ℝ) (s : ℕ × ℕ × ℕ) :
    Option (Heap ℕ ℝ) :=
  match mk with
  | .axit => do
    let a ← w.m (o + bare L s)
    let b ← m2 (bare L s)
    m2.write (padded L s) (a * smear b)
  | _ => do
    if ← w.str (bare L s) then m2.write (padded L s) 0
    else m2.write (padded L s) (← w.v (bare L s))

/-- `R2*std::sin(m[idx] * iR2)` (spectrum.cpp:1694-1695, 1708). -/
noncomputable def chord (R x : ℝ) : ℝ := R * 2 * Real.sin (x * (1 / (R * 2)))

/-- Body of the loop over the sites for the whole potential (spectrum.cpp:1705-1720). -/
noncomputable def sSite (L o : ℕ) (R : ℝ) (mk : Mask) (w : Mem) (m2 : Heap ℕ ℝ) (s : ℕ × ℕ × ℕ) :
    Option (Heap ℕ ℝ) :=
  match mk with
  | .axit => do
    let a ← w.m (o + bare L s)
    let b ← m2 (bare L s)
    m2.write (padded L s) (chord R a * smear b)
  | .axit2 => do
    if ← w.str (bare L s) then m2.write (padded L s) 0
    else m2.write (padded L s) (chord R (← w.m (o + bare L s)))
  | _ => do m2.write (padded L s) (chord R (← w.m (o + bare L s)))

/-- In which order the threads of a rank take the lines, the sites and the modes of a block. -/
structure Orders where
  lines : List ℕ
  sites : List (ℕ × ℕ × ℕ)
  modes : List (ℕ × ℕ)

/-- `m2` before the transform, for the gradient and the potential (spectrum.cpp:1593-1622).
`mask & SPMASK_FLAT` is true of `SPMASK_FLAT` only. -/
noncomputable def gArray (g : Geo) (Ng : ℕ) (mk : Mask) (w : Mem) (d : Orders) (m2 : Heap ℕ ℝ) :
    Option (Heap ℕ ℝ) :=
  if mk = .flat then copyLines g.Lx d.lines w.m (start g Ng) m2
  else d.sites.foldlM (gSite g.Lx (start g Ng) mk w) m2

/-- The same for the velocity (spectrum.cpp:1634-1671). -/
noncomputable def kArray (g : Geo) (Ng : ℕ) (mk : Mask) (w : Mem) (d : Orders) (m2 : Heap ℕ ℝ) :
    Option (Heap ℕ ℝ) :=
  if mk = .flat then copyLines g.Lx d.lines w.v 0 m2
  else d.sites.foldlM (kSite g.Lx (start g Ng) mk w) m2

/-- The same for the whole potential (spectrum.cpp:1694-1721). -/
noncomputable def sArray (g : Geo) (Ng : ℕ) (R : ℝ) (mk : Mask) (w : Mem) (d : Orders) (m2 : Heap ℕ ℝ) :
    Option (Heap ℕ ℝ) :=
  d.sites.foldlM (sSite g.Lx (start g Ng) R mk w) m2

/-- The lattice as `fillBins` sees it. -/
def cfg (g : Geo) (threads : ℕ) (nbinsspec : ℤ) : Cfg := ⟨g.Lx, g.Tz, g.n, threads, nbinsspec⟩

/-- The numbers of `fillBins` (spectrum.cpp:49-50, 198; spectrum.h:113): `ℓ = PhysSize()`,
`ma = AxionMassSq()`, `R = *RV()`. -/
noncomputable def phys (g : Geo) (ℓ ma R : ℝ) : Phys ℝ where
  unit := 4 * Real.pi * Real.pi / (ℓ * ℓ)
  norm := ℓ * ℓ * ℓ / (2 * ((g.Lx * g.Lx * g.Tz : ℝ) * (g.Lx * g.Lx * g.Tz : ℝ)))
  mass2 := ma * R * R
  mass2Sax := 0
  cosTable2 := fun _ => 1
  control := 0

/-- `std::abs(static_cast<cFloat *>(field->m2Cpu())[idx])` (spectrum.cpp:200) of all modes. -/
noncomputable def moduli (g : Geo) (m2 : ℕ → Heap ℕ ℝ) : Option (ℕ → ℕ → ℝ) :=
  if ∀ r < g.n, ∀ i < g.modes, (load (m2 r) 0 i).isSome then
    some fun r i => match load (m2 r) 0 i with
      | some c => ‖c‖
      | none => 0
  else none

/-- What `nRun` works on: the arrays of the ranks and the vectors of `SpecBin`. -/
structure State where
  mem : ℕ → Mem
  bins : ℕ → Bins ℝ

/-- Array, transform, bins: spectrum.cpp:1591-1629, 1631-1678 and 1691-1729. -/
noncomputable def block (g : Geo) (P : Plan) (c : Cfg) (p : Phys ℝ) (t : SType)
    (array : Mem → Orders → Heap ℕ ℝ → Option (Heap ℕ ℝ)) (d : ℕ → Orders) (s : State) : Option State := do
  let m2 ← ranks g.n (fun r h => array (s.mem r) (d r) h) fun r => (s.mem r).m2
  let m2 ← forward g P m2
  let amp ← moduli g m2
  let bins ← fillBins c p t amp (fun r => (d r).modes) s.bins
  return ⟨fun r => { s.mem r with m2 := m2 r }, bins⟩

/-- `binX.assign(nbins, 0.)` (spectrum.cpp:1051-1067). -/
def cleared (b : ℕ → Bins ℝ) : ℕ → Bins ℝ := fun r a j =>
  match a with
  | .K | .G | .V | .Vnl | .P | .PS => 0
  | _ => b r a j

/-- What a run of the program fixes. -/
structure Setup where
  g : Geo
  Ng : ℕ
  plan : Plan
  threads : ℕ
  nbinsspec : ℤ
  ℓ : ℝ
  ma : ℝ
  R : ℝ

/-- `SpecBin::nRun` (spectrum.cpp:1002-1732) of an axion field; `dG`, `dK`, `dS` are the orders in the
three blocks. -/
noncomputable def nRun (u : Setup) (mk : Mask) (st : Status) (nrt : ℕ) (dG dK dS : ℕ → Orders)
    (s : State) : Option State :=
  if ready st mk = false then some s else do
    let c := cfg u.g u.threads u.nbinsspec
    let p := phys u.g u.ℓ u.ma u.R
    let s : State := ⟨s.mem, cleared s.bins⟩
    let s ← (if wants nrt bitsGV then block u.g u.plan c p .GV (gArray u.g u.Ng mk) dG s else some s)
    let s ← (if wants nrt bitsK then block u.g u.plan c p .K (kArray u.g u.Ng mk) dK s else some s)
    if wants nrt bitsS ∧ 0 < p.mass2 then block u.g u.plan c p .VNL (sArray u.g u.Ng u.R mk) dS s
    else some s

end Jaxions.FieldSpec
