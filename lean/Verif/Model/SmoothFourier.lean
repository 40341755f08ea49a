import Verif.Model.WKBField
import Verif.Model.Pad
import Mathlib.Analysis.SpecialFunctions.Trigonometric.Basic
/-
Model of `SpecBin::smoothFourier` (/repo/lib/spectrum/spectrum.cpp:2073-2240): an energy map is smoothed
in Fourier space.

All ranks.  An array is counted in numbers of the field's precision, from `m2Cpu()`; `m2half()` begins
at `v3`.  The field is an axion, so a site is one number.  The plan "pSpecAx" is the transform of
`Gravity.Plan` in place.  Arithmetic is exact.
-/
namespace Jaxions.SmoothF

open Gravity WKB

/-- `StatusM2` (/repo/include/enum-field.h:663-680); the values this function does not tell apart are
`other`. -/
inductive M2
  | energy | fft | smooth | other
deriving DecidableEq

/-- `FilterIndex` (/repo/include/enum-field.h:781-785). -/
inductive Filter
  | gauss | tophat | sharpk
deriving DecidableEq

/-- `m2` of every rank, with `m2Status()` and `m2hStatus()`. -/
structure State where
  m2 : ℕ → Heap ℕ ℝ
  st : M2
  sth : M2

/-- Where `pad` finds its arrays; only those in `m2` are used. -/
def lay (g : Geo) (Ng : ℕ) : Pad.Lay := ⟨g.Lx, g.Lz, Ng, 1, false, 0, 0, 0⟩

/-- `dataTotalSize` in numbers (/repo/include/spectrum/spectrum.h:168). -/
def total (g : Geo) : ℕ := (g.Lx + 2) * g.Lx * g.Lz

/-- `memmove(m2h, m2, dataTotalSize)` (2089, 2106, 2116). -/
def toHalf (g : Geo) (Ng : ℕ) (w : ℕ → Heap ℕ ℝ) : Option (ℕ → Heap ℕ ℝ) :=
  ranks g.n (fun _ h => memmove (fun i => v3 g Ng + i) (fun i => i) (total g) h) w

/-- `memmove(m2, m2h, dataTotalSize)` (2096). -/
def fromHalf (g : Geo) (Ng : ℕ) (w : ℕ → Heap ℕ ℝ) : Option (ℕ → Heap ℕ ℝ) :=
  ranks g.n (fun _ h => memmove (fun i => i) (fun i => v3 g Ng + i) (total g) h) w

/-- The orders in which the threads of each rank run the parallel loops. -/
structure Orders where
  lines : ℕ → List ℕ
  modes : ℕ → List ℕ

/-- Until the transform is in `m2` and in `m2half` (2076-2128).  The first component says whether the
function goes on. -/
def prepare (g : Geo) (Ng : ℕ) (P : Plan) (o : Orders) (s : State) : Option (Bool × State) :=
  if s.st = .fft ∧ s.sth = .fft then some (true, s)
  else if s.st = .fft then do
    let w ← toHalf g Ng s.m2
    return (true, ⟨w, s.st, .fft⟩)
  else if s.sth = .fft then do
    let w ← fromHalf g Ng s.m2
    return (true, ⟨w, .fft, s.sth⟩)
  else if s.st = .energy then do
    let w ← ranks g.n (fun r h => Pad.pad (lay g Ng) .M2 .M2 (o.lines r) h) s.m2
    let w ← forward g P w
    let w ← toHalf g Ng w
    return (true, ⟨w, .fft, .fft⟩)
  else if s.sth = .energy then do
    let w ← ranks g.n (fun r h => Pad.pad (lay g Ng) .M2H .M2 (o.lines r) h) s.m2
    let w ← forward g P w
    let w ← toHalf g Ng w
    return (true, ⟨w, .fft, .fft⟩)
  else some (false, s)

/-- `kx`, `ky`, `kz` (2199-2207) with `zBase` of /repo/include/spectrum/spectrum.h:70. -/
def number (g : Geo) (r idx : ℕ) : ℤ × ℤ × ℤ :=
  let kz : ℤ := (idx / g.hLx : ℕ)
  let kx : ℤ := idx - kz * g.hLx
  let ky : ℤ := kz / g.Tz
  let kz := kz - ky * g.Tz
  let ky := ky + (r * g.Lx / g.n : ℕ)
  let ky := if ky > g.hLy then ky - g.Lx else ky
  let kz := if kz > g.hTz then kz - g.Tz else kz
  (kx, ky, kz)

/-- `k2` (2208). -/
def modeK2 (g : Geo) (r idx : ℕ) : ℤ :=
  let k := number g r idx
  k.1 * k.1 + k.2.1 * k.2.1 + k.2.2 * k.2.2

/-- What a mode becomes (2170-2186, 2210-2235). -/
noncomputable def weight (f : Filter) (normn3 k0R k2 : ℝ) (c : ℂ) : ℂ :=
  match f with
  | .gauss =>
    let pref := 0.5 * k0R * k0R
    c * ((Real.exp (-pref * k2) * normn3 : ℝ) : ℂ)
  | .tophat =>
    let normn3 := normn3 * 3
    let k2 := k0R * Real.sqrt k2
    if k2 > 0 then c * ((normn3 * (Real.sin k2 - k2 * Real.cos k2) / (k2 * k2 * k2) : ℝ) : ℂ)
    else c * ((normn3 / 3 : ℝ) : ℂ)
  | .sharpk =>
    let pref := k0R * k0R
    if pref * k2 > 1 then 0 else c * ((normn3 : ℝ) : ℂ)

/-- The body of the loop over the modes (2196-2238). -/
noncomputable def filterMode (g : Geo) (f : Filter) (normn3 k0R : ℝ) (r : ℕ) (h : Heap ℕ ℝ) (idx : ℕ) :
    Option (Heap ℕ ℝ) := do
  let c ← load h 0 idx
  store h idx (weight f normn3 k0R (modeK2 g r idx) c)

/-- `smoothFourier<Float,filter>` (2164-2240). -/
noncomputable def filterAll (g : Geo) (k0 length : ℝ) (f : Filter) (o : Orders) (w : ℕ → Heap ℕ ℝ) :
    Option (ℕ → Heap ℕ ℝ) :=
  ranks g.n (fun r h =>
    (o.modes r).foldlM (filterMode g f (1 / ((g.Lx * g.Lx * g.Tz : ℕ) : ℝ)) (k0 * length) r) h) w

/-- `smoothFourier(length, filter)` (2073-2158). -/
noncomputable def smoothFourier (g : Geo) (Ng : ℕ) (P : Plan) (k0 length : ℝ) (f : Filter) (o : Orders)
    (s : State) : Option State := do
  let p ← prepare g Ng P o s
  (if p.1 then do
    let w ← filterAll g k0 length f o p.2.m2
    let w ← backward g P w
    return { p.2 with m2 := w, st := .smooth }
  else return p.2)

end Jaxions.SmoothF
