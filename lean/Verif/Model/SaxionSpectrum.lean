import Verif.Model.AxionSpectrum
import Verif.Model.MassRate

/-
Saxion spectra, the spectrum of the energy and the matrix of the masks.

  lib/spectrum/spectrum.cpp:1749-2037  SpecBin::nSRun
  lib/spectrum/spectrum.cpp:746-818    SpecBin::pRun
  lib/spectrum/spectrum.cpp:3799-3883  SpecBin::matrixbuilder
  lib/meas/measa.cpp:645-762           what is stored

Grids, arrays and sweeps are those of `Verif/Model/AxionSpectrum.lean`; the same simplifications.
A map of strings is taken to be there for `SPMASK_REDO`; without it both `nRun` and `nSRun` return at
once (spectrum.cpp:1864-1869) and the bins keep what an earlier mask left.
-/

namespace Jaxions.AxSpec

open Complex

/-- `Rscale`, `Rpp` (which is R', include/spectrum/spectrum.h:117) and `zaskar`. -/
structure SPar where
  R : ℝ
  R' : ℝ
  shift : ℝ

/-- `vS`, spectrum.cpp:1947-1949.  At a zero of the field the code divides zero by zero. -/
noncomputable def radial (P : SPar) (w u : ℂ) : Val :=
  if w = 0 then none
  else some ((w.re * u.re + w.im * u.im) / ‖w‖ / P.R - ‖w‖ * P.R' / P.R / P.R)

/-- Body of the loop of `nSRun`, spectrum.cpp:1944-1976. -/
noncomputable def stepS (g : Grid) (k : Mask) (P : SPar) (M : Mem) (t : M2) (p : Site) : Option M2 := do
  let c ← M.m (g.ma (p.1 + g.L * p.2.1 + g.S * (p.2.2 + 1)))
  let u ← M.v (g.bare p)
  let w := c - P.shift
  match k with
  | .flat => do
    let t ← t.write (g.pad p) ((radial P w u).map fun r => P.R * r)
    t.write (g.v3 + g.pad p) (some (‖w‖ - P.R))
  | .redo | .ball => do
    let h ← M.sd (g.bare p)
    let t ← t.write (g.pad p) (if h then some 0 else (radial P w u).map fun r => P.R * r)
    t.write (g.v3 + g.pad p) (some (if h then 0 else ‖w‖ - P.R))
  | .vil => do
    let t ← t.write (g.pad p) ((radial P w u).map fun r => ‖w‖ * r)
    t.write (g.v3 + g.pad p) (some (‖w‖ / P.R * (‖w‖ - P.R)))
  | .vil2 => do
    let t ← t.write (g.pad p) ((radial P w u).map fun r => ‖w‖ ^ 2 / P.R * r)
    t.write (g.v3 + g.pad p) (some ((‖w‖ / P.R) ^ 2 * (‖w‖ - P.R)))
  | _ => some t

/-- The masks `nSRun` runs with, spectrum.cpp:1751-1850; for the others it reports an error. -/
def Mask.sax : Mask → Bool
  | .flat | .vil | .vil2 | .redo | .ball => true
  | _ => false

/-- What bins are filled from: axion runs, or the saxion's velocity, gradient and potential. -/
inductive Source
  | ax (f : Filled) | KS | GS | VS
  deriving DecidableEq

/-- The bins before the saxion run: those of the last axion run, measa.cpp:649, 695. -/
noncomputable def before (n : Nrt) (mass2 : ℝ) (b : Bin) : List Source :=
  let one : Nrt := ⟨n.K, n.G, n.V, n.S, false, false, false, false⟩
  let two : Nrt := ⟨false, false, false, false, n.CK, n.CG, n.CV, n.CS⟩
  let last := if n.CK ∨ n.CG ∨ n.CV ∨ n.CS then two else one
  ((fills last mass2).filter fun f => f.bin = b).map .ax

/-- The bins after `nSRun`, spectrum.cpp:1894-1896, 1988-2031. -/
noncomputable def after (n : Nrt) (mass2 : ℝ) (k : Mask) (b : Bin) : List Source :=
  if k.sax then
    match b with
    | .K => if n.K then [.KS] else []
    | .G => if n.G ∨ n.V then [.GS] else []
    | .V => if n.G ∨ n.V then [.VS] else []
    | .Vnl => before n mass2 .Vnl
  else before n mass2 b

inductive SData
  | sKS | sGS | sVS
  deriving DecidableEq

/-- measa.cpp:735-762. -/
noncomputable def storedS (n : Nrt) (mass2 : ℝ) (k : Mask) : List (SData × List Source) :=
  (if n.K then [(.sKS, after n mass2 k .K)] else []) ++
  (if n.G then [(.sGS, after n mass2 k .G)] else []) ++
  (if n.V then [(.sVS, after n mass2 k .V)] else [])

/-! ### Spectrum of the energy -/

/-- The loop of spectrum.cpp:776-780, `sl` downwards; `src` is where `mA` starts. -/
def spread (g : Grid) (src : ℕ) (t : M2) : Option M2 :=
  (List.range (g.L * g.Lz)).foldlM
    (fun t i => memmove (fun j => (g.L * g.Lz - 1 - i) * (g.L + 2) + j)
      (fun j => src + (g.L * g.Lz - 1 - i) * g.L + j) g.L t) t

/-- Contents of a half of `m2`. -/
inductive St
  | energy | energyFFT | other
  deriving DecidableEq

/-- What `pRun` does, spectrum.cpp:761-815: nothing, bin the amplitudes that are there, or spread the
energy from a place, transform and bin. -/
inductive PDo
  | nothing | bin | fromPlace (src : ℕ)
  deriving DecidableEq

def prun (g : Grid) (m2 half : St) : PDo × St :=
  if m2 ≠ .energy ∧ m2 ≠ .energyFFT ∧ half ≠ .energy then (.nothing, m2)
  else if m2 = .energyFFT then (.bin, .energyFFT)
  else (.fromPlace (if m2 = .energy then 0 else g.v3), .energyFFT)

/-! ### Matrix of a mask -/

/-- `J`, spectrum.cpp:3843-3863; `nn` is `binNN`, `n` the number of bins. -/
noncomputable def coupling (vol : ℝ) (nn : ℕ → ℝ) (n i j k : ℕ) : Option ℝ :=
  if k = 0 then
    if j = 0 then some (if i = 0 then vol else 0)
    else if i = j then Cosmo.quot vol (nn i) else some 0
  else if j = 0 then
    if i = k then Cosmo.quot vol (nn k) else some 0
  else if i = 0 then
    if j = k then Cosmo.quot vol (nn j) else some 0
  else if ((j : ℤ) - k).natAbs ≤ i ∧ i ≤ j + k ∧ i < n then
    Cosmo.quot (vol / (8 * Real.pi)) (i * j * k)
  else some 0

/-- `sbuf.at(indM)`, spectrum.cpp:3839-3866; `P` is `binP`. -/
noncomputable def entry (vol : ℝ) (nn P : ℕ → ℝ) (n i j : ℕ) : Option ℝ :=
  (List.range n).foldlM (fun s k => (coupling vol nn n i j k).map fun J => s + 1 / vol * P k * J) 0

/-- `nbinsPad`, spectrum.cpp:3818. -/
def nbinsPad (n ranks : ℕ) : ℕ := n / ranks + 1

/-- What rank `r` sends, and what rank 0 has after `MPI_Gather`, spectrum.cpp:3837-3875. -/
noncomputable def sent (vol : ℝ) (nn P : ℕ → ℝ) (n ranks r a : ℕ) : Option ℝ :=
  entry vol nn P n (nbinsPad n ranks * r + a / n) (a % n)

noncomputable def gathered (vol : ℝ) (nn P : ℕ → ℝ) (n ranks a : ℕ) : Option ℝ :=
  sent vol nn P n ranks (a / (nbinsPad n ranks * n)) (a % (nbinsPad n ranks * n))

end Jaxions.AxSpec
