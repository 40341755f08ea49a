import Verif.Basic.Heap
import Verif.Model.GadgetVoid
import Mathlib.Data.Nat.Notation
import Mathlib.Data.Complex.Basic
import Mathlib.Analysis.Complex.Norm
import Mathlib.Analysis.SpecialFunctions.Sqrt
import Mathlib.Algebra.Order.Floor.Semiring

/-
The arrays whose power spectra are stored as axion spectra.

  lib/utils/kgvops.cpp:24-148      stringcorre
  lib/utils/kgvops.cpp:181-301     buildc_k   (velocity)
  lib/utils/kgvops.cpp:366-412     buildc_k   choice of the variant
  lib/utils/kgvops.cpp:422-525     buildc_gx  (gradient along x)
  lib/utils/kgvops.cpp:635-744     buildc_gyz (gradients along y and z)
  lib/utils/kgvops.cpp:849-945     buildc_v   (potential)
  lib/spectrum/spectrum.cpp:22-38  fillCosTable
  lib/spectrum/spectrum.cpp:1002-1560  SpecBin::nRun, complex field

One rank.  Its slab of the complex field has `Lz` slices of `L × L` sites and `Ng` ghost
slices at each end, which the preceding exchange has filled (C09).  Arithmetic is exact.
A stored number is `none` when the code divides zero by zero; a run is `none` when it
reads or writes outside an array.
-/

namespace Jaxions.AxSpec

open Complex

/-- A stored number: `none` is not a number. -/
abbrev Val := Option ℝ

/-- The array `m2`, twice `v3` cells. -/
abbrev M2 := Heap ℕ Val

/-- `SpectrumMaskType`, include/enum-field.h:601-614.  `other` stands for the three axiton masks. -/
inductive Mask
  | flat | vil | vil2 | redo | gaus | diff | ball | saxi | other
  deriving DecidableEq

/-- lib/utils/kgvops.cpp:369-410 (and 585-626, 802-843, 986-1006): which variant of the
template a mask selects.  `default:` shares the branch of `SPMASK_FLAT`. -/
def Mask.built : Mask → Mask
  | .redo | .ball => .redo
  | .gaus | .diff => .diff
  | .vil => .vil
  | .vil2 => .vil2
  | _ => .flat

/-- Side, depth of the slab, ghost slices. -/
structure Grid where
  L : ℕ
  Lz : ℕ
  Ng : ℕ

/-- Sites `(x, y, z)` of the slab. -/
abbrev Site := ℕ × ℕ × ℕ

namespace Grid
variable (g : Grid)

/-- `Surf()`. -/
def S : ℕ := g.L * g.L
/-- `eSize()`, the number `v3` in `m2half()`, include/scalar/scalarField.h:109. -/
def v3 : ℕ := g.S * (g.Lz + 2 * g.Ng)
/-- `odx`, kgvops.cpp:221-230. -/
def pad (p : Site) : ℕ := p.1 + (g.L + 2) * p.2.1 + g.L * (g.L + 2) * p.2.2
/-- `idx-LyLy`, kgvops.cpp:222-230. -/
def bare (p : Site) : ℕ := p.1 + g.L * p.2.1 + g.S * p.2.2
/-- Index from `ma`, which starts at the last ghost slice, kgvops.cpp:208. -/
def ma (i : ℕ) : ℕ := (g.Ng - 1) * g.S + i

end Grid

/-- The field at a site and at its six neighbours. -/
structure Near where
  c : ℂ
  xp : ℂ
  xm : ℂ
  yp : ℂ
  ym : ℂ
  zp : ℂ
  zm : ℂ

/-- Reading them, kgvops.cpp:221-254.  The code leaves out the reads it does not need. -/
def near (g : Grid) (m : Heap ℕ ℂ) (p : Site) : Option Near := do
  let yi := g.L * p.2.1
  let zi := g.S * (p.2.2 + 1)
  let c ← m (g.ma (p.1 + yi + zi))
  let xp ← m (g.ma ((p.1 + 1) % g.L + yi + zi))
  let xm ← m (g.ma ((g.L + p.1 - 1) % g.L + yi + zi))
  let yp ← m (g.ma (p.1 + g.L * ((p.2.1 + 1) % g.L) + zi))
  let ym ← m (g.ma (p.1 + g.L * ((g.L + p.2.1 - 1) % g.L) + zi))
  let zp ← m (g.ma (p.1 + yi + g.S * (p.2.2 + 2)))
  let zm ← m (g.ma (p.1 + yi + g.S * p.2.2))
  some ⟨c, xp, xm, yp, ym, zp, zm⟩

/-- `(da[0]*da[3]-da[1]*da[2])/(da[0]*da[0]+da[1]*da[1])`, kgvops.cpp:262. -/
noncomputable def ratio (w u : ℂ) : Val :=
  if w.re * w.re + w.im * w.im = 0 then none
  else some ((w.re * u.im - w.im * u.re) / (w.re * w.re + w.im * w.im))

/-- `N_C`, `N_E`, `N_B`, `N_A`, `N_CE`, `N_CEB`, include/spectrum/LLUTs.h:6-12. -/
def nC : ℕ := 21
def nE : ℕ := 6
def nB : ℕ := 26
def nA : ℕ := 26
def nCE : ℕ := nC * nE
def nCEB : ℕ := nCE * nB

/-- Sixteen entries of a table and the interpolation between them, kgvops.cpp:78-95. -/
noncomputable def interp (T : ℕ → Option ℝ) (i0 : ℕ) (dA dB dE dC : ℝ) : Option ℝ := do
  let a0 ← T i0
  let a1 ← T (i0 + 1)
  let b0 ← T (i0 + nC)
  let b1 ← T (i0 + nC + 1)
  let c0 ← T (i0 + nE)
  let c1 ← T (i0 + nE + 1)
  let d0 ← T (i0 + nE + nC)
  let d1 ← T (i0 + nE + nC + 1)
  let e0 ← T (i0 + nB)
  let e1 ← T (i0 + nB + 1)
  let f0 ← T (i0 + nB + nC)
  let f1 ← T (i0 + nB + nC + 1)
  let g0 ← T (i0 + nB + nE)
  let g1 ← T (i0 + nB + nE + 1)
  let h0 ← T (i0 + nB + nE + nC)
  let h1 ← T (i0 + nB + nE + nC + 1)
  let L000 := a0 * (1 - dC) + a1 * dC
  let L001 := b0 * (1 - dC) + b1 * dC
  let L010 := c0 * (1 - dC) + c1 * dC
  let L011 := d0 * (1 - dC) + d1 * dC
  let L100 := e0 * (1 - dC) + e1 * dC
  let L101 := f0 * (1 - dC) + f1 * dC
  let L110 := g0 * (1 - dC) + g1 * dC
  let L111 := h0 * (1 - dC) + h1 * dC
  let M000 := L000 * (1 - dE) + L001 * dE
  let M010 := L010 * (1 - dE) + L011 * dE
  let M100 := L100 * (1 - dE) + L101 * dE
  let M110 := L110 * (1 - dE) + L111 * dE
  let N000 := M000 * (1 - dB) + M010 * dB
  let N100 := M100 * (1 - dB) + M110 * dB
  some (N000 * (1 - dA) + N100 * dA)

/-- Position in the table, kgvops.cpp:62-71: the four coordinates in units of the spacing. -/
structure Coord where
  A : ℝ
  B : ℝ
  E : ℝ
  C : ℝ

noncomputable def Coord.i0 (q : Coord) : ℕ :=
  ⌊q.C⌋₊ + nC * ⌊q.E⌋₊ + nCE * ⌊q.B⌋₊ + nCEB * ⌊q.A⌋₊

noncomputable def lookup (T : ℕ → Option ℝ) (q : Coord) : Option ℝ :=
  interp T q.i0 (q.A - ⌊q.A⌋₊) (q.B - ⌊q.B⌋₊) (q.E - ⌊q.E⌋₊) (q.C - ⌊q.C⌋₊)

/-- The two tables `LUTc`, `LUTs`. -/
structure Tables where
  c : ℕ → Option ℝ
  s : ℕ → Option ℝ

/-- Three numbers. -/
abbrev V3 := ℝ × ℝ × ℝ

noncomputable def len (a : V3) : ℝ := √(a.1 * a.1 + a.2.1 * a.2.1 + a.2.2 * a.2.2)

/-- What `stringcorre` computes before the table, kgvops.cpp:39-54.  `A`, `B` after the
changes of sign, `e`, `cb`, and the signs `s1`, `s2`. -/
structure Prep where
  A : ℝ
  B : ℝ
  e : ℝ
  cb : ℝ
  s1 : ℝ
  s2 : ℝ

noncomputable def prep (w : ℂ) (gr gi : V3) : Prep :=
  let ma := len gr
  let mb := len gi
  let e := if ma < mb then ma / mb else mb / ma
  let cb := (gr.1 * gi.1 + gr.2.1 * gi.2.1 + gr.2.2 * gi.2.2) / (ma * mb)
  let A := if ma < mb then w.im / mb else w.re / ma
  let B := if ma < mb then w.re / mb else w.im / ma
  let A' := if A < 0 then -A else A
  let B' := if A < 0 then -B else B
  let s := if A < 0 then (-1 : ℝ) else 1
  ⟨A', if B' < 0 then -B' else B', e, if B' < 0 then -cb else cb, s, if B' < 0 then -s else s⟩

noncomputable def Prep.coord (q : Prep) : Coord :=
  ⟨q.A * (nA - 1) / 5, q.B * (nB - 1) / 5, q.e * (nE - 1), (q.cb + 1) * (nC - 1) / 2⟩

/-- `stringcorre` on one derivative `u`, kgvops.cpp:39-147.  If a gradient vanishes, `e` or
`cb` is not a number and the comparison of line 55 fails. -/
noncomputable def stringcorre (T : Tables) (w : ℂ) (gr gi : V3) (u : ℂ) : Option Val :=
  if len gr = 0 ∨ len gi = 0 then some (ratio w u)
  else
    let q := prep w gr gi
    if q.A ≤ 5 ∧ q.B ≤ 5 ∧ q.e ≤ 1 ∧ q.cb ≤ 1 ∧ -1 ≤ q.cb then do
      let lc ← lookup T.c q.coord
      let ls ← lookup T.s q.coord
      some (some (if len gr < len gi then (q.s2 * ls * u.im - q.s1 * lc * u.re) / len gi
        else (q.s1 * lc * u.im - q.s2 * ls * u.re) / len gr))
    else some (ratio w u)

/-- The premultiplied gradients `da[4..6]` and `da[7..9]`, kgvops.cpp:239-254. -/
def gradRe (pre : ℝ) (n : Near) : V3 :=
  (pre * (n.xp.re - n.xm.re), pre * (n.yp.re - n.ym.re), pre * (n.zp.re - n.zm.re))

def gradIm (pre : ℝ) (n : Near) : V3 :=
  (pre * (n.xp.im - n.xm.im), pre * (n.yp.im - n.ym.im), pre * (n.zp.im - n.zm.im))

/-- One of the six comparisons that set `skipLUT`, kgvops.cpp:240-256. -/
def skipLUT (w : ℂ) (gr gi : V3) : Prop :=
  |w.re| > |5 * gr.1| ∨ |w.im| > |5 * gi.1| ∨ |w.re| > |5 * gr.2.1| ∨ |w.im| > |5 * gi.2.1| ∨
    |w.re| > |5 * gr.2.2| ∨ |w.im| > |5 * gi.2.2|

open Classical in
/-- `vA`, kgvops.cpp:238-262: with tables (`LUTcorr`) or without. -/
noncomputable def rate (lut : Option Tables) (pre : ℝ) (w : ℂ) (n : Near) (u : ℂ) : Option Val :=
  match lut with
  | none => some (ratio w u)
  | some T =>
    if skipLUT w (gradRe pre n) (gradIm pre n) then some (ratio w u)
    else stringcorre T w (gradRe pre n) (gradIm pre n) u

/-- Numbers of the run: `Rscale`, `zaskar`, `Delta()`, `0.5*SIGMALUT`. -/
structure Par where
  R : ℝ
  shift : ℝ
  delta : ℝ
  pre : ℝ
  lut : Option Tables

/-- Field, velocity and string map of the rank. -/
structure Mem where
  m : Heap ℕ ℂ
  v : Heap ℕ ℂ
  sd : Heap ℕ Bool

/-- The number stored for a phase derivative `r`, kgvops.cpp:270-290, 495-515 and 707-733;
`f` is 1 for the velocity and `1/Delta()/2` for the gradients. -/
noncomputable def weigh (g : Grid) (k : Mask) (R f : ℝ) (w : ℂ) (M : Mem) (t : M2) (p : Site)
    (r : Val) : Option Val :=
  match k with
  | .redo => do
    let h ← M.sd (g.bare p)
    some (if h then some 0 else r.map fun r => R * f * r)
  | .diff => do
    let q ← t (g.v3 + g.bare p)
    some (q.bind fun q => r.map fun r => q * (R * f) * r)
  | .vil => some (r.map fun r => f * √(w.re * w.re + w.im * w.im) * r)
  | .vil2 => some (r.map fun r => f * (w.re * w.re + w.im * w.im) / R * r)
  | _ => some (r.map fun r => R * f * r)

/-- Body of the loop of `buildc_k`, kgvops.cpp:230-296, padded. -/
noncomputable def stepK (g : Grid) (k : Mask) (P : Par) (M : Mem) (t : M2) (p : Site) : Option M2 := do
  let n ← near g M.m p
  let u ← M.v (g.bare p)
  let r ← rate P.lut P.pre (n.c - P.shift) n u
  let x ← weigh g k.built P.R 1 (n.c - P.shift) M t p r
  t.write (g.pad p) x

/-- Body of the loop of `buildc_gx`, kgvops.cpp:456-521. -/
noncomputable def stepGX (g : Grid) (k : Mask) (P : Par) (M : Mem) (t : M2) (p : Site) : Option M2 := do
  let n ← near g M.m p
  let r ← rate P.lut P.pre (n.c - P.shift) n (n.xp - n.xm)
  let x ← weigh g k.built P.R (1 / P.delta / 2) (n.c - P.shift) M t p r
  t.write (g.pad p) x

/-- Where `buildc_gyz` puts the gradient along z: bare for the masks kept in `m2half`,
kgvops.cpp:720-725, else padded. -/
def Grid.zcell (g : Grid) (k : Mask) (p : Site) : ℕ :=
  g.v3 + if k.built = .diff then g.bare p else g.pad p

/-- Body of the loop of `buildc_gyz`, kgvops.cpp:669-739. -/
noncomputable def stepGYZ (g : Grid) (k : Mask) (P : Par) (M : Mem) (t : M2) (p : Site) : Option M2 := do
  let n ← near g M.m p
  let ry ← rate P.lut P.pre (n.c - P.shift) n (n.yp - n.ym)
  let rz ← rate P.lut P.pre (n.c - P.shift) n (n.zp - n.zm)
  let y ← weigh g k.built P.R (1 / P.delta / 2) (n.c - P.shift) M t p ry
  let z ← weigh g k.built P.R (1 / P.delta / 2) (n.c - P.shift) M t p rz
  let t ← t.write (g.pad p) y
  t.write (g.zcell k p) z

/-- `mskk` of `buildc_v`, kgvops.cpp:931-940; 1 for the other masks. -/
noncomputable def vilWeight (k : Mask) (R : ℝ) (w : ℂ) : ℝ :=
  match k with
  | .vil => √(w.re * w.re + w.im * w.im) / R
  | .vil2 => (w.re * w.re + w.im * w.im) / R / R
  | _ => 1

/-- Body of the loop of `buildc_v`, kgvops.cpp:908-941.  It reads the field from `mStart()`. -/
noncomputable def stepV (g : Grid) (k : Mask) (P : Par) (M : Mem) (t : M2) (p : Site) : Option M2 := do
  let c ← M.m (g.Ng * g.S + g.bare p)
  let w := c - P.shift
  let nl := vilWeight k.built P.R w * 2 * P.R * Real.sin (0.5 * Gadget.atan2 w.im w.re)
  let li := vilWeight k.built P.R w * P.R * Gadget.atan2 w.re w.im
  match k.built with
  | .redo => do
    let h ← M.sd (g.bare p)
    let t ← t.write (g.pad p) (some (if h then 0 else nl))
    t.write (g.v3 + g.pad p) (some (if h then 0 else li))
  | .diff => do
    let q ← t (g.v3 + g.bare p)
    t.write (g.pad p) (q.map fun q => q * 2 * P.R * Real.sin (0.5 * Gadget.atan2 w.im w.re))
  | _ => do
    let t ← t.write (g.pad p) (some nl)
    t.write (g.v3 + g.pad p) (some li)

/-- `std::imag((a-c)/(a+c-2s))` times two, spectrum.cpp:1396. -/
noncomputable def slope (s a c : ℂ) : Val :=
  if a + c - s - s = 0 then none else some (2 * ((a - c) / (a + c - s - s)).im)

/-- Body of the x loop of NRUN_CG, spectrum.cpp:1387-1421.  A mask without a case writes
nothing. -/
noncomputable def stepCGX (g : Grid) (k : Mask) (P : Par) (M : Mem) (t : M2) (p : Site) : Option M2 := do
  let n ← near g M.m p
  match k with
  | .ball | .other => some t
  | .saxi => do
    let u ← M.v (g.bare p)
    let t ← t.write (g.pad p) (some u.re)
    t.write (g.v3 + g.pad p) (some u.im)
  | _ => do
    let x ← weigh g k.built P.R (1 / P.delta) (n.c - P.shift) M t p (slope P.shift n.xp n.c)
    t.write (g.pad p) x

/-- Body of the y and z loop of NRUN_CG, spectrum.cpp:1460-1508. -/
noncomputable def stepCGYZ (g : Grid) (k : Mask) (P : Par) (M : Mem) (t : M2) (p : Site) : Option M2 := do
  let n ← near g M.m p
  match k with
  | .ball | .other => some t
  | .saxi => do
    let u ← M.m (g.ma (g.bare p))
    let t ← t.write (g.pad p) (some u.re)
    t.write (g.v3 + g.pad p) (some u.im)
  | _ => do
    let y ← weigh g k.built P.R (1 / P.delta) (n.c - P.shift) M t p (slope P.shift n.yp n.c)
    let z ← weigh g k.built P.R (1 / P.delta) (n.c - P.shift) M t p (slope P.shift n.zp n.c)
    let t ← t.write (g.pad p) y
    t.write (g.zcell k p) z

/-- Body of the loop of NRUN_CV, spectrum.cpp:1199-1243: `zi = Ly*Ly*iz`, from `ma`. -/
noncomputable def stepCV (g : Grid) (k : Mask) (P : Par) (mass : ℝ) (M : Mem) (t : M2) (p : Site) :
    Option M2 := do
  let c ← M.m (g.ma (g.bare p))
  let w := c - P.shift
  match k with
  | .flat => t.write (g.pad p) (some (mass * P.R * arg w))
  | .redo => do
    let h ← M.sd (g.bare p)
    t.write (g.pad p) (some (if h then 0 else mass * P.R * arg w))
  | .vil => t.write (g.pad p) (some (mass * ‖w‖ * arg w))
  | .vil2 => t.write (g.pad p) (some (mass * (‖w‖ ^ 2 * (1 / P.R)) * arg w))
  | _ => some t

/-- The threads share the rows among them: the sites in some order. -/
noncomputable def sweep (step : M2 → Site → Option M2) (order : List Site) (t : M2) : Option M2 :=
  order.foldlM step t

/-- `memmove(m2C, m2Ch, Precision()*eSize())`, spectrum.cpp:1166-1172, 1312-1318. -/
def lower (g : Grid) (t : M2) : Option M2 :=
  memmove id (fun i => g.v3 + i) g.v3 t

/-- The rows of the loop of spectrum.cpp:1329-1333, `sl` from 1. -/
def squeeze {α : Type} (g : Grid) (t : Heap ℕ α) : Option (Heap ℕ α) :=
  (List.range (g.L * g.Lz - 1)).foldlM
    (fun t i => memmove (fun j => (i + 1) * g.L + j) (fun j => (i + 1) * (g.L + 2) + j) g.L t) t

/-- The array of the third gradient before its transform, spectrum.cpp:1306-1336. -/
def third (g : Grid) (k : Mask) (t : M2) : Option M2 := do
  let t ← lower g t
  if k = .gaus ∨ k = .diff then squeeze g t else some t

/-- `cosTable2[k]`, spectrum.cpp:31-35. -/
noncomputable def cosTable2 (L k : ℕ) : ℝ :=
  if k = 0 then 1
  else 2 * (1 - Real.cos (Real.pi * (2 * k) * (1 / L))) / (Real.pi * (2 * k) * (1 / L)) ^ 2

/-- The bins a run of the complex field fills, spectrum.cpp:1096-1570, and from what. -/
inductive Filled
  | K (lut : Bool) | G (lut : Bool) | V | Vnl | VV
  deriving DecidableEq

/-- `nRunType`, include/enum-field.h:618-629. -/
structure Nrt where
  K : Bool
  G : Bool
  V : Bool
  S : Bool
  CK : Bool
  CG : Bool
  CV : Bool
  CS : Bool

/-- spectrum.cpp:1096-1570, in order. -/
noncomputable def fills (n : Nrt) (mass2 : ℝ) : List Filled :=
  (if n.K then [.K true] else []) ++ (if n.CK then [.K false] else []) ++
  (if n.V = true ∧ 0 < mass2 then [.Vnl, .V] else []) ++
  (if n.CV = true ∧ 0 < mass2 then [.VV] else []) ++
  (if n.G then [.G true] else []) ++ (if n.CG then [.G false] else [])

/-- Data sets of measa.cpp:645-729. -/
inductive Dataset
  | sK | sG | sV | sS | sCK | sCG | sCV | sCS
  deriving DecidableEq

/-- The bins a data set is copied from. -/
inductive Bin
  | K | G | V | Vnl
  deriving DecidableEq

def Dataset.bin : Dataset → Bin
  | .sK | .sCK => .K
  | .sG | .sCG => .G
  | .sV | .sCV => .V
  | .sS | .sCS => .Vnl

def Filled.bin : Filled → Bin
  | .K _ => .K
  | .G _ => .G
  | .V | .VV => .V
  | .Vnl => .Vnl

/-- measa.cpp:645-729: two runs, after each the data sets of the run; each with what its
bins were filled from in that run. -/
noncomputable def stored (n : Nrt) (mass2 : ℝ) : List (Dataset × List Filled) :=
  let one : Nrt := ⟨n.K, n.G, n.V, n.S, false, false, false, false⟩
  let two : Nrt := ⟨false, false, false, false, n.CK, n.CG, n.CV, n.CS⟩
  let from_ (r : Nrt) (d : Dataset) := (d, (fills r mass2).filter fun f => f.bin = d.bin)
  (if n.K then [from_ one .sK] else []) ++ (if n.G then [from_ one .sG] else []) ++
  (if n.V = true ∧ 0 < mass2 then [from_ one .sV] else []) ++
  (if n.S = true ∧ 0 < mass2 then [from_ one .sS] else []) ++
  (if n.CK then [from_ two .sCK] else []) ++ (if n.CG then [from_ two .sCG] else []) ++
  (if n.CV = true ∧ 0 < mass2 then [from_ two .sCV] else []) ++
  (if n.CS = true ∧ 0 < mass2 then [from_ two .sCS] else [])

end Jaxions.AxSpec
