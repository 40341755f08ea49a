import Mathlib.Analysis.SpecialFunctions.OrdinaryHypergeometric
import Mathlib.Analysis.SpecialFunctions.Log.Basic
import Mathlib.Analysis.SpecialFunctions.Sqrt
import Mathlib.Analysis.SpecialFunctions.Complex.Circle
import Verif.Model.Cosmos
/-
Model of the last stage of a run, `WKB` (/repo/lib/WKB/WKB.cpp), one mode at a time: the phase
table and what `doWKBinplace` does with a mode.  Arithmetic is exact over the real numbers;
`gsl_sf_hyperg_2F1` is the hypergeometric series of Mathlib.  A division by zero gives no number.
-/
namespace Jaxions.WKB

open Cosmo

open Classical in
/-- `con2F1` (WKB.cpp:43-52). -/
noncomputable def con2F1 (a b c x : ℝ) : ℝ := if |x| < 1 then ordinaryHypergeometric a b c x else 0

open Classical in
/-- `calculatePhiexact` (WKB.cpp:54-124). -/
noncomputable def phiExact (zIni zEnd k nqcd indi3 : ℝ) : ℝ :=
  if k = 0 then 0
  else if indi3 = 0 then k * (zEnd - zIni)
  else
    let k2 := k * k
    if nqcd = 0 then
      let mIni := indi3 * zIni
      let mEnd := indi3 * zEnd
      let wIni := Real.sqrt (k2 + mIni * mIni)
      let wEnd := Real.sqrt (k2 + mEnd * mEnd)
      0.5 * k * (Real.log ((mEnd + wEnd) / (mIni + wIni)) + mEnd / (wEnd + mEnd) -
        mIni / (wIni + mIni)) / indi3
    else
      let mIni := indi3 * zIni ^ (nqcd / 2 + 1)
      let mEnd := indi3 * zEnd ^ (nqcd / 2 + 1)
      let m2Ini := mIni * mIni
      let m2End := mEnd * mEnd
      let wIni := Real.sqrt (k2 + m2Ini)
      let wEnd := Real.sqrt (k2 + m2End)
      let v12 := k2 / (k2 + m2Ini)
      let v22 := k2 / (k2 + m2End)
      let phiBase1 := 2 * zIni / (4 + nqcd)
      let phiBase2 := 2 * zEnd / (4 + nqcd)
      let n2p1 := 1 + nqcd / 2
      let nn2 := 1 / (2 + nqcd) + 1
      phiBase2 * wEnd * v22 * (wEnd / (wEnd + mEnd) + n2p1 * con2F1 0.5 1 nn2 (1 - v22)) -
        phiBase1 * wIni * v12 * (wIni / (wIni + mIni) + n2p1 * con2F1 0.5 1 nn2 (1 - v12))

/-- `k0` (WKB.cpp:138). -/
noncomputable def k0 (c : Cosmos) : ℝ := 2 * Real.pi / c.lSize

/-- `k2Table[ik]` (WKB.cpp:133, 157, 171). -/
noncomputable def k2Table (c : Cosmos) (ik : ℕ) : ℝ :=
  if ik = 0 then 0 else (k0 c * ik) * (k0 c * ik)

open Classical in
/-- `superTable[ik]` filled by `buildlookuptable` (WKB.cpp:128-176). -/
noncomputable def superTable (c : Cosmos) (zIni zEnd : ℝ) (ik : ℕ) : ℝ :=
  if ik = 0 then 0
  else
    let k := k0 c * ik
    let zCri := c.zThRes
    let indi3aux := c.indi3 * zCri ^ (c.nQcd / 2)
    if zIni ≤ zCri ∧ zCri < zEnd then
      phiExact zIni zCri k c.nQcd c.indi3 + phiExact zCri zEnd k 0 indi3aux
    else if zCri ≤ zIni then phiExact zIni zEnd k 0 indi3aux
    else phiExact zIni zEnd k c.nQcd c.indi3

/-- `powMax` (WKB.cpp:195). -/
noncomputable def powMax (Ly Tz : ℕ) : ℕ :=
  ⌊Real.sqrt (2 * (Ly / 2 : ℕ) * (Ly / 2 : ℕ) + (Tz / 2 : ℕ) * (Tz / 2 : ℕ))⌋₊ + 1

/-- `Scalar::AxionMass(z)` (scalarField.cpp:1455-1458). -/
noncomputable def mass (c : Cosmos) (z : ℝ) : Option ℝ := (c.axionMass2 z).map Real.sqrt

open Classical in
/-- `nQcdI` and `nQcdE` (WKB.cpp:415-422). -/
noncomputable def nQcdI (c : Cosmos) (zIni : ℝ) : ℝ := if zIni ≥ c.zThRes then 0 else c.nQcd
open Classical in
noncomputable def nQcdE (c : Cosmos) (zEnd : ℝ) : ℝ := if zEnd > c.zThRes then 0 else c.nQcd

/-- The numbers common to all modes (WKB.cpp:424-450). -/
structure Pre where
  m2Ini : ℝ
  m2End : ℝ
  zBase1 : ℝ
  zBase2 : ℝ
  massphase : ℝ

open Classical in
/-- WKB.cpp:424-450. -/
noncomputable def prepare (c : Cosmos) (zIni zEnd : ℝ) : Option Pre := do
  let aI ← mass c zIni
  let aE ← mass c zEnd
  if zIni = 0 ∨ zEnd = 0 then none
  let mIni := aI * zIni
  let mEnd := aE * zEnd
  let m2Ini := mIni * mIni
  let m2End := mEnd * mEnd
  let massphaseE := 2 * zEnd / (4 + nQcdE c zEnd) * aE * zEnd
  let massphaseI := -2 * zIni / (4 + nQcdI c zIni) * aI * zIni
  let massphaseC ← if zIni < c.zThRes ∧ c.zThRes < zEnd then
      (mass c c.zThRes).map fun aC =>
        -2 * c.zThRes / (4 + nQcdE c zEnd) * aC * c.zThRes +
          2 * c.zThRes / (4 + nQcdI c zIni) * aC * c.zThRes
    else some 0
  return ⟨m2Ini, m2End, 0.25 * (nQcdI c zIni + 2) * (m2Ini / zIni),
    0.25 * (nQcdE c zEnd + 2) * (m2End / zEnd), massphaseE + massphaseI + massphaseC⟩

open Classical in
/-- What happens to the amplitudes of the field and of its derivative in a mode with `k2`
(WKB.cpp:492-533); `phase` is the value of the spline. -/
noncomputable def modeStep (p : Pre) (k2 phase : ℝ) (M D : ℂ) : Option (ℂ × ℂ) :=
  let w1 := Real.sqrt (k2 + p.m2Ini)
  let w2 := Real.sqrt (k2 + p.m2End)
  if w1 = 0 ∨ w2 = 0 then none
  else
    let zeta1 := p.zBase1 / (w1 * w1 * w1)
    let zeta2 := p.zBase2 / (w2 * w2 * w2)
    let ooI := Real.sqrt (w1 / w2)
    let pha := Complex.exp (Complex.I * phase) * Complex.exp (Complex.I * p.massphase)
    let D0 := D / (Complex.I * w1)
    let ap := 0.5 * (M * (1 - Complex.I * zeta1) + D0)
    let am := 0.5 * (M * (1 + Complex.I * zeta1) - D0)
    let ap := ap * (ooI * pha)
    let am := am * (ooI * starRingEnd ℂ pha)
    let M0 := ap + am
    let D0 := ap - am + Complex.I * zeta2 * M0
    some (M0, D0 * (Complex.I * w2))

/-- A mode from `zIni` to `zEnd` (WKB.cpp:400-533); `S` is the spline through the table. -/
noncomputable def evolve (c : Cosmos) (S : ℝ → ℝ) (zIni zEnd k2 : ℝ) (M D : ℂ) : Option (ℂ × ℂ) := do
  let p ← prepare c zIni zEnd
  modeStep p k2 (S k2) M D

end Jaxions.WKB
