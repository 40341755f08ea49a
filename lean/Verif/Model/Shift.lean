import Verif.Model.SaxKernel
import Mathlib.Analysis.SpecialFunctions.Complex.Arg
import Mathlib.Analysis.SpecialFunctions.Artanh
/-
The place of the vacuum of the complex field.

Source: lib/scalar/scalarField.cpp:1408-1413 and 1469-1475 (`SaxionShift`), 1415-1449 and 1477-1511
(`Saskia`), include/scalar/scalarField.h:69-71 (`rsvPQ2`).  Numbers are real, without rounding.
-/

namespace Jaxions.Shift
open Jaxions.SaxKernel (Pq Qcd)

/-- `atan2`, `atanh` of the C library. -/
noncomputable def atan2 (y x : ℝ) : ℝ := Complex.arg ⟨x, y⟩
noncomputable def atanh (x : ℝ) : ℝ := Real.artanh x

noncomputable section

/-- `SaxionShift` as a function of `alpha`, scalarField.cpp:1410-1412, 1471-1474. -/
def saxionShift (alpha : ℝ) : ℝ :=
  let discr := 4 / 3 - 9 * alpha * alpha
  if discr > 0 then 2 / √3 * Real.cos (atan2 (√discr) (3 * alpha) / 3) - 1
  else 2 / √3 * Real.cosh (atanh (√(-discr) / (3 * alpha)) / 3) - 1

/-- `rsvPQ2`, scalarField.h:69-71. -/
def rsvPQ2 (z : ℝ) : ℝ :=
  let z2 := z * z
  let z3 := z2 * z
  let z4 := z2 * z2
  (0.125 * z + 0.30676113886283973 * z2 + 0.20762392505082639 * z3 + 0.03303541390146716 * z4) /
    (1 + 3.0165891109027165 * z + 2.857822775289389 * z2 + 0.8969613324856603 * z3 +
      0.05640260585369341 * z4)

/-- What `Saskia` asks the background for: the axion mass squared and the coupling, as functions of
time. -/
structure Bck where
  mA2 : ℝ → ℝ
  lam : ℝ → ℝ

/-- The body of `Saskia()` with `alpha` of the time `z` of the field, 1419-1448. -/
def saskia (b : Bck) (pq : Pq) (qcd : Qcd) (z : ℝ) : ℝ :=
  match qcd with
  | .qcd0 => 0
  | .qcdV => 0
  | .qcd1 =>
    match pq with
    | .pq1 => saxionShift (b.mA2 z / b.lam z)
    | .pq3 => saxionShift (b.mA2 z / b.lam z)
    | .pq2 => rsvPQ2 (b.mA2 z / b.lam z)
  | .qcd2 => 0
  | .qcdL => 0
  | .qcdC => 0

/-- `Saskia(ct)`, 1477-1511: the same lines, with `SaxionShift()` and `*z`; `ct` is not used. -/
def saskiaAt (b : Bck) (pq : Pq) (qcd : Qcd) (z _ct : ℝ) : ℝ :=
  match qcd with
  | .qcd0 => 0
  | .qcdV => 0
  | .qcd1 =>
    match pq with
    | .pq1 => saxionShift (b.mA2 z / b.lam z)
    | .pq3 => saxionShift (b.mA2 z / b.lam z)
    | .pq2 => rsvPQ2 (b.mA2 z / b.lam z)
  | .qcd2 => 0
  | .qcdL => 0
  | .qcdC => 0

end

end Jaxions.Shift
