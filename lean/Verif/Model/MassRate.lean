import Verif.Model.Cosmos
/-
Rates of change of the background and time integrals of the axion mass: /repo/lib/cosmos/cosmos.cpp:192-206,
262-325 and /repo/lib/scalar/scalarField.cpp:1219-1328, over the real numbers.

A local variable that is never set, a function that ends without `return` and a division by zero give
no number.  `sRpp` is a spline read from a file.
-/
namespace Jaxions.Cosmo

/-- A quotient; dividing by zero gives no number. -/
noncomputable def quot (x y : ℝ) : Option ℝ := open Classical in if y = 0 then none else some (x / y)

/-- `Cosmos::Rp`, cosmos.cpp:192-206. -/
noncomputable def Cosmos.Rp (c : Cosmos) (ct : ℝ) : Option ℝ :=
  if c.ueCosm then quot (c.R (ct + 1e-3) - c.R (ct - 1e-3)) (2e-3 * c.R ct)
  else quot c.frw ct

open Classical in
/-- `Cosmos::DAxionMass2Dct`, cosmos.cpp:262-292. -/
noncomputable def Cosmos.dAxionMass2Dct (c : Cosmos) (ct : ℝ) : Option ℝ :=
  let RNow := c.R ct
  if c.ueCosm then some ((c.schi (ct + 1e-6) - c.schi (ct - 1e-6)) / 2e-6)
  else if c.zThRes ≤ c.zRestore then
    let d0 : Option ℝ := none
    let d1 := if RNow < c.zThRes then
        (c.axionMass2 ct).bind fun m2 => quot (c.nQcd * c.frw * m2) ct else d0
    let d2 := if RNow ≥ c.zThRes ∧ RNow ≤ c.zRestore then some 0 else d1
    if RNow > c.zRestore then
      (c.axionMass2 ct).bind fun m2 => quot (c.nQcdr * c.frw * m2) ct else d2
  else
    if RNow < c.zThRes then (c.axionMass2 ct).bind fun m2 => quot (c.nQcd * c.frw * m2) ct
    else some 0

open Classical in
/-- `Cosmos::DlogMARDlogct`, cosmos.cpp:295-327. -/
noncomputable def Cosmos.dlogMAR (c : Cosmos) (ct : ℝ) : Option ℝ :=
  if c.ueCosm then
    let e : ℝ := 1e-6
    quot (ct * Real.sqrt (c.schi (ct + e)) * c.R (ct + e) - Real.sqrt (c.schi (ct - e)) * c.R (ct - e))
      (2 * e * Real.sqrt (c.schi ct) * c.R ct)
  else
    let RNow := c.R ct
    if c.zThRes ≤ c.zRestore then
      let d0 : Option ℝ := none
      let d1 := if RNow < c.zThRes then some (c.frw * (c.nQcd / 2 + 1)) else d0
      let d2 := if RNow ≥ c.zThRes ∧ RNow ≤ c.zRestore then some c.frw else d1
      if RNow > c.zRestore then some (c.frw * (c.nQcdr / 2 + 1)) else d2
    else
      if RNow < c.zThRes then some (c.frw * (c.nQcd / 2 + 1)) else some c.frw

/-- `(pow(b, exponent)-pow(a, exponent))*indi3*indi3/(exponent)` (scalarField.cpp:1235). -/
noncomputable def piece (c : Cosmos) (e a b : ℝ) : Option ℝ :=
  quot ((b ^ e - a ^ e) * c.indi3 * c.indi3) e

/-- The two lines of each second integral (scalarField.cpp:1290-1291). -/
noncomputable def piece2 (c : Cosmos) (e a b : ℝ) : Option ℝ := do
  let x ← quot ((b ^ (e + 1) - a ^ (e + 1)) * c.indi3 * c.indi3) (e * (e + 1))
  let y ← quot (a ^ e * (b - a) * c.indi3 * c.indi3) e
  return x - y

open Classical in
/-- `Scalar::IAxionMassSqn`, scalarField.cpp:1221-1272. -/
noncomputable def Cosmos.iMass (c : Cosmos) (z0 z : ℝ) (nn : ℤ) : Option ℝ :=
  let e1 := c.frw * (c.nQcd + nn) + 1
  let e2 := c.frw * nn + 1
  if z > z0 then
    if z ≤ c.zThRes then piece c e1 z0 z
    else if z > c.zThRes ∧ z0 < c.zThRes then do
      let a ← piece c e1 z0 c.zThRes
      let b ← piece c e2 c.zThRes z
      return a + b
    else if z > c.zThRes ∧ z0 ≥ c.zThRes then piece c e2 z0 z
    else none
  else
    if z0 ≤ c.zThRes then piece c e1 z0 z
    else if z0 > c.zThRes ∧ z < c.zThRes then do
      let a ← piece c e2 z0 c.zThRes
      let b ← piece c e1 c.zThRes z
      return a + b
    else if z0 > c.zThRes ∧ z ≥ c.zThRes then piece c e2 z0 z
    else none

open Classical in
/-- `Scalar::IIAxionMassSqn`, scalarField.cpp:1276-1328. -/
noncomputable def Cosmos.iiMass (c : Cosmos) (z0 z : ℝ) (nn : ℤ) : Option ℝ :=
  let e1 := c.frw * (c.nQcd + nn) + 1
  let e2 := c.frw * nn + 1
  if z > z0 then
    if z ≤ c.zThRes then piece2 c e1 z0 z
    else if z > c.zThRes ∧ z0 < c.zThRes then do
      let a ← piece2 c e1 z0 c.zThRes
      let b ← piece2 c e2 c.zThRes z
      return a + b
    else if z > c.zThRes ∧ z0 ≥ c.zThRes then piece2 c e2 z0 z
    else none
  else
    if z0 ≤ c.zThRes then piece2 c e1 z0 z
    else if z0 > c.zThRes ∧ z < c.zThRes then do
      let a ← piece2 c e2 z0 c.zThRes
      let b ← piece2 c e1 c.zThRes z
      return a + b
    else if z > c.zThRes ∧ z0 ≥ c.zThRes then piece2 c e2 z0 z
    else none

end Jaxions.Cosmo
