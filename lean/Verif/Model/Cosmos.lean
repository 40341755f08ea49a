import Mathlib.Analysis.SpecialFunctions.Pow.Real
import Verif.Model.FieldType
/-
Background functions of lib/cosmos/cosmos.cpp and the automatic time step of
lib/scalar/scalarField.cpp, over the real numbers. `pow` is `Real.rpow`; they agree for positive
base, which is the only case used in the theorems (for a negative base `pow` is NaN).
-/
namespace Jaxions.Cosmo

/-- Potential for the radial mode, `pot & V_PQ` (include/enum-field.h). -/
inductive PQ where
  | pq1 | pq2 | pq3 | none
deriving DecidableEq

/-- Members of `Cosmos` (include/cosmos/cosmos.h:14-32) that enter. With `ueCosm` the scale factor
and the susceptibility are splines read from a file: arbitrary functions `sR`, `schi`. -/
structure Cosmos where
  lSize : ℝ
  lambda : ℝ
  lz2e : ℝ
  indi3 : ℝ
  nQcd : ℝ
  nQcdr : ℝ
  zThRes : ℝ
  zRestore : ℝ
  frw : ℝ
  grav : ℝ
  pq : PQ
  ueCosm : Bool
  sR : ℝ → ℝ
  schi : ℝ → ℝ

open Classical in
/-- `Cosmos::R`, cosmos.cpp:208-221. -/
noncomputable def Cosmos.R (c : Cosmos) (ct : ℝ) : ℝ :=
  if c.ueCosm then c.sR ct
  else if c.frw = 1 ∧ c.grav > 0 then ct * (1 + 0.25 * ct * c.grav)
  else ct ^ c.frw

open Classical in
/-- `Cosmos::AxionMass2`, cosmos.cpp:229-259. The local variable `aMass2` starts uninitialised:
`none`; the three `if`s of the restore mode are taken one after the other. -/
noncomputable def Cosmos.axionMass2 (c : Cosmos) (ct : ℝ) : Option ℝ :=
  let RNow := c.R ct
  if c.ueCosm then some (c.schi ct)
  else if c.zThRes ≤ c.zRestore then
    let a0 : Option ℝ := none
    let a1 := if RNow < c.zThRes then some (c.indi3 * c.indi3 * RNow ^ c.nQcd) else a0
    let a2 := if RNow ≥ c.zThRes ∧ RNow ≤ c.zRestore then
        some (c.indi3 * c.indi3 * c.zThRes ^ c.nQcd) else a1
    if RNow > c.zRestore then
      some (c.indi3 * c.indi3 * c.zThRes ^ c.nQcd * (RNow / c.zRestore) ^ c.nQcdr) else a2
  else
    if RNow < c.zThRes then some (c.indi3 * c.indi3 * RNow ^ c.nQcd)
    else some (c.indi3 * c.indi3 * c.zThRes ^ c.nQcd)

/-- `Cosmos::LambdaP`, cosmos.cpp:329-333. -/
noncomputable def Cosmos.lambdaP (c : Cosmos) (ct : ℝ) : ℝ := c.lambda / (c.R ct) ^ c.lz2e

/-- `Cosmos::SaxionMass2`, cosmos.cpp:335-355. -/
noncomputable def Cosmos.saxionMass2 (c : Cosmos) (ct : ℝ) : ℝ :=
  match c.pq with
  | .pq1 | .pq3 => c.lambdaP ct * 2
  | .pq2 => c.lambdaP ct * 8
  | .none => c.lambdaP ct * 0

/-- `Cosmos::Rpp`, cosmos.cpp:176-190, without splines. -/
noncomputable def Cosmos.Rpp (c : Cosmos) (ct : ℝ) : ℝ := c.frw * (c.frw - 1) / (ct * ct)

/-- The switch of `Scalar::dzSize`, scalarField.cpp:1342-1386: step before the threshold test.
`hub` is `HubbleMassSq()`, `m2` is `AxionMassSq(zNow)`, `oodl = n1/PhysSize`. -/
noncomputable def dzBase (c : Cosmos) (type : FType) (n1 : ℝ) (wDz hub m2 zNow : ℝ) : ℝ :=
  let RNow := c.R zNow
  let oodl := n1 / c.lSize
  let lamP := c.lambdaP zNow
  match type with
  | .saxion =>
    let mAfq := max (Real.sqrt (m2 * (RNow * RNow) + 12 * oodl * oodl)) hub
    let facto : ℝ := if c.pq = .pq2 then 2 else 1
    let mSfq := Real.sqrt (2 * lamP * RNow * RNow * facto * facto + 12 * oodl * oodl)
    wDz / max mSfq mAfq
  | .axion | .axionMod | .wkb => wDz / Real.sqrt (m2 * (RNow * RNow) + 12 * (oodl * oodl))
  | .naxion | .paxion =>
    let w := (12 * oodl * oodl) / (Real.sqrt (12 * oodl * oodl + m2 * RNow * RNow) + Real.sqrt m2 * RNow)
    wDz / w
  | _ => 0

open Classical in
/-- `Scalar::dzSize`, scalarField.cpp:1342-1406, including the step over the threshold (1394-1404).
-/
noncomputable def dzSize (c : Cosmos) (type : FType) (n1 : ℝ) (wDz hub m2 zNow : ℝ) : ℝ :=
  let dct := dzBase c type n1 wDz hub m2 zNow
  let RNow := c.R zNow
  let RNext := c.R (zNow + dct)
  if RNow < c.zThRes ∧ RNext > c.zThRes ∧ c.frw ≠ 0 then
    (c.zThRes + 0.001 * (RNext - c.zThRes)) ^ (1 / c.frw) - zNow
  else dct

end Jaxions.Cosmo
