import Mathlib.Analysis.SpecialFunctions.Pow.Real
import Mathlib.Analysis.Real.Sqrt
/-
Model of the options that fix self coupling, core resolution, expansion and initial time
(/repo/lib/utils/parse.cpp:16-110, 673-2468), of the parameters derived from them (2565-2618), of
`createCosmos` for a run that does not read a configuration (2742-2812), and of the quantities the
simulation computes from them (/repo/lib/cosmos/cosmos.cpp:208-221, 329-355,
/repo/lib/scalar/scalarField.cpp:1182-1187).

Simplified: real numbers and functions instead of doubles; the text of an option is already a number;
the tabulated cosmology (`ueCosm`) is left out; options that touch none of these variables are not
listed.
-/
noncomputable section

namespace Jaxions.Derived

/-- The global variables of parse.cpp with their initial values (16, 25-26, 33-35, 39, 46, 70-71,
79-80, 87, 109 and 680, 687-688); `z2` is `lType == LAMBDA_Z2`. -/
structure Vars where
  sizeN : ℕ := 128
  sizeL : ℝ := 4
  zf : ℝ := 1
  frw : ℝ := 1
  mink : Bool := false
  grav : ℝ := -1
  LL : ℝ := 25000
  msa : ℝ := 1.5
  lz2e : ℝ := 0
  zi : ℝ := 0.5
  logi : ℝ := 0
  uLambda : Bool := false
  uMsa : Bool := false
  uLogi : Bool := false
  z2 : Bool := false

/-- The options. -/
inductive Opt
  | size (n : ℕ)
  | lsize (x : ℝ)
  | zf (x : ℝ)
  | frw (x : ℝ)
  | mink
  | gravity (x : ℝ)
  | llcf (x : ℝ)
  | msa (x : ℝ)
  | lz2e (x : ℝ)
  | zi (x : ℝ)
  | logi (x : ℝ)

/-- One turn of the loop over the arguments; `none`: the program ends with a message.
Lines 1032-1049, 1463-1482, 1442-1461, 764-780, 750-756, 1312-1330, 1484-1504, 1549-1569, 1571-1582,
1378-1398, 1400-1413. -/
def turn (a : Vars) : Opt → Option Vars
  | .size n => if n < 2 then none else some { a with sizeN := n }
  | .lsize x => if x ≤ 0 then none else some { a with sizeL := x }
  | .zf x => if x < 0 then none else some { a with zf := x }
  | .frw x => some { a with frw := x }
  | .mink => some { a with mink := true, frw := 0 }
  | .gravity x => some { a with grav := x }
  | .llcf x => if x ≤ 0 then none else some { a with LL := x, uLambda := true, z2 := false }
  | .msa x => if x ≤ 0 then none else some { a with msa := x, uMsa := true, z2 := true, lz2e := 2 }
  | .lz2e x => some { a with lz2e := x }
  | .zi x => if x < 0 then none else some { a with zi := x }
  | .logi x => some { a with logi := x, uLogi := true }

/-- `sizeL*sizeL/(sizeN*sizeN)`. -/
def Vars.area (a : Vars) : ℝ := a.sizeL * a.sizeL / ((a.sizeN * a.sizeN : ℕ) : ℝ)

/-- parse.cpp:2565-2618. -/
def derive (a : Vars) : Vars :=
  if a.uMsa then
    let a := { a with z2 := true }
    if a.uLogi then
      if a.lz2e ≤ 2 then
        let LL := a.msa * a.msa / (2 * a.area * a.zf ^ (a.frw * (2 - a.lz2e)))
        { a with LL := LL
                 zi := (Real.exp (2 * a.logi) / (2 * LL)) ^ (1 / (2 + a.frw * (2 - a.lz2e))) }
      else
        let zi := Real.exp a.logi * a.sizeL / a.sizeN / a.msa
        { a with LL := a.msa * a.msa / (2 * a.area * zi ^ (a.frw * (2 - a.lz2e))), zi := zi }
    else
      let z := if a.lz2e ≤ 2 then a.zf else a.zi
      let LL := a.msa * a.msa / (2 * a.area * z ^ (a.frw * (2 - a.lz2e)))
      { a with LL := LL
               logi := 1 / 2 * Real.log (2 * LL * a.zi ^ (2 + 2 * a.frw - a.frw * a.lz2e)) }
  else
    let zi := if a.uLogi then
      (Real.exp (2 * a.logi) / (2 * a.LL)) ^ (1 / (2 + a.frw * (2 - a.lz2e))) else a.zi
    { a with zi := zi
             msa := Real.sqrt (2 * a.LL) * a.sizeL / a.sizeN * zi ^ (a.frw * (1 - a.lz2e / 2)) }

/-- The whole of `parseArgs` as far as these variables go. -/
def parse (opts : List Opt) : Option Vars := (opts.foldlM turn {}).map derive

/-! ### The background -/

/-- What `createCosmos` (2794-2809) keeps of the variables. -/
structure Cosmos where
  lambda : ℝ
  lz2e : ℝ
  lSize : ℝ
  frw : ℝ
  grav : ℝ

/-- parse.cpp:2795-2806; `SetMink(true)` (cosmos.h:72) sets the exponent of the expansion to zero. -/
def cosmos (a : Vars) : Cosmos :=
  ⟨a.LL, if a.z2 then a.lz2e else 0, a.sizeL, if a.mink then 0 else a.frw, a.grav⟩

/-- cosmos.cpp:208-221. -/
def Cosmos.R (c : Cosmos) (ct : ℝ) : ℝ :=
  if c.frw = 1 ∧ 0 < c.grav then ct * (1 + 1 / 4 * ct * c.grav) else ct ^ c.frw

/-- cosmos.cpp:329-333. -/
def Cosmos.LambdaP (c : Cosmos) (ct : ℝ) : ℝ := c.lambda / c.R ct ^ c.lz2e

/-- scalarField.cpp:1182-1187, stored in every file. -/
def Cosmos.Msa (c : Cosmos) (N : ℕ) (ct : ℝ) : ℝ :=
  Real.sqrt (2 * c.LambdaP ct) * c.R ct * c.lSize / N

/-- cosmos.cpp:335-355; `pq2` is `V_PQ2`, else `V_PQ1` or `V_PQ3`. -/
def Cosmos.SaxionMass2 (c : Cosmos) (pq2 : Bool) (ct : ℝ) : ℝ :=
  c.LambdaP ct * (if pq2 then 8 else 2)

end Jaxions.Derived
