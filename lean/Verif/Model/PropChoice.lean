import Mathlib.Data.Nat.Notation
import Mathlib.Data.Int.Notation

/-
How the command line selects a propagator.

Source: lib/utils/parse.cpp (the options `--prop`, `--spec`, `--fspec`, `--lap`
and the checks after the loop), lib/propagator/propagator.cpp:246-339
(`initPropagator`), 347-438 (`propagate`), include/propagator/prop-def-mac.h:9-55
and the constructor in include/propagator/propClass.h:89-187.

Simplification: other options do not touch these variables and are left out; the
device is one of the two valid ones.
-/

namespace Jaxions.PropChoice

/-- The five integrators (enum-field.h:535-539). -/
inductive Integ where
  | leap | om2 | om4 | rkn4 | mleap
  deriving DecidableEq, Repr

/-- `PropType` bits, enum-field.h:529-566. -/
def BASE : ℕ := 1
def SPEC : ℕ := 2
def FSPEC : ℕ := 4
def MASK : ℕ := 496
def LAPMASK : ℕ := 15
def Integ.bit : Integ → ℕ
  | .leap => 16
  | .om2 => 32
  | .om4 => 64
  | .rkn4 => 128
  | .mleap => 256

/-- One option on the command line; `prop none` is an unknown name after
`--prop`. -/
inductive Opt where
  | prop (i : Option Integ)
  | spec
  | fspec
  | lap (n : ℤ)
  deriving DecidableEq, Repr

/-- The variables the options set: `pType` (parse.cpp:102), `spectral`,
`fpectral`, `Nng` (23). -/
structure Vars where
  pType : ℕ
  spectral : Bool
  fpectral : Bool
  nng : ℤ
  deriving DecidableEq, Repr

/-- Their initial values. -/
def Vars.init : Vars := ⟨0, false, false, -1⟩

/-- One option, parse.cpp:2274-2317 (`--prop`), 2324-2331 (`--spec`), 2333-2340
(`--fspec`), 2437-2457 (`--lap`); `none` is the end of the program with an error
message. -/
def option (v : Vars) : Opt → Option Vars
  | .prop none => none
  | .prop (some i) =>
    let p := v.pType ||| i.bit
    let p := if v.spectral then p ||| SPEC else p
    let p := if v.fpectral then p ||| FSPEC else p
    some { v with pType := p }
  | .spec => some { v with spectral := true, pType := v.pType ||| SPEC }
  | .fspec => some { v with fpectral := true, pType := v.pType ||| FSPEC }
  | .lap n =>
    let v := { v with nng := n, pType := v.pType ||| BASE }
    if n < 0 ∨ n > 6 then none else some v

/-- parse.cpp:2490-2505, after the loop: the default integrator, the conflict of a
spectral mode with neighbours, the default laplacian. -/
def finish (v : Vars) : Option Vars :=
  let p := if v.pType &&& MASK = 0 then v.pType ||| Integ.rkn4.bit else v.pType
  if v.nng > 0 ∧ ((p &&& LAPMASK) &&& FSPEC ≠ 0 ∨ (p &&& LAPMASK) &&& SPEC ≠ 0) then none
  else
    let p := if p &&& LAPMASK = 0 then p ||| BASE else p
    some { v with pType := p }

/-- The whole command line. -/
def parse (os : List Opt) : Option Vars := os.foldlM option Vars.init >>= finish

/-- Which integrators are compiled in (CMakeLists.txt:39-43). -/
structure Build where
  rkn4 : Bool
  mleap : Bool
  leap : Bool
  om2 : Bool
  om4 : Bool
  deriving DecidableEq, Repr

/-- The default build. -/
def Build.default : Build := ⟨true, false, false, false, false⟩

/-- `PropcType` (enum-field.h:522-527). -/
inductive Class where
  | base | spec | fspec
  deriving DecidableEq, Repr

/-- propagator.cpp:254-269: a later test overwrites an earlier one. -/
def classOf (pType : ℕ) : Class :=
  let c := Class.base
  let c := if pType &&& FSPEC ≠ 0 then Class.fspec else c
  if pType &&& SPEC ≠ 0 then Class.spec else c

/-- propagator.cpp:286-323, the switch on `pType & PROP_MASK`.  The case of the
fourth order Omelyan integrator is under the macro of the second order one. -/
def integOf (b : Build) (m : ℕ) : Option Integ :=
  if b.om2 ∧ m = Integ.om2.bit then some .om2
  else if b.om2 ∧ m = Integ.om4.bit then some .om4
  else if b.leap ∧ m = Integ.leap.bit then some .leap
  else if b.mleap ∧ m = Integ.mleap.bit then some .mleap
  else if b.rkn4 ∧ m = Integ.rkn4.bit then some .rkn4
  else none

/-- prop-def-mac.h:14-51: the potentials with a case; the numbers are those of
`V_QCD{0,1,2,C,L}_PQ1` with the suffixes none, THETA, RHO, DRHO, DRHO_RHO, DALL
and DALL_THETA (enum-field.h:131-290). -/
def potCases : List ℕ :=
  [1, 2, 8, 32, 16].flatMap fun q =>
    [0, 4096, 8192, 16384, 24576, 32768, 36864].map fun e => e + 1024 + q

/-- What the field tells the constructor of the propagator. -/
structure FieldInfo where
  gpu : Bool
  lowMem : Bool
  deriving DecidableEq, Repr

/-- A propagator. -/
structure Prop' where
  integ : Integ
  cls : Class
  pot : ℕ
  info : FieldInfo
  deriving DecidableEq, Repr

/-- The outcomes of `initPropagator`. -/
inductive Outcome where
  /-- the program ends with an error message -/
  | exit
  /-- undefined: `prop->getBaseName()` through a null pointer (propagator.cpp:326) -/
  | crash
  /-- a new propagator -/
  | made (p : Prop')
  /-- an error is logged and the old propagator stays -/
  | kept (p : Prop')
  deriving DecidableEq, Repr

/-- propagator.cpp:246-339, `initPropagator`; `prev` is the global `prop`. -/
def initPropagator (b : Build) (pType : ℕ) (info : FieldInfo) (pot : ℕ)
    (prev : Option Prop') : Outcome :=
  match integOf b (pType &&& MASK) with
  | none => .exit
  | some i =>
    if pot ∈ potCases then
      -- propClass.h:108-187, the constructor
      if classOf pType ≠ .base ∧ (info.gpu ∨ info.lowMem) then .exit
      else .made ⟨i, classOf pType, pot, info⟩
    else match prev with
      | none => .crash
      | some p => .kept p

/-- The fields that can be propagated (propagator.cpp:366-420). -/
inductive Fld where
  | saxion | axion | axionMod | naxion | paxion
  deriving DecidableEq, Repr

/-- The kernels. -/
inductive Kernel where
  | sSpecCpu | tSpecCpu | sFpecCpu | tFpecCpu | lowCpu | tRunCpu | sRunCpu | nRunCpu | pRunCpu
  | lowGpu | tlowGpu | sRunGpu | tRunGpu
  deriving DecidableEq, Repr

/-- The function objects set by the constructor, propClass.h:108-187, and called by
`propagate`; `none` is a function object never set, whose call throws.  (The low
memory option of the GPU alone is not distinguished.) -/
def kernel (p : Prop') : Fld → Option Kernel
  | .saxion => match p.cls with
    | .spec => some .sSpecCpu
    | .fspec => some .sFpecCpu
    | .base => some (if p.info.gpu then (if p.info.lowMem then .lowGpu else .sRunGpu)
        else if p.info.lowMem then .lowCpu else .sRunCpu)
  | .axion | .axionMod => match p.cls with
    | .spec => some .tSpecCpu
    | .fspec => some .tFpecCpu
    | .base => some (if p.info.gpu then (if p.info.lowMem then .tlowGpu else .tRunGpu)
        else .tRunCpu)
  | .naxion => match p.cls with
    | .base => if p.info.gpu ∨ p.info.lowMem then none else some .nRunCpu
    | _ => none
  | .paxion => match p.cls with
    | .base => if p.info.gpu ∨ p.info.lowMem then none else some .pRunCpu
    | _ => none

/-- propagator.cpp:354-358: `propagate` folds the field first. -/
def folds (pType : ℕ) : Bool := pType &&& BASE ≠ 0

end Jaxions.PropChoice
