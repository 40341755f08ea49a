import Mathlib.Algebra.Field.Defs
/-
Model of the integrators: coefficient tables of /repo/lib/propagator/propagator.cpp:19-243 and the
control flow of the propagation methods of /repo/include/propagator/propClass.h.  A call of a
method becomes the list of kernel calls it makes, with the coefficients and with the times at which
the parameters handed to the kernel were evaluated, and the final time.  Reading a coefficient
array outside its bounds is undefined behaviour: result `none`.  Numbers are exact (any field `K`);
rounding is not modelled.
-/
namespace Jaxions.Integrator

variable {K : Type}

/-- `PropStage`, enum-field.h. -/
inductive Stage | normal | first | last
  deriving DecidableEq, Repr

/-- Template parameters and coefficient members of `PropClass` (propClass.h:52-53); the lists are
as long as the arrays `c[nStages + (PROP_LAST ? 1 : 0)]`, `d[nStages + (PROP_FIRST ? 1 : 0)]`, all
entries filled by `setCoeff` (60-62). -/
structure Table (K : Type) where
  nStages : Nat
  stage : Stage
  c : List K
  d : List K

/-- The integrators on offer (`initPropagator`, propagator.cpp:286-316). -/
inductive Name | leap | mleap | omelyan2 | omelyan4 | rkn4
  deriving DecidableEq, Repr

section
variable [Field K]

/-- propagator.cpp:27-28. -/
def leap : Table K := ⟨2, .first, [1/2, 1/2], [1/4, 1/2, 1/4]⟩
/-- propagator.cpp:65-66. -/
def mleap : Table K := ⟨4, .first, [1/4, 1/4, 1/4, 1/4], [1/8, 1/4, 1/4, 1/4, 1/8]⟩
/-- propagator.cpp:102-107. -/
def omelyan2 : Table K :=
  let chi : K := 19318332750378360 / 10^17
  ⟨2, .first, [1/2, 1/2], [chi, 1 - 2*chi, chi]⟩
/-- propagator.cpp:144-155. -/
def omelyan4 : Table K :=
  let xi : K := 1786178958448091 / 10^16
  let lb : K := -(2123418310626054 / 10^16)
  let chi : K := -(6626458266981849 / 10^17)
  ⟨4, .first, [1/2*(1 - 2*lb), lb, lb, 1/2*(1 - 2*lb)], [xi, chi, 1 - 2*(xi + chi), chi, xi]⟩
/-- propagator.cpp:202-203. -/
def rkn4 : Table K :=
  ⟨4, .normal,
    [1344961992774310892 / 10^19, -(2248198030794208058 / 10^19), 7563200005156682911 / 10^19,
     3340036032863214255 / 10^19],
    [5153528374311229364 / 10^19, -(85782019412973646 / 10^18), 4415830236164665242 / 10^19,
     1288461583653841854 / 10^19]⟩

def table : Name → Table K
  | .leap => leap
  | .mleap => mleap
  | .omelyan2 => omelyan2
  | .omelyan4 => omelyan4
  | .rkn4 => rkn4

/-- One kernel call: a drift alone, or a kick with coefficient `c` followed by a drift with
coefficient `d`, with the times at which the axion mass and the scale factor passed to the kernel
were evaluated. -/
inductive Act (K : Type)
  | drift (d : K)
  | sub (c d zMass zR : K)
  deriving Repr

/-- `if (lastStage == PROP_FIRST)` block (propClass.h:661-669, 514-527): drift with `d[0]`, then the
loop uses `cD = &(d[1])`, i.e. offset 1. -/
def firstDrift (T : Table K) (dz z0 : K) : Option (List (Act K) × K × Nat) :=
  if T.stage = .first then (T.d[0]?).map fun d0 => ([Act.drift d0], z0 + dz * d0, 1)
  else some ([], z0, 0)

/-- `if (lastStage == PROP_LAST)` block (propClass.h:712-728, 558-575): one more kick with
`c[nStages]` and no drift. -/
def lastKick (T : Table K) (zm zr : K) : Option (List (Act K)) :=
  if T.stage = .last then (T.c[T.nStages]?).map fun c0 => [Act.sub c0 0 zm zr]
  else some []

/-- Loop of `sRunCpu` (propClass.h:672-710), `pairs` iterations left, next stage `s`, `off` is 1
when `cD = &(d[1])`.  Parameters are evaluated before each of the two kernel calls (674-678,
697-701). -/
def sLoop (T : Table K) (off : Nat) (dz : K) : Nat → Nat → K → Option (List (Act K) × K)
  | 0, _, z => some ([], z)
  | p + 1, s, z => do
    let c1 ← T.c[s]?
    let c2 ← T.c[s + 1]?
    let d1 ← T.d[off + s]?
    let d2 ← T.d[off + (s + 1)]?
    let z1 := z + dz * d1
    let (l, zf) ← sLoop T off dz p (s + 2) (z1 + dz * d2)
    return (.sub c1 d1 z z :: .sub c2 d2 z1 z1 :: l, zf)

/-- `sRunCpu` (propClass.h:646-732); `tRunGpu` (195-266) and `sRunGpu` (275-352) make the same
calls (parameters reloaded by `loadparms` before each). -/
def sRunCpu (T : Table K) (dz z0 : K) : Option (List (Act K) × K) := do
  let (pre, z, off) ← firstDrift T dz z0
  let (l, zf) ← sLoop T off dz ((T.nStages + 1) / 2) 0 z
  let post ← lastKick T zf zf
  return (pre ++ l ++ post, zf)

/-- Loop of `tRunCpu` (propClass.h:530-556): `massA2`, `R` and `Rpp` are evaluated only between
the two kernel calls (546-548), so the first call of an iteration uses those left over; `zm`, `zr`
are the times of the values in `ppar.massA2` and `ppar.R`. -/
def tLoop (T : Table K) (off : Nat) (dz : K) :
    Nat → Nat → K → K → K → Option (List (Act K) × K × K × K)
  | 0, _, z, zm, zr => some ([], z, zm, zr)
  | p + 1, s, z, zm, zr => do
    let c1 ← T.c[s]?
    let c2 ← T.c[s + 1]?
    let d1 ← T.d[off + s]?
    let d2 ← T.d[off + (s + 1)]?
    let z1 := z + dz * d1
    let (l, r) ← tLoop T off dz p (s + 2) (z1 + dz * d2) z1 z1
    return (.sub c1 d1 zm zr :: .sub c2 d2 z1 z1 :: l, r)

/-- `tRunCpu` (propClass.h:496-578).  After the first drift only `R` and `Rpp` are evaluated again
(524-525); the last kick stores the mass in `ppar.massA` (566), which is not the member the kernel
reads, and evaluates `R` (567). -/
def tRunCpu (T : Table K) (dz z0 : K) : Option (List (Act K) × K) := do
  let (pre, z, off) ← firstDrift T dz z0
  let (l, zf, zm, _) ← tLoop T off dz ((T.nStages + 1) / 2) 0 z z0 z
  let post ← lastKick T zm zf
  return (pre ++ l ++ post, zf)

/-- Loop over single stages without offset. -/
def oneLoop (T : Table K) (off : Nat) (dz : K) : Nat → Nat → K → Option (List (Act K) × K)
  | 0, _, z => some ([], z)
  | p + 1, s, z => do
    let c0 ← T.c[s]?
    let d0 ← T.d[off + s]?
    let (l, zf) ← oneLoop T off dz p (s + 1) (z + dz * d0)
    return (.sub c0 d0 z z :: l, zf)

/-- `sSpecCpu` (propClass.h:800-857), `tSpecCpu` (582-639): all stages from `d[0]`, then
`if (lastStage)` one more kick with `c[nStages]`; the condition holds for `PROP_FIRST` as well.
`lowGpu` (434-488) has the same control flow. -/
def specCpu (T : Table K) (dz z0 : K) : Option (List (Act K) × K) := do
  let (l, zf) ← oneLoop T 0 dz T.nStages 0 z0
  if T.stage ≠ .normal then do
    let c0 ← T.c[T.nStages]?
    return (l ++ [.sub c0 0 zf zf], zf)
  else return (l, zf)

/-- `sFpecCpu` (propClass.h:862-930), `tFpecCpu` (936-1004): all stages from `d[0]`, nothing after
the loop (a warning is logged for odd integrators). -/
def fspecCpu (T : Table K) (dz z0 : K) : Option (List (Act K) × K) :=
  oneLoop T 0 dz T.nStages 0 z0

/-- `nRunCpu` (propClass.h:1011-1072): pairs of stages from `d[0]`, then `if (lastStage)` one more
kick with `c[nStages]`.  `pRunCpu` (1079-1169) reads the same coefficients, one stage at a time,
between two half steps of the potential that do not advance time. -/
def nRunCpu (T : Table K) (dz z0 : K) : Option (List (Act K) × K) := do
  let (l, zf) ← sLoop T 0 dz ((T.nStages + 1) / 2) 0 z0
  if T.stage ≠ .normal then do
    let c0 ← T.c[T.nStages]?
    return (l ++ [.sub c0 0 zf zf], zf)
  else return (l, zf)

/-- `lowCpu` (propClass.h:739-793): as `specCpu`, but every stage only kicks: the field is never
drifted ("missing update M?", 772), although time advances. -/
def lowCpu (T : Table K) (dz z0 : K) : Option (List (Act K) × K) := do
  let (l, zf) ← specCpu T dz z0
  return (l.map fun
    | .sub c _ zm zr => .sub c 0 zm zr
    | .drift d => .drift d, zf)

/-- `tlowGpu` (propClass.h:357-429): first drift handled, single stages with `cD`, last kick only
for `PROP_LAST`. -/
def tlowGpu (T : Table K) (dz z0 : K) : Option (List (Act K) × K) := do
  let (pre, z, off) ← firstDrift T dz z0
  let (l, zf) ← oneLoop T off dz T.nStages 0 z
  let post ← lastKick T zf zf
  return (pre ++ l ++ post, zf)

end

end Jaxions.Integrator
