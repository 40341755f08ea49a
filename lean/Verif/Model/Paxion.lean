import Verif.Model.Run
import Verif.Model.MassRate
import Verif.Model.Integrator
import Mathlib.Analysis.SpecialFunctions.Trigonometric.Basic
/-
Model of the propagator of the nonrelativistic axion ("Paxion"): the kernel of
/repo/include/propagator/propPaxXeon.h and `pRunCpu`, /repo/include/propagator/propClass.h:1079-1169,
on all ranks, over the real numbers.

Both arrays have ghost slices.  A Laplacian call adds to one array the sum over the neighbours in the
other, in place; a potential call turns the pair of values of every site by an angle, in place.
While messages are on their way a call finds anything at all in the ghost slices of its source, as
in `Verif.Model.Run`.  `kernelVisits` has no visits for `Vo > Vf`; this kernel lacks that test
(propPaxXeon.h:97-99), so the model is only used with at least two ghost depths of slices.
-/
namespace Jaxions.Paxion

open Stencil Run Cosmo

/-! ### Factors -/

/-- Members of `PropParms` that enter (include/enum-field.h:906-934). -/
structure Par where
  ct : ℝ
  R : ℝ
  massA : ℝ
  n : ℝ
  frw : ℝ
  beta : ℝ
  grav : ℝ
  ood2a : ℝ
  sign : ℝ

/-- `KKt`, propPaxXeon.h:46-47. -/
noncomputable def kkt (P : Par) (dz : ℝ) : Option ℝ :=
  let u := 2.0 * P.frw - 1.0
  quot (P.sign * P.beta * P.ct * ((P.ct + dz) ^ u - P.ct ^ u)) (8.0 * P.R * P.R * u * (P.ct + dz) ^ u)

/-- `dzp`, propPaxXeon.h:52-53. -/
noncomputable def dzp (P : Par) (dz : ℝ) : Option ℝ :=
  let alpho := P.n - 1
  open Classical in
  if |alpho| < 1e-2 then (quot dz P.ct).map fun q => P.ct * Real.log (1.0 + q)
  else do
    let a ← quot P.ct alpho
    let q ← quot dz P.ct
    return a * (1 - (1 + q) ^ (-alpho))

/-- `ood2`, propPaxXeon.h:54. -/
noncomputable def ood2 (P : Par) (dz : ℝ) : Option ℝ :=
  (dzp P dz).bind fun d => quot (P.sign * d * P.ood2a) (2.0 * P.massA * P.R)

/-- `grav`, propPaxXeon.h:51. -/
def gravF (P : Par) (dz : ℝ) : ℝ := -P.massA * P.grav * dz

/-! ### Kernel calls -/

/-- `case KIDI_LAP`, propPaxXeon.h:133-215 (single precision 339-427): `v[idx] += lap`. -/
def addSite (lapF : Nat → Nat → Option ℝ) (dst : Heap Nat ℝ) (c : Nat × Nat) :
    Option (Heap Nat ℝ) := do
  let L ← lapF c.1 c.2
  let x ← dst (c.1 + c.2)
  dst.write (c.1 + c.2) (x + L)

/-- A Laplacian call on the vectors `order`. -/
def addSweep (s : Shape) (lapF : Nat → Nat → Option ℝ) (order : List Nat) (dst : Heap Nat ℝ) :
    Option (Heap Nat ℝ) := (lanes s order).foldlM (addSite lapF) dst

/-- `case KIDI_POT`, 217-226, and `KIDI_POT_GRAV`, 228-240: `k` is `KKt`, `g` is `grav`; without
gravity there is no array to read. -/
noncomputable def rotSite (k g : ℝ) (m2 : Option (Heap Nat ℝ)) (w : Heap Nat ℝ × Heap Nat ℝ)
    (c : Nat × Nat) : Option (Heap Nat ℝ × Heap Nat ℝ) := do
  let mel ← w.1 (c.1 + c.2)
  let vel ← w.2 (c.1 + c.2)
  let acu ← match m2 with
    | none => some (k * (vel * vel + mel * mel))
    | some h => (h (c.1 + c.2)).map fun p => k * (vel * vel + mel * mel) + g * p
  let m ← w.1.write (c.1 + c.2) (Real.cos acu * mel - Real.sin acu * vel)
  let v ← w.2.write (c.1 + c.2) (Real.cos acu * vel + Real.sin acu * mel)
  return (m, v)

/-- A potential call on the vectors `order`. -/
noncomputable def rotSweep (s : Shape) (k g : ℝ) (m2 : Option (Heap Nat ℝ)) (order : List Nat)
    (w : Heap Nat ℝ × Heap Nat ℝ) : Option (Heap Nat ℝ × Heap Nat ℝ) :=
  (lanes s order).foldlM (rotSite k g m2) w

/-! ### All ranks -/

/-- Real and imaginary part on all ranks. -/
structure PWorld where
  m : Heap (Nat × Nat) ℝ
  v : Heap (Nat × Nat) ℝ

/-- The Laplacian calls of rank `r` (propClass.h:1119-1122): the first with the messages on their
way. -/
noncomputable def addRank (s : Shape) (Lz : Nat) (PC : List ℝ) (k : ℝ) (l : Luck ℝ) (old src : Heap (Nat × Nat) ℝ)
    (dst : Heap (Nat × Nat) ℝ) (r : Nat) : Option (Heap (Nat × Nat) ℝ) := do
  let mid := inFlight s Lz (l.ghosts r) (onRank old r)
  let d ← addSweep s (lap s PC k mid) (l.bulk r) (onRank dst r)
  let d ← addSweep s (lap s PC k (onRank src r)) (l.edges r) d
  return setRank dst r d

/-- Exchange and Laplacian calls: into `v` from `m` if `toV`, else into `m` from `v`. -/
noncomputable def addAll (n sz : Nat) (s : Shape) (Lz : Nat) (PC : List ℝ) (toV : Bool) (k : ℝ)
    (l : Luck ℝ) (w : PWorld) : Option PWorld := do
  let old := if toV then w.m else w.v
  let src ← exchange n sz s Lz l.msgs old
  let d ← (List.range n).foldlM (addRank s Lz PC k l old src) (if toV then w.v else w.m)
  return if toV then ⟨src, d⟩ else ⟨d, src⟩

/-- The potential call of rank `r` (propClass.h:1107-1110, 1163-1167). -/
noncomputable def rotRank (s : Shape) (k g : ℝ) (m2 : Option (Heap (Nat × Nat) ℝ))
    (order : Nat → List Nat) (w : PWorld) (r : Nat) : Option PWorld := do
  let q ← rotSweep s k g (m2.map fun h => onRank h r) (order r) (onRank w.m r, onRank w.v r)
  return ⟨setRank w.m r q.1, setRank w.v r q.2⟩

/-- The potential call of all ranks. -/
noncomputable def rotAll (n : Nat) (s : Shape) (k g : ℝ) (m2 : Option (Heap (Nat × Nat) ℝ))
    (order : Nat → List Nat) (w : PWorld) : Option PWorld :=
  (List.range n).foldlM (rotRank s k g m2 order) w

/-- One operation with its accidents; the gravitational potential is whatever
`calculateGraviPotential` left in `m2` (C60). -/
inductive Op
  | lap (toV : Bool) (k : ℝ) (l : Luck ℝ)
  | pot (k g : ℝ) (m2 : Option (Heap (Nat × Nat) ℝ)) (order : Nat → List Nat)

/-- One operation on all ranks. -/
noncomputable def Op.run (n sz : Nat) (s : Shape) (Lz : Nat) (PC : List ℝ) (w : PWorld) :
    Op → Option PWorld
  | .lap toV k l => addAll n sz s Lz PC toV k l w
  | .pot k g m2 order => rotAll n s k g m2 order w

/-- A list of operations. -/
noncomputable def runOps (n sz : Nat) (s : Shape) (Lz : Nat) (PC : List ℝ) (ops : List Op)
    (w : PWorld) : Option PWorld := ops.foldlM (Op.run n sz s Lz PC) w

/-! ### The operations of one step -/

/-- A call without its accidents. -/
inductive Call
  | lap (toV : Bool) (k : ℝ)
  | pot (k g : ℝ)

/-- Background seen by the propagator: `*RV()`, `AxionMass()`, `DlogMARDlogct`; and its constants. -/
structure Bg where
  R : ℝ → ℝ
  massA : ℝ → ℝ
  n : ℝ → ℝ
  frw : ℝ
  beta : ℝ
  grav : ℝ
  ood2a : ℝ

/-- `ppar` filled at time `ct` (propClass.h:1095-1101, 1115-1120). -/
def Bg.par (B : Bg) (ct sign : ℝ) : Par :=
  ⟨ct, B.R ct, B.massA ct, B.n ct, B.frw, B.beta, B.grav, B.ood2a, sign⟩

/-- The half step with the potential (propClass.h:1102-1106, 1157-1167). -/
noncomputable def Bg.half (B : Bg) (ct dz : ℝ) : Option Call :=
  (kkt (B.par ct 1) (0.5 * dz)).map fun k => .pot k (gravF (B.par ct 1) (0.5 * dz))

/-- The stages (propClass.h:1108-1140). -/
noncomputable def Bg.stages (B : Bg) (T : Integrator.Table ℝ) (dz : ℝ) :
    Nat → Nat → ℝ → Option (List Call × ℝ)
  | 0, _, z => some ([], z)
  | p + 1, s, z => do
    let c1 ← T.c[s]?
    let d1 ← T.d[s]?
    let a ← ood2 (B.par z 1) (dz * c1)
    let b ← ood2 (B.par z (-1)) (dz * d1)
    let (l, zf) ← B.stages T dz p (s + 1) (z + dz * d1)
    return (.lap true a :: .lap false b :: l, zf)

/-- `if (lastStage)`, propClass.h:1142-1155: true for `PROP_FIRST` as well. -/
noncomputable def Bg.last (B : Bg) (T : Integrator.Table ℝ) (dz z : ℝ) : Option (List Call) :=
  if T.stage ≠ .normal then do
    let c0 ← T.c[T.nStages]?
    let a ← ood2 (B.par z 1) (dz * c0)
    return [.lap true a]
  else some []

/-- `pRunCpu`, propClass.h:1079-1169: the calls and the final time. -/
noncomputable def Bg.pRun (B : Bg) (T : Integrator.Table ℝ) (dz z : ℝ) : Option (List Call × ℝ) := do
  let a ← B.half z dz
  let (l, zf) ← B.stages T dz T.nStages 0 z
  let q ← B.last T dz zf
  let b ← B.half zf dz
  return (a :: l ++ q ++ [b], zf)

end Jaxions.Paxion
