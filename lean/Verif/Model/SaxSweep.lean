import Verif.Model.Run
import Verif.Model.SaxKernel
import Mathlib.Analysis.Real.Sqrt
import Mathlib.Algebra.Module.Prod

/-!
# The saxion kernel on whole vectors

The loop of `propagateKernelXeon` (/repo/include/propagator/propXeon.h:150-434 double, 531-864
single): the vector of sites at `idx` is loaded into registers, its Laplacian is formed, the
arithmetic of `Verif/Model/SaxKernel.lean` is done on the registers and the result is stored.  Runs
on all ranks are those of `Verif/Model/Run.lean` with these vectors in place of single sites.  A
site is a pair of real numbers; numbers are exact.
-/

namespace Jaxions.SaxRun

open Stencil Simd SaxKernel Run

/-- A complex number in memory. -/
abbrev C := ℝ × ℝ

variable {p : Prec} {i : Isa}

/-- A register from the sites of a vector, real part in the even lane (`load_pd`, `load_ps`). -/
def pack (f : Fin (sites .saxion p i) → C) : Vec (W p i) ℝ := fun k =>
  if k.1 % 2 = 0 then (f ⟨k.1 / 2, by have := k.2; unfold W at this; omega⟩).1
  else (f ⟨k.1 / 2, by have := k.2; unfold W at this; omega⟩).2

/-- The site `l` of a register, as it is stored. -/
def unpack (a : Vec (W p i) ℝ) (l : Fin (sites .saxion p i)) : C :=
  (a ⟨2 * l, by have := l.2; unfold W; omega⟩, a ⟨2 * l + 1, by have := l.2; unfold W; omega⟩)

/-- Loads of all lanes; `none` if one of them is not defined. -/
def gather {n : ℕ} (f : ℕ → Option C) : Option (Fin n → C) :=
  if h : ∀ l : Fin n, (f l).isSome then some fun l => (f l).get (h l) else none

/-- `store` of one lane into `v` and `m2` (propXeon.h:430-431, 859-860). -/
def storeLane (idx j : ℕ) (val : ℕ → C × C) (o : Out C) (l : ℕ) : Option (Out C) := do
  let m2 ← o.m2.write (idx + l) (val l).1
  let v ← o.v.write (j + l) (val l).2
  return ⟨v, m2⟩

/-- The body of the loop for the vector at `idx` (propXeon.h:168-432, 549-861). -/
noncomputable def updateVec (p : Prec) (i : Isa) (q : Par ℝ) (pot : Pot) (s : Shape)
    (lapF : ℕ → ℕ → Option C) (m : Heap ℕ C) (o : Out C) (idx : ℕ) : Option (Out C) := do
  let mel ← gather (n := sites .saxion p i) fun l => m (idx + l)
  let L ← gather (n := sites .saxion p i) fun l => lapF idx l
  let j ← sub? idx (s.NN * s.Sf)
  let vel ← gather (n := sites .saxion p i) fun l => o.v (j + l)
  let r := kernel Real.sqrt q p i pot (pack mel) (pack L) (pack vel)
  (List.finRange (sites .saxion p i)).foldlM
    (fun o l => storeLane idx j (fun _ => (unpack r.2 l, unpack r.1 l)) o l) o

/-- A kernel call on the vectors `order`. -/
noncomputable def sweepVec (p : Prec) (i : Isa) (q : Par ℝ) (pot : Pot) (s : Shape)
    (lapF : ℕ → ℕ → Option C) (m : Heap ℕ C) (order : List ℕ) (o : Out C) : Option (Out C) :=
  order.foldlM (updateVec p i q pot s lapF m) o

/-- What a substep is called with: `PropParms`, potential and damping. -/
structure Opt where
  q : Par ℝ
  pot : Pot

/-- `rankStep` of `Verif/Model/Run.lean` with whole vectors (propClass.h:535-540). -/
noncomputable def rankVec (p : Prec) (i : Isa) (s : Shape) (Lz : ℕ) (PC : List ℝ) (ood2 : ℝ) (c : Opt)
    (l : Luck C) (old src : Heap (ℕ × ℕ) C) (acc : Heap (ℕ × ℕ) C × Heap (ℕ × ℕ) C) (r : ℕ) :
    Option (Heap (ℕ × ℕ) C × Heap (ℕ × ℕ) C) := do
  let mid := inFlight s Lz (l.ghosts r) (onRank old r)
  let o ← sweepVec p i c.q c.pot s (lap s PC ood2 mid) mid (l.bulk r) ⟨onRank acc.2 r, onRank acc.1 r⟩
  let o ← sweepVec p i c.q c.pot s (lap s PC ood2 (onRank src r)) (onRank src r) (l.edges r) o
  return (setRank acc.1 r o.m2, setRank acc.2 r o.v)

/-- One substep on all ranks. -/
noncomputable def substepVec (p : Prec) (i : Isa) (n sz : ℕ) (s : Shape) (Lz : ℕ) (toM2 : Bool)
    (PC : List ℝ) (ood2 : ℝ) (c : Opt) (l : Luck C) (w : World C) : Option (World C) := do
  let old := if toM2 then w.m else w.m2
  let src ← exchange n sz s Lz l.msgs old
  let r ← (List.range n).foldlM (rankVec p i s Lz PC ood2 c l old src) (if toM2 then w.m2 else w.m, w.v)
  return if toM2 then ⟨src, r.1, r.2⟩ else ⟨r.1, src, r.2⟩

/-- A list of substeps. -/
noncomputable def runVec (p : Prec) (i : Isa) (n sz : ℕ) (s : Shape) (Lz : ℕ) (PC : List ℝ) (ood2 : ℝ) :
    Bool → List (Opt × Luck C) → World C → Option (World C)
  | _, [], w => some w
  | b, (c, l) :: cs, w => do
    let w' ← substepVec p i n sz s Lz b PC ood2 c l w
    runVec p i n sz s Lz PC ood2 (!b) cs w'

end Jaxions.SaxRun
