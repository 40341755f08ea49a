import Verif.Basic.Heap
import Mathlib.Data.Nat.Notation
import Mathlib.Algebra.Field.Basic
import Mathlib.Algebra.Module.Defs
/-
Expansion of a configuration read from a smaller file.

Source: include/utils/simpleops.h:149-285 (`expandField`), CPU.  Called by `readConf`
(lib/io/readWrite.pHdf5.cpp:1516-1522) when both side lengths of the file are smaller.

`s` is `mStart()` or `vCpu()`, `m2` is counted from `m2Cpu()`, both in elements (complex numbers for
the complex field).  Numbers are exact: values in a module over the field of the weights.  The
exchange of ghosts has the effect proved in C09.  The moves of the GPU flag are left out.
-/

namespace Jaxions.Expand

inductive Buf
  | s | m2
  deriving DecidableEq, Repr

abbrev Mem (E : Type) := Heap (Buf × ℕ) E

/-- `nx`, `nz`, `Nx`, `Nz` (152-155), ghost slices, number of ranks. -/
structure Geo where
  n : ℕ
  nz : ℕ
  N : ℕ
  Nz : ℕ
  Ng : ℕ
  ranks : ℕ

/-- `m2Start() - m2Cpu()`. -/
def Geo.start (g : Geo) : ℕ := g.N * g.N * g.Ng

/-- `m2BackGhost() - m2Cpu()`. -/
def Geo.back (g : Geo) : ℕ := g.start + g.N * g.N * g.Nz

/-- `m2[k]`, with `m2` the pointer of line 164. -/
def Geo.m2 (g : Geo) (k : ℕ) : Buf × ℕ := (.m2, g.start + k)

section
variable {E : Type}

/-- Lines 167-171. -/
def before (g : Geo) (h : Mem E) : Option (Mem E) :=
  (memcpy g.m2 (fun k => (.s, k)) (g.n * g.n * g.nz) h).bind fun h =>
    memcpy (fun k => g.m2 (g.N * g.N * (g.Nz - 1) + k)) (fun k => g.m2 (g.n * g.n * (g.nz - 1) + k))
      (g.n * g.n) h

/-- `exchangeGhosts(FIELD_M2)`, 177, on all ranks (C09). -/
def exchange (g : Geo) (w : ℕ → Mem E) : ℕ → Mem E := fun r a =>
  if a.1 = .m2 ∧ a.2 < g.start then w ((r + g.ranks - 1) % g.ranks) (.m2, a.2 + g.N * g.N * g.Nz)
  else if a.1 = .m2 ∧ g.back ≤ a.2 ∧ a.2 < g.back + g.start then
    w ((r + 1) % g.ranks) (.m2, a.2 - g.N * g.N * g.Nz)
  else w r a

/-- Lines 182-184. -/
def after (g : Geo) (h : Mem E) : Option (Mem E) :=
  (memmove (fun k => (.m2, g.start - g.n * g.n + k)) (fun k => (.m2, k)) (g.n * g.n) h).bind fun h =>
    memmove (fun k => g.m2 (g.n * g.n * g.nz + k)) (fun k => (.m2, g.back + k)) (g.n * g.n) h

end

/-- Indices of the six loops. -/
structure Iter where
  riz : ℕ
  riy : ℕ
  rix : ℕ
  iz : ℕ
  iy : ℕ
  ix : ℕ
  deriving DecidableEq

/-- Bounds of the loops over the target points of one block: lines 210-212 (`m = L`, `M = L'` and the
remainder test with `t`). -/
def first (r m M : ℕ) : ℕ := r * M / m
def last (r m M t : ℕ) : ℕ :=
  if (r + 1) * t % m = 0 then (r + 1) * M / m - 1 else (r + 1) * M / m

/-- `for (i = a; i <= b; i++)`. -/
def upTo (a b : ℕ) : List ℕ := (List.range (b + 1 - a)).map fun k => a + k

/-- The six nested loops, 209-256.  The remainder test along `x` uses `Nz` (243). -/
def program (g : Geo) : List Iter :=
  (List.range g.nz).flatMap fun riz => (List.range g.n).flatMap fun riy =>
    (List.range g.n).flatMap fun rix =>
      (upTo (first riz g.nz g.Nz) (last riz g.nz g.Nz g.Nz)).flatMap fun iz =>
        (upTo (first riy g.n g.N) (last riy g.n g.N g.N)).flatMap fun iy =>
          (upTo (first rix g.n g.N) (last rix g.n g.N g.Nz)).map fun ix =>
            ⟨riz, riy, rix, iz, iy, ix⟩

variable {K E : Type} [Field K] [AddCommGroup E] [Module K E]

/-- Body of the loops, 218-227 and 250-268. -/
def site (K : Type) [Field K] [Module K E] (g : Geo) (h : Mem E) (i : Iter) : Option (Mem E) :=
  let rpx := (i.rix + 1) % g.n
  let rpy := (i.riy + 1) % g.n
  (h (g.m2 (i.rix + g.n * (i.riy + g.n * i.riz)))).bind fun xyz =>
  (h (g.m2 (i.rix + g.n * (i.riy + g.n * (i.riz + 1))))).bind fun xyZ =>
  (h (g.m2 (i.rix + g.n * (rpy + g.n * i.riz)))).bind fun xYz =>
  (h (g.m2 (rpx + g.n * (i.riy + g.n * i.riz)))).bind fun Xyz =>
  (h (g.m2 (i.rix + g.n * (rpy + g.n * (i.riz + 1))))).bind fun xYZ =>
  (h (g.m2 (rpx + g.n * (i.riy + g.n * (i.riz + 1))))).bind fun XyZ =>
  (h (g.m2 (rpx + g.n * (rpy + g.n * i.riz)))).bind fun XYz =>
  (h (g.m2 (rpx + g.n * (rpy + g.n * (i.riz + 1))))).bind fun XYZ =>
    let r : K := (g.n : K) / (g.N : K)
    let dx := r * i.ix - i.rix
    let dy := r * i.iy - i.riy
    let dz := r * i.iz - i.riz
    h.write (.s, i.ix + g.N * (i.iy + g.N * i.iz))
      (((1 - dx) * (1 - dy) * (1 - dz)) • xyz + (dx * (1 - dy) * (1 - dz)) • Xyz +
        ((1 - dx) * dy * (1 - dz)) • xYz + (dx * dy * (1 - dz)) • XYz +
        ((1 - dx) * (1 - dy) * dz) • xyZ + (dx * (1 - dy) * dz) • XyZ +
        ((1 - dx) * dy * dz) • xYZ + (dx * dy * dz) • XYZ)

/-- The same step on all ranks. -/
def onAll (n : ℕ) (f : ℕ → Mem E → Option (Mem E)) (w : ℕ → Mem E) : Option (ℕ → Mem E) :=
  loop n (fun r w => (f r (w r)).map fun h r' => if r' = r then h else w r') w

/-- `expandField`: the iterations of rank `r` in the order `order r` in which the threads happen to
do them. -/
def expand (K : Type) [Field K] [Module K E] (g : Geo) (order : ℕ → List Iter) (w : ℕ → Mem E) :
    Option (ℕ → Mem E) :=
  (onAll g.ranks (fun _ => before g) w).bind fun w =>
    onAll g.ranks (fun r h => (after g h).bind fun h => (order r).foldlM (site K g) h) (exchange g w)

end Jaxions.Expand
