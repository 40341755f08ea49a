import Verif.Basic.Heap
import Mathlib.Data.Nat.Notation
import Mathlib.Analysis.Complex.Norm
import Mathlib.Analysis.Real.Sqrt
/-
Normalisation of the complex field and the profile of string cores, CPU.

Source: lib/scalar/normXeon.cpp:7-95 (`normXeon`), lib/scalar/normCoreXeon.cpp:11-126
(`normCoreKernelXeon`), include/scalar/scalarField.h:91-106 (pointers).

One cell holds one complex number; `m`, `v`, `m2` are separate blocks.  Numbers are exact.  The
iterations of a parallel loop run in any order.  The exchange of ghosts before the profile
(normCoreXeon.cpp:27) is modelled elsewhere (C09); here the ghosts are part of the state.
-/

namespace Jaxions.Norm

inductive Buf
  | m | v | m2
  deriving DecidableEq, Repr

abbrev Mem := Heap (Buf × ℕ) ℂ

/-- `Length()`, `Depth()`, number of ghost slices. -/
structure Geo where
  n1 : ℕ
  Lz : ℕ
  Ng : ℕ

/-- `Surf()` and `Size()`. -/
def Geo.S (g : Geo) : ℕ := g.n1 * g.n1
def Geo.V (g : Geo) : ℕ := g.S * g.Lz

/-- The argument `fIdx`: the three fields, or anything else. -/
inductive FIdx
  | fM | fV | fM2 | other
  deriving DecidableEq, Repr

noncomputable section

/-- Body of the loop, normXeon.cpp:44-45, 83-84. -/
def normSite (base : ℕ → Buf × ℕ) (h : Mem) (l : ℕ) : Option Mem :=
  (h (base l)).bind fun z => h.write (base l) (z / (‖z‖ : ℂ))

/-- `normXeon`, 7-95.  In single precision a wrong index does not return, and the loop runs over an
uninitialised pointer (75-85). -/
def norm (dbl : Bool) (g : Geo) (f : FIdx) (low : Bool) (order : List ℕ) (h : Mem) : Option Mem :=
  match f with
  | .fM => order.foldlM (normSite fun l => (.m, g.S * g.Ng + l)) h
  | .fV => order.foldlM (normSite fun l => (.v, l)) h
  | .fM2 => if low then some h else order.foldlM (normSite fun l => (.m2, l)) h
  | .other => if dbl then some h else none

/-- Neighbours along x, normCoreXeon.cpp:47-60, as indices of sites.  The code writes
`idx - n1 + 1`, where the difference may wrap around; the sum is the same. -/
def iPx (n1 idx : ℕ) : ℕ :=
  if idx % n1 = 0 then idx + 1 else if idx % n1 = n1 - 1 then idx + 1 - n1 else idx + 1
def iMx (n1 idx : ℕ) : ℕ :=
  if idx % n1 = 0 then idx + n1 - 1 else if idx % n1 = n1 - 1 then idx - 1 else idx - 1

/-- Neighbours along y, 62-75; `X[1]` is `(idx/n1) % n1` (utils/index.h:10-20). -/
def iPy (n1 idx : ℕ) : ℕ :=
  if idx / n1 % n1 = 0 then idx + n1
  else if idx / n1 % n1 = n1 - 1 then idx + n1 - n1 * n1 else idx + n1
def iMy (n1 idx : ℕ) : ℕ :=
  if idx / n1 % n1 = 0 then idx + n1 * n1 - n1
  else if idx / n1 % n1 = n1 - 1 then idx - n1 else idx - n1

/-- `mCp[i]`; the argument is the index plus one slice, since the neighbour below may be a ghost. -/
def Geo.cell (g : Geo) (i : ℕ) : Buf × ℕ := (.m, g.S * g.Ng + i - g.S)

/-- `imag((b - a)/c)`, 80-90. -/
def imq (b a c : ℂ) : ℝ := ((b - a) / c).im

/-- `rhof` from `sss`, 97-100. -/
def rhof (sss : ℝ) : ℝ :=
  let sss2 := sss * sss
  let sss4 := sss2 * sss2
  (0.43 * sss + 0.164 * sss2 + 0.036 * sss4) / (1 + 0.39 * sss + 0.2 * sss2 + 0.036 * sss4)

/-- Lines 93-114. -/
def profile (LL R delta gradtot : ℝ) : ℝ :=
  if gradtot > 0.0000001 then rhof (2 * √LL * R * delta / √gradtot) else 1

/-- Body of the loop, 41-117. -/
def coreSite (g : Geo) (LL R delta : ℝ) (aux : ℕ → Buf × ℕ) (h : Mem) (idx : ℕ) : Option Mem :=
  (h (g.cell (g.S + idx))).bind fun c =>
    (h (g.cell (g.S + iPx g.n1 idx))).bind fun px =>
    (h (g.cell (g.S + iMx g.n1 idx))).bind fun mx =>
    (h (g.cell (g.S + iPy g.n1 idx))).bind fun py =>
    (h (g.cell (g.S + iMy g.n1 idx))).bind fun my =>
    (h (g.cell (g.S + idx + g.S))).bind fun pz =>
    (h (g.cell idx)).bind fun mz =>
      let gradtot := imq px c c * imq px c c + imq c mx c * imq c mx c
        + imq py c c * imq py c c + imq c my c * imq c my c
        + imq pz c c * imq pz c c + imq c mz c * imq c mz c
      h.write (aux idx) (c * (profile LL R delta gradtot : ℂ) / (‖c‖ : ℂ))

/-- `normCoreKernelXeon` after the exchange of ghosts: `maux` is `m2`, or `v` with low memory. -/
def normCore (g : Geo) (LL R delta : ℝ) (low : Bool) (order : List ℕ) (h : Mem) : Option Mem :=
  let aux : ℕ → Buf × ℕ := if low then (fun i => (.v, i)) else (fun i => (.m2, i))
  (order.foldlM (coreSite g LL R delta aux) h).bind fun h =>
    memcpy (fun i => (.m, g.S * g.Ng + i)) aux g.V h

end

end Jaxions.Norm
