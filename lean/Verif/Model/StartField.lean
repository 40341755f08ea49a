import Verif.Model.Norm
import Verif.Model.Cosmos
import Mathlib.Analysis.SpecialFunctions.Exp
import Mathlib.Analysis.SpecialFunctions.Trigonometric.Basic
/-
How a starting configuration is turned into the field and velocity the evolution starts from, and
the evolution before the start (prepropagation).

Source: lib/gen/genConf.cpp:323-404, 503-560, 648-663, 678-760 (`confsmooth`), 766-853 (`conflola`),
859-925 (`confcole`), 1049-1128 (end of `confspax`), 1134-1244 (`conftkac`), 1585-1592 and 1598
(`putxi`), 1636-1853 (`anymean`, `susum`, `mulmul`, `axby`), lib/gen/prepropa.cpp:103-248
(`prepropa2`, `findct2`), lib/scalar/scaleXeon.cpp:8-91, lib/scalar/scalarField.cpp:206-222.

One cell holds one complex number; `m`, `v`, `m2` are separate blocks (the complex field).  Numbers
are exact.  The iterations of a parallel loop run in any order.
-/

namespace Jaxions.StartField

open Jaxions.Norm (Buf Mem Geo FIdx)

noncomputable section

/-- `eSize()`, and the number of elements allocated for `v`, scalarField.cpp:208-219. -/
def eSize (g : Geo) : ℕ := g.S * (g.Lz + 2 * g.Ng)
def vSize (g : Geo) : ℕ := g.S * (g.Lz + 2)

/-- Body of the loop, scaleXeon.cpp:43-44, 80-81. -/
def scaleSite (b : Buf) (f : ℝ) (h : Mem) (l : ℕ) : Option Mem :=
  (h (b, l)).bind fun z => h.write (b, l) (z * (f : ℂ))

/-- `scaleXeon`, 8-91, from the first element of the block.  In single precision a wrong index does
not return and the loop runs over an uninitialised pointer (74-81). -/
def scale (dbl : Bool) (i : FIdx) (low : Bool) (f : ℝ) (order : List ℕ) (h : Mem) : Option Mem :=
  match i with
  | .fM => order.foldlM (scaleSite .m f) h
  | .fV => order.foldlM (scaleSite .v f) h
  | .fM2 => if low then some h else order.foldlM (scaleSite .m2 f) h
  | .other => if dbl then some h else none

/-- Pointers of `axby`, `mulmul`, `susum`, genConf.cpp:1806-1827: `mStart`, `vCpu`, `m2Cpu`. -/
def base (g : Geo) : Buf → ℕ → Buf × ℕ
  | .m, l => (.m, g.S * g.Ng + l)
  | .v, l => (.v, l)
  | .m2, l => (.m2, l)

/-- `d[idx] = op(d[idx], m[idx])`, the loops 1836-1837, 1780-1781, 1721-1722. -/
def pairSite (g : Geo) (s d : Buf) (op : ℂ → ℂ → ℂ) (h : Mem) (l : ℕ) : Option Mem :=
  (h (base g d l)).bind fun y => (h (base g s l)).bind fun x => h.write (base g d l) (op y x)

/-- `axby(s,d,a,b)`, 1799-1853; `mulmul(s,d)`, 1743-1797; `susum(s,d)`, 1684-1738. -/
def axby (g : Geo) (s d : Buf) (a b : ℝ) (order : List ℕ) (h : Mem) : Option Mem :=
  order.foldlM (pairSite g s d fun y x => b * y + a * x) h
def mulmul (g : Geo) (s d : Buf) (order : List ℕ) (h : Mem) : Option Mem :=
  order.foldlM (pairSite g s d fun y x => y * x) h
def susum (g : Geo) (s d : Buf) (order : List ℕ) (h : Mem) : Option Mem :=
  order.foldlM (pairSite g s d fun y x => y + x) h

/-- `memcpy(vCpu, mStart, DataSize*Size)`, genConf.cpp:399, 513, 653, 833, prepropa.cpp:135. -/
def copyMV (g : Geo) (h : Mem) : Option Mem :=
  memcpy (fun k => (Buf.v, k)) (fun k => (Buf.m, g.S * g.Ng + k)) g.V h

open Classical in
/-- The kick of the velocity, genConf.cpp:400-401, 742-743, 834-835, 906-907. -/
def kick (low : Bool) (k : ℝ) (order : List ℕ) (h : Mem) : Option Mem :=
  if k = 0 then some h else scale true .fV low (1 + k) order h

/-- End of `confsmooth`, genConf.cpp:739-746. -/
def finishSmooth (g : Geo) (low mink : Bool) (R Rp k : ℝ) (o1 o2 o3 : List ℕ) (h : Mem) :
    Option Mem :=
  (if mink then some h else axby g .m .v (Rp * R) R o1 h).bind fun h =>
    (kick low k o2 h).bind fun h =>
      if mink then some h else scale true .fM low R o3 h

/-- End of the other configurations: the field itself is taken as the velocity.  genConf.cpp:399-402
(VILGOR), 833-836 (`conflola`), 905-908 (`confcole`); with `k = 0` also 513-514 (VILGORK), 653-654
(KMAX, VILGORS) and prepropa.cpp:135-136. -/
def finishCopy (g : Geo) (low : Bool) (R k : ℝ) (o2 o3 : List ℕ) (h : Mem) : Option Mem :=
  (copyMV g h).bind fun h => (kick low k o2 h).bind fun h => scale true .fM low R o3 h

/-! ### Prepropagation -/

inductive LType
  | fixed | z2
  deriving DecidableEq

/-- What `prepropa2` reads and sets: time, scale factor, coupling, exponent, kind, damping. -/
structure Bg where
  z : ℝ
  R : ℝ
  lambda : ℝ
  lz2e : ℝ
  ltype : LType
  gamma : ℝ

/-- Parameters of the initial conditions. -/
structure Prep where
  zi : ℝ
  prepcoe : ℝ
  prelz2e : ℝ
  pregammo : ℝ

/-- `LambdaP` (scalarField.cpp, cosmos.cpp:329-333): the exponent is used for both kinds. -/
def Bg.lambdaP (Rf : ℝ → ℝ) (b : Bg) (ct : ℝ) : ℝ := b.lambda / Rf ct ^ b.lz2e

/-- Jump back in time, genConf.cpp:755-756. -/
def goBack (Rf : ℝ → ℝ) (p : Prep) (b : Bg) : Bg :=
  { b with z := b.z / p.prepcoe, R := Rf (b.z / p.prepcoe) }

/-- Physical coupling at `zi`, prepropa.cpp:117-121. -/
def llp (Rf : ℝ → ℝ) (p : Prep) (b : Bg) : ℝ :=
  match b.ltype with
  | .fixed => b.lambda
  | .z2 => b.lambda / Rf p.zi ^ b.lz2e

open Classical in
/-- Settings before the loop, 107-128 and 171-175. -/
def enter (Rf : ℝ → ℝ) (p : Prep) (b : Bg) : Bg :=
  { b with
    lambda := llp Rf p b * Rf p.zi ^ p.prelz2e
    ltype := .z2
    lz2e := p.prelz2e
    gamma := if p.pregammo > 0 then p.pregammo else b.gamma }

open Classical in
/-- The step taken, 191-196. -/
def aim (zi z dz : ℝ) : ℝ := if z + dz > zi then zi - z else dz

open Classical in
/-- The loop 182-198, at most `fuel` turns: `none` if it is not over by then.  `dz n` is the step
proposed at turn `n`; `propagate` advances the time by the step (C11) and updates `R`. -/
def prepLoop (Rf : ℝ → ℝ) (zi : ℝ) (dz : ℕ → ℝ) : ℕ → ℕ → Bg → Option Bg
  | 0, _, b => if b.z < zi then none else some b
  | fuel + 1, n, b =>
    if b.z < zi then
      prepLoop Rf zi dz fuel (n + 1)
        { b with z := b.z + aim zi b.z (dz n), R := Rf (b.z + aim zi b.z (dz n)) }
    else some b

/-- Settings after the loop, 204-221; `SetGamma(Gamma())` changes nothing. -/
def leave (saved b : Bg) : Bg :=
  match saved.ltype with
  | .fixed => { b with ltype := .fixed, lambda := saved.lambda, lz2e := saved.lz2e }
  | .z2 => { b with ltype := .z2, lambda := saved.lambda, lz2e := saved.lz2e }

/-- `prepropa2`, 103-223, on the background. -/
def prepropa2 (Rf : ℝ → ℝ) (p : Prep) (dz : ℕ → ℝ) (fuel : ℕ) (b : Bg) : Option Bg :=
  (prepLoop Rf p.zi dz fuel 0 (enter Rf p b)).map (leave b)

/-- The string density asked for, genConf.cpp:338, 446, 799, 1059, prepropa.cpp:232. -/
def xit (l : ℝ) : ℝ := (249.48 + 38.8431 * l + 1086.06 * l * l) / (21775.3 + 3665.11 * l)

/-- `conflola` with prepropagation, genConf.cpp:782-792, 803: `logit` and `xit`. -/
def lolaLambda (Rf : ℝ → ℝ) (p : Prep) (b : Bg) : ℝ :=
  llp Rf p b / (Rf (p.zi / p.prepcoe) / Rf p.zi) ^ p.prelz2e
def lolaLog (Rf : ℝ → ℝ) (p : Prep) (b : Bg) : ℝ :=
  Real.log (√(2 * lolaLambda Rf p b) * Rf (p.zi / p.prepcoe) * Rf (p.zi / p.prepcoe))
def lolaXi (Rf : ℝ → ℝ) (p : Prep) (b : Bg) : ℝ :=
  xit (lolaLog Rf p b) * (p.prepcoe * p.prepcoe)

/-- Number of pierced plaquettes per site, 344, 1590. -/
def nN3 (xi delta z : ℝ) : ℝ := 6 * xi * delta * delta / z / z

open Classical in
/-- Critical mode number from it, 345, 1598: the second power is of a number that must be positive,
the first of a number that must not be negative. -/
def critical (N x : ℝ) : Option ℝ :=
  if 0 ≤ x ∧ x < 1 then some (N * √(x / 4.7 * (1 - x ^ (1.5 : ℝ)) ^ (-1 / 1.5 : ℝ))) else none

/-- Plaquettes of `findct2` at time `ct`, prepropa.cpp:234-236, 241-243, and the aim, 230-233. -/
def nAt (pre delta ct : ℝ) : ℝ := 6 * xit (Real.log (pre / delta * ct)) * (delta / ct) ^ 2
def goal (logi msa delta : ℝ) : ℝ := 6 * xit logi * (delta / (delta * Real.exp logi / msa)) ^ 2

open Classical in
/-- The loop of `findct2`, 238-244, at most `fuel` turns. -/
def findct2 (pre delta aimed : ℝ) : ℕ → ℝ → Option ℝ
  | 0, ct => if aimed < nAt pre delta ct then none else some ct
  | fuel + 1, ct =>
    if aimed < nAt pre delta ct then findct2 pre delta aimed fuel (ct + ct / 20) else some ct

/-! ### Return to the start without damping (VILGORK) -/

/-- genConf.cpp:522-540: velocity and field of one site; `R0` before, `R1` after the jump. -/
def jumpV (R0 R1 : ℝ) (m v : ℂ) : ℂ :=
  v * ((R1 * (1 / R0) : ℝ) : ℂ) + m * ((1 / R0 * (1 - R1 * (1 / R0)) : ℝ) : ℂ)
def jumpM (R0 R1 : ℝ) (m : ℂ) : ℂ := m * ((R1 * (1 / R0) : ℝ) : ℂ)

/-! ### Averages -/

/-- `conftkac`, 1211-1234: the sum over this rank, over all ranks, and the factor. -/
def theta2 (n3 : ℕ) (ranks : List (List ℂ)) : ℝ :=
  (ranks.map fun r => (r.map fun z => z.re ^ 2).sum).sum / (n3 * ranks.length : ℕ)
def norma (n3 : ℕ) (ranks : List (List ℂ)) (kcr : ℝ) : ℝ :=
  Real.pi / √(3 * theta2 n3 ranks / kcr)

/-- `anymean`, 1636-1679: `mean` starts with whatever is in memory, `u` on each rank; the sum over
all ranks is divided by the `eSize` of one. -/
def anymean (g : Geo) (ranks : List (ℝ × List ℂ)) : ℝ :=
  (ranks.map fun r => r.1 + (r.2.map fun z => ‖z‖).sum).sum / (eSize g : ℕ)

/-! ### Merging strings and waves (`confspax`, complex field) -/

/-- The complex field and the velocity.  The velocity is one array of reals: `f_v[j]` is real `j`,
`co_v[j]` is reals `2j` and `2j+1` (1096-1098). -/
structure Merge where
  m : ℕ → ℂ
  v : ℕ → ℝ

/-- Body of the loop, 1119-1122; `psi` is `f_m`. -/
def mergeStep (R Rp : ℝ) (psi : ℕ → ℝ) (s : Merge) (j : ℕ) : Merge :=
  let theta := psi j / R
  let thetap := s.v j / R - theta * Rp
  let m' : ℂ := s.m j * Complex.exp ((theta : ℂ) * Complex.I) * R
  let v' : ℂ := (⟨Rp, thetap⟩ : ℂ) * m'
  { m := fun i => if i = j then m' else s.m i
    v := fun i => if i = 2 * j then v'.re else if i = 2 * j + 1 then v'.im else s.v i }

/-- The loop, 1116-1123, in the order of `l` (values of `idx`). -/
def merge (R Rp : ℝ) (psi : ℕ → ℝ) (l : List ℕ) (s : Merge) : Merge :=
  l.foldl (mergeStep R Rp psi) s

/-- One thread: `idx = vol-pidx-1`, 1118. -/
def serial (vol : ℕ) : List ℕ := (List.range vol).map fun p => vol - p - 1

/-- Two threads with `schedule(static)` and `vol = 2k`, if the second thread runs first. -/
def secondFirst (k : ℕ) : List ℕ :=
  ((List.range k).map fun p => 2 * k - (k + p) - 1) ++ (List.range k).map fun p => 2 * k - p - 1

/-- `co_v[j]`. -/
def Merge.vel (s : Merge) (j : ℕ) : ℂ := ⟨s.v (2 * j), s.v (2 * j + 1)⟩

end

end Jaxions.StartField
