import Verif.Basic.Heap
import Mathlib.Analysis.SpecialFunctions.Pow.Real
import Mathlib.Analysis.SpecialFunctions.Complex.Arg
import Mathlib.Analysis.SpecialFunctions.Trigonometric.Basic
import Mathlib.Data.Nat.Notation
import Mathlib.Data.Int.Notation
/-
Initial conditions in momentum space: `momXeon` and `momConf`, lib/gen/momConf.cpp.

Simplifications: arithmetic is exact, and `int` and `uint` do not overflow, except in the products
`px*modP` of the string case, which are computed in `size_t`.  The random generators are given
sequences of numbers, one per thread.  The circular loop of the string case (a Bessel function of
the GSL), the messages and the spline `mf`, which is built and never used, are not modelled.
-/
noncomputable section

namespace Jaxions.MomConf

/-- Spectra, `MomConfType` in include/enum-field.h, without the strings. -/
inductive Kind
  | flat | spax | sin | vsincos | vthermal | exp | exp2 | cole | kcole
  deriving DecidableEq

/-- Template instance called for each type, lib/gen/momConf.cpp:403-444 and 463-494: there is no
case for `MOM_KCOLE`, which falls to the `default`, `MOM_MEXP`. -/
def instantiated : Kind → Kind
  | .kcole => .exp
  | k => k

/-- Lattice and layout: `Lx`, `Tz`, number of ranks, and whether the transform is complex. -/
structure Geo where
  Lx : ℕ
  Tz : ℕ
  ranks : ℕ
  cmplx : Bool

/-- lib/gen/momConf.cpp:107: `(mopa.cmplx) ? Lx : (Lx>>1)+1`. -/
def Geo.maxLx (g : Geo) : ℕ := if g.cmplx then g.Lx else g.Lx / 2 + 1

/-- lib/gen/momConf.cpp:103. -/
def Geo.LLy (g : Geo) : ℕ := g.Lx / g.ranks

/-- One iteration of the triple loop: `oy`, `oz`, `ox`. -/
structure Cell where
  y : ℕ
  z : ℕ
  x : ℕ
  deriving DecidableEq

/-- The iterations, lib/gen/momConf.cpp:120-122. -/
def Geo.cells (g : Geo) : List Cell :=
  (List.range g.LLy).flatMap fun y =>
    (List.range g.Tz).flatMap fun z => (List.range g.maxLx).map fun x => ⟨y, z, x⟩

/-- lib/gen/momConf.cpp:124: `ox + oy*maxSf + oz*maxLx`. -/
def Geo.idx (g : Geo) (c : Cell) : ℕ := c.x + c.y * (g.maxLx * g.Tz) + c.z * g.maxLx

/-- lib/gen/momConf.cpp:130-137: `if (p > h) p -= n;` with `h = n>>1`. -/
def signed (n o : ℕ) : ℤ := if o > n / 2 then (o : ℤ) - n else o

/-- Mode numbers `px`, `py`, `pz` of an iteration, lib/gen/momConf.cpp:126-137, with
`zBase = LLy*rank`, line 104. -/
def Geo.mode (g : Geo) (rank : ℕ) (c : Cell) : ℤ × ℤ × ℤ :=
  (signed g.Lx c.x, signed g.Lx (c.y + g.LLy * rank), signed g.Tz c.z)

/-- lib/gen/momConf.cpp:139. -/
def modP (p : ℤ × ℤ × ℤ) : ℕ := (p.2.2 * p.2.2 + p.2.1 * p.2.1 + p.1 * p.1).toNat

/-- lib/gen/momConf.cpp:68-78. -/
def Geo.kmax (g : Geo) (kMax : ℕ) : ℕ := if kMax > g.Lx / 2 - 1 then g.Lx / 2 - 1 else kMax

/-- One uniform number in [0,1) and one normal number, lib/gen/momConf.cpp:151-152. -/
structure Draw where
  u : ℝ
  al : ℝ

/-- The parameters used here, include/enum-field.h:878-895. -/
structure Par where
  kMax : ℕ
  kCrt : ℝ
  mass2 : ℝ
  k0 : ℝ
  tab : List ℝ
  rand : Bool

/-- `marsa`, lib/gen/momConf.cpp:151-157. -/
def marsa (rand : Bool) (d : Draw) : ℂ :=
  Complex.exp (Complex.I * ((2 * Real.pi * d.u : ℝ) : ℂ)) * (if rand then (d.al : ℂ) else 1)

/-- `sin(mP)/mP` with one at zero, lib/gen/momConf.cpp:178-179. -/
def sinc (n : ℕ) (mP : ℝ) : ℝ := if n = 0 then 1 else Real.sin mP / mP

/-- Values for a mode with `modP = n`: of `fM`, and of `fV` for the two types that set it,
lib/gen/momConf.cpp:159-243.  `none` is a read behind the end of the table. -/
def modeOut (K : Kind) (P : Par) (Lx n : ℕ) (d d' : Draw) : Option (ℂ × Option ℂ) :=
  let w := marsa P.rand d
  let r := Real.sqrt n / P.kCrt
  let q := (n : ℝ) / (P.kCrt * P.kCrt)
  match K with
  | .flat => some (w, none)
  | .spax =>
    match P.tab[Nat.sqrt n]?, P.tab[Nat.sqrt n + 1]? with
    | some c0, some c1 =>
      some (w * ((c0 + (c1 - c0) * (Real.sqrt n - Nat.sqrt n) : ℝ) : ℂ), none)
    | _, _ => none
  | .sin => some (w * (sinc n r : ℂ), none)
  | .vsincos =>
    some (w * (sinc n r : ℂ),
      some (w * ((if n = 0 then 0 else Real.cos r - sinc n r : ℝ) : ℂ)))
  | .vthermal =>
    let mP := Real.sqrt (Real.sqrt (n * P.k0 * P.k0 + P.mass2))
    let mE := Real.sqrt (1 / (Real.exp (mP * mP / P.kCrt) - 1))
    let w' := marsa true d'
    some (if n = 0 then 0 else w * (mE : ℂ) / (mP : ℂ),
      some (if n = 0 then w' * (Real.sqrt P.kCrt : ℂ) else w' * (mE : ℂ) * (mP : ℂ)))
  | .exp => some (w * ((if n = 0 then 1 else Real.exp (-r) : ℝ) : ℂ), none)
  | .exp2 => some (w * ((if n = 0 then 1 else Real.exp (-q) : ℝ) : ℂ), none)
  | .cole =>
    some (w * ((if n = 0 then 1 else
      Real.exp (-(4 * P.kCrt * P.kCrt / (Lx * Lx) * q)) / (q + 1) ^ (1.5 : ℝ) : ℝ) : ℂ), none)
  | .kcole => some (w * ((if n = 0 then 1 else Real.exp (-q) : ℝ) : ℂ), none)

/-- Pairs of numbers drawn for a mode. -/
def pairs : Kind → ℕ
  | .vthermal => 2
  | _ => 1

/-- Memory of a rank, and how many pairs each thread has drawn. -/
structure State where
  fM : Heap ℕ ℂ
  fV : Heap ℕ ℂ
  used : ℕ → ℕ

/-- Whether the mode is drawn, lib/gen/momConf.cpp:149. -/
def Geo.drawn (g : Geo) (P : Par) (rank : ℕ) (c : Cell) : Bool :=
  modP (g.mode rank c) ≤ 3 * (g.kmax P.kMax * g.kmax P.kMax)

/-- Store of the velocity, if the type has one. -/
def putV (fV : Heap ℕ ℂ) (a : ℕ) : Option ℂ → Option (Heap ℕ ℂ)
  | none => some fV
  | some b => fV.write a b

/-- Body of the loop, executed by thread `t`, lib/gen/momConf.cpp:123-248. -/
def step (K : Kind) (P : Par) (g : Geo) (rank : ℕ) (draws : ℕ → ℕ → Draw) (s : State)
    (tc : ℕ × Cell) : Option State :=
  let a := g.idx tc.2
  if g.drawn P rank tc.2 then
    (modeOut K P g.Lx (modP (g.mode rank tc.2)) (draws tc.1 (s.used tc.1))
        (draws tc.1 (s.used tc.1 + 1))).bind fun o =>
      (s.fM.write a o.1).bind fun fM =>
        (putV s.fV a o.2).map fun fV =>
          ⟨fM, fV, Function.update s.used tc.1 (s.used tc.1 + pairs K)⟩
  else
    (s.fM.write a 0).map fun fM => ⟨fM, s.fV, s.used⟩

/-- The parallel loop; the list says which thread does which iteration and in what order. -/
def fill (K : Kind) (P : Par) (g : Geo) (rank : ℕ) (draws : ℕ → ℕ → Draw)
    (L : List (ℕ × Cell)) (s : State) : Option State :=
  L.foldlM (step K P g rank draws) s

/-- Types whose zero mode is set in `fV`, lib/gen/momConf.cpp:356 and 363. -/
def Kind.inV : Kind → Bool
  | .vsincos => true
  | .vthermal => true
  | _ => false

/-- The zero mode after the loop, lib/gen/momConf.cpp:336-372: new memory and new `mode0`. -/
def zeroMode (K : Kind) (rank : ℕ) (mode0 : ℝ) (s : State) : Option (State × ℝ) :=
  if K = .spax then some (s, mode0) else
  if rank = 0 then
    if mode0 < 3.141597 then
      let e := Complex.exp (Complex.I * (mode0 : ℂ))
      if K.inV then (s.fV.write 0 e).map fun fV => (⟨s.fM, fV, s.used⟩, mode0)
      else (s.fM.write 0 e).map fun fM => (⟨fM, s.fV, s.used⟩, mode0)
    else if K.inV then (s.fV 0).map fun z => (s, z.arg) else (s.fM 0).map fun z => (s, z.arg)
  else some (s, mode0)

/-- `momConf`, lib/gen/momConf.cpp:376-508, for the random types. -/
def momConf (K : Kind) (P : Par) (g : Geo) (rank : ℕ) (draws : ℕ → ℕ → Draw) (mode0 : ℝ)
    (L : List (ℕ × Cell)) (s : State) : Option (State × ℝ) :=
  (fill (instantiated K) P g rank draws L s).bind (zeroMode (instantiated K) rank mode0)

/-! ### Strings -/

/-- Product `p*modP` of an `int` and a `size_t`, lib/gen/momConf.cpp:292, 307, 322: both are
converted to 64 bit unsigned. -/
def wrapMul (p : ℤ) (n : ℕ) : ℕ := ((p % 2 ^ 64).toNat * n) % 2 ^ 64

/-- Factor for one segment with `q = k0N*pdx`, lib/gen/momConf.cpp:286-290: `(1.0,0.)` is a comma
expression with value zero. -/
def aux (q : ℝ) : ℂ := if q = 0 then 0 else ⟨Real.sin q / q, (Real.cos q - 1) / q⟩

/-- Term of segment `il`, given the three lists of coordinates; `none` is a read behind the end.
`num` is the numerator as a function of the segment, `w` the mode number in the denominator. -/
def segment (k0N : ℝ) (p : ℤ × ℤ × ℤ) (num : ℝ → ℝ → ℝ → ℝ) (w : ℤ) (xx yy zz : List ℝ) (il : ℕ) :
    Option ℂ :=
  match xx[il]?, yy[il]?, zz[il]?, xx[il + 1]?, yy[il + 1]?, zz[il + 1]? with
  | some x, some y, some z, some x', some y', some z' =>
    let pdx : ℝ := p.1 * (x' - x) + p.2.1 * (y' - y) + p.2.2 * (z' - z)
    some (((num (x' - x) (y' - y) (z' - z) / (wrapMul w (modP p) : ℝ) : ℝ) : ℂ)
      * Complex.exp (Complex.I * ((-(k0N * (p.1 * x + p.2.1 * y + p.2.2 * z)) : ℝ) : ℂ))
      * aux (k0N * pdx))
  | _, _, _, _, _, _ => none

/-- `su += ...`. -/
def addSegment (f : ℕ → Option ℂ) (su : ℂ) (il : ℕ) : Option ℂ := (f il).map fun t => su + t

/-- `su` for a mode, lib/gen/momConf.cpp:275-325: the first loop runs over `size-1` segments, the
other two over `size`. -/
def stringSum (k0N : ℝ) (p : ℤ × ℤ × ℤ) (xx yy zz : List ℝ) : Option ℂ :=
  let px : ℝ := p.1
  let py : ℝ := p.2.1
  let pz : ℝ := p.2.2
  if p.1 ≠ 0 then
    (List.range (xx.length - 1)).foldlM
      (addSegment (segment k0N p (fun _ dy dz => py * dz - pz * dy) p.1 xx yy zz)) 0
  else if p.2.1 ≠ 0 then
    (List.range xx.length).foldlM
      (addSegment (segment k0N p (fun dx _ dz => pz * dx - px * dz) p.2.1 xx yy zz)) 0
  else if p.2.2 ≠ 0 then
    (List.range xx.length).foldlM
      (addSegment (segment k0N p (fun dx dy _ => px * dy - py * dx) p.2.2 xx yy zz)) 0
  else some 0

end Jaxions.MomConf
