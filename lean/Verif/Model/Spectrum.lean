import Mathlib.Algebra.BigOperators.Group.Finset.Basic
import Mathlib.Algebra.Order.Field.Basic
import Mathlib.Data.Nat.Sqrt

/-!
# Spectra

`SpecBin` (`include/spectrum/spectrum.h`) and `fillBins` (`lib/spectrum/spectrum.cpp:40-502`).
Arithmetic is exact.  The transform is not modelled: the moduli of the modes are given.  The bins of
`USE_NN_BINS` are left out.  `int` products do not overflow (grids up to 92680).
-/

namespace Jaxions
namespace Spectrum

variable {K : Type} [Field K]

/-- `SpectrumType` (`enum-field.h`), the values `fillBins` is instantiated with. -/
inductive SType | K | KK | KS | G | GS | GaS | GaSadd | V | VS | VV | VNL | GV | GVS | P | PS | NN | AK
deriving DecidableEq, Repr

/-- The vectors `binK`, `binG`, … (`spectrum.h:17-35`). -/
inductive Arr | K | G | V | Vnl | P | PS | NN | AK
deriving DecidableEq, Repr

/-- Lattice `Ly × Ly × Tz`, `ranks = commSize()`, `threads = commThreads()`, the option
`nbinsspec`. -/
structure Cfg where
  Ly : Nat
  Tz : Nat
  ranks : Nat
  threads : Nat
  nbinsspec : Int

/-- Depth of a rank. -/
def Cfg.Lz (c : Cfg) : Nat := c.Tz / c.ranks
/-- `Lx = (Ly >> 1)+1` (`spectrum.h:143`). -/
def Cfg.Lx (c : Cfg) : Nat := c.Ly / 2 + 1
/-- `powMax` (`spectrum.h:87`). -/
def Cfg.powMax (c : Cfg) : Nat := Nat.sqrt (2 * (c.Ly / 2) * (c.Ly / 2) + c.Tz / 2 * (c.Tz / 2)) + 1
/-- `nbins` (`spectrum.h:89`). -/
def Cfg.nbins (c : Cfg) : Nat := if c.nbinsspec < 0 then c.powMax else c.nbinsspec.toNat
/-- `nModeshc` (`spectrum.h:159`). -/
def Cfg.modes (c : Cfg) : Nat := c.Lx * c.Ly * c.Lz
/-- `zBase` (`spectrum.cpp:53`). -/
def Cfg.zBase (c : Cfg) (rank : Nat) : Nat := c.Ly / c.ranks * rank

/-- `kx`, `ky`, `kz` (`spectrum.cpp:154-165`). -/
def mode (c : Cfg) (rank idx : Nat) : Int × Int × Int :=
  let tmp := idx / c.Lx
  let kx : Int := (idx - tmp * c.Lx : Nat)
  let ky0 := tmp / c.Tz
  let kz0 := tmp - ky0 * c.Tz
  let ky : Int := (ky0 + c.zBase rank : Nat)
  let ky := if ky > (c.Ly / 2 : Nat) then ky - c.Ly else ky
  let kz : Int := (kz0 : Nat)
  let kz := if kz > (c.Tz / 2 : Nat) then kz - c.Tz else kz
  (kx, ky, kz)

/-- `k2` (`spectrum.cpp:167`), an integer at this point. -/
def sq (k : Int × Int × Int) : Nat := (k.1 * k.1 + k.2.1 * k.2.1 + k.2.2 * k.2.2).toNat

/-- `floor(nbinmul*sqrt(k2))` (`spectrum.cpp:171`) with `nbinmul` of `spectrum.h:91`; the integer
form of the floor is justified by `bin_floor` in `Verif/Props/Spectrum.lean`. -/
def myBin (c : Cfg) (k2 : Nat) : Nat :=
  if c.nbinsspec < 0 then Nat.sqrt k2
  else Nat.sqrt (c.nbinsspec.toNat * c.nbinsspec.toNat * k2 / (c.powMax * c.powMax))

/-- Numbers the sums use: `unit = 4π²/L²`, `norm` (`spectrum.cpp:49-50`), the masses, `cosTable2`
and `controlxyz`. -/
structure Phys (K : Type) where
  unit : K
  norm : K
  mass2 : K
  mass2Sax : K
  cosTable2 : Nat → K
  control : Nat

/-- The vectors that get room for the threads (`spectrum.cpp:71-146`), are added to `bin…`
(`spectrum.cpp:360-417`) and reduced (`spectrum.cpp:420-498`). -/
def used : SType → Arr → Bool
  | .K, .K | .KK, .K | .KS, .K => true
  | .P, .P | .PS, .PS | .NN, .NN | .AK, .AK => true
  | .G, .G | .GaSadd, .G | .GaS, .G => true
  | .VV, .V | .VNL, .Vnl => true
  | .GS, .G | .GS, .V | .V, .G | .V, .V | .VS, .G | .VS, .V => true
  | .GV, .G | .GV, .V | .GVS, .G | .GVS, .V => true
  | _, _ => false

/-- `case SPECTRUM_GaSadd` is not reduced over ranks (`spectrum.cpp:451-454`). -/
def reduced : SType → Bool
  | .GaSadd => false
  | _ => true

/-- `tmp` for `cosTable2` (`spectrum.cpp:258-270`). -/
def tableIdx (p : Phys K) (k : Int × Int × Int) : Nat :=
  match p.control with
  | 1 => k.2.1.natAbs
  | 2 => k.2.2.natAbs
  | _ => k.1.natAbs

/-- `m` (`spectrum.cpp:190-227`): one for the counting types. -/
def modulus (s : SType) (amp : K) : K :=
  match s with
  | .NN | .AK => 1
  | _ => amp

/-- `m2` (`spectrum.cpp:232-235`). -/
def weight (c : Cfg) (k : Int × Int × Int) (m : K) : K :=
  if k.1 = 0 ∨ k.1 = (c.Lx - 1 : Nat) then m * m else 2 * m * m

/-- What the loop adds and where (`spectrum.cpp:239-356`). -/
def terms (p : Phys K) (s : SType) (k : Int × Int × Int) (m2 : K) : List (Arr × K) :=
  let k2 : K := (sq k : K) * p.unit
  match s with
  | .KK | .K | .KS => [(.K, m2)]
  | .VV => [(.V, m2)]
  | .GaS | .GaSadd => [(.G, m2 / p.cosTable2 (tableIdx p k))]
  | .G | .GS => [(.G, m2 * k2)]
  | .V => [(.V, m2 * p.mass2)]
  | .VNL => [(.Vnl, m2 * p.mass2)]
  | .VS => [(.V, m2 * p.mass2Sax)]
  | .GVS => [(.G, m2 * k2), (.V, m2 * p.mass2Sax)]
  | .GV => [(.G, m2 * k2), (.V, m2 * p.mass2)]
  | .P => [(.P, m2)]
  | .PS => [(.PS, m2)]
  | .NN => [(.NN, m2)]
  | .AK => [(.AK, m2 * (sq k : K))]

/-- All vectors of one kind. -/
abbrev Bins (K : Type) := Arr → Nat → K

/-- `tBinX.at(k) += x`; `none` is the exception of `at`. -/
def addAt (c : Cfg) (s : SType) (t : Bins K) (a : Arr) (k : Nat) (x : K) : Option (Bins K) :=
  if used s a ∧ k < c.nbins * c.threads then
    some fun b j => if b = a ∧ j = k then t b j + x else t b j
  else none

/-- Body of the loop over the modes (`spectrum.cpp:153-357`) in thread `i.2`. -/
def fillOne (c : Cfg) (p : Phys K) (s : SType) (rank : Nat) (amp : Nat → K) (t : Bins K)
    (i : Nat × Nat) : Option (Bins K) :=
  let k := mode c rank i.1
  let b := myBin c (sq k)
  if b > c.nbins then some t
  else (terms p s k (weight c k (modulus s (amp i.1)))).foldlM
    (fun t e => addAt c s t e.1 (b + c.nbins * i.2) e.2) t

/-- `norm` for all but the counting types (`spectrum.cpp:399-404`). -/
def factor (p : Phys K) : SType → K
  | .NN | .AK => 1
  | _ => p.norm

/-- What is in the vectors before the sum: `binNN` and `binAK` are cleared (`spectrum.cpp:93, 99`). -/
def start (s : SType) (old : Bins K) : Bins K := fun a j =>
  match s, a with
  | .NN, .NN => 0
  | .AK, .AK => 0
  | _, _ => old a j

/-- One rank up to the reduction (`spectrum.cpp:148-418`), modes in the order `order`, each with the
thread that takes it. -/
def fillRank (c : Cfg) (p : Phys K) (s : SType) (rank : Nat) (amp : Nat → K)
    (order : List (Nat × Nat)) (old : Bins K) : Option (Bins K) :=
  (order.foldlM (fillOne c p s rank amp) fun _ _ => 0).map fun t a j =>
    if used s a then
      (List.range c.threads).foldl (fun x i => x + t a (j + i * c.nbins) * factor p s) (start s old a j)
    else start s old a j

/-- `fillBins` on all ranks (`spectrum.cpp:40-502`). -/
def fillBins (c : Cfg) (p : Phys K) (s : SType) (amp : Nat → Nat → K)
    (order : Nat → List (Nat × Nat)) (old : Nat → Bins K) : Option (Nat → Bins K) :=
  ((List.range c.ranks).mapM fun r => fillRank c p s r (amp r) (order r) (old r)).map fun l r a j =>
    if used s a ∧ reduced s then (l.map fun b => b a j).sum
    else match l[r]? with
      | some b => b a j
      | none => old r a j

end Spectrum
end Jaxions
