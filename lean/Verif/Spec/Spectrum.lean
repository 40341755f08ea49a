import Verif.Model.Spectrum

/-!
# Specification of spectra

Sums over the whole lattice of modes, without the half-complex layout, ranks or threads.
-/

namespace Jaxions
namespace Spectrum

variable {K : Type} [Field K]

/-- Signed mode number of the index `i` of an axis of `N` points. -/
def freq (N i : Nat) : Int := if i ≤ N / 2 then i else (i : Int) - N

/-- Mode numbers of a point of the lattice of modes. -/
def freqs (c : Cfg) (q : Nat × Nat × Nat) : Int × Int × Int :=
  (freq c.Ly q.1, freq c.Ly q.2.1, freq c.Tz q.2.2)

/-- `b ≤ (nbins/powMax) |k| < b+1`, squared. -/
def InBin (c : Cfg) (k2 b : Nat) : Prop :=
  b * b * (c.powMax * c.powMax) ≤ c.nbins * c.nbins * k2 ∧
    c.nbins * c.nbins * k2 < (b + 1) * (b + 1) * (c.powMax * c.powMax)

instance (c : Cfg) (k2 b : Nat) : Decidable (InBin c k2 b) := inferInstanceAs (Decidable (_ ∧ _))

/-- The lattice of modes. -/
def lattice (c : Cfg) : Finset (Nat × Nat × Nat) :=
  Finset.range c.Ly ×ˢ Finset.range c.Ly ×ˢ Finset.range c.Tz

/-- Mode number along the axis of the derivative: 0 is x, 1 is y, 2 is z. -/
def alongAxis (axis : Nat) (k : Int × Int × Int) : Int :=
  if axis = 1 then k.2.1 else if axis = 2 then k.2.2 else k.1

/-- What a mode of power `w` contributes to the vector `a` in a run of type `s`. -/
def share (p : Phys K) (s : SType) (a : Arr) (k : Int × Int × Int) (w : K) : K :=
  match s, a with
  | .KK, .K | .K, .K | .KS, .K | .VV, .V | .P, .P | .PS, .PS => p.norm * w
  | .NN, .NN => 1
  | .AK, .AK => sq k
  | .GaS, .G | .GaSadd, .G => p.norm * (w / p.cosTable2 (alongAxis p.control k).natAbs)
  | .G, .G | .GS, .G | .GV, .G | .GVS, .G => p.norm * (w * (sq k * p.unit))
  | .V, .V | .GV, .V | .VNL, .Vnl => p.norm * (w * p.mass2)
  | .VS, .V | .GVS, .V => p.norm * (w * p.mass2Sax)
  | _, _ => 0

/-- Contents of bin `j`. -/
def spectrum (c : Cfg) (p : Phys K) (s : SType) (a : Arr) (P : Nat × Nat × Nat → K) (j : Nat) : K :=
  ∑ q ∈ lattice c with InBin c (sq (freqs c q)) j, share p s a (freqs c q) (P q)

/-- The point of the opposite mode. -/
def opposite (c : Cfg) (q : Nat × Nat × Nat) : Nat × Nat × Nat :=
  ((c.Ly - q.1) % c.Ly, (c.Ly - q.2.1) % c.Ly, (c.Tz - q.2.2) % c.Tz)

/-- The moduli each rank holds are those of the lattice of modes: rank `r` has the `ky` indices
`r (Ly/n) … (r+1)(Ly/n) - 1`, all `kz`, and `kx = 0 … Ly/2` (transposed half-complex layout). -/
def Holds (c : Cfg) (amp : Nat → Nat → K) (P : Nat × Nat × Nat → K) : Prop :=
  ∀ r x y z, r < c.ranks → x < c.Lx → y < c.Ly / c.ranks → z < c.Tz →
    amp r ((y * c.Tz + z) * c.Lx + x) * amp r ((y * c.Tz + z) * c.Lx + x) =
      P (x, y + c.Ly / c.ranks * r, z)

/-- All modes of a rank, each with a thread. -/
def Order (c : Cfg) (order : List (Nat × Nat)) : Prop :=
  (order.map Prod.fst).Perm (List.range c.modes) ∧ ∀ i ∈ order, i.2 < c.threads

/-- What the program needs of its configuration: an even grid, the ranks divide both axes. -/
structure Cfg.Ok (c : Cfg) : Prop where
  even : 2 ∣ c.Ly
  len : 0 < c.Ly
  depth : 0 < c.Tz
  ranks : 0 < c.ranks
  divY : c.ranks ∣ c.Ly
  divZ : c.ranks ∣ c.Tz
  threads : 0 < c.threads
  bins : c.nbinsspec ≠ 0

end Spectrum
end Jaxions
