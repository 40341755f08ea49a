import Verif.Model.MeasLog

/-!
What a list spaced in the logarithm is.
-/

namespace Jaxions.MeasLog.Spec

/-- The logarithm of the mass of the saxion over the expansion rate at the time `t`. -/
noncomputable def kappa (p : Par) (t : ℝ) : ℝ :=
  Real.log (p.msa * (p.N / p.ℓ) * if p.fixed then t ^ 2 else t)

/-- Parameters of a simulation. -/
structure Ok (p : Par) : Prop where
  N : 0 < p.N
  ℓ : 0 < p.ℓ
  msa : 0 < p.msa
  zFinl : 0 < p.zFinl

/-- The first value of the logarithm: the number given as `--zi`, 0 without. -/
def first (p : Par) : ℝ := if p.uZin then p.zInit else 0

/-- The number of measurements before the last one. -/
noncomputable def count (p : Par) : ℕ := ⌈(kappa p p.zFinl - first p) * p.dump⌉₊

/-- Words written and read back: a time comes back as a number that is not out of order, an integer
as it was, and no word is taken for the name of a column. -/
structure Reads (num : MeasList.Num) (fmt : ℝ → String) (fmtInt : BitVec 32 → String) (rd : ℝ → ℚ) :
    Prop where
  time : ∀ t, num.stof (fmt t) = some (rd t)
  order : Monotone rd
  int : ∀ v, num.stoi (fmtInt v) = some v
  name : ∀ t, fmt t ∉ ["ct", "meas", "map", "mask", "kgv"]
  nameInt : ∀ v, fmtInt v ∉ ["ct", "meas", "map", "mask", "kgv"]

end Jaxions.MeasLog.Spec
