import Mathlib.Data.Real.Basic
import Mathlib.Analysis.Real.Pi.Bounds

/-!
Model of the matrix that corrects spectra of masked fields: `lib/spectrum/spectrum.cpp:3799-3882`
(matrixbuilder).

Simplified: real arithmetic; the numbers of modes `binNN` and the spectrum `binP` of the mask are
parameters; `.at` behind the end is `none`. The factor of the general case is `vol/(8 pi)`.
-/

namespace Jaxions.MaskMatrix

/-- spectrum.cpp:3843-3863: the element for row `is`. -/
noncomputable def J (vol : ℝ) (NN : List ℝ) (nbins is j k : ℕ) : Option ℝ :=
  if k = 0 then
    if j = 0 then some (if is = 0 then vol else 0)
    else if is = j then (NN[is]?).map fun n => vol / n else some 0
  else
    if j = 0 then if is = k then (NN[k]?).map fun n => vol / n else some 0
    else
      let diffkj : ℤ := (j : ℤ) - k
      if is = 0 then if j = k then (NN[j]?).map fun n => vol / n else some 0
      else if diffkj.natAbs ≤ is ∧ is ≤ j + k ∧ is < nbins then
        some (vol / (8 * Real.pi) / ((is : ℝ) * j * k))
      else some 0

/-- spectrum.cpp:3842-3866: one element of the send buffer. -/
noncomputable def cell (vol : ℝ) (NN P : List ℝ) (nbins is j : ℕ) : Option ℝ :=
  (List.range nbins).foldl (fun s k => do
    let s ← s
    let x ← J vol NN nbins is j k
    let p ← P[k]?
    return s + 1 / vol * p * x) (some 0)

/-- spectrum.cpp:3818-3819, 3825-3868: the send buffer of a rank. -/
noncomputable def sbuf (vol : ℝ) (NN P : List ℝ) (nbins size rank : ℕ) : List (Option ℝ) :=
  let nbinsPad := nbins / size + 1
  let iBase := nbinsPad * rank
  (List.range nbinsPad).flatMap fun i => (List.range nbins).map fun j => cell vol NN P nbins (iBase + i) j

/-- spectrum.cpp:3870-3875: the buffers of all ranks one after the other. -/
noncomputable def gather (vol : ℝ) (NN P : List ℝ) (nbins size : ℕ) : List (Option ℝ) :=
  (List.range size).flatMap (sbuf vol NN P nbins size)

end Jaxions.MaskMatrix
