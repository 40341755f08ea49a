import Mathlib.Analysis.SpecialFunctions.Exp
import Mathlib.Analysis.Real.Pi.Bounds
import Mathlib.Logic.Function.Basic

/-!
Model of the smoothing and reduction of a density map: `lib/spectrum/spectrum.cpp:2414-2452` (filterFFT) and
`:2458-2552` (filter).

Simplified: real arithmetic; the transform between the two parts is in `Model/Fft`; both precisions have
the same loops.
-/

namespace Jaxions.SpecFilter

/-- spectrum.cpp:2434-2448: a frequency above the half is a negative one. -/
def signed (half n : ℕ) (k : ℤ) : ℤ := if k > half then k - n else k

/-- spectrum.cpp:2434-2448: the mode of an index, with `hx` numbers per row, `Tz` rows per plane, on the rank
whose planes begin at `zBase`. -/
def modeOf (hx Ly Tz zBase idx : ℕ) : ℤ × ℤ × ℤ :=
  let kz := idx / hx
  let kx := idx - kz * hx
  let ky := kz / Tz
  let kz := kz - ky * Tz
  let ky := ky + zBase
  (kx, signed (Ly / 2) Ly ky, signed (Tz / 2) Tz kz)

/-- spectrum.cpp:2424, 2428, 2450-2451: the factor of a mode; `surf` is `Surf()`, `total` is
`TotalSize()`. -/
noncomputable def factor (neigh : ℝ) (surf total : ℕ) (k : ℤ × ℤ × ℤ) : ℝ :=
  let prefac := 1 / 2 * Real.pi * Real.pi * neigh * neigh / surf
  let k2 : ℝ := k.1 * k.1 + k.2.1 * k.2.1 + k.2.2 * k.2.2
  Real.exp (-prefac * k2) / total

variable {α : Type}

/-- spectrum.cpp:2516-2520: one element is moved. -/
def move (Ly s n iz iy : ℕ) (m : ℕ → α) (ix : ℕ) : ℕ → α :=
  Function.update m (ix + n * iy + n * n * iz) (m (ix * s + (Ly + 2) * iy * s + Ly * (Ly + 2) * iz * s))

/-- spectrum.cpp:2494-2522: the loops of the reduction, in place. Without neighbours there is a division
by zero. -/
def pick (Ly Lz s : ℕ) (m : ℕ → α) : Option (ℕ → α) :=
  if s = 0 then none
  else
    let n := Ly / s
    let nz := Lz / s
    some ((List.range nz).foldl (fun m iz =>
      (List.range n).foldl (fun m iy => (List.range n).foldl (move Ly s n iz iy) m) m) m)

end Jaxions.SpecFilter
