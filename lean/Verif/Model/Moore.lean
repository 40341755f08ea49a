import Mathlib.Analysis.SpecialFunctions.Trigonometric.Basic
import Mathlib.Algebra.Order.Floor.Ring
import Mathlib.Logic.Function.Basic

/-!
Model of the conversion of configurations in Moore's format: `include/utils/simpleops.h:113-145` (unMoor),
`:77-110` (axby), called by `lib/io/readWrite.pHdf5.cpp:1470-1480`.

Simplified: real arithmetic, both precisions alike. The loops are shared by threads: any order of the
elements.
-/

namespace Jaxions.Moore

open Real

/-- simpleops.h:129, 138: one element. -/
noncomputable def unmoor1 (R m : ℝ) : ℝ := (m + π - 2 * π * ⌊(m + π) / (2 * π)⌋ - π) * R

/-- simpleops.h:113-145: the elements behind the lower ghosts, `off` numbers, in the order of the
threads. -/
noncomputable def unMoor (R : ℝ) (off : ℕ) (order : List ℕ) (m : ℕ → ℝ) : ℕ → ℝ :=
  order.foldl (fun m i => Function.update m (off + i) (unmoor1 R (m (off + i)))) m

/-- simpleops.h:77-110: `d = b d + a m`. -/
noncomputable def axby (a b : ℝ) (off : ℕ) (order : List ℕ) (m d : ℕ → ℝ) : ℕ → ℝ :=
  order.foldl (fun d i => Function.update d i (b * d i + a * m (off + i))) d

/-- readWrite.pHdf5.cpp:1477-1480: field and velocity after the conversion. -/
noncomputable def convert (R : ℝ) (off : ℕ) (o1 o2 : List ℕ) (m v : ℕ → ℝ) : (ℕ → ℝ) × (ℕ → ℝ) :=
  let m := unMoor R off o1 m
  (m, axby (-1) R off o2 m v)

end Jaxions.Moore
