import Mathlib.Algebra.Field.Defs
/-
Laplacian weights.  Source: /repo/lib/scalar/scalarField.cpp:1515-1541 (`Scalar::setCO`), called with
the number of ghost slices (135); option `--lap` in /repo/lib/utils/parse.cpp:2437-2457.
-/
namespace Jaxions.Weights

variable {K : Type} [Field K]

/-- The vector `co`: `switch(newN)` with `default` sharing the body of `case 1`. -/
def setCO (newN : Nat) : List K :=
  match newN with
  | 0 => []
  | 2 => [4/3, -1/12]
  | 3 => [3/2, -3/20, 1/90]
  | 4 => [8/5, -1/5, 8/315, -1/560]
  | 5 => [5/3, -5/21, 5/126, -5/1008, 1/3150]
  | _ => [1]

/-- Values of `--lap` that do not stop the program (parse.cpp:2450 `Nghost < 0 || Nghost > 6`). -/
def lapAccepted (n : Int) : Bool := !(n < 0 || n > 6)

end Jaxions.Weights
