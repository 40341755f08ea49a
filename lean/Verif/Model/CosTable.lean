import Verif.Model.Spline
import Verif.Model.MassRate
import Mathlib.Analysis.SpecialFunctions.Log.Base

/-!
# The cosmology read from a file

`Cosmos::Setup` (`lib/cosmos/cosmos.cpp:12-165`) with its file `include/cosmos/jaxi-cosmo.txt`: the rows,
the search for the time `eta1` at which the mass becomes important, the units, the four splines; and
the functions that use them.

Simplifications.  The file after its two header lines is a list of words: numbers, or something
`%lf` does not accept.  Real arithmetic; a quotient by zero and the logarithm of what is not positive
have no outcome.  A loop that never ends has no outcome either.  The two loop counters that the code
leaves without an initial value (`for (int i; ...)`, cosmos.cpp:93, 135) start at a given number
(as `size_t`, to which they are converted in the comparison).
-/

namespace Jaxions
namespace CosTable

open Spline

/-- A word of the file. -/
inductive Tok (K : Type)
  | num (v : K)
  | junk

/-- `double eta, R, T, Rpp, chi, pf` while reading (cosmos.cpp:44); they start without values. -/
structure Vars (K : Type) where
  eta : Option K := none
  R : Option K := none
  T : Option K := none
  Rpp : Option K := none
  chi : Option K := none
  pf : Option K := none

/-- One row. -/
structure Row (K : Type) where
  eta : K
  R : K
  T : K
  Rpp : K
  chi : K
  pf : K

/-- `push_back` of the six variables (cosmos.cpp:56-61). -/
def Vars.row {K : Type} (v : Vars K) : Option (Row K) := do
  return ⟨← v.eta, ← v.R, ← v.T, ← v.Rpp, ← v.chi, ← v.pf⟩

/-- Variable `k` of the format gets a value. -/
def Vars.put {K : Type} (v : Vars K) (k : ℕ) (x : K) : Vars K :=
  match k with
  | 0 => { v with eta := some x }
  | 1 => { v with R := some x }
  | 2 => { v with T := some x }
  | 3 => { v with Rpp := some x }
  | 4 => { v with chi := some x }
  | _ => { v with pf := some x }

/-- What one `fscanf` leaves: the variables, the rest of the file, the end-of-file mark. -/
structure Scan (K : Type) where
  vars : Vars K
  rest : List (Tok K)
  eof : Bool

/-- `fscanf(cFile, "%lf %lf %lf %lf %lf %lf", ...)` from conversion `k` on (cosmos.cpp:54, 63).  The mark is
set when the end is met: no word left, or a number that ends with the file (`ends = false`: no blank
follows the last word).  A word that is not a number stays where it is. -/
def scan {K : Type} (ends : Bool) : ℕ → Vars K → List (Tok K) → ℕ → Scan K
  | 0, v, ts, _ => ⟨v, ts, false⟩
  | _ + 1, v, [], _ => ⟨v, [], true⟩
  | _ + 1, v, .junk :: ts, _ => ⟨v, .junk :: ts, false⟩
  | m + 1, v, .num x :: ts, k =>
    if ts.isEmpty && !ends then ⟨v.put k x, [], true⟩ else scan ends m (v.put k x) ts (k + 1)

/-- The loop of cosmos.cpp:55-71 from a state that is not at the end.  If a turn reads nothing the loop
repeats for ever. -/
def loop {K : Type} (ends : Bool) (v : Vars K) (ts : List (Tok K)) (acc : List (Row K)) : Option (List (Row K)) :=
  match v.row with
  | none => none
  | some r =>
    let s := scan ends 6 v ts 0
    if s.eof then some (acc ++ [r])
    else if s.rest.length < ts.length then loop ends s.vars s.rest (acc ++ [r])
    else none
termination_by ts.length

/-- cosmos.cpp:54-71. -/
def readRows {K : Type} (ends : Bool) (ts : List (Tok K)) : Option (List (Row K)) :=
  let s := scan ends 6 {} ts 0
  if s.eof then some [] else loop ends s.vars s.rest []

/-! ### The search -/

/-- `leta0, leta2, lfA0, lfA2` (cosmos.cpp:98-101). -/
structure Ends where
  e0 : ℝ
  e2 : ℝ
  f0 : ℝ
  f2 : ℝ

/-- What the search leaves when it ends. -/
structure Found where
  leta1 : ℝ
  lfA1 : ℝ

open Classical in
/-- One turn of cosmos.cpp:104-116: the new abscissa with its ordinate, and the new ends. -/
noncomputable def turn (S : ℝ → ℝ) (lfA : ℝ) (E : Ends) : Option (Found × Ends) := do
  let lslo ← Cosmo.quot (E.f2 - E.f0) (E.e2 - E.e0)
  let q ← Cosmo.quot (lfA - E.f0) lslo
  let leta1 := E.e0 + q
  let lfA1 := S leta1
  return (⟨leta1, lfA1⟩,
    if |E.f2 - lfA| < |(|E.f0 - lfA|)| then { E with e0 := leta1, f0 := lfA1 }
    else { E with e2 := leta1, f2 := lfA1 })

open Classical in
/-- The loop of cosmos.cpp:102-116, `fuel` turns at most; `errr` starts at 1. -/
noncomputable def search (S : ℝ → ℝ) (lfA : ℝ) : ℕ → Ends → Option Found
  | 0, _ => none
  | fuel + 1, E => do
    let (F, E') ← turn S lfA E
    let q ← Cosmo.quot F.lfA1 lfA
    if |1 - q| > 0.00001 then search S lfA fuel E' else return F

/-! ### Units and splines -/

/-- The four splines, and the numbers found. -/
structure Tab where
  n : ℕ
  sR : Spl ℝ
  sT : Spl ℝ
  sRpp : Spl ℝ
  schi : Spl ℝ
  eta1 : ℝ
  R1 : ℝ
  chi1 : ℝ

/-- `set_points(x, y)` with the defaults: the sizes must agree (spline.h:288). -/
noncomputable def spl (nx ny : ℕ) (x y : ℕ → ℝ) : Option (Spl ℝ) :=
  if nx = ny then setPoints nx x y true false (.second 0) (.second 0) else none

/-- `for (int i; i < etav.size(); i++) v[i] /= d` (cosmos.cpp:135-139) from `start` on. -/
noncomputable def divide (start : ℕ) (v : ℕ → ℝ) (d : ℝ) (i : ℕ) : ℝ := if start ≤ i then v i / d else v i

/-- Element `i` of a column. -/
noncomputable def col (rows : List (Row ℝ)) (f : Row ℝ → ℝ) (i : ℕ) : ℝ := ((rows[i]?).map f).getD 0

open Classical in
/-- `Cosmos::Setup` after reading (cosmos.cpp:84-144).  `s1`, `s2` are the numbers the two loops start at. -/
noncomputable def setup (fuel s1 s2 : ℕ) (fA : ℝ) (rows : List (Row ℝ)) : Option Tab := do
  let n := rows.length
  let eta := col rows Row.eta
  if n = 0 then none
  else
    -- letav has the elements from `s1` on
    let m := n - s1
    if ¬ (0 < fA ∧ ∀ i, i < m → 0 < eta (s1 + i)) then none
    else
      let leta := fun i => Real.logb 10 (eta (s1 + i))
      let lfA := Real.logb 10 fA
      let pf := col rows Row.pf
      let S ← spl m n leta pf
      let F ← search S.eval lfA fuel ⟨leta 0, leta (m - 1), pf 0, pf (n - 1)⟩
      let eta1 := (10 : ℝ) ^ F.leta1
      let R ← spl n n eta (col rows Row.R)
      let R1 := R.eval eta1
      let chi ← spl n n eta (col rows Row.chi)
      let chi1 := chi.eval eta1
      if s2 < n ∧ (R1 = 0 ∨ chi1 = 0) then none
      else
        let eta' := divide s2 eta eta1
        let sR ← spl n n eta' (divide s2 (col rows Row.R) R1)
        let sT ← spl n n eta' (col rows Row.T)
        let sRpp ← spl n n eta' (col rows Row.Rpp)
        let schi ← spl n n eta' (divide s2 (col rows Row.chi) chi1)
        return ⟨n, sR, sT, sRpp, schi, eta1, R1, chi1⟩

/-- `Cosmos::Rpp` with a table (cosmos.cpp:176-181). -/
noncomputable def Tab.Rpp (t : Tab) (ct : ℝ) : Option ℝ := Cosmo.quot (t.sRpp.eval ct) (ct * ct)

end CosTable
end Jaxions
