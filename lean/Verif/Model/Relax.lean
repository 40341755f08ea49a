import Verif.Model.StartField

/-!
Loops that let a network of strings thin out before the start.

Covers:
  lib/gen/prepropa.cpp:62-101     prepropa, the loop
  lib/gen/prepropa.cpp:267-311    relaxrho, the loop
  lib/meas/measa.cpp:53-60, 163, 427-434, 1018-1023   number of plaquettes that `Measureme` returns

The field is an element of any type: the number of pierced plaquettes (`strings`, C22, C24), the step
(`dzSize`, C14) and the evolution (`propagate`, C11, C87) are any functions.  `Msa()` is a number.
Folding and the tuning of the propagator are left out.  Arithmetic is exact.
-/

namespace Jaxions.Relax

/-- The field with the clock and the scale factor. -/
structure St (σ : Type) where
  f : σ
  z : ℝ
  R : ℝ

/-- What the loops call, and the global variables they read. -/
structure Env (σ : Type) where
  /-- `strings(axiona).strDen` -/
  den : σ → ℕ
  /-- `dzSize()` -/
  dz : St σ → ℝ
  /-- `propagate` on the field -/
  prop : St σ → ℝ → σ
  /-- `updateR` -/
  Rf : ℝ → ℝ
  /-- `TotalSize()` -/
  total : ℕ
  /-- `zInit`, the logarithm asked for -/
  zInit : ℝ
  msa : ℝ
  delta : ℝ
  iter : ℤ
  kCrit : ℝ
  icstudy : Bool
  /-- `defaultmeasType` -/
  meas : BitVec 32

variable {σ : Type} (E : Env σ)

/-- `MEAS_3DMAP`, enum-field.h. -/
def map3D : BitVec 32 := 4096

/-- `Measureme(axiona, ninfa).str.strDen` for the complex field: zero (measa.cpp:56) unless something
is to be measured (163) beyond the whole configuration, whose bit is taken away (140-150).  Then the
condition 428 is always true, since `|` binds weaker than `&`, and strings are looked for. -/
def measured (f : σ) : ℕ :=
  let measa := if E.meas &&& map3D ≠ 0 then E.meas ^^^ map3D else E.meas
  if measa ≠ 0 then E.den f else 0

/-- `lm.str.strDen`, prepropa.cpp:82-88, 288-293. -/
def seen (f : σ) : ℕ := if E.icstudy then measured E f else E.den f

/-- `propagate(axiona, dzaux)`, 97, 301. -/
noncomputable def step (s : St σ) : St σ :=
  ⟨E.prop s (E.dz s), s.z + E.dz s, E.Rf (s.z + E.dz s)⟩

/-- `cta`, 78, 279. -/
noncomputable def cta : ℝ := E.delta * Real.exp E.zInit / E.msa

open Classical in
/-- The clock is stopped at `cta`, 303-306. -/
noncomputable def clamp (s : St σ) : St σ :=
  if s.z > cta E then ⟨s.f, cta E, E.Rf (cta E)⟩ else s

/-- `goalnN3`, 280-281. -/
noncomputable def aim : ℝ :=
  if E.iter > 0 then min (E.kCrit * StartField.goal E.zInit E.msa E.delta) 1
  else StartField.goal E.zInit E.msa E.delta

/-- `trala`, 99, 308. -/
noncomputable def trala (s : St σ) : ℝ := (seen E s.f : ℝ) / E.total

open Classical in
/-- `while (trala > goalnN3)`, 287-310, at most `fuel` turns; `idx` is `fIndex2`.  The plaquettes
are counted before the step. -/
noncomputable def relaxLoop : ℕ → ℝ → ℕ → St σ → Option (St σ × ℕ)
  | 0, t, idx, s => if t > aim E then none else some (s, idx)
  | fuel + 1, t, idx, s =>
    if t > aim E then
      relaxLoop fuel (trala E s) (if E.icstudy then idx + 1 else idx) (clamp E (step E s))
    else some (s, idx)

/-- `relaxrho`, 284-311. -/
noncomputable def relaxrho (fuel : ℕ) (s : St σ) : Option (St σ × ℕ) := relaxLoop E fuel 1 0 s

open Classical in
/-- `while (zV < 1.2*ct2)`, 80-101, with the `break` 100; `stop` is `1.2*ct2`. -/
noncomputable def prepLoop (stop : ℝ) : ℕ → ℕ → St σ → Option (St σ × ℕ)
  | 0, idx, s => if s.z < stop then none else some (s, idx)
  | fuel + 1, idx, s =>
    if s.z < stop then
      if trala E s < StartField.goal E.zInit E.msa E.delta then
        some (step E s, if E.icstudy then idx + 1 else idx)
      else prepLoop stop fuel (if E.icstudy then idx + 1 else idx) (step E s)
    else some (s, idx)

/-- `prepropa` after `findct2`, 79-101. -/
noncomputable def prepropa (ct2 : ℝ) (fuel : ℕ) (s : St σ) : Option (St σ × ℕ) :=
  prepLoop E (1.2 * ct2) fuel 0 s

end Jaxions.Relax
