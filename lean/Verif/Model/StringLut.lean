import Mathlib.Algebra.Order.Floor.Semiring
import Mathlib.Analysis.Real.Sqrt

/-!
Model of the correction of axion velocities and gradients next to strings:
`lib/utils/kgvops.cpp:23-154` (stringcorre) and its callers (215-262, 440-488, 655-705).

Simplified: real arithmetic; `abs` in the callers is the absolute value (whether the overload for
floating point numbers is found depends on the headers); the 85176 entries of each table
(`include/spectrum/LLUTs.h:12`, `4070`) are a parameter.
-/

namespace Jaxions.StringLut

/-- `da[0]` ... `da[9]`: field, velocity (or gradient), gradients of the real and imaginary part. -/
structure Da where
  m0 : ℝ
  m1 : ℝ
  v0 : ℝ
  v1 : ℝ
  a0 : ℝ
  a1 : ℝ
  a2 : ℝ
  b0 : ℝ
  b1 : ℝ
  b2 : ℝ

/-- A number, not a number, or a read behind the end of a table. -/
inductive Res
  | val (r : ℝ)
  | nan
  | outside

/-- LLUTs.h:6-11. -/
def nB : ℕ := 26
def nE : ℕ := 6
def nC : ℕ := 21
def nCE : ℕ := nC * nE
def nCEB : ℕ := nC * nE * nB

/-- Two entries next to each other, one line of kgvops.cpp:78-85 and 97-104. -/
noncomputable def faceC (T : List ℝ) (i : ℕ) (dC : ℝ) : Option ℝ := do
  let x ← T[i]?
  let y ← T[i + 1]?
  return x * (1 - dC) + y * dC

/-- kgvops.cpp:78-95 and 97-114, without the sign. -/
noncomputable def read (T : List ℝ) (i0 : ℕ) (dA dB dE dC : ℝ) : Option ℝ := do
  let L000 ← faceC T i0 dC
  let L001 ← faceC T (i0 + nC) dC
  let L010 ← faceC T (i0 + nE) dC
  let L011 ← faceC T (i0 + nE + nC) dC
  let L100 ← faceC T (i0 + nB) dC
  let L101 ← faceC T (i0 + nB + nC) dC
  let L110 ← faceC T (i0 + nB + nE) dC
  let L111 ← faceC T (i0 + nB + nE + nC) dC
  let M00 := L000 * (1 - dE) + L001 * dE
  let M01 := L010 * (1 - dE) + L011 * dE
  let M10 := L100 * (1 - dE) + L101 * dE
  let M11 := L110 * (1 - dE) + L111 * dE
  let N0 := M00 * (1 - dB) + M01 * dB
  let N1 := M10 * (1 - dB) + M11 * dB
  return N0 * (1 - dA) + N1 * dA

/-- kgvops.cpp:62-95: indices (conversion to int of numbers that are not negative), distances, and the
interpolation. -/
noncomputable def look (T : List ℝ) (A B e cb : ℝ) : Option ℝ :=
  let iA := ⌊A * 25 / 5⌋₊
  let iB := ⌊B * 25 / 5⌋₊
  let iE := ⌊e * 5⌋₊
  let iC := ⌊(cb + 1) * 20 / 2⌋₊
  read T (iC + nC * iE + nCE * iB + nCEB * iA) (A * 25 / 5 - iA) (B * 25 / 5 - iB) (e * 5 - iE)
    ((cb + 1) * 20 / 2 - iC)

/-- Position in the table and signs. -/
structure Place where
  A : ℝ
  B : ℝ
  cb : ℝ
  s1 : ℝ
  s2 : ℝ

/-- kgvops.cpp:49-54. -/
noncomputable def signs (A B cb : ℝ) : Place :=
  let q : Place := if A < 0 then ⟨-A, -B, cb, -1, -1⟩ else ⟨A, B, cb, 1, 1⟩
  if q.B < 0 then ⟨q.A, -q.B, -q.cb, q.s1, -q.s2⟩ else q

/-- kgvops.cpp:39-40. -/
noncomputable def Da.ma (d : Da) : ℝ := √(d.a0 * d.a0 + d.a1 * d.a1 + d.a2 * d.a2)
noncomputable def Da.mb (d : Da) : ℝ := √(d.b0 * d.b0 + d.b1 * d.b1 + d.b2 * d.b2)

/-- kgvops.cpp:146-151: the velocity of the phase. -/
noncomputable def plain (d : Da) : Res :=
  if d.m0 * d.m0 + d.m1 * d.m1 = 0 then .nan
  else .val ((d.m0 * d.v1 - d.m1 * d.v0) / (d.m0 * d.m0 + d.m1 * d.m1))

/-- kgvops.cpp:41-54. -/
noncomputable def Da.flip (d : Da) : Bool := decide (d.ma < d.mb)
noncomputable def Da.e (d : Da) : ℝ := if d.flip then d.ma / d.mb else d.mb / d.ma
noncomputable def Da.place (d : Da) : Place :=
  signs (if d.flip then d.m1 / d.mb else d.m0 / d.ma) (if d.flip then d.m0 / d.mb else d.m1 / d.ma)
    ((d.a0 * d.b0 + d.a1 * d.b1 + d.a2 * d.b2) / (d.ma * d.mb))

/-- kgvops.cpp:23-154, `re[0]`; with `nr == 2` the same is done for a second gradient in
`re[0]`, `re[1]` in place of `da[2]`, `da[3]`. Without one of the gradients `cb` is not a number and no comparison with
it holds. -/
noncomputable def corre (Tc Ts : List ℝ) (d : Da) : Res :=
  if d.ma = 0 ∨ d.mb = 0 then plain d
  else
    let q := d.place
    if q.A ≤ 5 ∧ q.B ≤ 5 ∧ d.e ≤ 1 ∧ q.cb ≤ 1 ∧ -1 ≤ q.cb then
      match look Tc q.A q.B d.e q.cb, look Ts q.A q.B d.e q.cb with
      | some Lc, some Ls =>
        .val (if d.flip then (q.s2 * Ls * d.v1 - q.s1 * Lc * d.v0) / d.mb
          else (q.s1 * Lc * d.v1 - q.s2 * Ls * d.v0) / d.ma)
      | _, _ => .outside
    else plain d

/-- The callers, e.g. kgvops.cpp:238-262: the table is for sites near strings. -/
noncomputable def site (lut : Bool) (Tc Ts : List ℝ) (d : Da) : Res :=
  if lut then
    if |d.m0| > |5 * d.a0| then plain d
    else if |d.m1| > |5 * d.b0| then plain d
    else if |d.m0| > |5 * d.a1| then plain d
    else if |d.m1| > |5 * d.b1| then plain d
    else if |d.m0| > |5 * d.a2| then plain d
    else if |d.m1| > |5 * d.b2| then plain d
    else corre Tc Ts d
  else plain d

end Jaxions.StringLut
