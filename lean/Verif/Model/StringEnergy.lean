import Verif.Model.StringLength
import Mathlib.Analysis.Complex.Norm

/-!
# Energy of strings

`stringenergy` (`lib/strings/length.cpp:849-965`).  Arithmetic is exact, complex numbers are those of
Mathlib; the scale factor and the lattice spacing are not zero.  A complex quotient by zero (infinite
or not a number in the code) has no value here, and neither has a sum with such a term.  The sums
(`reduction(+:…)`) are taken in the order of the loops.  The arrays are read as total functions of the
address, after the rows are unfolded and the ghost slices sent (`length.cpp:862-869`).
-/

namespace Jaxions
namespace StrEn

open StrLen (quo corner cells)

/-- `Rscale`, `Hc`, `zaskaF`, `depta`, `lambda` (`length.cpp:871-875`). -/
structure Env where
  R : ℝ
  Hc : ℝ
  s : ℝ
  depta : ℝ
  lam : ℝ

variable (E : Env)

/-- `rhokin` (`length.cpp:902`). -/
noncomputable def rhokin (m v : ℂ) : ℝ :=
  (1 / 2) * ‖v - E.Hc * m‖ * ‖v - E.Hc * m‖ / (E.R * E.R * E.R * E.R)

/-- `rhograd` (`length.cpp:903`). -/
noncomputable def rhograd (m mx my mz : ℂ) : ℝ :=
  (1 / 2) * (‖mx - m‖ * ‖mx - m‖ + ‖my - m‖ * ‖my - m‖ + ‖mz - m‖ * ‖mz - m‖) /
    (E.R * E.R * E.R * E.R * E.depta * E.depta)

/-- `rhopot` (`length.cpp:905`). -/
noncomputable def rhopot (m : ℂ) : ℝ :=
  (1 / 4) * E.lam * (‖m‖ * ‖m‖ / (E.R * E.R) - 1) * (‖m‖ * ‖m‖ / (E.R * E.R) - 1)

/-- A complex quotient. -/
noncomputable def cquo (x y : ℂ) : Option ℂ := if y = 0 then none else some (x / y)

/-- `rhoakin` (`length.cpp:909`). -/
noncomputable def rhoakin (m v : ℂ) : Option ℝ :=
  (cquo (v - E.Hc * m) (m - E.s)).map fun q => (1 / 2) * q.im * q.im / (E.R * E.R)

/-- `rhoskin` (`length.cpp:911-912`). -/
noncomputable def rhoskin (m v : ℂ) : Option ℝ :=
  (cquo ((v - E.Hc * m) * (‖m - E.s‖ : ℝ)) (m - E.s)).map fun q =>
    (1 / 2) * q.re * q.re / (E.R * E.R * E.R * E.R)

/-- `rhosgrad` (`length.cpp:911, 913`). -/
noncomputable def rhosgrad (m mx my mz : ℂ) : ℝ :=
  let modu := ‖m - E.s‖
  (1 / 2) * ((‖mx - E.s‖ - modu) * (‖mx - E.s‖ - modu) + (‖my - E.s‖ - modu) * (‖my - E.s‖ - modu) +
    (‖mz - E.s‖ - modu) * (‖mz - E.s‖ - modu)) / (E.R * E.R * E.R * E.R * E.depta * E.depta)

/-- The sum of two values. -/
def plus (a b : Option ℝ) : Option ℝ := do return (← a) + (← b)

/-- `rhotot`, `rhoa`, `rhos`, `rhoaV`, `rhosV`, `nout` (`length.cpp:881-886`). -/
structure Sums where
  tot : ℝ
  a : Option ℝ
  s : Option ℝ
  aV : Option ℝ
  sV : Option ℝ
  nout : ℕ

/-- Their initial values (`length.cpp:881-886`). -/
def Sums.zero : Sums := ⟨0, some 0, some 0, some 0, some 0, 0⟩

/-- `STRING_MASK` (`include/enum-field.h:85`). -/
def STRING_MASK : ℕ := 128

/-- `rhoskin + rhosgrad + rhopot` (`length.cpp:916, 920`). -/
noncomputable def saxion (m v mx my mz : ℂ) : Option ℝ :=
  (rhoskin E m v).map fun k => k + rhosgrad E m mx my mz + rhopot E m

/-- One turn of the loop (`length.cpp:896-922`). -/
noncomputable def site (ma va : ℕ → ℂ) (sd : ℕ → ℕ) (Lx : ℕ) (t : Sums) (p : ℕ × ℕ × ℕ) : Sums :=
  let c := corner Lx p.1 p.2.1 p.2.2
  let m := ma c.o
  let v := va c.o
  let k := rhoakin E m v
  let g := saxion E m v (ma c.x) (ma c.y) (ma c.z)
  let w := (‖m - E.s‖ / E.R) ^ 2
  let out := sd c.o &&& STRING_MASK = 0
  { tot := t.tot + (rhokin E m v + rhograd E m (ma c.x) (ma c.y) (ma c.z) + rhopot E m)
    aV := plus t.aV (k.map fun k => w * 2 * k)
    sV := plus t.sV (g.map fun g => w * g)
    a := if out then plus t.a (k.map fun k => 2 * k) else t.a
    s := if out then plus t.s g else t.s
    nout := if out then t.nout + 1 else t.nout }

/-- The loops of a rank (`length.cpp:888-925`). -/
noncomputable def rankSums (ma va : ℕ → ℂ) (sd : ℕ → ℕ) (Lx Lz : ℕ) : Sums :=
  (cells Lx Lz).foldl (site E ma va sd Lx) Sums.zero

/-- The six `MPI_Allreduce` (`length.cpp:934-939`). -/
noncomputable def reduce (l : List Sums) : Sums :=
  l.foldl (fun t u => ⟨t.tot + u.tot, plus t.a u.a, plus t.s u.s, plus t.aV u.aV, plus t.sV u.sV,
    t.nout + u.nout⟩) Sums.zero

/-- `StringEnergyData` (`include/enum-field.h`), without `rmask`. -/
structure Data where
  rho_a : Option ℝ
  rho_s : Option ℝ
  rho_str : Option ℝ
  rho_a_Vil : Option ℝ
  rho_s_Vil : Option ℝ
  rho_str_Vil : Option ℝ
  nout : ℕ

/-- The end of the function (`length.cpp:943-949`). -/
noncomputable def result (Lx : ℕ) (t : Sums) : Data :=
  let over : Option ℝ → ℝ → Option ℝ := fun a n => a.bind fun a => quo a n
  let minus : Option ℝ → Option ℝ → Option ℝ := fun a b => plus a (b.map (-·))
  let V : ℝ := ((Lx * Lx * Lx : ℕ) : ℝ)
  let rho_a := over t.a t.nout
  let rho_s := over t.s t.nout
  let aV := over t.aV V
  let sV := over t.sV V
  { rho_a, rho_s
    rho_str := minus (minus (quo t.tot V) rho_a) rho_s
    rho_a_Vil := aV
    rho_s_Vil := sV
    rho_str_Vil := minus (minus (quo t.tot V) aV) sV
    nout := t.nout }

/-- `stringenergy` on `n` ranks (`length.cpp:855-953`). -/
noncomputable def stringenergy (n : ℕ) (ma va : ℕ → ℕ → ℂ) (sd : ℕ → ℕ → ℕ) (Lx Lz : ℕ) : Data :=
  result Lx (reduce ((List.range n).map fun r => rankSums E (ma r) (va r) (sd r) Lx Lz))

end StrEn
end Jaxions
