import Verif.Model.Derived
/-
Specification for C34: what the options say, and the physical quantities they are about.
-/
noncomputable section

namespace Jaxions.Derived

/-- The last value an option list gives for something; `f` reads an option. -/
def lastOf {α : Type} (f : Opt → Option α) (opts : List Opt) : Option α := (opts.filterMap f).getLast?

def Opt.msa? : Opt → Option ℝ
  | .msa x => some x
  | _ => none
def Opt.llcf? : Opt → Option ℝ
  | .llcf x => some x
  | _ => none
def Opt.logi? : Opt → Option ℝ
  | .logi x => some x
  | _ => none
def Opt.zi? : Opt → Option ℝ
  | .zi x => some x
  | _ => none
def Opt.zf? : Opt → Option ℝ
  | .zf x => some x
  | _ => none
def Opt.size? : Opt → Option ℕ
  | .size n => some n
  | _ => none
def Opt.lsize? : Opt → Option ℝ
  | .lsize x => some x
  | _ => none

/-- Exponent of the self coupling: `--lz2e` sets it, `--msa` puts it back to two. -/
def Opt.exponent? : Opt → Option ℝ
  | .msa _ => some 2
  | .lz2e x => some x
  | _ => none

/-- Exponent of the expansion: `--frw` sets it, `--mink` makes it zero. -/
def Opt.expansion? : Opt → Option ℝ
  | .mink => some 0
  | .frw x => some x
  | _ => none

/-- Inverse radius of the string core (mass of the radial mode at self coupling `l`) times the
physical lattice spacing. -/
def coreRatio (l R L : ℝ) (N : ℕ) : ℝ := Real.sqrt (2 * l) * (R * (L / N))

/-- Logarithm of horizon over core: `R ct` is the horizon. -/
def logCore (l R ct : ℝ) : ℝ := Real.log (Real.sqrt (2 * l) * (R * ct))

end Jaxions.Derived
