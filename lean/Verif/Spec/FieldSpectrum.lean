import Verif.Model.FieldSpectrum
import Verif.Spec.Spectrum
import Verif.Props.SpectrumTotal
import Verif.Lemmas.WKBField
/-
Specification for C84: power of a field in shells of momenta, and the energies of an axion field.
-/
namespace Jaxions.FieldSpec

open Finset Gravity WKB Spectrum

/-- What a run needs: an even grid that the ranks divide, threads, bins, a box with a size. -/
structure Setup.Ok (u : Setup) : Prop where
  geo : u.g.Ok
  even : 2 ∣ u.g.Lx
  threads : 0 < u.threads
  bins : u.nbinsspec ≠ 0
  size : 0 < u.ℓ

/-- The configuration of the bins. -/
def Setup.cfg (u : Setup) : Cfg := FieldSpec.cfg u.g u.threads u.nbinsspec

/-- Every line, every site and every mode of a rank once, in any order. -/
structure Orders.Ok (u : Setup) (d : Orders) : Prop where
  lines : d.lines.Perm (List.range u.g.lines)
  sites : (d.sites.map (bare u.g.Lx)).Perm (List.range u.g.vol)
  inside : ∀ s ∈ d.sites, s.1 < u.g.Lx ∧ s.2.1 < u.g.Lx
  modes : Order u.cfg d.modes

/-- The ranks hold the field `ψ`, its velocity `π` and the marks; `m2` has room for padded lines. -/
structure Holds (u : Setup) (mem : ℕ → Mem) (ψ π : Torus u.g.Lx u.g.Tz → ℝ)
    (mark : Torus u.g.Lx u.g.Tz → Bool) : Prop where
  m : ∀ r < u.g.n, ∀ i < u.g.vol, (mem r).m (start u.g u.Ng + i) = some (ψ (siteOf u.g (r * u.g.vol + i)))
  v : ∀ r < u.g.n, ∀ i < u.g.vol, (mem r).v i = some (π (siteOf u.g (r * u.g.vol + i)))
  str : ∀ r < u.g.n, ∀ i < u.g.vol, (mem r).str i = some (mark (siteOf u.g (r * u.g.vol + i)))
  m2 : ∀ r < u.g.n, WKB.Alloc (u.g.lines * (u.g.Lx + 2)) (mem r).m2

/-- Asked for the spectrum of the velocity: `NRUN_K` is bit 0 and `NRUN_CK` bit 4. -/
def askedK (nrt : ℕ) : Bool := nrt.testBit 0 || nrt.testBit 4
/-- Asked for that of the gradient or of the field: `NRUN_G`, `NRUN_V`, `NRUN_CG`, `NRUN_CV`. -/
def askedGV (nrt : ℕ) : Bool := nrt.testBit 1 || nrt.testBit 2 || nrt.testBit 5 || nrt.testBit 6
/-- Asked for that of the whole potential: `NRUN_S`, `NRUN_CS`. -/
def askedS (nrt : ℕ) : Bool := nrt.testBit 3 || nrt.testBit 7

/-- A field set to zero at the marked sites. -/
def cut {X : Type} (mark : X → Bool) (f : X → ℝ) : X → ℝ := fun x => if mark x then 0 else f x

/-- The field of which a mask lets the spectrum be taken: the whole field or the field off the marks. -/
def seen {X : Type} (cutting : Bool) (mark : X → Bool) (f : X → ℝ) : X → ℝ :=
  if cutting then cut mark f else f

section
variable (u : Setup) [NeZero u.g.Lx] [NeZero u.g.Tz]

/-- Number of sites. -/
def Setup.N : ℝ := u.g.Lx * u.g.Lx * u.g.Tz

/-- Mean over the lattice. -/
noncomputable def mean (F : Torus u.g.Lx u.g.Tz → ℝ) : ℝ := (∑ x, F x) / u.N

/-- Half the power of `f`, each wave weighed with `W`, in the shell of momenta of bin `j`, times the
volume. -/
noncomputable def shell (W : Torus u.g.Lx u.g.Tz → ℝ) (f : Torus u.g.Lx u.g.Tz → ℝ) (j : ℕ) : ℝ :=
  ∑ k : Torus u.g.Lx u.g.Tz with InBin u.cfg (ksq k).toNat j,
    u.ℓ ^ 3 * (W k * ‖dft (fun x => (f x : ℂ)) k‖ ^ 2 / (2 * u.N ^ 2))

/-- Square of the momentum of a wave. -/
noncomputable def k2 (k : Torus u.g.Lx u.g.Tz) : ℝ := (2 * Real.pi / u.ℓ) ^ 2 * ksq k

/-- Kinetic energy in the box. -/
noncomputable def kinetic (π : Torus u.g.Lx u.g.Tz → ℝ) : ℝ := u.ℓ ^ 3 * mean u fun x => π x ^ 2 / 2

/-- Gradient energy in the box, of the trigonometric interpolation. -/
noncomputable def gradient (ψ : Torus u.g.Lx u.g.Tz → ℝ) : ℝ :=
  u.ℓ ^ 3 * mean u fun x => ψ x * -(lapS (2 * Real.pi / u.ℓ) (fun y => (ψ y : ℂ)) x).re / 2

/-- Energy in the box for the potential `m² R² ψ² / 2`. -/
noncomputable def quadratic (ψ : Torus u.g.Lx u.g.Tz → ℝ) : ℝ :=
  u.ℓ ^ 3 * mean u fun x => u.ma * u.R ^ 2 * ψ x ^ 2 / 2

/-- Energy in the box for the potential `m² R⁴ (1 - cos (ψ/R))`. -/
noncomputable def cosine (ψ : Torus u.g.Lx u.g.Tz → ℝ) : ℝ :=
  u.ℓ ^ 3 * mean u fun x => u.ma * u.R ^ 4 * (1 - Real.cos (ψ x / u.R))

end

end Jaxions.FieldSpec
