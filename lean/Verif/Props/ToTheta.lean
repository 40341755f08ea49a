import Verif.Spec.ToTheta
import Verif.Lemmas.ToTheta
import Verif.Basic.Cells
import Mathlib.Analysis.SpecialFunctions.Complex.Arg
import Mathlib.Analysis.SpecialFunctions.ExpDeriv
import Mathlib.Analysis.Calculus.Deriv.Mul
import Mathlib.Analysis.Calculus.Deriv.Add
import Mathlib.Analysis.Complex.RealDeriv
import Mathlib.Tactic.FieldSimp
import Mathlib.Tactic.LinearCombination

/-!
C54: the conversions between the complex field and the angle.
-/

namespace Jaxions.ToTheta

open Complex

theorem val2_eq (P : Par ℝ) (φ w : ℂ) :
    (w.im * (φ.re - P.shift) - w.re * φ.im) *
      (P.R / ((φ.re - P.shift) * (φ.re - P.shift) + φ.im * φ.im)) +
      P.F * arg2 (φ.re - P.shift) φ.im =
    P.R * (w / (φ - P.shift)).im + P.frw * P.R / P.z * arg (φ - P.shift) := by
  have e : (⟨φ.re - P.shift, φ.im⟩ : ℂ) = φ - P.shift := by
    apply Complex.ext <;> simp
  unfold arg2 Par.F
  rw [e, Complex.div_im, Complex.normSq_apply]
  simp only [Complex.sub_re, Complex.sub_im, Complex.ofReal_re, Complex.ofReal_im, sub_zero]
  ring

/-- C54.  With at least one ghost slice, and whatever the order in which the threads treat the
sites of a slice, the conversion in place is defined, and after it the memory holds the real field
`R arg(φ - s)` with the velocity `R Im(φ'/(φ - s)) + (frw R/t) arg(φ - s)`, at every site.
Where `φ = s` the code divides by zero, so this is excluded. -/
theorem C54_convert (g : Geo) (P : Par ℝ) (order : ℕ → List ℕ) (h : Mem ℝ) (φ w : ℕ → ℂ)
    (hN : 1 ≤ g.Ng) (ho : ∀ cZ < g.Lz, ∀ l, l ∈ order cZ ↔ l < g.S) (hA : Alloc g h)
    (_hne : ∀ i, φ i ≠ P.shift) (hs : Saxion g h φ w) :
    ∃ h', toTheta arg2 g P order h = some h' ∧
      Axion g h' (fun i => P.R * arg (φ i - P.shift))
        (fun i => P.R * (w i / (φ i - P.shift)).im +
          P.frw * P.R / P.z * arg (φ i - P.shift)) := by
  obtain ⟨h', e, p, q, _⟩ := toTheta_spec arg2 g P order h (fun i => (φ i).re)
    (fun i => (φ i).im) (fun i => (w i).re) (fun i => (w i).im) hN ho hA
    (fun i hi => (hs i hi).1) (fun i hi => (hs i hi).2.1) (fun i hi => (hs i hi).2.2.1)
    (fun i hi => (hs i hi).2.2.2)
  refine ⟨h', e, fun i hi => ⟨?_, ?_⟩⟩
  · have := p i hi
    unfold Geo.rm at this
    rw [this]
    congr 1
    unfold val1 arg2
    have e : (⟨(φ i).re - P.shift, (φ i).im⟩ : ℂ) = φ i - P.shift := by
      apply Complex.ext <;> simp
    rw [e, mul_comm]
  · have := q i hi
    unfold rv at this
    rw [this]
    congr 1
    exact val2_eq P (φ i) (w i)

/-- Derivative of `s + ρ e^{iθ}`. -/
theorem hasDerivAt_polar (s ρ θ : ℝ → ℝ) (s' ρ' θ' t : ℝ) (hs : HasDerivAt s s' t)
    (hρ : HasDerivAt ρ ρ' t) (hθ : HasDerivAt θ θ' t) :
    HasDerivAt (fun u => (s u : ℂ) + (ρ u : ℂ) * exp (θ u * I))
      ((s' : ℂ) + ((ρ' : ℂ) + ρ t * θ' * I) * exp (θ t * I)) t := by
  have h1 : HasDerivAt (fun u => (s u : ℂ)) (s' : ℂ) t := hs.ofReal_comp
  have h2 : HasDerivAt (fun u => (ρ u : ℂ)) (ρ' : ℂ) t := hρ.ofReal_comp
  have h3 : HasDerivAt (fun u => (θ u : ℂ) * I) ((θ' : ℂ) * I) t := hθ.ofReal_comp.mul_const I
  have h4 := h3.cexp
  have h5 := h1.add (h2.mul h4)
  refine h5.congr_deriv ?_
  ring

theorem polar_im (s ρ θ s' ρ' θ' : ℝ) (hρ : ρ ≠ 0) :
    (((s' : ℂ) + ((ρ' : ℂ) + ρ * θ' * I) * exp (θ * I)) /
      ((s : ℂ) + (ρ : ℂ) * exp (θ * I) - s)).im = θ' - s' * Real.sin θ / ρ := by
  have hc : (ρ : ℂ) ≠ 0 := by exact_mod_cast hρ
  have he : exp (θ * I) ≠ 0 := exp_ne_zero _
  have e1 : ((s' : ℂ) + ((ρ' : ℂ) + ρ * θ' * I) * exp (θ * I)) /
      ((s : ℂ) + (ρ : ℂ) * exp (θ * I) - s) =
      ((s' / ρ : ℝ) : ℂ) * exp ((-θ : ℝ) * I) + ((ρ' / ρ : ℝ) : ℂ) + (θ' : ℝ) * I := by
    push_cast
    rw [neg_mul, exp_neg]
    field_simp
    ring
  rw [e1, Complex.exp_mul_I, ← Complex.ofReal_cos, ← Complex.ofReal_sin]
  simp only [Complex.add_im, Complex.mul_im, Complex.ofReal_re, Complex.ofReal_im, Complex.I_re,
    Complex.I_im, Complex.add_re, Complex.mul_re, Real.sin_neg, Real.cos_neg]
  ring

theorem arg_polar {ρ θ : ℝ} (h : 0 < ρ) (h1 : -Real.pi < θ) (h2 : θ ≤ Real.pi) :
    arg ((ρ : ℂ) * exp (θ * I)) = θ := by
  rw [Complex.arg_real_mul _ h, Complex.arg_exp_mul_I, toIocMod_eq_self]
  constructor
  · exact h1
  · linarith

/-- C54.  What the velocity means.  Let every site follow a path `s(u) + ρ_i(u) e^{iθ_i(u)}`, with
the vacuum at `s(t)` and the memory holding place and velocity of the paths at time `t`.  Then the
conversion gives `R θ_i`, and the velocity is the derivative of `R(u) θ_i(u)` up to two terms: one
for `R'` different from `frw R/t` and one for a vacuum that moves. -/
theorem C54_velocity (g : Geo) (P : Par ℝ) (order : ℕ → List ℕ) (h : Mem ℝ) (t : ℝ)
    (s R : ℝ → ℝ) (s' R' : ℝ) (ρ θ : ℕ → ℝ → ℝ) (ρ' θ' : ℕ → ℝ) (φ w : ℕ → ℂ)
    (hN : 1 ≤ g.Ng) (ho : ∀ cZ < g.Lz, ∀ l, l ∈ order cZ ↔ l < g.S) (hA : Alloc g h)
    (hφ : ∀ i, φ i = s t + ρ i t * exp (θ i t * I))
    (hw : ∀ i, HasDerivAt (fun u => (s u : ℂ) + (ρ i u : ℂ) * exp (θ i u * I)) (w i) t)
    (hs : HasDerivAt s s' t) (hR : HasDerivAt R R' t)
    (hρ : ∀ i, HasDerivAt (ρ i) (ρ' i) t) (hθ : ∀ i, HasDerivAt (θ i) (θ' i) t)
    (hpos : ∀ i, 0 < ρ i t) (hθ1 : ∀ i, -Real.pi < θ i t) (hθ2 : ∀ i, θ i t ≤ Real.pi)
    (hPz : P.z = t) (hPR : P.R = R t) (hPs : P.shift = s t) (hm : Saxion g h φ w) :
    ∃ h' c w', toTheta arg2 g P order h = some h' ∧ Axion g h' c w' ∧
      (∀ i, c i = R t * θ i t) ∧
      ∀ i, HasDerivAt (fun u => R u * θ i u)
        (w' i - (P.frw * R t / t - R') * θ i t + R t * (s' * Real.sin (θ i t) / ρ i t)) t := by
  obtain ⟨h', e, p⟩ := C54_convert g P order h φ w hN ho hA (by
    intro i hi
    rw [hφ i, hPs, add_eq_left] at hi
    have : (ρ i t : ℂ) ≠ 0 := by exact_mod_cast (hpos i).ne'
    exact mul_ne_zero this (exp_ne_zero _) hi) hm
  have ha : ∀ i, arg (φ i - P.shift) = θ i t := by
    intro i
    rw [hφ i, hPs, add_sub_cancel_left]
    exact arg_polar (hpos i) (hθ1 i) (hθ2 i)
  refine ⟨h', _, _, e, p, fun i => by rw [ha i, hPR], ?_⟩
  intro i
  have hw' := (hw i).unique (hasDerivAt_polar s (ρ i) (θ i) s' (ρ' i) (θ' i) t hs (hρ i) (hθ i))
  refine (hR.mul (hθ i)).congr_deriv ?_
  rw [ha i, hw', hφ i, hPs, polar_im _ _ _ _ _ _ (hpos i).ne', hPz, hPR]
  ring

/-- C54.  In a background `R = t^frw` and with a vacuum at rest the velocity is the derivative. -/
theorem C54_derivative (g : Geo) (P : Par ℝ) (order : ℕ → List ℕ) (h : Mem ℝ) (t : ℝ)
    (R : ℝ → ℝ) (ρ θ : ℕ → ℝ → ℝ) (ρ' θ' : ℕ → ℝ) (φ w : ℕ → ℂ)
    (hN : 1 ≤ g.Ng) (ho : ∀ cZ < g.Lz, ∀ l, l ∈ order cZ ↔ l < g.S) (hA : Alloc g h)
    (hφ : ∀ i, φ i = P.shift + ρ i t * exp (θ i t * I))
    (hw : ∀ i, HasDerivAt (fun u => (P.shift : ℂ) + (ρ i u : ℂ) * exp (θ i u * I)) (w i) t)
    (hR : HasDerivAt R (P.frw * R t / t) t)
    (hρ : ∀ i, HasDerivAt (ρ i) (ρ' i) t) (hθ : ∀ i, HasDerivAt (θ i) (θ' i) t)
    (hpos : ∀ i, 0 < ρ i t) (hθ1 : ∀ i, -Real.pi < θ i t) (hθ2 : ∀ i, θ i t ≤ Real.pi)
    (hPz : P.z = t) (hPR : P.R = R t) (hm : Saxion g h φ w) :
    ∃ h' c w', toTheta arg2 g P order h = some h' ∧ Axion g h' c w' ∧
      (∀ i, c i = R t * θ i t) ∧ ∀ i, HasDerivAt (fun u => R u * θ i u) (w' i) t := by
  obtain ⟨h', c, w', e, p, q, r⟩ := C54_velocity g P order h t (fun _ => P.shift) R 0 _ ρ θ ρ' θ'
    φ w hN ho hA hφ hw (hasDerivAt_const _ _) hR hρ hθ hpos hθ1 hθ2 hPz hPR rfl hm
  refine ⟨h', c, w', e, p, q, fun i => (r i).congr_deriv ?_⟩
  ring

/-- C54.  With the option for gravity, `R = t (1 + γ t/4)`, the velocity left behind is not the
derivative: it is too small by `γ t θ/4` wherever the angle is not zero. -/
theorem C54_gravity (g : Geo) (P : Par ℝ) (order : ℕ → List ℕ) (h : Mem ℝ) (t γ : ℝ)
    (ρ θ : ℕ → ℝ → ℝ) (ρ' θ' : ℕ → ℝ) (φ w : ℕ → ℂ) (ht : 0 < t)
    (hN : 1 ≤ g.Ng) (ho : ∀ cZ < g.Lz, ∀ l, l ∈ order cZ ↔ l < g.S) (hA : Alloc g h)
    (hφ : ∀ i, φ i = P.shift + ρ i t * exp (θ i t * I))
    (hw : ∀ i, HasDerivAt (fun u => (P.shift : ℂ) + (ρ i u : ℂ) * exp (θ i u * I)) (w i) t)
    (hρ : ∀ i, HasDerivAt (ρ i) (ρ' i) t) (hθ : ∀ i, HasDerivAt (θ i) (θ' i) t)
    (hpos : ∀ i, 0 < ρ i t) (hθ1 : ∀ i, -Real.pi < θ i t) (hθ2 : ∀ i, θ i t ≤ Real.pi)
    (hf : P.frw = 1) (hPz : P.z = t) (hPR : P.R = t * (1 + 1 / 4 * t * γ))
    (hm : Saxion g h φ w) :
    ∃ h' c w', toTheta arg2 g P order h = some h' ∧ Axion g h' c w' ∧
      (∀ i, c i = t * (1 + 1 / 4 * t * γ) * θ i t) ∧
      ∀ i, HasDerivAt (fun u => u * (1 + 1 / 4 * u * γ) * θ i u)
        (w' i + γ * t / 4 * θ i t) t := by
  have hR : HasDerivAt (fun u : ℝ => u * (1 + 1 / 4 * u * γ)) (1 + 1 / 2 * t * γ) t := by
    have h1 := (((hasDerivAt_id t).const_mul (1 / 4 : ℝ)).mul_const γ).const_add 1
    refine ((hasDerivAt_id t).mul h1).congr_deriv ?_
    simp only [id]; ring
  obtain ⟨h', c, w', e, p, q, r⟩ := C54_velocity g P order h t (fun _ => P.shift) _ 0 _ ρ θ ρ' θ'
    φ w hN ho hA hφ hw (hasDerivAt_const _ _) hR hρ hθ hpos hθ1 hθ2 hPz hPR rfl hm
  refine ⟨h', c, w', e, p, q, fun i => (r i).congr_deriv ?_⟩
  rw [hf]
  field_simp
  ring

/-- The cosine and the sine are those of `e^{iθ}`; the velocity is `(Rp (1 - iθ) + i v/R) φ`. -/
theorem back_eq (R Rp c v : ℝ) :
    (R * Real.cos (c / R) = ((R : ℂ) * exp ((c / R : ℝ) * I)).re) ∧
    (R * Real.sin (c / R) = ((R : ℂ) * exp ((c / R : ℝ) * I)).im) ∧
    (Rp * (R * Real.cos (c / R)) - (v / R - Rp * (c / R)) * (R * Real.sin (c / R)) =
      (((Rp : ℂ) + ((v / R - Rp * (c / R) : ℝ) : ℂ) * I) *
        ((R : ℂ) * exp ((c / R : ℝ) * I))).re) ∧
    (Rp * (R * Real.sin (c / R)) + (v / R - Rp * (c / R)) * (R * Real.cos (c / R)) =
      (((Rp : ℂ) + ((v / R - Rp * (c / R) : ℝ) : ℂ) * I) *
        ((R : ℂ) * exp ((c / R : ℝ) * I))).im) := by
  rw [Complex.exp_mul_I, ← Complex.ofReal_cos, ← Complex.ofReal_sin]
  refine ⟨?_, ?_, ?_, ?_⟩ <;>
    simp only [Complex.add_re, Complex.add_im, Complex.mul_re, Complex.mul_im, Complex.ofReal_re,
      Complex.ofReal_im, Complex.I_re, Complex.I_im] <;> ring

/-- C54.  From the angle back to the complex field: with `m2` allocated, and in any order of the
sites, the memory afterwards holds `R e^{ic/R}` with velocity `(R'/R + i (v/R - (R'/R) c/R)) φ`. -/
theorem C54_back (g : Geo) (R Rp : ℝ) (order : List ℕ) (h : Mem ℝ) (c w : ℕ → ℝ)
    (ho : ∀ i, i ∈ order ↔ i < g.S * g.Lz) (hA : Alloc g h)
    (hm2 : ∀ k < 2 * g.v3, (h (.m2, k)).isSome) (hs : Axion g h c w) :
    ∃ h', toSaxion Real.cos Real.sin g R Rp order h = some h' ∧ Alloc g h' ∧
      Saxion g h' (fun i => (R : ℂ) * exp ((c i / R : ℝ) * I))
        (fun i => ((Rp : ℂ) + ((w i / R - Rp * (c i / R) : ℝ) : ℂ) * I) *
          ((R : ℂ) * exp ((c i / R : ℝ) * I))) := by
  obtain ⟨h', e, p1, p2, p3, p4, p5⟩ := toSaxion_spec Real.cos Real.sin g R Rp order h c w ho hA
    hm2 (fun i hi => (hs i hi).1) (fun i hi => (hs i hi).2)
  refine ⟨h', e, ⟨fun k hk => p5 _ (hA.1 k hk), fun k hk => p5 _ (hA.2 k hk)⟩, ?_⟩
  intro i hi
  obtain ⟨b1, b2, b3, b4⟩ := back_eq R Rp (c i) (w i)
  dsimp only
  rw [← b1, ← b2, ← b3, ← b4]
  exact ⟨p1 i hi, p2 i hi, p3 i hi, p4 i hi⟩

/-- C54.  If the memory holds `R θ_i` and the derivative of `R θ_i`, and `Rp` is `R'/R`, then the
complex field written back moves with the derivative of `R e^{iθ_i}`. -/
theorem C54_back_velocity (g : Geo) (R : ℝ → ℝ) (R' t Rp : ℝ) (order : List ℕ) (h : Mem ℝ)
    (θ : ℕ → ℝ → ℝ) (θ' w : ℕ → ℝ)
    (ho : ∀ i, i ∈ order ↔ i < g.S * g.Lz) (hA : Alloc g h)
    (hm2 : ∀ k < 2 * g.v3, (h (.m2, k)).isSome) (hR : HasDerivAt R R' t) (hR0 : R t ≠ 0)
    (hRp : Rp = R' / R t) (hθ : ∀ i, HasDerivAt (θ i) (θ' i) t)
    (hw : ∀ i, HasDerivAt (fun u => R u * θ i u) (w i) t)
    (hs : Axion g h (fun i => R t * θ i t) w) :
    ∃ h' φ w', toSaxion Real.cos Real.sin g (R t) Rp order h = some h' ∧ Saxion g h' φ w' ∧
      (∀ i, φ i = R t * exp (θ i t * I)) ∧
      ∀ i, HasDerivAt (fun u => (R u : ℂ) * exp (θ i u * I)) (w' i) t := by
  obtain ⟨h', e, _, p⟩ := C54_back g (R t) Rp order h _ w ho hA hm2 hs
  have hd : ∀ i, R t * θ i t / R t = θ i t := fun i => by field_simp
  refine ⟨h', _, _, e, p, fun i => by rw [hd i], ?_⟩
  intro i
  have h1 := hasDerivAt_polar (fun _ => 0) R (θ i) 0 R' (θ' i) t (hasDerivAt_const _ _) hR (hθ i)
  simp only [Complex.ofReal_zero, zero_add] at h1
  refine h1.congr_deriv ?_
  have hwi := (hw i).unique (hR.mul (hθ i))
  have hc : (R t : ℂ) ≠ 0 := by exact_mod_cast hR0
  rw [hd i, hwi, hRp]
  push_cast
  field_simp
  ring

/-- C54.  Round trip.  Real field to complex field and back: the field comes back up to whole turns,
exactly if it was in the first turn, and the velocity comes back up to the same turns and up to the
difference between the two expressions the code has for `R'`, `frw R/t` and `R Rp`. -/
theorem C54_round_trip (g : Geo) (P : Par ℝ) (Rp : ℝ) (order : List ℕ) (order' : ℕ → List ℕ)
    (h : Mem ℝ) (c w : ℕ → ℝ) (hN : 1 ≤ g.Ng)
    (ho : ∀ i, i ∈ order ↔ i < g.S * g.Lz)
    (ho' : ∀ cZ < g.Lz, ∀ l, l ∈ order' cZ ↔ l < g.S) (hA : Alloc g h)
    (hm2 : ∀ k < 2 * g.v3, (h (.m2, k)).isSome) (hR : 0 < P.R) (hsh : P.shift = 0)
    (hs : Axion g h c w) :
    ∃ h' h'' c' w', ∃ k : ℕ → ℤ, toSaxion Real.cos Real.sin g P.R Rp order h = some h' ∧
      toTheta arg2 g P order' h' = some h'' ∧ Axion g h'' c' w' ∧
      (∀ i, c' i = c i - 2 * Real.pi * P.R * k i) ∧
      (∀ i, -Real.pi * P.R < c i → c i ≤ Real.pi * P.R → k i = 0) ∧
      (∀ i, w' i = w i - 2 * Real.pi * (P.frw * P.R / P.z) * k i +
        (P.frw * P.R / P.z - P.R * Rp) * (c i / P.R)) := by
  obtain ⟨h', e, hA', p⟩ := C54_back g P.R Rp order h c w ho hA hm2 hs
  have hc : (P.R : ℂ) ≠ 0 := by exact_mod_cast hR.ne'
  have hne : ∀ i, (P.R : ℂ) * exp ((c i / P.R : ℝ) * I) ≠ 0 :=
    fun i => mul_ne_zero hc (exp_ne_zero _)
  obtain ⟨h'', e', q⟩ := C54_convert g P order' h' _ _ hN ho' hA'
    (fun i => by rw [hsh, Complex.ofReal_zero]; exact hne i) p
  have hk : ∀ i, ∃ k : ℤ, arg ((P.R : ℂ) * exp ((c i / P.R : ℝ) * I)) =
      c i / P.R - 2 * Real.pi * k ∧
      (-Real.pi * P.R < c i → c i ≤ Real.pi * P.R → k = 0) := by
    intro i
    refine ⟨toIocDiv Real.two_pi_pos (-Real.pi) (c i / P.R), ?_, ?_⟩
    · rw [Complex.arg_real_mul _ hR, Complex.arg_exp_mul_I, toIocMod, zsmul_eq_mul]
      ring
    · intro h1 h2
      refine toIocDiv_eq_of_sub_zsmul_mem_Ioc _ ?_
      rw [zero_smul, sub_zero]
      constructor
      · rw [lt_div_iff₀ hR]; exact h1
      · rw [div_le_iff₀ hR]; linarith
  choose k hk1 hk2 using hk
  refine ⟨h', h'', _, _, k, e, e', q, ?_, hk2, ?_⟩
  · intro i
    rw [hsh, Complex.ofReal_zero, sub_zero, hk1 i]
    field_simp
  · intro i
    rw [hsh, Complex.ofReal_zero, sub_zero, hk1 i, mul_div_assoc, div_self (hne i), mul_one]
    simp only [Complex.add_im, Complex.mul_im, Complex.ofReal_re, Complex.ofReal_im, Complex.I_re,
      Complex.I_im]
    field_simp
    ring

/-- C54.  Initial conditions given as angle `T` and velocity `W` of the angle: the complex field is
`R e^{iT}`, and its velocity is the derivative of `R e^{iθ}` exactly if `R' = 1`. -/
theorem C54_initial (g : Geo) (R : ℝ → ℝ) (R' t : ℝ) (order : List ℕ) (h : Mem ℝ)
    (θ : ℕ → ℝ → ℝ) (T W : ℕ → ℝ)
    (ho : ∀ i, i ∈ order ↔ i < g.S * g.Lz) (hnd : order.Nodup) (hA : Alloc g h)
    (hR : HasDerivAt R R' t) (hR0 : R t ≠ 0)
    (hT : ∀ i, T i = θ i t) (hW : ∀ i, HasDerivAt (θ i) (W i) t)
    (hm : ∀ i < g.S * g.Lz, h (.m, 2 * (g.S * g.Ng + i)) = some (T i))
    (hv : ∀ i < g.S * g.Lz, h (.v, 2 * i) = some (W i)) :
    ∃ h' φ w', th2cx Real.cos Real.sin g (R t) order h = some h' ∧ Saxion g h' φ w' ∧
      (∀ i, φ i = R t * exp (θ i t * I)) ∧
      ∀ i, HasDerivAt (fun u => (R u : ℂ) * exp (θ i u * I)) (w' i) t ↔ R' = 1 := by
  obtain ⟨h', e, p1, p2, p3, p4, _⟩ := th2cx_spec Real.cos Real.sin g (R t) order h T W ho hnd hA
    hm hv
  refine ⟨h', fun i => R t * exp (θ i t * I),
    fun i => ((1 / R t : ℝ) + (W i : ℝ) * I) * (R t * exp (θ i t * I)), e, ?_, fun _ => rfl, ?_⟩
  · intro i hi
    have q1 := p1 i hi
    have q2 := p2 i hi
    have q3 := p3 i hi
    have q4 := p4 i hi
    unfold Geo.cm at q1
    unfold Geo.cm' at q2
    unfold cv at q3
    unfold cv' at q4
    rw [q1, q2, q3, q4, hT i]
    dsimp only
    rw [Complex.exp_mul_I, ← Complex.ofReal_cos, ← Complex.ofReal_sin]
    refine ⟨?_, ?_, ?_, ?_⟩ <;> congr 1 <;>
      simp only [Complex.add_re, Complex.add_im, Complex.mul_re, Complex.mul_im,
        Complex.ofReal_re, Complex.ofReal_im, Complex.I_re, Complex.I_im] <;> ring
  · intro i
    have h1 := hasDerivAt_polar (fun _ => 0) R (θ i) 0 R' (W i) t (hasDerivAt_const _ _) hR (hW i)
    simp only [Complex.ofReal_zero, zero_add] at h1
    have hc : (R t : ℂ) ≠ 0 := by exact_mod_cast hR0
    have hd : ((1 / R t : ℝ) + (W i : ℝ) * I) * (R t * exp (θ i t * I)) =
        ((1 : ℂ) + R t * W i * I) * exp (θ i t * I) := by
      push_cast; field_simp
    constructor
    · intro h2
      have h3 := h2.unique h1
      dsimp only at h3
      rw [hd] at h3
      have h4 := mul_right_cancel₀ (exp_ne_zero _) h3
      have h5 := congrArg Complex.re (add_right_cancel h4)
      simpa using h5.symm
    · intro h2
      refine h1.congr_deriv ?_
      dsimp only
      rw [hd, h2]
      push_cast
      ring

/-- C54.  Converting a field kept in low memory: the flag is cleared although the second array still
does not exist, and a conversion back is then undefined. -/
theorem C54_low_memory (g : Geo) (P : Par ℝ) (order : ℕ → List ℕ) (h : Mem ℝ) (φ w : ℕ → ℂ)
    (low : Bool) (hN : 1 ≤ g.Ng) (ho : ∀ cZ < g.Lz, ∀ l, l ∈ order cZ ↔ l < g.S)
    (hA : Alloc g h) (hm2 : ∀ k, h (.m2, k) = none) (hV : 0 < g.S * g.Lz)
    (hs : Saxion g h φ w) :
    ∃ h', cmplxToTheta arg2 g P order (h, low) = some (h', false) ∧
      (∀ k, h' (.m2, k) = none) ∧
      ∀ R Rp order', toSaxion Real.cos Real.sin g R Rp order' h' = none := by
  obtain ⟨h', e, p, q, r, _⟩ := toTheta_spec arg2 g P order h (fun i => (φ i).re)
    (fun i => (φ i).im) (fun i => (w i).re) (fun i => (w i).im) hN ho hA
    (fun i hi => (hs i hi).1) (fun i hi => (hs i hi).2.1) (fun i hi => (hs i hi).2.2.1)
    (fun i hi => (hs i hi).2.2.2)
  have hn : ∀ k, h' (.m2, k) = none := fun k => by rw [r k, hm2 k]
  refine ⟨h', ?_, hn, ?_⟩
  · unfold cmplxToTheta; rw [e]; rfl
  · intro R Rp order'
    unfold toSaxion
    have hz : memmove (fun k => (Buf.m2, k)) g.rm g.V h' = none := by
      obtain ⟨n, hn'⟩ : ∃ n, g.V = n + 1 := ⟨g.V - 1, by unfold Geo.V; omega⟩
      unfold memmove
      rw [readAll_map g.V g.rm _ h' p]
      dsimp only
      rw [hn', List.range_succ_eq_map]
      simp only [List.map_cons, List.zip_cons_cons, writeAll, List.foldlM_cons]
      simp [Heap.write, hn 0]
    rw [hz]; rfl

/-- Six sites in two slices, `φ = i` everywhere and `φ' = 1`, at `R = t = 2`; the threads treat the
sites backwards. -/
example : ∃ h', toTheta arg2 ⟨3, 2, 2⟩ ⟨2, 2, 1, 0⟩ (fun _ => [2, 1, 0])
      (fun a => match a with
        | (.m, k) => some (if k % 2 = 0 then 0 else 1)
        | (.v, k) => some (if k % 2 = 0 then 1 else 0)
        | (.m2, _) => none) = some h' ∧
      ∀ i < 6, h' (.m, 6 + i) = some Real.pi ∧ h' (.v, i) = some (-2 + Real.pi / 2) := by
  obtain ⟨h', e, p⟩ := C54_convert ⟨3, 2, 2⟩ ⟨2, 2, 1, 0⟩ (fun _ => [2, 1, 0])
    (fun a => match a with
        | (.m, k) => some (if k % 2 = 0 then 0 else 1)
        | (.v, k) => some (if k % 2 = 0 then 1 else 0)
        | (.m2, _) => none) (fun _ => I) (fun _ => 1) (by decide)
    (by intro _ _ l; simp; omega) ⟨fun _ _ => rfl, fun _ _ => rfl⟩ (by simp) (by
      intro i _
      refine ⟨?_, ?_, ?_, ?_⟩ <;> dsimp only <;> congr 1
      · rw [if_pos (by omega)]; simp
      · rw [if_neg (by omega)]; simp
      · rw [if_pos (by omega)]; simp
      · rw [if_neg (by omega)]; simp)
  refine ⟨h', e, fun i hi => ?_⟩
  obtain ⟨p1, p2⟩ := p i hi
  dsimp only at p1 p2
  rw [Complex.ofReal_zero, sub_zero, Complex.arg_I] at p1 p2
  refine ⟨p1.trans (congrArg some (by ring)), p2.trans (congrArg some ?_)⟩
  norm_num

/-- The field `π` with velocity `5` at `R = t = 1`, `frw = Rp = 2` comes back as it was. -/
example (g : Geo) (h : Mem ℝ) (hN : 1 ≤ g.Ng) (hA : Alloc g h)
    (hm2 : ∀ k < 2 * g.v3, (h (.m2, k)).isSome) (hs : Axion g h (fun _ => Real.pi) (fun _ => 5)) :
    ∃ h' h'', toSaxion Real.cos Real.sin g 1 2 (List.range (g.S * g.Lz)) h = some h' ∧
      toTheta arg2 g ⟨1, 1, 2, 0⟩ (fun _ => List.range g.S) h' = some h'' ∧
      Axion g h'' (fun _ => Real.pi) (fun _ => 5) := by
  obtain ⟨h', h'', c', w', k, e1, e2, p, q1, q2, q3⟩ := C54_round_trip g ⟨1, 1, 2, 0⟩ 2
    (List.range (g.S * g.Lz)) (fun _ => List.range g.S) h (fun _ => Real.pi) (fun _ => 5) hN
    (by simp) (by simp) hA hm2 (by norm_num) rfl hs
  refine ⟨h', h'', e1, e2, fun i hi => ?_⟩
  have hk : k i = 0 := q2 i (by have := Real.pi_pos; dsimp only; linarith) (by simp)
  obtain ⟨p1, p2⟩ := p i hi
  rw [q1 i, hk] at p1
  rw [q3 i, hk] at p2
  exact ⟨p1.trans (by simp), p2.trans (by simp)⟩

end Jaxions.ToTheta
