import Verif.Lemmas.SaxKernel
import Mathlib.Analysis.SpecialFunctions.Sqrt
import Mathlib.Analysis.Calculus.Deriv.Inv
import Mathlib.Analysis.Calculus.Deriv.Add
import Mathlib.Analysis.Calculus.Deriv.Mul
import Mathlib.Analysis.Calculus.Deriv.Pow
import Mathlib.Tactic.Linarith
/- Derivatives of the potentials. -/
namespace Jaxions.SaxKernel
open Jaxions.Simd

/-- A potential depending on the modulus only. -/
theorem isForce_radial {U : ℝ → ℝ → ℝ} {g : ℝ → ℝ} {G x y : ℝ}
    (hU : ∀ x y, U x y = g (x ^ 2 + y ^ 2)) (hg : HasDerivAt g (G / 2) (x ^ 2 + y ^ 2)) :
    IsForce U x y (-(x * G)) (-(y * G)) := by
  constructor
  · have h1 : HasDerivAt (fun t : ℝ => t ^ 2 + y ^ 2) (2 * x) x := by
      simpa using ((hasDerivAt_id x).pow 2).add_const (y ^ 2)
    have := HasDerivAt.comp x (h₂ := g) hg h1
    refine (this.congr_of_eventuallyEq (Filter.Eventually.of_forall fun t => ?_)).congr_deriv ?_
    · exact hU t y
    · ring
  · have h1 : HasDerivAt (fun t : ℝ => x ^ 2 + t ^ 2) (2 * y) y := by
      simpa using ((hasDerivAt_id y).pow 2).const_add (x ^ 2)
    have := HasDerivAt.comp y (h₂ := g) hg h1
    refine (this.congr_of_eventuallyEq (Filter.Eventually.of_forall fun t => ?_)).congr_deriv ?_
    · exact hU x t
    · ring

theorem isForce_add {U V : ℝ → ℝ → ℝ} {x y a b c d : ℝ} (h : IsForce U x y a b)
    (h' : IsForce V x y c d) : IsForce (fun x y => U x y + V x y) x y (a + c) (b + d) :=
  ⟨(h.1.add h'.1).congr_deriv (by ring), (h.2.add h'.2).congr_deriv (by ring)⟩

theorem isForce_mul {U : ℝ → ℝ → ℝ} {x y a b : ℝ} (k : ℝ) (h : IsForce U x y a b) :
    IsForce (fun x y => k * U x y) x y (k * a) (k * b) :=
  ⟨(h.1.const_mul k).congr_deriv (by ring), (h.2.const_mul k).congr_deriv (by ring)⟩

theorem isForce_unique {U : ℝ → ℝ → ℝ} {x y a b c d : ℝ} (h : IsForce U x y a b)
    (h' : IsForce U x y c d) : a = c ∧ b = d :=
  ⟨neg_injective (h.1.unique h'.1), neg_injective (h.2.unique h'.2)⟩

/-- The factor of the PQ part at one site, as a function of the squared modulus. -/
noncomputable def pqSite (l R : ℝ) : Pq → ℝ → ℝ
  | .pq1, r => (r - R ^ 2) * l
  | .pq2, r => (r ^ 2 - R ^ 4) * (r * (l * 2 / R ^ 4))
  | .pq3, r => (if r < R ^ 2 then r - R ^ 2 else 2 * R ^ 2 * (1 - R / Real.sqrt r)) * l

theorem pqFactor_re {p : Prec} {i : Isa} (s : Fin (sites .saxion p i)) (q : Par ℝ) (pq : Pq)
    (mel : Vec (W p i) ℝ) :
    re (pqFactor Real.sqrt q pq (norm2 p i mel)) s =
      pqSite q.LL q.R pq (re mel s ^ 2 + im mel s ^ 2) := by
  have h := norm2_re s mel
  cases pq
  · simp only [pqFactor, pqSite, re_mul, re_sub, re_set1, h]; ring
  · simp only [pqFactor, pqSite, re_mul, re_sub, re_set1, h, Par.LaLa]; ring
  · change (if re (norm2 p i mel) s < q.R * q.R then re (norm2 p i mel) s - q.R * q.R else
      2 * (q.R * q.R) * (1 - q.R / Real.sqrt (re (norm2 p i mel) s))) * q.LL = _
    simp only [pqSite, h, pow_two]

theorem pqFactor_im {p : Prec} {i : Isa} (s : Fin (sites .saxion p i)) (q : Par ℝ) (pq : Pq)
    (mel : Vec (W p i) ℝ) :
    im (pqFactor Real.sqrt q pq (norm2 p i mel)) s =
      pqSite q.LL q.R pq (re mel s ^ 2 + im mel s ^ 2) := by
  have h := norm2_im s mel
  cases pq
  · simp only [pqFactor, pqSite, im_mul, im_sub, im_set1, h]; ring
  · simp only [pqFactor, pqSite, im_mul, im_sub, im_set1, h, Par.LaLa]; ring
  · change (if im (norm2 p i mel) s < q.R * q.R then im (norm2 p i mel) s - q.R * q.R else
      2 * (q.R * q.R) * (1 - q.R / Real.sqrt (im (norm2 p i mel) s))) * q.LL = _
    simp only [pqSite, h, pow_two]

theorem sqrt_scale {R : ℝ} (hR : 0 < R) (x y : ℝ) :
    Real.sqrt ((x / R) ^ 2 + (y / R) ^ 2) = Real.sqrt (x ^ 2 + y ^ 2) / R := by
  rw [show (x / R) ^ 2 + (y / R) ^ 2 = (x ^ 2 + y ^ 2) / R ^ 2 by field_simp,
    Real.sqrt_div (by positivity), Real.sqrt_sq hR.le]

/-- The piecewise potential as a function of the squared modulus. -/
theorem pq3_deriv (l : ℝ) {R : ℝ} (hR : 0 < R) (r : ℝ) :
    HasDerivAt (fun t => if t < R ^ 2 then l / 4 * (t - R ^ 2) ^ 2
      else l * R ^ 2 * (Real.sqrt t - R) ^ 2) (pqSite l R .pq3 r / 2) r := by
  have h1 (r : ℝ) : HasDerivAt (fun t : ℝ => l / 4 * (t - R ^ 2) ^ 2) ((r - R ^ 2) * l / 2) r := by
    refine ((((hasDerivAt_id r).sub_const (R ^ 2)).pow 2).const_mul (l / 4)).congr_deriv ?_
    simp; ring
  have h2 (r : ℝ) (hr : 0 < r) : HasDerivAt (fun t : ℝ => l * R ^ 2 * (Real.sqrt t - R) ^ 2)
      (2 * R ^ 2 * (1 - R / Real.sqrt r) * l / 2) r := by
    refine ((((Real.hasDerivAt_sqrt hr.ne').sub_const R).pow 2).const_mul (l * R ^ 2)).congr_deriv ?_
    have : Real.sqrt r ≠ 0 := (Real.sqrt_pos.2 hr).ne'
    field_simp
    ring
  have hR2 : 0 < R ^ 2 := by positivity
  rcases lt_trichotomy r (R ^ 2) with h | h | h
  · simp only [pqSite, if_pos h]
    refine (h1 r).congr_of_eventuallyEq ?_
    filter_upwards [Iio_mem_nhds h] with t ht
    exact if_pos ht
  · subst h
    have hz : pqSite l R .pq3 (R ^ 2) / 2 = 0 := by
      simp [pqSite, Real.sqrt_sq hR.le, div_self hR.ne']
    rw [hz]
    have a := (h1 (R ^ 2)).hasDerivWithinAt (s := Set.Iic (R ^ 2))
    have b := (h2 (R ^ 2) hR2).hasDerivWithinAt (s := Set.Ici (R ^ 2))
    have a' : HasDerivWithinAt (fun t => if t < R ^ 2 then l / 4 * (t - R ^ 2) ^ 2
        else l * R ^ 2 * (Real.sqrt t - R) ^ 2) 0 (Set.Iic (R ^ 2)) (R ^ 2) := by
      refine (a.congr (fun t ht => ?_) ?_).congr_deriv (by simp)
      · rcases lt_or_eq_of_le (show t ≤ R ^ 2 from ht) with h | h
        · exact if_pos h
        · subst h; simp [Real.sqrt_sq hR.le]
      · simp [Real.sqrt_sq hR.le]
    have b' : HasDerivWithinAt (fun t => if t < R ^ 2 then l / 4 * (t - R ^ 2) ^ 2
        else l * R ^ 2 * (Real.sqrt t - R) ^ 2) 0 (Set.Ici (R ^ 2)) (R ^ 2) := by
      refine (b.congr (fun t ht => ?_) ?_).congr_deriv ?_
      · exact if_neg (not_lt.2 ht)
      · simp
      · simp [Real.sqrt_sq hR.le, div_self hR.ne']
    have := a'.union b'
    rw [Set.Iic_union_Ici] at this
    exact this.hasDerivAt Filter.univ_mem
  · simp only [pqSite, if_neg (not_lt.2 h.le)]
    refine (h2 r (hR2.trans h)).congr_of_eventuallyEq ?_
    filter_upwards [Ioi_mem_nhds h] with t ht
    exact if_neg (not_lt.2 (le_of_lt ht))

theorem pq_isForce (l : ℝ) {R : ℝ} (hR : 0 < R) (pq : Pq) (x y : ℝ) :
    IsForce (comoving (Vpq l pq) R) x y (-(x * pqSite l R pq (x ^ 2 + y ^ 2)))
      (-(y * pqSite l R pq (x ^ 2 + y ^ 2))) := by
  cases pq
  · refine isForce_radial (g := fun t => l / 4 * (t - R ^ 2) ^ 2) (fun x y => ?_) ?_
    · simp only [comoving, Vpq]; field_simp
    · refine ((((hasDerivAt_id _).sub_const (R ^ 2)).pow 2).const_mul (l / 4)).congr_deriv ?_
      simp [pqSite]; ring
  · refine isForce_radial (g := fun t => l / 4 / R ^ 4 * (t ^ 2 - R ^ 4) ^ 2) (fun x y => ?_) ?_
    · simp only [comoving, Vpq]; field_simp
    · refine (((((hasDerivAt_id _).pow 2).sub_const (R ^ 4)).pow 2).const_mul
        (l / 4 / R ^ 4)).congr_deriv ?_
      simp [pqSite]; field_simp; ring
  · refine isForce_radial (fun x y => ?_) (pq3_deriv l hR _)
    simp only [comoving, Vpq, sqrt_scale hR]
    have : (x / R) ^ 2 + (y / R) ^ 2 < 1 ↔ x ^ 2 + y ^ 2 < R ^ 2 := by
      rw [show (x / R) ^ 2 + (y / R) ^ 2 = (x ^ 2 + y ^ 2) / R ^ 2 by field_simp,
        div_lt_one (by positivity)]
    simp only [this]
    split_ifs
    · field_simp
    · field_simp

theorem isForce_zero (x y : ℝ) : IsForce (fun _ _ => 0) x y 0 0 :=
  ⟨by simpa using hasDerivAt_const x (0 : ℝ), by simpa using hasDerivAt_const y (0 : ℝ)⟩

/-- The force of each QCD potential, in closed form. -/
noncomputable def qcdForce (chi R : ℝ) : Qcd → ℝ → ℝ → ℝ × ℝ
  | .qcd0, _, _ => (0, 0)
  | .qcd1, _, _ => (chi * R ^ 3, 0)
  | .qcdV, x, y => (chi * R ^ 2 * (R - x), -(chi * R ^ 2 * y))
  | .qcd2, x, y => (chi * R ^ 2 / 2 * x, -(chi * R ^ 2 / 2 * y))
  | .qcdC, x, y => (chi * R ^ 4 * (y * y / Real.sqrt (x ^ 2 + y ^ 2) ^ 3),
      -(chi * R ^ 4 * (x * y / Real.sqrt (x ^ 2 + y ^ 2) ^ 3)))
  | .qcdL, _, _ => (0, 0)

theorem qcd_isForce (chi : ℝ) {R : ℝ} (hR : 0 < R) (qcd : Qcd) (x y : ℝ)
    (hm : x ^ 2 + y ^ 2 ≠ 0) :
    IsForce (comoving (Vqcd chi qcd) R) x y (qcdForce chi R qcd x y).1 (qcdForce chi R qcd x y).2 := by
  have hm' : 0 < x ^ 2 + y ^ 2 := lt_of_le_of_ne (by positivity) hm.symm
  cases qcd
  · have : comoving (Vqcd chi .qcd0) R = fun _ _ => 0 := by
      funext x y; simp [comoving, Vqcd]
    rw [this]; exact isForce_zero x y
  · refine ⟨?_, ?_⟩
    · simp only [comoving, Vqcd, qcdForce]
      refine (((((hasDerivAt_id x).div_const R).const_sub 1).const_mul chi).const_mul
        (R ^ 4)).congr_deriv ?_
      field_simp
    · simp only [comoving, Vqcd, qcdForce]
      simpa using hasDerivAt_const y (R ^ 4 * (chi * (1 - x / R)))
  · refine ⟨?_, ?_⟩
    · simp only [comoving, Vqcd, qcdForce]
      refine (((((((hasDerivAt_id x).div_const R).const_sub 1).pow 2).add_const
        ((y / R) ^ 2)).const_mul (chi / 2)).const_mul (R ^ 4)).congr_deriv ?_
      simp; field_simp
    · simp only [comoving, Vqcd, qcdForce]
      refine ((((((hasDerivAt_id y).div_const R).pow 2).const_add
        ((1 - x / R) ^ 2)).const_mul (chi / 2)).const_mul (R ^ 4)).congr_deriv ?_
      simp; field_simp
  · refine ⟨?_, ?_⟩
    · simp only [comoving, Vqcd, qcdForce]
      refine (((((((hasDerivAt_id x).div_const R).pow 2).const_sub 1).add_const
        ((y / R) ^ 2)).const_mul (chi / 4)).const_mul (R ^ 4)).congr_deriv ?_
      simp; field_simp; ring
    · simp only [comoving, Vqcd, qcdForce]
      refine ((((((hasDerivAt_id y).div_const R).pow 2).const_add
        (1 - (x / R) ^ 2)).const_mul (chi / 4)).const_mul (R ^ 4)).congr_deriv ?_
      simp; field_simp; ring
  · have : comoving (Vqcd chi .qcdL) R = fun _ _ => 0 := by
      funext x y; simp [comoving, Vqcd]
    rw [this]; exact isForce_zero x y
  · have hU : comoving (Vqcd chi .qcdC) R =
        fun x y => R ^ 4 * (chi * (1 - x / Real.sqrt (x ^ 2 + y ^ 2))) := by
      funext x y
      simp only [comoving, Vqcd, sqrt_scale hR]
      rw [div_div_div_cancel_right₀ hR.ne']
    have hs : 0 < Real.sqrt (x ^ 2 + y ^ 2) := Real.sqrt_pos.2 hm'
    have hq : Real.sqrt (x ^ 2 + y ^ 2) ^ 2 = x ^ 2 + y ^ 2 := Real.sq_sqrt hm'.le
    rw [hU]
    refine ⟨?_, ?_⟩
    · have h1 : HasDerivAt (fun t : ℝ => t ^ 2 + y ^ 2) (2 * x) x := by
        simpa using ((hasDerivAt_id x).pow 2).add_const (y ^ 2)
      have h2 := h1.sqrt hm
      refine (((((hasDerivAt_id x).div h2 hs.ne').const_sub 1).const_mul chi).const_mul
        (R ^ 4)).congr_deriv ?_
      simp only [qcdForce, id]
      have : y ^ 2 = Real.sqrt (x ^ 2 + y ^ 2) ^ 2 - x ^ 2 := by rw [hq]; ring
      rw [show y * y = y ^ 2 by ring]
      generalize Real.sqrt (x ^ 2 + y ^ 2) = r at *
      rw [this]
      field_simp
    · have h1 : HasDerivAt (fun t : ℝ => x ^ 2 + t ^ 2) (2 * y) y := by
        simpa using ((hasDerivAt_id y).pow 2).const_add (x ^ 2)
      have h2 := h1.sqrt hm
      refine (((((hasDerivAt_const y x).div h2 hs.ne').const_sub 1).const_mul chi).const_mul
        (R ^ 4)).congr_deriv ?_
      simp only [qcdForce]
      field_simp
      ring

theorem sqrt_cube {r : ℝ} (hr : 0 ≤ r) : Real.sqrt (r * (r * r)) = Real.sqrt r ^ 3 := by
  rw [show r * (r * r) = Real.sqrt r ^ 3 * Real.sqrt r ^ 3 by
    nth_rewrite 1 2 3 [← Real.sq_sqrt hr]; ring]
  exact Real.sqrt_mul_self (by positivity)

/-- The force the kernels use for each QCD option, at one site; the cosine in double precision is
not of this form. -/
noncomputable def qcdUsed (p : Prec) (chi R : ℝ) : Qcd → ℝ → ℝ → ℝ × ℝ
  | .qcd0, _, _ => (0, 0)
  | .qcd1, x, y => qcdForce chi R .qcd1 x y
  | .qcdV, x, y => (R * (qcdForce chi R .qcdV x y).1, R * (qcdForce chi R .qcdV x y).2)
  | .qcd2, x, y =>
    if p = .double then (-(qcdForce chi R .qcd2 x y).1, -(qcdForce chi R .qcd2 x y).2)
    else qcdForce chi R .qcd2 x y
  | .qcdL, x, y => if p = .double then (0, 0) else qcdForce chi R .qcdC x y
  | .qcdC, x, y => qcdForce chi R .qcdC x y

theorem qcdPart_eq {p : Prec} {i : Isa} (s : Fin (sites .saxion p i)) (q : Par ℝ) (qcd : Qcd)
    (mel : Vec (W p i) ℝ) (h : p = .double → qcd ≠ .qcdC) :
    at' (qcdPart Real.sqrt q p i qcd mel (norm2 p i mel)) s =
      qcdUsed p q.mA2 q.R qcd (re mel s) (im mel s) := by
  have hcos : ∀ q' : Qcd, q' ≠ .qcd2 → p = .single →
      at' (pairs (q.zN q') (-q.zN q') * (vqcd0 p i mel /
        fun l => Real.sqrt ((norm2 p i mel * (norm2 p i mel * norm2 p i mel)) l))) s =
      qcdForce q.mA2 q.R .qcdC (re mel s) (im mel s) := by
    intro q' hq' hp
    subst hp
    have hz : q.zN q' = q.mA2 * (q.R * q.R) * (q.R * q.R) := by
      cases q' <;> first | rfl | exact absurd rfl hq'
    have hv := vqcd0_single i mel s
    have hr : re (fun l => Real.sqrt ((norm2 .single i mel *
        (norm2 .single i mel * norm2 .single i mel)) l)) s =
        Real.sqrt (re mel s ^ 2 + im mel s ^ 2) ^ 3 := by
      rw [← sqrt_cube (by positivity), ← norm2_re]; rfl
    have hi : im (fun l => Real.sqrt ((norm2 .single i mel *
        (norm2 .single i mel * norm2 .single i mel)) l)) s =
        Real.sqrt (re mel s ^ 2 + im mel s ^ 2) ^ 3 := by
      rw [← sqrt_cube (by positivity), ← norm2_im]; rfl
    simp only [at', re_mul, im_mul, re_div, im_div, re_pairs, im_pairs, hv.1, hv.2, hr, hi, hz,
      qcdForce]
    congr 1 <;> ring
  cases qcd
  · rfl
  · simp only [qcdPart, at', re_pairs, im_pairs, qcdUsed, qcdForce, Par.zQ]
    congr 1; ring
  · simp only [qcdPart, at', re_mul, im_mul, re_set1, im_set1, re_sub, im_sub, re_pairs, im_pairs,
      qcdUsed, qcdForce, Par.zQ]
    congr 1 <;> ring
  · cases p <;> simp only [qcdPart, at', re_mul, im_mul, re_pairs, im_pairs, re_neg, im_neg, qcdUsed,
      qcdForce, Par.zN, if_true, reduceCtorEq, if_false] <;> congr 1 <;> ring
  · cases p
    · rfl
    · exact hcos .qcdL (by simp) rfl
  · cases p
    · exact absurd rfl (h rfl)
    · exact hcos .qcdC (by simp) rfl

end Jaxions.SaxKernel
