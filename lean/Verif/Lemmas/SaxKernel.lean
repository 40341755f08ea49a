import Verif.Spec.SaxKernel
import Mathlib.Tactic.FieldSimp
import Mathlib.Tactic.Ring
import Mathlib.Tactic.LinearCombination
import Mathlib.Tactic.FinCases
/- Lane facts of the saxion kernel. -/
namespace Jaxions.SaxKernel
set_option linter.unusedSectionVars false
open Jaxions.Simd

variable {K : Type _}

/-- `f` exchanges real and imaginary part at site `s`. -/
def SwapsAt {p : Prec} {i : Isa} (f : Vec (W p i) K → Vec (W p i) K)
    (s : Fin (sites .saxion p i)) : Prop :=
  ∀ a, re (f a) s = im a s ∧ im (f a) s = re a s

theorem swapSingle_ok (i : Isa) (s) : SwapsAt (K := K) (p := .single) (swapSingle i) s := by
  intro a
  cases i <;> fin_cases s <;> exact ⟨rfl, rfl⟩

theorem swNorm_ok (p : Prec) (i : Isa) (s) : SwapsAt (K := K) (swNorm p i) s := by
  intro a
  cases p
  · cases i <;> fin_cases s <;> exact ⟨rfl, rfl⟩
  · exact swapSingle_ok i s a

theorem swTheta_ok (p : Prec) (i : Isa) (s) : SwapsAt (K := K) (swTheta p i) s := by
  intro a
  cases p
  · cases i <;> fin_cases s <;> exact ⟨rfl, rfl⟩
  · exact swapSingle_ok i s a

theorem swMV_ok (p : Prec) (i : Isa) (s) (h : p = .single ∨ i ≠ .avx512 ∨ s.1 < 2) :
    SwapsAt (K := K) (swMV p i) s := by
  intro a
  cases p
  · cases i <;> fin_cases s <;> first | exact ⟨rfl, rfl⟩ | (simp at h)
  · exact swapSingle_ok i s a

theorem swRho_ok (p : Prec) (i : Isa) (s) (h : p = .single ∨ i ≠ .avx512 ∨ s.1 < 2) :
    SwapsAt (K := K) (swRho p i) s := swMV_ok p i s h

theorem swMA_ok (p : Prec) (i : Isa) (s) (h : p = .single ∨ i = .sse ∨ s.1 = 0) :
    SwapsAt (K := K) (swMA p i) s := by
  intro a
  cases p
  · cases i <;> fin_cases s <;> first | exact ⟨rfl, rfl⟩ | (simp at h)
  · exact swapSingle_ok i s a

/-- `vqcd0` in single precision. -/
theorem vqcd0_single [Mul K] (i : Isa) (a : Vec (W .single i) K) (s) :
    re (vqcd0 .single i a) s = im a s * im a s ∧ im (vqcd0 .single i a) s = re a s * im a s := by
  cases i <;> fin_cases s <;> exact ⟨rfl, rfl⟩

/-- The imaginary lane of `vqcd0` in double precision. -/
theorem vqcd0_double_im [Mul K] (i : Isa) (a : Vec (W .double i) K) (s) :
    im (vqcd0 .double i a) s = re a s * re a s := by
  cases i <;> fin_cases s <;> rfl

variable [Field K] [LinearOrder K] {p : Prec} {i : Isa} (s : Fin (sites .saxion p i))

@[simp] theorem re_pairs (a b : K) : re (p := p) (i := i) (pairs a b) s = a := by
  simp [re, pairs]
@[simp] theorem im_pairs (a b : K) : im (p := p) (i := i) (pairs a b) s = b := by
  simp [im, pairs]
@[simp] theorem re_set1 (a : K) : re (p := p) (i := i) (set1 a) s = a := rfl
@[simp] theorem im_set1 (a : K) : im (p := p) (i := i) (set1 a) s = a := rfl
@[simp] theorem re_add (a b : Vec (W p i) K) : re (a + b) s = re a s + re b s := rfl
@[simp] theorem im_add (a b : Vec (W p i) K) : im (a + b) s = im a s + im b s := rfl
@[simp] theorem re_sub (a b : Vec (W p i) K) : re (a - b) s = re a s - re b s := rfl
@[simp] theorem im_sub (a b : Vec (W p i) K) : im (a - b) s = im a s - im b s := rfl
@[simp] theorem re_mul (a b : Vec (W p i) K) : re (a * b) s = re a s * re b s := rfl
@[simp] theorem im_mul (a b : Vec (W p i) K) : im (a * b) s = im a s * im b s := rfl
@[simp] theorem re_div (a b : Vec (W p i) K) : re (a / b) s = re a s / re b s := rfl
@[simp] theorem im_div (a b : Vec (W p i) K) : im (a / b) s = im a s / im b s := rfl
@[simp] theorem re_neg (a : Vec (W p i) K) : re (-a) s = -re a s := rfl
@[simp] theorem im_neg (a : Vec (W p i) K) : im (-a) s = -im a s := rfl
@[simp] theorem re_zero : re (p := p) (i := i) (0 : Vec (W p i) K) s = 0 := rfl
@[simp] theorem im_zero : im (p := p) (i := i) (0 : Vec (W p i) K) s = 0 := rfl

theorem norm2_re (mel : Vec (W p i) K) : re (norm2 p i mel) s = re mel s ^ 2 + im mel s ^ 2 := by
  rw [norm2, re_add, (swNorm_ok p i s _).1, im_mul, re_mul]; ring

theorem norm2_im (mel : Vec (W p i) K) : im (norm2 p i mel) s = re mel s ^ 2 + im mel s ^ 2 := by
  rw [norm2, im_add, (swNorm_ok p i s _).2, im_mul, re_mul]; ring

/-- Sum over the pair after a correct exchange. -/
theorem pairSum {f : Vec (W p i) K → Vec (W p i) K} (hf : SwapsAt f s) (a : Vec (W p i) K) :
    re (f a + a) s = re a s + im a s ∧ im (f a + a) s = re a s + im a s := by
  rw [re_add, im_add, (hf a).1, (hf a).2]
  exact ⟨add_comm _ _, rfl⟩

variable (q : Par K)

theorem half_eq : q.mola = half q := by
  unfold Par.mola half Par.G Par.dzc
  split_ifs with h
  · by_cases hR : q.R = 0
    · simp [hR]
    · have hd : q.deti ≠ 0 := ne_of_gt h
      field_simp
  · rfl

/-- The projection on the angle at one site. -/
theorem projTheta_parts (mel acc vel : Vec (W p i) K)
    (hm : re mel s ^ 2 + im mel s ^ 2 ≠ 0) :
    let o := projTheta q p i mel acc vel
    radial (at' mel s) (at' o.1 s) = (re mel s ^ 2 + im mel s ^ 2) * q.Rpp ∧
    angular (at' mel s) (at' o.1 s) = angular (at' mel s) (at' acc s) ∧
    radial (at' mel s) (at' o.2 s) = (re mel s ^ 2 + im mel s ^ 2) * q.Rp ∧
    angular (at' mel s) (at' o.2 s) = angular (at' mel s) (at' vel s) := by
  have hl := swTheta_ok (K := K) p i s (mel * pairs 1 (-1))
  have ha := pairSum s (swTheta_ok (K := K) p i s) (acc * swTheta p i (mel * pairs 1 (-1)))
  have hv := pairSum s (swTheta_ok (K := K) p i s) (vel * swTheta p i (mel * pairs 1 (-1)))
  simp only [re_mul, im_mul, hl.1, hl.2, re_pairs, im_pairs] at ha hv
  simp only [projTheta, at', radial, angular, re_add, im_add, re_div, im_div, re_mul, im_mul,
    re_set1, im_set1, norm2_re, norm2_im, hl.1, hl.2, re_pairs, im_pairs] at ha hv ⊢
  rw [ha.1, ha.2, hv.1, hv.2]
  refine ⟨?_, ?_, ?_, ?_⟩ <;> field_simp <;> ring

/-- The kick at one site, if the exchanges it uses are right there. -/
theorem kick_parts (damp : Damp) (mel acc vel : Vec (W p i) K)
    (hm : re mel s ^ 2 + im mel s ^ 2 ≠ 0) (hh : 1 + half q ≠ 0)
    (h : damp = .rho → SwapsAt (K := K) (swMV p i) s ∧ SwapsAt (K := K) (swMA p i) s) :
    radial (at' mel s) (at' (kick q p i damp mel acc vel) s) =
      newRadial q ⟨.pq1, .qcd0, damp, false, false⟩ (at' mel s) (at' acc s) (at' vel s) ∧
    angular (at' mel s) (at' (kick q p i damp mel acc vel) s) =
      newAngular q ⟨.pq1, .qcd0, damp, false, false⟩ (at' mel s) (at' acc s) (at' vel s) := by
  have h1 : q.damp1 = 1 / (1 + half q) := by rw [Par.damp1, half_eq]
  have h2 : q.damp2 = (1 - half q) * (1 / (1 + half q)) := by rw [Par.damp2, h1, half_eq]
  have h3 : q.epsi = half q / (1 + half q) := by rw [Par.epsi, half_eq]
  cases damp with
  | none =>
    simp only [kick, newRadial, newAngular, at', radial, angular, re_add, im_add, re_mul, im_mul,
      re_set1, im_set1, Par.dzc, Bool.false_eq_true, if_false]
    constructor <;> ring
  | all =>
    simp only [kick, newRadial, newAngular, at', radial, angular, re_add, im_add, re_mul, im_mul,
      re_set1, im_set1, Par.dzc, Bool.false_eq_true, if_false, h1, h2]
    constructor <;> field_simp <;> ring
  | rho =>
    obtain ⟨hv, ha⟩ := h rfl
    have hv := pairSum s hv (mel * vel)
    have ha := pairSum s ha (mel * acc)
    simp only [re_add, im_add, re_mul, im_mul] at hv ha
    simp only [kick, newRadial, newAngular, at', radial, angular, re_add, im_add, re_mul, im_mul,
      re_sub, im_sub, re_div, im_div, norm2_re, norm2_im,
      re_set1, im_set1, Par.dzc, Bool.false_eq_true, if_false, h3, hv.1, hv.2, ha.1, ha.2]
    constructor <;> field_simp <;> ring

/-- The projection on the radius at one site. -/
theorem projRho_parts (mel tmp : Vec (W p i) K)
    (hm : re mel s ^ 2 + im mel s ^ 2 ≠ 0) (h : SwapsAt (K := K) (swRho p i) s) :
    radial (at' mel s) (at' (projRho p i mel tmp) s) = radial (at' mel s) (at' tmp s) ∧
    angular (at' mel s) (at' (projRho p i mel tmp) s) = 0 := by
  have h := pairSum s h (mel * tmp)
  simp only [re_add, im_add, re_mul, im_mul] at h
  simp only [projRho, at', radial, angular, re_add, im_add, re_mul, im_mul, re_div, im_div,
    norm2_re, norm2_im, h.1, h.2]
  constructor <;> field_simp <;> ring

/-- Kick and projections at one site. -/
theorem newVel_parts (pot : Pot) (mel acc vel : Vec (W p i) K)
    (hm : re mel s ^ 2 + im mel s ^ 2 ≠ 0) (hh : 1 + half q ≠ 0)
    (hdr : pot.damp = .rho → SwapsAt (K := K) (swMV p i) s ∧ SwapsAt (K := K) (swMA p i) s)
    (hpr : pot.evolRho = true → SwapsAt (K := K) (swRho p i) s) :
    radial (at' mel s) (at' (newVel q p i pot mel acc vel) s) =
      newRadial q pot (at' mel s) (at' acc s) (at' vel s) ∧
    angular (at' mel s) (at' (newVel q p i pot mel acc vel) s) =
      newAngular q pot (at' mel s) (at' acc s) (at' vel s) := by
  have hr : radial (at' mel s) (at' mel s) = re mel s ^ 2 + im mel s ^ 2 := by
    simp [radial, at', pow_two]
  obtain ⟨pq, qcd, damp, et, er⟩ := pot
  have hT := projTheta_parts s q mel acc vel hm
  have hk := kick_parts s q damp mel (projTheta q p i mel acc vel).1
    (projTheta q p i mel acc vel).2 hm hh hdr
  have hk' := kick_parts s q damp mel acc vel hm hh hdr
  dsimp only at hT
  cases et <;> cases er <;>
    simp only [newVel, Bool.false_eq_true, if_false, if_true, newRadial, newAngular] at hpr hk hk' ⊢
  · exact hk'
  · have hp := projRho_parts s mel (kick q p i damp mel acc vel) hm (hpr trivial)
    exact ⟨by rw [hp.1]; exact hk'.1, hp.2⟩
  · rw [hT.1, hT.2.2.1, hr, hT.2.1, hT.2.2.2] at hk
    rw [hr]
    exact hk
  · have hp := projRho_parts s mel (kick q p i damp mel (projTheta q p i mel acc vel).1
      (projTheta q p i mel acc vel).2) hm (hpr trivial)
    rw [hT.1, hT.2.2.1, hr] at hk
    exact ⟨by rw [hp.1, hr]; exact hk.1, hp.2⟩

omit [Field K] [LinearOrder K] in
theorem swaps_damp {s : Fin (sites .saxion p i)} {pot : Pot} (hs : SiteOk p i pot s)
    (hd : pot.damp = .rho) : SwapsAt (K := K) (swMV p i) s ∧ SwapsAt (K := K) (swMA p i) s := by
  rcases hs with h | h | h | h
  · exact ⟨swMV_ok p i s (Or.inl h), swMA_ok p i s (Or.inl h)⟩
  · exact ⟨swMV_ok p i s (Or.inr (Or.inl (by rw [h]; decide))),
      swMA_ok p i s (Or.inr (Or.inl h))⟩
  · exact ⟨swMV_ok p i s (Or.inr (Or.inr (by omega))), swMA_ok p i s (Or.inr (Or.inr h))⟩
  · exact absurd hd h.1

omit [Field K] [LinearOrder K] in
theorem swaps_rho {s : Fin (sites .saxion p i)} {pot : Pot} (hs : SiteOk p i pot s)
    (he : pot.evolRho = true) : SwapsAt (K := K) (swRho p i) s := by
  rcases hs with h | h | h | h
  · exact swRho_ok p i s (Or.inl h)
  · exact swRho_ok p i s (Or.inr (Or.inl (by rw [h]; decide)))
  · exact swRho_ok p i s (Or.inr (Or.inr (by omega)))
  · by_cases h5 : i = .avx512
    · exact swRho_ok p i s (Or.inr (Or.inr (h.2 he h5)))
    · exact swRho_ok p i s (Or.inr (Or.inl h5))

end Jaxions.SaxKernel
