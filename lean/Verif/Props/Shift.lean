import Verif.Props.Force
import Verif.Lemmas.Shift

/-!
C55: the shift of the vacuum of the complex field.
-/

namespace Jaxions.Shift
open Jaxions.SaxKernel Jaxions.Simd

/-- **C55.**  For every ratio `alpha` of axion mass squared and coupling, on both branches of the
formula, `1 + shift` is the one positive solution of `x^3 - x = alpha`, and the shift is not
negative. -/
theorem C55_cubic {alpha : ℝ} (h : 0 ≤ alpha) :
    0 ≤ saxionShift alpha ∧
    ∀ x, 0 < x → (x ^ 3 - x = alpha ↔ x = 1 + saxionShift alpha) := by
  obtain ⟨h0, h1⟩ := saxionShift_spec h
  refine ⟨h0, fun x hx => ⟨fun hx3 => ?_, ?_⟩⟩
  · set y := 1 + saxionShift alpha with hy
    have hy1 : 1 ≤ y := by linarith
    have hx1 : 1 ≤ x := by
      by_contra hc
      have : x ^ 3 - x < 0 := by nlinarith [mul_pos hx (sub_pos.2 (not_le.1 hc))]
      linarith
    have hf : (x - y) * (x ^ 2 + x * y + y ^ 2 - 1) = 0 := by linear_combination hx3 - h1
    rcases mul_eq_zero.1 hf with h | h
    · linarith
    · nlinarith
  · rintro rfl
    exact h1

/-- The force on a field that is real and positive. -/
theorem force_real {p : Prec} {i : Isa} (q : Par ℝ) (pq : Pq) (qcd : Qcd) (damp : Damp)
    (mel lap : Vec (W p i) ℝ) (s : Fin (sites .saxion p i)) (x : ℝ)
    (hx : re mel s = q.R * x) (hy : im mel s = 0) (hq : p = .double → qcd ≠ .qcdC) :
    forceAt q ⟨pq, qcd, damp, false, false⟩ mel lap s =
      (-(q.R * x * pqSite q.LL q.R pq ((q.R * x) ^ 2)) + (qcdUsed p q.mA2 q.R qcd (q.R * x) 0).1,
        (qcdUsed p q.mA2 q.R qcd (q.R * x) 0).2) := by
  rw [forceAt_used q _ mel lap s (fun _ h => hq h)]
  simp [hx, hy]

/-- **C55.**  Without QCD potential, with the variant, with the cosine in single precision, and with
the linear potential and the first symmetry breaking potential: a field at `R (1 + Saskia())` feels
no force in the kernel, at every site of every vector width and for every damping. -/
theorem C55_vacuum {p : Prec} {i : Isa} (b : Bck) (z : ℝ) (q : Par ℝ) (pq : Pq) (qcd : Qcd)
    (damp : Damp) (mel lap : Vec (W p i) ℝ) (s : Fin (sites .saxion p i))
    (hR : 0 < q.R) (hl : 0 < q.LL) (hm : 0 ≤ q.mA2) (hbm : b.mA2 z = q.mA2) (hbl : b.lam z = q.LL)
    (hq : qcd = .qcd0 ∨ qcd = .qcdV ∨ (qcd = .qcdC ∧ p = .single) ∨ (qcd = .qcd1 ∧ pq = .pq1))
    (hx : re mel s = q.R * (1 + saskia b pq qcd z)) (hy : im mel s = 0) :
    forceAt q ⟨pq, qcd, damp, false, false⟩ mel lap s = (0, 0) := by
  have hR' := hR.ne'
  have hs : Real.sqrt ((q.R * 1) ^ 2) = q.R := by rw [mul_one, Real.sqrt_sq hR.le]
  have hs' : Real.sqrt ((q.R * 1) ^ 2 + 0 ^ 2) = q.R := by
    rw [zero_pow two_ne_zero, add_zero, hs]
  have hpq : -(q.R * 1 * pqSite q.LL q.R pq ((q.R * 1) ^ 2)) = 0 := by
    cases pq
    · simp [pqSite]
    · simp only [pqSite]; ring
    · simp only [pqSite, hs]; rw [if_neg (by simp)]; field_simp; ring
  rw [force_real q pq qcd damp mel lap s _ hx hy (by
    rintro rfl rfl; rcases hq with h | h | h | h <;> simp at h)]
  rcases hq with rfl | rfl | ⟨rfl, rfl⟩ | ⟨rfl, rfl⟩
  · simp only [saskia, add_zero, hpq, qcdUsed]
  · simp only [saskia, add_zero, hpq, qcdUsed, qcdForce]
    congr 1 <;> ring
  · simp only [saskia, add_zero, hpq, qcdUsed, qcdForce]
    congr 1 <;> simp
  · have h1 := (saxionShift_spec (div_nonneg hm hl.le)).2
    simp only [saskia, hbm, hbl, qcdUsed, qcdForce, pqSite]
    have hl' := hl.ne'
    congr 1
    have h2 : q.mA2 = q.LL * ((1 + saxionShift (q.mA2 / q.LL)) ^ 3 -
        (1 + saxionShift (q.mA2 / q.LL))) := by
      rw [(saxionShift_spec (div_nonneg hm hl.le)).2]; field_simp
    generalize saxionShift (q.mA2 / q.LL) = t at h2
    rw [h2]; ring

/-- **C55.**  With the linear potential and the first symmetry breaking potential that place is the
minimum of the whole potential over the plane. -/
theorem C55_minimum (b : Bck) (z : ℝ) (q : Par ℝ) (damp : Damp) (x y : ℝ)
    (hR : 0 < q.R) (hl : 0 < q.LL) (hm : 0 ≤ q.mA2) (hbm : b.mA2 z = q.mA2)
    (hbl : b.lam z = q.LL) :
    meant q ⟨.pq1, .qcd1, damp, false, false⟩ (q.R * (1 + saskia b .pq1 .qcd1 z)) 0 ≤
      meant q ⟨.pq1, .qcd1, damp, false, false⟩ x y := by
  obtain ⟨h0, h1⟩ := saxionShift_spec (div_nonneg hm hl.le)
  have h2 : q.mA2 = q.LL * ((1 + saxionShift (q.mA2 / q.LL)) ^ 3 -
      (1 + saxionShift (q.mA2 / q.LL))) := by rw [h1]; field_simp
  simp only [meant, saskia, hbm, hbl, Bool.false_eq_true, if_false, comoving, Vpq, Vqcd]
  set t := 1 + saxionShift (q.mA2 / q.LL) with ht
  have ht1 : 1 ≤ t := by linarith
  rw [mul_div_cancel_left₀ _ hR.ne', zero_div, ← mul_add, ← mul_add]
  refine mul_le_mul_of_nonneg_left ?_ (by positivity)
  set X := x / q.R
  set Y := y / q.R
  set S := Real.sqrt (X ^ 2 + Y ^ 2)
  have hS0 : 0 ≤ S := Real.sqrt_nonneg _
  have hS2 : S ^ 2 = X ^ 2 + Y ^ 2 := Real.sq_sqrt (by positivity)
  have hXS : X ≤ S := Real.le_sqrt_of_sq_le (by nlinarith [sq_nonneg Y])
  rw [← hS2]
  have h3 : 0 ≤ (S - t) ^ 2 * (S ^ 2 + 2 * S * t + 3 * t ^ 2 - 2) := by
    refine mul_nonneg (sq_nonneg _) ?_
    nlinarith [mul_nonneg hS0 (le_trans zero_le_one ht1)]
  have h4 : 0 ≤ q.LL * ((S - t) ^ 2 * (S ^ 2 + 2 * S * t + 3 * t ^ 2 - 2)) :=
    mul_nonneg hl.le h3
  have h5 : q.mA2 * X ≤ q.mA2 * S := mul_le_mul_of_nonneg_left hXS hm
  have h6 : q.LL / 4 * (t ^ 2 + 0 ^ 2 - 1) ^ 2 + q.mA2 * (1 - t) ≤
      q.LL / 4 * (S ^ 2 - 1) ^ 2 + q.mA2 * (1 - S) := by
    rw [h2]; nlinarith
  linarith

/-- **C55, finding.**  The third symmetry breaking potential uses the same cubic although it is
quadratic in the radius outside: at the place named the field is pushed outwards by
`lambda R^3 (3 s^2 + s^3)`, which is not zero unless the axion has no mass. -/
theorem C55_third {p : Prec} {i : Isa} (b : Bck) (z : ℝ) (q : Par ℝ) (damp : Damp)
    (mel lap : Vec (W p i) ℝ) (s : Fin (sites .saxion p i))
    (hR : 0 < q.R) (hl : 0 < q.LL) (hm : 0 < q.mA2) (hbm : b.mA2 z = q.mA2) (hbl : b.lam z = q.LL)
    (hx : re mel s = q.R * (1 + saskia b .pq3 .qcd1 z)) (hy : im mel s = 0) :
    forceAt q ⟨.pq3, .qcd1, damp, false, false⟩ mel lap s =
      (q.LL * q.R ^ 3 * (3 * saskia b .pq3 .qcd1 z ^ 2 + saskia b .pq3 .qcd1 z ^ 3), 0) ∧
    0 < saskia b .pq3 .qcd1 z ∧
    forceAt q ⟨.pq3, .qcd1, damp, false, false⟩ mel lap s ≠ (0, 0) := by
  obtain ⟨h0, h1⟩ := saxionShift_spec (div_nonneg hm.le hl.le)
  have hs0 : saskia b .pq3 .qcd1 z = saxionShift (q.mA2 / q.LL) := by simp [saskia, hbm, hbl]
  have h2 : q.mA2 = q.LL * ((1 + saxionShift (q.mA2 / q.LL)) ^ 3 -
      (1 + saxionShift (q.mA2 / q.LL))) := by rw [h1]; field_simp
  rw [hs0] at hx ⊢
  have hpos : 0 < saxionShift (q.mA2 / q.LL) := by
    rcases h0.lt_or_eq with h | h
    · exact h
    · rw [← h] at h1
      have : 0 < q.mA2 / q.LL := by positivity
      linarith
  have hf : forceAt q ⟨.pq3, .qcd1, damp, false, false⟩ mel lap s =
      (q.LL * q.R ^ 3 * (3 * saxionShift (q.mA2 / q.LL) ^ 2 + saxionShift (q.mA2 / q.LL) ^ 3),
        0) := by
    rw [force_real q .pq3 .qcd1 damp mel lap s _ hx hy (by simp)]
    generalize saxionShift (q.mA2 / q.LL) = t at h2 hpos
    have hsq : Real.sqrt ((q.R * (1 + t)) ^ 2) = q.R * (1 + t) :=
      Real.sqrt_sq (by positivity)
    simp only [pqSite, qcdUsed, qcdForce, hsq]
    have hRt : q.R ^ 2 ≤ (q.R * (1 + t)) ^ 2 := by
      have : 0 ≤ q.R ^ 2 * (t * (2 + t)) := by positivity
      nlinarith
    rw [if_neg (not_lt.2 hRt)]
    congr 1
    rw [h2]
    have : 1 + t ≠ 0 := by positivity
    field_simp
    ring
  refine ⟨hf, hpos, ?_⟩
  rw [hf]
  intro h
  have h3 := congrArg Prod.fst h
  have : 0 < q.LL * q.R ^ 3 *
    (3 * saxionShift (q.mA2 / q.LL) ^ 2 + saxionShift (q.mA2 / q.LL) ^ 3) := by positivity
  dsimp only at h3
  linarith

/-- **C55.**  The second symmetry breaking potential uses a rational function: while the axion mass
squared is at most the coupling, the force left at the place named is at most `mA2 R^3 / 50000`. -/
theorem C55_second {p : Prec} {i : Isa} (b : Bck) (z : ℝ) (q : Par ℝ) (damp : Damp)
    (mel lap : Vec (W p i) ℝ) (s : Fin (sites .saxion p i))
    (hR : 0 < q.R) (hl : 0 < q.LL) (hm : 0 ≤ q.mA2) (hml : q.mA2 ≤ q.LL)
    (hbm : b.mA2 z = q.mA2) (hbl : b.lam z = q.LL)
    (hx : re mel s = q.R * (1 + saskia b .pq2 .qcd1 z)) (hy : im mel s = 0) :
    |(forceAt q ⟨.pq2, .qcd1, damp, false, false⟩ mel lap s).1| ≤ q.mA2 * q.R ^ 3 / 50000 ∧
    (forceAt q ⟨.pq2, .qcd1, damp, false, false⟩ mel lap s).2 = 0 := by
  have hs0 : saskia b .pq2 .qcd1 z = rsvPQ2 (q.mA2 / q.LL) := by simp [saskia, hbm, hbl]
  rw [hs0] at hx
  have hr := rsv_residual (div_nonneg hm hl.le) ((div_le_one hl).2 hml)
  rw [force_real q .pq2 .qcd1 damp mel lap s _ hx hy (by simp)]
  simp only [pqSite, qcdUsed, qcdForce]
  refine ⟨?_, trivial⟩
  generalize rsvPQ2 (q.mA2 / q.LL) = t at hr
  have he : -(q.R * (1 + t) * ((((q.R * (1 + t)) ^ 2) ^ 2 - q.R ^ 4) *
      ((q.R * (1 + t)) ^ 2 * (q.LL * 2 / q.R ^ 4)))) + q.mA2 * q.R ^ 3 =
      -(q.LL * q.R ^ 3 * (2 * (1 + t) ^ 3 * ((1 + t) ^ 4 - 1) - q.mA2 / q.LL)) := by
    field_simp
    ring
  rw [he, abs_neg, abs_mul, abs_of_pos (by positivity : 0 < q.LL * q.R ^ 3)]
  calc q.LL * q.R ^ 3 * _ ≤ q.LL * q.R ^ 3 * (q.mA2 / q.LL / 50000) :=
        mul_le_mul_of_nonneg_left hr (by positivity)
    _ = q.mA2 * q.R ^ 3 / 50000 := by field_simp

/-- **C55, finding.**  The rational function stays below 3/5, so for a heavy axion the place named is
not the vacuum: with `mA2` at least fifty times the coupling, the force left is at least a tenth of
the QCD force. -/
theorem C55_second_heavy {p : Prec} {i : Isa} (b : Bck) (z : ℝ) (q : Par ℝ) (damp : Damp)
    (mel lap : Vec (W p i) ℝ) (s : Fin (sites .saxion p i))
    (hR : 0 < q.R) (hl : 0 < q.LL) (hml : 51 * q.LL ≤ q.mA2)
    (hbm : b.mA2 z = q.mA2) (hbl : b.lam z = q.LL)
    (hx : re mel s = q.R * (1 + saskia b .pq2 .qcd1 z)) (hy : im mel s = 0) :
    q.mA2 * q.R ^ 3 / 10 ≤ (forceAt q ⟨.pq2, .qcd1, damp, false, false⟩ mel lap s).1 := by
  have hs0 : saskia b .pq2 .qcd1 z = rsvPQ2 (q.mA2 / q.LL) := by simp [saskia, hbm, hbl]
  rw [hs0] at hx
  have hm : 0 ≤ q.mA2 := by linarith
  have h1 := rsv_nonneg (div_nonneg hm hl.le)
  have h2 := rsv_bound (div_nonneg hm hl.le)
  rw [force_real q .pq2 .qcd1 damp mel lap s _ hx hy (by simp)]
  simp only [pqSite, qcdUsed, qcdForce]
  generalize rsvPQ2 (q.mA2 / q.LL) = t at h1 h2
  have he : -(q.R * (1 + t) * ((((q.R * (1 + t)) ^ 2) ^ 2 - q.R ^ 4) *
      ((q.R * (1 + t)) ^ 2 * (q.LL * 2 / q.R ^ 4)))) + q.mA2 * q.R ^ 3 =
      q.R ^ 3 * (q.mA2 - q.LL * (2 * (1 + t) ^ 3 * ((1 + t) ^ 4 - 1))) := by
    field_simp
    ring
  rw [he]
  have h3 : (1 + t) ^ 3 ≤ (8 / 5) ^ 3 := pow_le_pow_left₀ (by linarith) (by linarith) 3
  have h4 : (1 + t) ^ 4 ≤ (8 / 5) ^ 4 := pow_le_pow_left₀ (by linarith) (by linarith) 4
  have h5 : 1 ≤ (1 + t) ^ 4 := one_le_pow₀ (by linarith)
  have h6 : 2 * (1 + t) ^ 3 * ((1 + t) ^ 4 - 1) ≤ 2 * (8 / 5) ^ 3 * ((8 / 5) ^ 4 - 1) :=
    mul_le_mul (by linarith) (by linarith) (by linarith) (by norm_num)
  have h7 : q.LL * (2 * (1 + t) ^ 3 * ((1 + t) ^ 4 - 1)) ≤ q.LL * (459 / 10) :=
    mul_le_mul_of_nonneg_left (h6.trans (by norm_num)) hl.le
  have h8 : q.mA2 / 10 ≤ q.mA2 - q.LL * (2 * (1 + t) ^ 3 * ((1 + t) ^ 4 - 1)) := by linarith
  calc q.mA2 * q.R ^ 3 / 10 = q.R ^ 3 * (q.mA2 / 10) := by ring
    _ ≤ _ := mul_le_mul_of_nonneg_left h8 (by positivity)

/-- **C55, finding.**  With the potential with two minima the shift is taken as zero, and the field
there feels half the QCD force, in single precision outwards and in double precision inwards. -/
theorem C55_two {p : Prec} {i : Isa} (b : Bck) (z : ℝ) (q : Par ℝ) (pq : Pq) (damp : Damp)
    (mel lap : Vec (W p i) ℝ) (s : Fin (sites .saxion p i)) (hR : 0 < q.R)
    (hx : re mel s = q.R * (1 + saskia b pq .qcd2 z)) (hy : im mel s = 0) :
    forceAt q ⟨pq, .qcd2, damp, false, false⟩ mel lap s =
      ((if p = .double then -1 else 1) * (q.mA2 * q.R ^ 3 / 2), 0) := by
  have hs : Real.sqrt ((q.R * 1) ^ 2) = q.R := by rw [mul_one, Real.sqrt_sq hR.le]
  have hR' := hR.ne'
  have hpq : -(q.R * 1 * pqSite q.LL q.R pq ((q.R * 1) ^ 2)) = 0 := by
    cases pq
    · simp [pqSite]
    · simp only [pqSite]; ring
    · simp only [pqSite, hs]; rw [if_neg (by simp)]; field_simp; ring
  rw [force_real q pq .qcd2 damp mel lap s _ hx hy (by simp)]
  simp only [saskia, add_zero, hpq, qcdUsed, qcdForce]
  cases p
  all_goals simp
  all_goals ring

/-- **C55, finding.**  `Saskia(ct)` does not look at `ct`: it gives the shift of the time of the field,
which is another one as soon as mass or coupling change. -/
theorem C55_time (b : Bck) (pq : Pq) (qcd : Qcd) (z ct : ℝ) :
    saskiaAt b pq qcd z ct = saskia b pq qcd z ∧
    (0 < b.lam z → 0 ≤ b.mA2 z → 0 < b.lam ct → 0 ≤ b.mA2 ct →
      b.mA2 z / b.lam z ≠ b.mA2 ct / b.lam ct →
      saskiaAt b .pq1 .qcd1 z ct ≠ saskia b .pq1 .qcd1 ct) := by
  refine ⟨rfl, fun h1 h2 h3 h4 hne h => hne ?_⟩
  simp only [saskiaAt, saskia] at h
  rw [← (saxionShift_spec (div_nonneg h2 h1.le)).2, ← (saxionShift_spec (div_nonneg h4 h3.le)).2, h]

/-- On the hyperbolic branch: `alpha = 6` gives `x = 2`. -/
example : saxionShift 6 = 1 := by
  have h := ((C55_cubic (alpha := 6) (by norm_num)).2 2 (by norm_num)).1 (by norm_num)
  linarith

/-- On the trigonometric branch: `alpha = 231/1000` gives `x = 11/10`. -/
example : saxionShift (231 / 1000) = 1 / 10 := by
  have h := ((C55_cubic (alpha := 231 / 1000) (by norm_num)).2 (11 / 10) (by norm_num)).1
    (by norm_num)
  linarith

/-- AVX-512, single precision: `R = 2`, coupling 1, axion mass squared 6; at `R x = 4` there is no
force. -/
example (s : Fin (sites .saxion .single .avx512)) : forceAt (p := .single) (i := .avx512)
    ⟨2, 0, 0, 6, 1, 0, 0, 1, 1, 1⟩ ⟨.pq1, .qcd1, .none, false, false⟩ (pairs 4 0) 0 s = (0, 0) := by
  have h6 : saxionShift 6 = 1 := by
    have h := ((C55_cubic (alpha := 6) (by norm_num)).2 2 (by norm_num)).1 (by norm_num)
    linarith
  refine C55_vacuum ⟨fun _ => 6, fun _ => 1⟩ 1 _ .pq1 .qcd1 .none _ _ s (by norm_num) (by norm_num)
    (by norm_num) rfl rfl (by simp) ?_ (by simp)
  simp only [re_pairs, saskia, div_one, h6]
  norm_num

end Jaxions.Shift
