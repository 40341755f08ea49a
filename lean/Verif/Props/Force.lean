import Verif.Lemmas.Force
import Mathlib.Analysis.SpecialFunctions.Trigonometric.Basic
/-
C49: the force of the saxion kernel is minus the gradient of the potential that the option names.
C50: every QCD potential gives the axion the same mass.
-/
namespace Jaxions.SaxKernel
open Jaxions.Simd

/-- The force at a site: acceleration without Laplacian and without the term of the expansion. -/
noncomputable def forceAt {p : Prec} {i : Isa} (q : Par ℝ) (pot : Pot) (mel lap : Vec (W p i) ℝ)
    (s : Fin (sites .saxion p i)) : ℝ × ℝ :=
  let e := if pot.evolTheta then 0 else q.Rpp
  (re (accel Real.sqrt q p i pot mel lap) s - re lap s - e * re mel s,
   im (accel Real.sqrt q p i pot mel lap) s - im lap s - e * im mel s)

/-- The potential meant by the options: the symmetry breaking part unless only the angle evolves,
the QCD part unless only the radius does. -/
noncomputable def meant (q : Par ℝ) (pot : Pot) (x y : ℝ) : ℝ :=
  (if pot.evolTheta then 0 else comoving (Vpq q.LL pot.pq) q.R x y) +
    (if pot.evolRho then 0 else comoving (Vqcd q.mA2 pot.qcd) q.R x y)

theorem forceAt_eq {p : Prec} {i : Isa} (q : Par ℝ) (pot : Pot) (mel lap : Vec (W p i) ℝ)
    (s : Fin (sites .saxion p i)) :
    forceAt q pot mel lap s =
      ((if pot.evolTheta then 0 else
          -(re mel s * pqSite q.LL q.R pot.pq (re mel s ^ 2 + im mel s ^ 2))) +
        (if pot.evolRho then 0 else
          re (qcdPart Real.sqrt q p i pot.qcd mel (norm2 p i mel)) s),
       (if pot.evolTheta then 0 else
          -(im mel s * pqSite q.LL q.R pot.pq (re mel s ^ 2 + im mel s ^ 2))) +
        (if pot.evolRho then 0 else
          im (qcdPart Real.sqrt q p i pot.qcd mel (norm2 p i mel)) s)) := by
  obtain ⟨pq, qcd, damp, et, er⟩ := pot
  cases et <;> cases er <;>
    simp only [forceAt, accel, Bool.false_eq_true, if_false, if_true, re_add, im_add, re_sub,
      im_sub, re_mul, im_mul, re_set1, im_set1, pqFactor_re, pqFactor_im] <;>
    congr 1 <;> ring

/-- What the kernel follows: a force law in closed form for all options except the cosine in double
precision. -/
theorem forceAt_used {p : Prec} {i : Isa} (q : Par ℝ) (pot : Pot) (mel lap : Vec (W p i) ℝ)
    (s : Fin (sites .saxion p i)) (hq : pot.evolRho = false → p = .double → pot.qcd ≠ .qcdC) :
    forceAt q pot mel lap s =
      ((if pot.evolTheta then 0 else
          -(re mel s * pqSite q.LL q.R pot.pq (re mel s ^ 2 + im mel s ^ 2))) +
        (if pot.evolRho then 0 else (qcdUsed p q.mA2 q.R pot.qcd (re mel s) (im mel s)).1),
       (if pot.evolTheta then 0 else
          -(im mel s * pqSite q.LL q.R pot.pq (re mel s ^ 2 + im mel s ^ 2))) +
        (if pot.evolRho then 0 else (qcdUsed p q.mA2 q.R pot.qcd (re mel s) (im mel s)).2)) := by
  rw [forceAt_eq]
  by_cases he : pot.evolRho = true
  · simp [he]
  · have h := qcdPart_eq s q pot.qcd mel (hq (by simpa using he))
    have h1 := congrArg Prod.fst h
    have h2 := congrArg Prod.snd h
    dsimp only [at'] at h1 h2
    simp only [he, h1, h2]

/-- Options whose force is the one meant, in exact arithmetic: in single precision no QCD potential,
the linear one, the one with two minima and the cosine; in double precision only the first two. -/
def Right (p : Prec) (qcd : Qcd) : Prop :=
  qcd = .qcd0 ∨ qcd = .qcd1 ∨ (p = .single ∧ (qcd = .qcd2 ∨ qcd = .qcdC))

/-- **C49.**  For each of the three symmetry breaking potentials, on every vector width and at every
site of a vector, the force is minus the gradient of the potential meant, for every nonzero field
value, if the QCD option is one of `Right` or only the radius evolves. -/
theorem C49_force {p : Prec} {i : Isa} (q : Par ℝ) (pot : Pot) (mel lap : Vec (W p i) ℝ)
    (s : Fin (sites .saxion p i)) (hR : 0 < q.R) (hm : re mel s ^ 2 + im mel s ^ 2 ≠ 0)
    (hq : pot.evolRho = true ∨ Right p pot.qcd) :
    IsForce (meant q pot) (re mel s) (im mel s)
      (forceAt q pot mel lap s).1 (forceAt q pot mel lap s).2 := by
  have hd : pot.evolRho = false → p = .double → pot.qcd ≠ .qcdC := by
    rintro he rfl hc
    rcases hq with h | h
    · rw [he] at h; simp at h
    · rw [hc] at h; simp [Right] at h
  rw [forceAt_used q pot mel lap s hd]
  refine isForce_add ?_ ?_
  · split_ifs
    · exact isForce_zero _ _
    · exact pq_isForce q.LL hR pot.pq _ _
  · by_cases he : pot.evolRho = true
    · simp only [he, if_true]
      exact isForce_zero _ _
    · have hr := hq.resolve_left he
      have hu : qcdUsed p q.mA2 q.R pot.qcd (re mel s) (im mel s) =
          qcdForce q.mA2 q.R pot.qcd (re mel s) (im mel s) := by
        rcases hr with h | h | ⟨hp, h | h⟩ <;> rw [h]
        · rfl
        · rfl
        · subst hp; rfl
        · rfl
      simp only [he, hu]
      exact qcd_isForce q.mA2 hR pot.qcd _ _ hm

/-- **C49, finding.**  The variant potential: in both precisions the force is `R` times minus the
gradient. -/
theorem C49_variant {p : Prec} {i : Isa} (q : Par ℝ) (pot : Pot) (mel lap : Vec (W p i) ℝ)
    (s : Fin (sites .saxion p i)) (hR : 0 < q.R) (hm : re mel s ^ 2 + im mel s ^ 2 ≠ 0)
    (hq : pot.qcd = .qcdV) (het : pot.evolTheta = true) (her : pot.evolRho = false) :
    IsForce (fun x y => q.R * meant q pot x y) (re mel s) (im mel s)
      (forceAt q pot mel lap s).1 (forceAt q pot mel lap s).2 := by
  rw [forceAt_used q pot mel lap s (by simp [hq])]
  have h := isForce_mul q.R (qcd_isForce q.mA2 hR .qcdV (re mel s) (im mel s) hm)
  simp only [meant, het, her, hq, if_true, Bool.false_eq_true, if_false, zero_add, qcdUsed] at h ⊢
  exact h

/-- **C49, finding.**  The potential with two minima: in double precision the force has the opposite
sign, in single precision the right one. -/
theorem C49_two {p : Prec} {i : Isa} (q : Par ℝ) (pot : Pot) (mel lap : Vec (W p i) ℝ)
    (s : Fin (sites .saxion p i)) (hR : 0 < q.R) (hm : re mel s ^ 2 + im mel s ^ 2 ≠ 0)
    (hq : pot.qcd = .qcd2) (het : pot.evolTheta = true) (her : pot.evolRho = false) :
    IsForce (fun x y => (if p = .double then -1 else 1) * meant q pot x y) (re mel s) (im mel s)
      (forceAt q pot mel lap s).1 (forceAt q pot mel lap s).2 := by
  rw [forceAt_used q pot mel lap s (by simp [hq])]
  have h := isForce_mul (if p = .double then -1 else 1)
    (qcd_isForce q.mA2 hR .qcd2 (re mel s) (im mel s) hm)
  simp only [meant, het, her, hq, if_true, Bool.false_eq_true, if_false, zero_add, qcdUsed] at h ⊢
  cases p <;> simpa using h

/-- **C49, finding.**  The cosine in double precision, at every site of every vector width: in the
vacuum, a homogeneous field at the minimum of both potentials, the code accelerates the angle by
`-mA2 R^3` although the potential has gradient zero there. -/
theorem C49_cosine_double {i : Isa} (q : Par ℝ) (pot : Pot) (mel lap : Vec (W .double i) ℝ)
    (s : Fin (sites .saxion .double i)) (hR : 0 < q.R) (hx : re mel s = q.R) (hy : im mel s = 0)
    (hq : pot.qcd = .qcdC) (her : pot.evolRho = false) :
    (forceAt q pot mel lap s).2 = -(q.mA2 * q.R ^ 3) ∧
    IsForce (meant q pot) q.R 0 0 0 := by
  constructor
  · rw [forceAt_eq]
    have hv := vqcd0_double_im i mel s
    have hi : im (fun l => Real.sqrt ((norm2 .double i mel *
        (norm2 .double i mel * norm2 .double i mel)) l)) s = q.R ^ 3 := by
      have h : Real.sqrt (re mel s ^ 2 + im mel s ^ 2) ^ 3 = q.R ^ 3 := by
        rw [hx, hy]; simp [Real.sqrt_sq hR.le]
      rw [← h, ← sqrt_cube (by positivity), ← norm2_im]; rfl
    simp only [her, hq, Bool.false_eq_true, if_false, qcdPart, im_mul, im_div, im_pairs, hi, hv, hx,
      hy, Par.zN]
    have : (if pot.evolTheta then 0 else
        -(0 * pqSite q.LL q.R pot.pq (q.R ^ 2 + 0 ^ 2))) = (0 : ℝ) := by simp
    rw [this]
    field_simp
    ring
  · have hm : q.R ^ 2 + (0 : ℝ) ^ 2 ≠ 0 := by positivity
    have hz : pqSite q.LL q.R pot.pq (q.R ^ 2 + 0 ^ 2) = 0 := by
      cases pot.pq <;> simp [pqSite, Real.sqrt_sq hR.le, div_self hR.ne']
      left; ring
    have h1 : IsForce (fun x y => if pot.evolTheta then 0 else
        comoving (Vpq q.LL pot.pq) q.R x y) q.R 0 0 0 := by
      split_ifs
      · exact isForce_zero _ _
      · have := pq_isForce q.LL hR pot.pq q.R 0
        rw [hz, mul_zero, mul_zero, neg_zero] at this
        exact this
    have h2 : IsForce (fun x y => if pot.evolRho then 0 else
        comoving (Vqcd q.mA2 pot.qcd) q.R x y) q.R 0 0 0 := by
      simp only [her, hq, Bool.false_eq_true, if_false]
      simpa [qcdForce] using qcd_isForce q.mA2 hR .qcdC q.R 0 hm
    have := isForce_add h1 h2
    rw [add_zero] at this
    exact this

/-- **C49, finding.**  So in double precision the cosine force is not minus the gradient of the
cosine potential, and neither is that of the potential with two minima. -/
theorem C49_double_wrong (i : Isa) (s : Fin (sites .saxion .double i)) (qcd : Qcd)
    (h : qcd = .qcdC ∨ qcd = .qcd2) :
    ∃ (q : Par ℝ) (pot : Pot) (mel lap : Vec (W .double i) ℝ), pot.qcd = qcd ∧ 0 < q.R ∧
      re mel s ^ 2 + im mel s ^ 2 ≠ 0 ∧
      ¬ IsForce (meant q pot) (re mel s) (im mel s)
        (forceAt q pot mel lap s).1 (forceAt q pot mel lap s).2 := by
  let q : Par ℝ := ⟨1, 0, 0, 1, 0, 0, 0, 1, 1, 1⟩
  refine ⟨q, ⟨.pq1, qcd, .none, true, false⟩, pairs 1 0, 0, rfl, one_pos, by simp, ?_⟩
  intro hf
  rcases h with rfl | rfl
  · have hc := C49_cosine_double (i := i) q ⟨.pq1, .qcdC, .none, true, false⟩ (pairs 1 0) 0 s one_pos
      (by simp [q]) (by simp) rfl rfl
    have hu := isForce_unique hf (by simpa [q] using hc.2)
    rw [hc.1] at hu
    simp [q] at hu
  · have hc := C49_two (p := .double) (i := i) q ⟨.pq1, .qcd2, .none, true, false⟩ (pairs 1 0) 0 s
      one_pos (by simp) rfl rfl rfl
    have hu := isForce_unique (isForce_mul (-1) hf) (by simpa using hc)
    have h1 := hu.1
    rw [forceAt_used q ⟨.pq1, .qcd2, .none, true, false⟩ (pairs 1 0) 0 s (by simp)] at h1
    simp [qcdUsed, qcdForce, q] at h1
    norm_num at h1

/-- The two precisions agree on the force for no QCD potential, for the linear and for the variant
one, whatever the vector widths. -/
theorem C49_precisions {i i' : Isa} (q : Par ℝ) (pot : Pot) (mel lap : Vec (W .double i) ℝ)
    (mel' lap' : Vec (W .single i') ℝ) (s : Fin (sites .saxion .double i))
    (s' : Fin (sites .saxion .single i')) (hm : at' mel s = at' mel' s')
    (hq : pot.evolRho = true ∨ pot.qcd = .qcd0 ∨ pot.qcd = .qcd1 ∨ pot.qcd = .qcdV) :
    forceAt q pot mel lap s = forceAt q pot mel' lap' s' := by
  have h1 : re mel s = re mel' s' := congrArg Prod.fst hm
  have h2 : im mel s = im mel' s' := congrArg Prod.snd hm
  rw [forceAt_used q pot mel lap s (by
      intro he _ hc; rcases hq with h | h | h | h
      · rw [he] at h; simp at h
      all_goals rw [hc] at h; simp at h),
    forceAt_used q pot mel' lap' s' (by simp), h1, h2]
  rcases hq with h | h | h | h
  · simp only [h, if_true]
  all_goals simp only [h, qcdUsed]

/-- **C50.**  At vacuum radius and angle `t` the QCD part accelerates the angle by
`- mA2 R^2 sin t` (the linear potential and the cosine) or `- mA2 R^2 sin t cos t` (two minima): the
same mass `mA2 R^2` for small angles.  Stated for `|m|^2` times the angular acceleration, with
`|m|^2 = R^2`. -/
theorem C50_mass {p : Prec} {i : Isa} (q : Par ℝ) (pot : Pot) (mel lap : Vec (W p i) ℝ)
    (s : Fin (sites .saxion p i)) (t : ℝ) (hR : 0 < q.R) (hx : re mel s = q.R * Real.cos t)
    (hy : im mel s = q.R * Real.sin t) (her : pot.evolRho = false) (hr : Right p pot.qcd)
    (h0 : pot.qcd ≠ .qcd0) :
    angular (at' mel s) (forceAt q pot mel lap s) =
      -(q.R ^ 2 * (q.mA2 * q.R ^ 2 * (Real.sin t * if pot.qcd = .qcd2 then Real.cos t else 1))) := by
  have hd : pot.evolRho = false → p = .double → pot.qcd ≠ .qcdC := by
    rintro _ rfl hc
    rw [hc] at hr; simp [Right] at hr
  have hn : (q.R * Real.cos t) ^ 2 + (q.R * Real.sin t) ^ 2 = q.R ^ 2 := by
    have := Real.sin_sq_add_cos_sq t
    linear_combination q.R ^ 2 * this
  rw [forceAt_used q pot mel lap s hd]
  have hz : ∀ c : ℝ, (if pot.evolTheta then 0 else -(re mel s * c)) * im mel s =
      re mel s * (if pot.evolTheta then 0 else -(im mel s * c)) := by
    intro c; split_ifs
    · simp
    · ring
  have key : ∀ f : ℝ × ℝ, angular (at' mel s)
      ((if pot.evolTheta then 0 else
          -(re mel s * pqSite q.LL q.R pot.pq (re mel s ^ 2 + im mel s ^ 2))) + f.1,
       (if pot.evolTheta then 0 else
          -(im mel s * pqSite q.LL q.R pot.pq (re mel s ^ 2 + im mel s ^ 2))) + f.2) =
      re mel s * f.2 - im mel s * f.1 := by
    intro f
    simp only [angular, at']
    linear_combination -hz (pqSite q.LL q.R pot.pq (re mel s ^ 2 + im mel s ^ 2))
  simp only [her, Bool.false_eq_true, if_false]
  rw [key, hx, hy]
  have hsc := Real.sin_sq_add_cos_sq t
  rcases hr with h | h | ⟨hp, h | h⟩
  · exact absurd h h0
  · simp only [h, qcdUsed, qcdForce, reduceCtorEq, if_false]; ring
  · subst hp
    simp only [h, qcdUsed, qcdForce, reduceCtorEq, if_false, if_true]; ring
  · simp only [h, qcdUsed, qcdForce, reduceCtorEq, if_false, hn, Real.sqrt_sq hR.le]
    field_simp
    linear_combination (-q.mA2 * Real.sin t) * hsc

/-- **C50, finding.**  The variant potential gives a squared mass that is too large by a factor `R`. -/
theorem C50_variant {p : Prec} {i : Isa} (q : Par ℝ) (pot : Pot) (mel lap : Vec (W p i) ℝ)
    (s : Fin (sites .saxion p i)) (t : ℝ) (hx : re mel s = q.R * Real.cos t)
    (hy : im mel s = q.R * Real.sin t) (her : pot.evolRho = false) (hq : pot.qcd = .qcdV) :
    angular (at' mel s) (forceAt q pot mel lap s) =
      -(q.R ^ 2 * (q.R * (q.mA2 * q.R ^ 2 * Real.sin t))) := by
  rw [forceAt_used q pot mel lap s (by simp [hq])]
  simp only [her, hq, Bool.false_eq_true, if_false, angular, at', qcdUsed, qcdForce]
  rw [hx, hy]
  split_ifs <;> ring

/-- A case: single precision, AVX, field (0, 2) at R = 2, both potentials; the force points to the
minimum at angle zero. -/
example (s : Fin (sites .saxion .single .avx)) : forceAt (p := .single) (i := .avx) ⟨2, 0, 0, 1, 3, 0, 0, 1, 1, 1⟩
    ⟨.pq1, .qcdC, .none, false, false⟩ (pairs 0 2) 0 s = (8, 0) := by
  rw [forceAt_used _ _ _ _ _ (by simp)]
  have h4 : Real.sqrt 4 = 2 := by rw [show (4 : ℝ) = 2 ^ 2 by norm_num]; exact Real.sqrt_sq (by norm_num)
  have hr : re (p := .single) (i := .avx) (pairs (0 : ℝ) 2) s = 0 := re_pairs _ _ _
  have hi : im (p := .single) (i := .avx) (pairs (0 : ℝ) 2) s = 2 := im_pairs _ _ _
  simp only [hr, hi, qcdUsed, qcdForce, pqSite, Bool.false_eq_true, if_false]
  norm_num [h4]

end Jaxions.SaxKernel
