import Verif.Props.Nonrel
import Verif.Props.PaxionLaw
import Verif.Props.Run
import Mathlib.Analysis.SpecialFunctions.Integrals.Basic
import Mathlib.Analysis.SpecialFunctions.Complex.Circle
/-
C64: the kernel of the Naxion, and the equations its field and that of the Paxion should obey.
-/
namespace Jaxions.Nonrel

open Stencil Run Cosmo intervalIntegral Set
open Paxion (total total_add total_mul lap_adjoint)

/-! ### The site -/

/-- **C64** One site: explicit step `ψ + i L`, then a turn by `k |ψ + i L|²`. -/
theorem C64_site (k : ℝ) (L ψ v : ℂ) :
    (naxLaw k L ψ v).1 =
      Complex.exp (Complex.I * (k * Complex.normSq (ψ + Complex.I * L) : ℝ)) * (ψ + Complex.I * L) := by
  have e1 : (ψ + Complex.I * L).re = ψ.re + -L.im := by simp
  have e2 : (ψ + Complex.I * L).im = ψ.im + L.re := by simp
  rw [mul_comm Complex.I, Complex.exp_mul_I, ← Complex.ofReal_cos, ← Complex.ofReal_sin]
  simp only [naxLaw, Complex.normSq_apply, e1, e2]
  apply Complex.ext
  · simp only [Complex.mul_re, Complex.add_re, Complex.add_im, Complex.ofReal_re, Complex.ofReal_im,
      Complex.mul_im, Complex.I_re, Complex.I_im]
    ring
  · simp only [Complex.mul_re, Complex.add_re, Complex.add_im, Complex.ofReal_re, Complex.ofReal_im,
      Complex.mul_im, Complex.I_re, Complex.I_im]
    ring

theorem site_normSq (k : ℝ) (L ψ v : ℂ) :
    Complex.normSq (naxLaw k L ψ v).1 = Complex.normSq (ψ + Complex.I * L) := by
  rw [C64_site, Complex.normSq_mul, mul_comm Complex.I, Complex.normSq_eq_norm_sq,
    Complex.norm_exp_ofReal_mul_I]
  ring

/-! ### The number of particles -/

theorem lap_re (w : Nat → ℝ) (NN : Nat) (φ : Int → Int → Int → ℂ) (x y z : Int) :
    (laplacian w NN φ x y z).re = laplacian w NN (fun x y z => (φ x y z).re) x y z := by
  unfold laplacian
  rw [Complex.re_sum]
  refine Finset.sum_congr rfl fun k _ => ?_
  simp

theorem lap_im (w : Nat → ℝ) (NN : Nat) (φ : Int → Int → Int → ℂ) (x y z : Int) :
    (laplacian w NN φ x y z).im = laplacian w NN (fun x y z => (φ x y z).im) x y z := by
  unfold laplacian
  rw [Complex.im_sum]
  refine Finset.sum_congr rfl fun k _ => ?_
  simp

/-- The number of particles of a lattice. -/
noncomputable def count (Lx N : Nat) (φ : Int → Int → Int → ℂ) : ℝ :=
  total Lx N fun x y z => Complex.normSq (φ x y z)

/-- **C64** Finding: a stage adds the square of the Laplacian to the number of particles; no stage
keeps it unless the Laplacian vanishes on the whole lattice. -/
theorem C64_grows {Lx N : Nat} (NN : Nat) (w : Nat → ℝ) (o k : ℝ) {F : Lat ℂ}
    (hp : Periodic3 Lx N F.φ) :
    count Lx N ((saxionRule NN w o (naxLaw k)).step F).φ =
      count Lx N F.φ + count Lx N (laplacian (fun j => w j * o) NN F.φ) := by
  set W : Nat → ℝ := fun j => w j * o with hW
  have hre : Periodic3 Lx N (fun x y z => (F.φ x y z).re) :=
    ⟨fun x y z => by simp only [hp.1], fun x y z => by simp only [hp.2.1],
      fun x y z => by simp only [hp.2.2]⟩
  have him : Periodic3 Lx N (fun x y z => (F.φ x y z).im) :=
    ⟨fun x y z => by simp only [hp.1], fun x y z => by simp only [hp.2.1],
      fun x y z => by simp only [hp.2.2]⟩
  have adj := lap_adjoint NN W hre him
  unfold count
  have e : (fun x y z => Complex.normSq (((saxionRule NN w o (naxLaw k)).step F).φ x y z)) =
      fun x y z => (Complex.normSq (F.φ x y z) + Complex.normSq (laplacian W NN F.φ x y z)) +
        (2 * ((F.φ x y z).im * laplacian W NN (fun x y z => (F.φ x y z).re) x y z) +
        (-2) * ((F.φ x y z).re * laplacian W NN (fun x y z => (F.φ x y z).im) x y z)) := by
    funext x y z
    have : ((saxionRule NN w o (naxLaw k)).step F).φ x y z =
      (naxLaw k (laplacian W NN F.φ x y z) (F.φ x y z) (F.ν x y z)).1 := rfl
    rw [this, site_normSq, ← lap_re, ← lap_im]
    simp only [Complex.normSq_apply, Complex.add_re, Complex.add_im, Complex.mul_re, Complex.mul_im,
      Complex.I_re, Complex.I_im]
    ring
  rw [e, total_add, total_add, total_add, total_mul, total_mul, adj]
  ring

theorem count_nonneg (Lx N : Nat) (φ : Int → Int → Int → ℂ) : 0 ≤ count Lx N φ := by
  unfold count total
  exact Finset.sum_nonneg fun x _ => Finset.sum_nonneg fun y _ => Finset.sum_nonneg fun z _ =>
    Complex.normSq_nonneg _

theorem count_zero {Lx N : Nat} {φ : Int → Int → Int → ℂ} :
    count Lx N φ = 0 ↔ ∀ x y z : Nat, x < Lx → y < Lx → z < N → φ x y z = 0 := by
  unfold count total
  rw [Finset.sum_eq_zero_iff_of_nonneg (fun x _ => Finset.sum_nonneg fun y _ => Finset.sum_nonneg
    fun z _ => Complex.normSq_nonneg _)]
  constructor
  · intro h x y z hx hy hz
    have h1 := h x (Finset.mem_range.2 hx)
    rw [Finset.sum_eq_zero_iff_of_nonneg (fun y _ => Finset.sum_nonneg
      fun z _ => Complex.normSq_nonneg _)] at h1
    have h2 := h1 y (Finset.mem_range.2 hy)
    rw [Finset.sum_eq_zero_iff_of_nonneg (fun z _ => Complex.normSq_nonneg _)] at h2
    exact Complex.normSq_eq_zero.1 (h2 z (Finset.mem_range.2 hz))
  · intro h x hx
    refine Finset.sum_eq_zero fun y hy => Finset.sum_eq_zero fun z hz => ?_
    rw [h x y z (Finset.mem_range.1 hx) (Finset.mem_range.1 hy) (Finset.mem_range.1 hz)]
    exact Complex.normSq_zero

/-- A stage keeps the number exactly when the Laplacian vanishes everywhere. -/
theorem C64_kept_iff {Lx N : Nat} (NN : Nat) (w : Nat → ℝ) (o k : ℝ) {F : Lat ℂ}
    (hp : Periodic3 Lx N F.φ) :
    count Lx N ((saxionRule NN w o (naxLaw k)).step F).φ = count Lx N F.φ ↔
      ∀ x y z : Nat, x < Lx → y < Lx → z < N → laplacian (fun j => w j * o) NN F.φ x y z = 0 := by
  rw [C64_grows NN w o k hp, ← count_zero]
  constructor <;> intro h <;> linarith

/-- One stage as its caller gives it. -/
structure Stage where
  o : ℝ
  k : ℝ

/-- The rules of a list of stages. -/
noncomputable def rules (NN : Nat) (w : Nat → ℝ) (st : List Stage) : List (Rule ℂ) :=
  st.map fun s => saxionRule NN w s.o (naxLaw s.k)

theorem rule_periodic {Lx N : Nat} (NN : Nat) (w : Nat → ℝ) (o k : ℝ) {F : Lat ℂ}
    (hp : Periodic3 Lx N F.φ) : Periodic3 Lx N ((saxionRule NN w o (naxLaw k)).step F).φ := by
  have key : ∀ x y z, ((saxionRule NN w o (naxLaw k)).step F).φ x y z =
      Complex.exp (Complex.I * (k * Complex.normSq (F.φ x y z + Complex.I *
        laplacian (fun j => w j * o) NN F.φ x y z) : ℝ)) * (F.φ x y z + Complex.I *
        laplacian (fun j => w j * o) NN F.φ x y z) := fun x y z => C64_site _ _ _ (F.ν x y z)
  obtain ⟨h1, h2, h3⟩ := hp
  have l1 : ∀ x y z, laplacian (fun j => w j * o) NN F.φ (x + Lx) y z =
      laplacian (fun j => w j * o) NN F.φ x y z := by
    intro x y z
    simp only [laplacian, add_right_comm _ (Lx : Int), sub_eq_add_neg (_ + (Lx : Int)),
      h1, ← sub_eq_add_neg]
  have l2 : ∀ x y z, laplacian (fun j => w j * o) NN F.φ x (y + Lx) z =
      laplacian (fun j => w j * o) NN F.φ x y z := by
    intro x y z
    simp only [laplacian, add_right_comm _ (Lx : Int), sub_eq_add_neg (_ + (Lx : Int)),
      h2, ← sub_eq_add_neg]
  have l3 : ∀ x y z, laplacian (fun j => w j * o) NN F.φ x y (z + N) =
      laplacian (fun j => w j * o) NN F.φ x y z := by
    intro x y z
    simp only [laplacian, add_right_comm _ (N : Int), sub_eq_add_neg (_ + (N : Int)),
      h3, ← sub_eq_add_neg]
  exact ⟨fun x y z => by rw [key, key, h1, l1], fun x y z => by rw [key, key, h2, l2],
    fun x y z => by rw [key, key, h3, l3]⟩

/-- **C64** Over a run of any length the number of particles never falls. -/
theorem C64_never_falls {Lx N : Nat} (NN : Nat) (w : Nat → ℝ) (st : List Stage) {F : Lat ℂ}
    (hp : Periodic3 Lx N F.φ) : count Lx N F.φ ≤ count Lx N (evolve (rules NN w st) F).φ := by
  induction st generalizing F with
  | nil => exact le_refl _
  | cons s st ih =>
    refine le_trans ?_ (ih (rule_periodic NN w s.o s.k hp))
    rw [C64_grows NN w s.o s.k hp]
    linarith [count_nonneg Lx N (laplacian (fun j => w j * s.o) NN F.φ)]

/-- A wave: equal density everywhere, and the Laplacian multiplies it by `c`. -/
structure Wave (NN : Nat) (w : Nat → ℝ) (c ρ : ℝ) (φ : Int → Int → Int → ℂ) : Prop where
  lap : ∀ x y z, laplacian w NN φ x y z = c * φ x y z
  dens : ∀ x y z, Complex.normSq (φ x y z) = ρ

theorem lap_scale (w : Nat → ℝ) (o : ℝ) (NN : Nat) (φ : Int → Int → Int → ℂ) (x y z : Int) :
    laplacian (fun j => w j * o) NN φ x y z = o * laplacian w NN φ x y z := by
  unfold laplacian
  rw [Finset.mul_sum]
  refine Finset.sum_congr rfl fun k _ => ?_
  simp only [Complex.real_smul]
  push_cast
  ring

theorem lap_const_mul (w : Nat → ℝ) (μ : ℂ) (NN : Nat) (φ : Int → Int → Int → ℂ) (x y z : Int) :
    laplacian w NN (fun x y z => μ * φ x y z) x y z = μ * laplacian w NN φ x y z := by
  unfold laplacian
  rw [Finset.mul_sum]
  refine Finset.sum_congr rfl fun k _ => ?_
  simp only [Complex.real_smul]
  ring

theorem Wave.step {NN : Nat} {w : Nat → ℝ} {c ρ : ℝ} {F : Lat ℂ} (h : Wave NN w c ρ F.φ) (o k : ℝ) :
    Wave NN w c ((1 + (o * c) ^ 2) * ρ) ((saxionRule NN w o (naxLaw k)).step F).φ := by
  have hp : ∀ x y z, F.φ x y z + Complex.I * laplacian (fun j => w j * o) NN F.φ x y z =
      (1 + Complex.I * (o * c)) * F.φ x y z := by
    intro x y z
    rw [lap_scale, h.lap]
    ring
  have hn : Complex.normSq (1 + Complex.I * (o * c)) = 1 + (o * c) ^ 2 := by
    rw [Complex.normSq_apply]
    simp
    ring
  have hd : ∀ x y z, Complex.normSq ((1 + Complex.I * (o * c)) * F.φ x y z) =
      (1 + (o * c) ^ 2) * ρ := by
    intro x y z
    rw [Complex.normSq_mul, hn, h.dens]
  have key : ((saxionRule NN w o (naxLaw k)).step F).φ = fun x y z =>
      (Complex.exp (Complex.I * (k * ((1 + (o * c) ^ 2) * ρ) : ℝ)) * (1 + Complex.I * (o * c))) *
        F.φ x y z := by
    funext x y z
    have : ((saxionRule NN w o (naxLaw k)).step F).φ x y z = _ :=
      C64_site k (laplacian (fun j => w j * o) NN F.φ x y z) (F.φ x y z) (F.ν x y z)
    rw [this, hp, hd, mul_assoc]
  constructor
  · intro x y z
    rw [key, lap_const_mul, h.lap]
    ring
  · intro x y z
    rw [key]
    dsimp only
    rw [mul_assoc, Complex.normSq_mul, mul_comm Complex.I, Complex.normSq_eq_norm_sq,
      Complex.norm_exp_ofReal_mul_I, hd]
    ring

/-- **C64** Over a run a wave with a Laplacian of `c` times itself gains the factor `1 + (o c)²` in
every stage, whatever the coupling. -/
theorem C64_wave {NN : Nat} {w : Nat → ℝ} {c ρ : ℝ} (st : List Stage) {F : Lat ℂ}
    (h : Wave NN w c ρ F.φ) (x y z : Int) :
    Complex.normSq ((evolve (rules NN w st) F).φ x y z) =
      (st.map fun s => 1 + (s.o * c) ^ 2).prod * ρ := by
  induction st generalizing F ρ with
  | nil => simp [rules, evolve, h.dens]
  | cons s st ih =>
    have := ih (h.step s.o s.k)
    simp only [List.map_cons, List.prod_cons]
    rw [show evolve (rules NN w (s :: st)) F =
      evolve (rules NN w st) ((saxionRule NN w s.o (naxLaw s.k)).step F) from rfl, this]
    ring

/-! ### Runs on ranks -/

/-- **C64** A run of the Naxion on any number of ranks computes these stages at every site.  (This
kernel does not skip the second boundary call of a slab as thick as the ghosts, so such slabs are
left out.) -/
theorem C64_nax_run {n sz Lx S Lz NN : Nat} (hf : Fits n sz Lx S Lz NN) (_hz : 2 * NN ≤ Lz)
    (h5 : NN ≤ 5) (PC : List ℝ) (w : Nat → ℝ) (hPC : ∀ k, k < NN → PC[k]? = some (w k))
    (st : List (Stage × Luck ℂ)) (hst : ∀ q ∈ st, Fair Lx S Lz NN q.2) {b : Bool} {wd : World ℂ}
    {F : Lat ℂ} (hφ : Periodic3 Lx (n * Lz) F.φ) (hν : Periodic3 Lx (n * Lz) F.ν)
    (hw : Holding n Lx S Lz NN b wd F) :
    ∃ w', run n sz ⟨Lx, S, NN⟩ Lz b (st.map fun q => (naxSub PC q.1.o q.1.k, q.2)) wd = some w' ∧
      Holding n Lx S Lz NN (if st.length % 2 = 0 then b else !b) w'
        (evolve (rules NN w (st.map Prod.fst)) F) := by
  have key := C59_run (us := st.map fun q => (naxSub PC q.1.o q.1.k, q.2))
    (gs := rules NN w (st.map Prod.fst)) hf
    (by
      unfold rules
      rw [List.map_map, List.forall₂_map_left_iff, List.forall₂_map_right_iff, List.forall₂_same]
      exact fun q hq => ⟨saxion_computes h5 _ _ _ hPC, hst q hq⟩) hφ hν hw
  rwa [List.length_map] at key

/-! ### The factors -/

theorem kkt_two {ct beta R frw dz d x : ℝ}
    (h : Paxion.kkt ⟨ct, R, 0, 0, frw, beta, 0, 0, 1⟩ (dz * d) = some x) :
    kkt ct beta R frw dz d = some (2 * x) := by
  unfold Paxion.kkt quot at h
  simp only at h
  split at h
  · simp at h
  · rename_i hne
    rw [Option.some.injEq] at h
    have e1 : (2 : ℝ) * frw - 1.0 = 2.0 * frw - 1.0 := by norm_num
    have e8 : 8.0 * R * R * (2.0 * frw - 1.0) * (ct + dz * d) ^ ((2.0 : ℝ) * frw - 1.0) =
        2 * (4.0 * R * R * (2.0 * frw - 1.0) * (ct + dz * d) ^ ((2.0 : ℝ) * frw - 1.0)) := by
      norm_num; ring
    rw [e8] at h hne
    unfold kkt quot
    simp only [e1]
    generalize 4.0 * R * R * (2.0 * frw - 1.0) * (ct + dz * d) ^ ((2.0 : ℝ) * frw - 1.0) = D at *
    have hD : D ≠ 0 := fun h => hne (by rw [h, mul_zero])
    rw [if_neg hD, ← h]
    congr 1
    field_simp

/-- **C64** On `R = a t^f`, `f ≠ 1/2`, the factor of the coupling is `β/4` times the integral of
`1/R²`: twice that of the Paxion; for `f = 1/2` it is not defined. -/
theorem C64_kkt {ct beta R frw dz d a : ℝ} (ht : 0 < ct) (ha : a ≠ 0) (hR : R = a * ct ^ frw)
    (hz : 0 < ct + dz * d) :
    (frw ≠ 1 / 2 → kkt ct beta R frw dz d =
      some (beta / 4 * ∫ s in ct..ct + dz * d, 1 / (a * s ^ frw) ^ 2)) ∧
    (frw = 1 / 2 → kkt ct beta R frw dz d = none) := by
  constructor
  · intro hf
    rw [kkt_two (Paxion.C63_kkt (P := ⟨ct, R, 0, 0, frw, beta, 0, 0, 1⟩) ⟨ht, ha, hR⟩ hf hz)]
    congr 1
    ring
  · intro hf
    unfold kkt quot
    simp only [hf]
    norm_num

/-! ### The equations the slow fields should obey

The rescaled axion with mass `M = m_A R` held fixed obeys `θ'' = ∇²θ - M² θ + M² θ³ / (6 R²)` up to the
order of the cubic term of the cosine potential.  -/

/-- Acceleration of the rescaled axion; `l` is its Laplacian. -/
noncomputable def acc (M R l θ : ℝ) : ℝ := l - M ^ 2 * θ + M ^ 2 * θ ^ 3 / (6 * R ^ 2)

theorem hasDeriv_mk {f g : ℝ → ℝ} {f' g' t : ℝ} (hf : HasDerivAt f f' t) (hg : HasDerivAt g g' t) :
    HasDerivAt (fun s => (⟨f s, g s⟩ : ℂ)) ⟨f', g'⟩ t := by
  have e : ∀ a b : ℝ, (⟨a, b⟩ : ℂ) = (a : ℂ) + (b : ℂ) * Complex.I := fun a b =>
    Complex.mk_eq_add_mul_I a b
  simp only [e]
  exact hf.ofReal_comp.add (hg.ofReal_comp.mul_const _)

theorem exp_deriv (c : ℂ) (t : ℝ) :
    HasDerivAt (fun s : ℝ => Complex.exp (c * s)) (c * Complex.exp (c * t)) t := by
  have h : HasDerivAt (fun s : ℝ => c * (s : ℂ)) c t := by
    simpa using (Complex.ofRealCLM.hasDerivAt (x := t)).const_mul c
  exact h.cexp.congr_deriv (mul_comm _ _)

/-- **C64** The Paxion field without its phase `exp(-i M t)` changes only by the Laplacian and the
cubic term. -/
theorem C64_slow_pax {M R l t : ℝ} (hM : 0 < M) {θ v : ℝ → ℝ}
    (h1 : HasDerivAt θ (v t) t) (h2 : HasDerivAt v (acc M R l (θ t)) t) :
    HasDerivAt (fun s : ℝ => Complex.exp (Complex.I * M * s) * pax M 0 (θ s) (v s))
      (Complex.exp (Complex.I * M * t) * (Complex.I * ((l + M ^ 2 * θ t ^ 3 / (6 * R ^ 2)) /
        Real.sqrt (2 * M) : ℝ))) t := by
  have hp : 0 < Real.sqrt (M / 2) := Real.sqrt_pos.2 (by positivity)
  have a1 : Real.sqrt (M / 2) * Real.sqrt (M / 2) = M / 2 := Real.mul_self_sqrt (by positivity)
  have e2 : Real.sqrt (2 * M) = 2 * Real.sqrt (M / 2) := by
    rw [show 2 * M = 2 ^ 2 * (M / 2) by ring, Real.sqrt_mul (by positivity),
      Real.sqrt_sq (by norm_num)]
  have hMr : M = 2 * (Real.sqrt (M / 2) * Real.sqrt (M / 2)) := by rw [a1]; ring
  have hd : HasDerivAt (fun s => pax M 0 (θ s) (v s))
      ⟨Real.sqrt (M / 2) * v t, acc M R l (θ t) / Real.sqrt (2 * M)⟩ t := by
    unfold pax
    simp only [zero_mul, add_zero]
    exact hasDeriv_mk (h1.const_mul _) (h2.div_const _)
  refine ((exp_deriv (Complex.I * M) t).mul hd).congr_deriv ?_
  have : (⟨Real.sqrt (M / 2) * v t, acc M R l (θ t) / Real.sqrt (2 * M)⟩ : ℂ) =
      -(Complex.I * M * pax M 0 (θ t) (v t)) + Complex.I * ((l + M ^ 2 * θ t ^ 3 / (6 * R ^ 2)) /
        Real.sqrt (2 * M) : ℝ) := by
    have hq : acc M R l (θ t) / Real.sqrt (2 * M) = (l + M ^ 2 * θ t ^ 3 / (6 * R ^ 2)) /
        Real.sqrt (2 * M) - M * (Real.sqrt (M / 2) * θ t) := by
      unfold acc
      rw [e2]
      generalize M ^ 2 * θ t ^ 3 / (6 * R ^ 2) = c
      generalize Real.sqrt (M / 2) = r at *
      rw [hMr]
      field_simp
      ring
    have hr : Real.sqrt (M / 2) * v t = M * (v t / Real.sqrt (2 * M)) := by
      rw [e2]
      generalize Real.sqrt (M / 2) = r at *
      rw [hMr]
      field_simp
    rw [hq, hr]
    generalize (l + M ^ 2 * θ t ^ 3 / (6 * R ^ 2)) / Real.sqrt (2 * M) = q
    unfold pax
    apply Complex.ext
    · simp
    · simp
      ring
  rw [this]
  ring

/-- The same for the Naxion and the phase `exp(i M t)`. -/
theorem C64_slow_nax {M R l t : ℝ} (hM : 0 < M) {θ v : ℝ → ℝ}
    (h1 : HasDerivAt θ (v t) t) (h2 : HasDerivAt v (acc M R l (θ t)) t) :
    HasDerivAt (fun s : ℝ => Complex.exp (-(Complex.I * M) * s) * nax M (θ s) (v s))
      (Complex.exp (-(Complex.I * M) * t) * (-Complex.I * ((l + M ^ 2 * θ t ^ 3 / (6 * R ^ 2)) /
        Real.sqrt M : ℝ))) t := by
  have hp : 0 < Real.sqrt M := Real.sqrt_pos.2 hM
  have a1 : Real.sqrt M * Real.sqrt M = M := Real.mul_self_sqrt hM.le
  have hd : HasDerivAt (fun s => nax M (θ s) (v s))
      ⟨Real.sqrt M * v t, -(acc M R l (θ t) / Real.sqrt M)⟩ t := by
    unfold nax
    exact hasDeriv_mk (h1.const_mul _) (h2.div_const _).neg
  refine ((exp_deriv (-(Complex.I * M)) t).mul hd).congr_deriv ?_
  have : (⟨Real.sqrt M * v t, -(acc M R l (θ t) / Real.sqrt M)⟩ : ℂ) =
      Complex.I * M * nax M (θ t) (v t) + -Complex.I * ((l + M ^ 2 * θ t ^ 3 / (6 * R ^ 2)) /
        Real.sqrt M : ℝ) := by
    have hq : -(acc M R l (θ t) / Real.sqrt M) = -((l + M ^ 2 * θ t ^ 3 / (6 * R ^ 2)) /
        Real.sqrt M) + M * (Real.sqrt M * θ t) := by
      unfold acc
      generalize M ^ 2 * θ t ^ 3 / (6 * R ^ 2) = c
      generalize Real.sqrt M = r at *
      rw [← a1]
      field_simp
      ring
    have hr : Real.sqrt M * v t = M * (v t / Real.sqrt M) := by
      generalize Real.sqrt M = r at *
      rw [← a1]
      field_simp
    rw [hq, hr]
    generalize (l + M ^ 2 * θ t ^ 3 / (6 * R ^ 2)) / Real.sqrt M = q
    unfold nax
    apply Complex.ext
    · simp
    · simp
      ring
  rw [this]
  ring

theorem int_exp (n : Int) (hn : n ≠ 0) :
    ∫ τ in (0 : ℝ)..2 * Real.pi, Complex.exp ((n * Complex.I) * τ) = 0 := by
  rw [integral_exp_mul_complex (by simpa using hn)]
  have : Complex.exp (n * Complex.I * ((2 * Real.pi : ℝ) : ℂ)) = 1 := by
    rw [Complex.exp_eq_one_iff]
    exact ⟨n, by push_cast; ring⟩
  rw [this]
  simp

/-- Average over a period of the phase. -/
noncomputable def average (f : ℝ → ℂ) : ℂ := (∫ τ in (0 : ℝ)..2 * Real.pi, f τ) / (2 * Real.pi)

theorem re_turn (A : ℂ) (τ : ℝ) : (((A * Complex.exp (-(Complex.I * τ))).re : ℝ) : ℂ) =
    (A * Complex.exp (-(Complex.I * τ)) + (starRingEnd ℂ) A * Complex.exp (Complex.I * τ)) / 2 := by
  rw [Complex.re_eq_add_conj]
  congr 2
  rw [map_mul, ← Complex.exp_conj]
  congr 2
  simp

theorem average_linear (B : ℂ) :
    average (fun τ => Complex.exp (Complex.I * τ) * ((B * Complex.exp (-(Complex.I * τ))).re : ℝ)) =
      B / 2 := by
  have e : (fun τ : ℝ => Complex.exp (Complex.I * τ) * ((B * Complex.exp (-(Complex.I * τ))).re : ℝ)) =
      fun τ : ℝ => B / 2 + (starRingEnd ℂ) B / 2 * Complex.exp (((2 : Int) * Complex.I) * τ) := by
    funext τ
    rw [re_turn, show ((2 : Int) : ℂ) * Complex.I * τ = Complex.I * τ + Complex.I * τ by
      push_cast; ring, Complex.exp_add, Complex.exp_neg]
    have := Complex.exp_ne_zero (Complex.I * τ)
    field_simp
  have hc : ∀ c d : ℂ, IntervalIntegrable (fun τ : ℝ => d * Complex.exp (c * τ))
      MeasureTheory.volume 0 (2 * Real.pi) := fun c d =>
    (continuous_const.mul (Complex.continuous_exp.comp
      (continuous_const.mul Complex.continuous_ofReal))).intervalIntegrable _ _
  unfold average
  rw [e, intervalIntegral.integral_add intervalIntegrable_const (hc _ _), intervalIntegral.integral_const_mul,
    int_exp 2 (by norm_num), intervalIntegral.integral_const]
  have : (Real.pi : ℂ) ≠ 0 := by exact_mod_cast Real.pi_ne_zero
  simp only [sub_zero, Complex.real_smul]
  push_cast
  field_simp
  ring

theorem average_cubic (A : ℂ) :
    average (fun τ => Complex.exp (Complex.I * τ) *
      (((A * Complex.exp (-(Complex.I * τ))).re ^ 3 : ℝ))) = 3 / 8 * Complex.normSq A * A := by
  have e : (fun τ : ℝ => Complex.exp (Complex.I * τ) *
      (((A * Complex.exp (-(Complex.I * τ))).re ^ 3 : ℝ))) =
      fun τ : ℝ => (3 / 8 * Complex.normSq A * A + A ^ 3 / 8 * Complex.exp (((-2 : Int) * Complex.I) * τ)) +
        (3 / 8 * Complex.normSq A * (starRingEnd ℂ) A * Complex.exp (((2 : Int) * Complex.I) * τ) +
        (starRingEnd ℂ) A ^ 3 / 8 * Complex.exp (((4 : Int) * Complex.I) * τ)) := by
    funext τ
    rw [Complex.ofReal_pow, re_turn, Complex.normSq_eq_conj_mul_self,
      show ((2 : Int) : ℂ) * Complex.I * τ = Complex.I * τ + Complex.I * τ by push_cast; ring,
      show ((-2 : Int) : ℂ) * Complex.I * τ = -(Complex.I * τ + Complex.I * τ) by push_cast; ring,
      show ((4 : Int) : ℂ) * Complex.I * τ = Complex.I * τ + Complex.I * τ + (Complex.I * τ +
        Complex.I * τ) by push_cast; ring,
      Complex.exp_neg, Complex.exp_neg, Complex.exp_add (_ + _), Complex.exp_add]
    have := Complex.exp_ne_zero (Complex.I * τ)
    field_simp
    ring
  have hc : ∀ c d : ℂ, IntervalIntegrable (fun τ : ℝ => d * Complex.exp (c * τ))
      MeasureTheory.volume 0 (2 * Real.pi) := fun c d =>
    (continuous_const.mul (Complex.continuous_exp.comp
      (continuous_const.mul Complex.continuous_ofReal))).intervalIntegrable _ _
  unfold average
  rw [e, intervalIntegral.integral_add (intervalIntegrable_const.add (hc _ _)) ((hc _ _).add (hc _ _)),
    intervalIntegral.integral_add intervalIntegrable_const (hc _ _),
    intervalIntegral.integral_add (hc _ _) (hc _ _), intervalIntegral.integral_const,
    intervalIntegral.integral_const_mul,
    intervalIntegral.integral_const_mul, intervalIntegral.integral_const_mul,
    int_exp 2 (by norm_num), int_exp 4 (by norm_num), int_exp (-2) (by norm_num)]
  have : (Real.pi : ℂ) ≠ 0 := by exact_mod_cast Real.pi_ne_zero
  simp only [sub_zero, Complex.real_smul]
  push_cast
  field_simp
  ring

theorem average_const_mul (c : ℂ) (f : ℝ → ℂ) : average (fun τ => c * f τ) = c * average f := by
  unfold average
  rw [intervalIntegral.integral_const_mul, mul_div_assoc]

theorem average_add {f g : ℝ → ℂ} (hf : Continuous f) (hg : Continuous g) :
    average (fun τ => f τ + g τ) = average f + average g := by
  unfold average
  rw [intervalIntegral.integral_add (hf.intervalIntegrable _ _) (hg.intervalIntegrable _ _), add_div]

theorem average_conj (f : ℝ → ℂ) :
    average (fun τ => (starRingEnd ℂ) (f τ)) = (starRingEnd ℂ) (average f) := by
  unfold average
  rw [intervalIntegral.intervalIntegral_conj, map_div₀, map_mul, Complex.conj_ofReal, map_ofNat]

theorem continuous_wave (A : ℂ) :
    Continuous fun τ : ℝ => (A * Complex.exp (-(Complex.I * τ))).re :=
  Complex.continuous_re.comp (continuous_const.mul (Complex.continuous_exp.comp
    (continuous_const.mul Complex.continuous_ofReal).neg))

/-- **C64** The equation of the Paxion: with `θ` and its Laplacian oscillating with amplitudes `A` and
`B`, the slow change is on average `i B / (2M) + i |A|² A / (8 R²)`, which is what its propagator
integrates with `β = 1` (C63). -/
theorem C64_average_pax {M R : ℝ} (hM : 0 < M) (hR : R ≠ 0) (A B : ℂ) {θ l : ℝ → ℝ}
    (hA : ∀ τ, θ τ = Real.sqrt (2 / M) * (A * Complex.exp (-(Complex.I * τ))).re)
    (hB : ∀ τ, l τ = Real.sqrt (2 / M) * (B * Complex.exp (-(Complex.I * τ))).re) :
    average (fun τ => Complex.exp (Complex.I * τ) * (Complex.I *
      ((l τ + M ^ 2 * θ τ ^ 3 / (6 * R ^ 2)) / Real.sqrt (2 * M) : ℝ))) =
      Complex.I * B / (2 * M) + Complex.I * Complex.normSq A * A / (8 * R ^ 2) := by
  have e2 : Real.sqrt (2 * M) = M * Real.sqrt (2 / M) := by
    rw [show 2 * M = M ^ 2 * (2 / M) by field_simp, Real.sqrt_mul (by positivity),
      Real.sqrt_sq hM.le]
  have hp : 0 < Real.sqrt (2 / M) := Real.sqrt_pos.2 (by positivity)
  have a1 : Real.sqrt (2 / M) ^ 2 = 2 / M := Real.sq_sqrt (by positivity)
  have e : ∀ τ, (l τ + M ^ 2 * θ τ ^ 3 / (6 * R ^ 2)) / Real.sqrt (2 * M) =
      1 / M * (B * Complex.exp (-(Complex.I * τ))).re +
        1 / (3 * R ^ 2) * (A * Complex.exp (-(Complex.I * τ))).re ^ 3 := by
    intro τ
    rw [hA, hB, e2]
    generalize (A * Complex.exp (-(Complex.I * τ))).re = p
    generalize (B * Complex.exp (-(Complex.I * τ))).re = q
    have : (Real.sqrt (2 / M) * p) ^ 3 = Real.sqrt (2 / M) * (2 / M) * p ^ 3 := by
      linear_combination Real.sqrt (2 / M) * p ^ 3 * a1
    rw [this]
    generalize Real.sqrt (2 / M) = r at *
    field_simp
    ring
  have e' : (fun τ : ℝ => Complex.exp (Complex.I * τ) * (Complex.I *
      ((l τ + M ^ 2 * θ τ ^ 3 / (6 * R ^ 2)) / Real.sqrt (2 * M) : ℝ))) = fun τ : ℝ =>
      (Complex.I / M) * (Complex.exp (Complex.I * τ) * ((B * Complex.exp (-(Complex.I * τ))).re : ℝ)) +
      (Complex.I / (3 * R ^ 2)) * (Complex.exp (Complex.I * τ) *
        ((A * Complex.exp (-(Complex.I * τ))).re ^ 3 : ℝ)) := by
    funext τ
    rw [e]
    push_cast
    ring
  have ce : Continuous fun τ : ℝ => Complex.exp (Complex.I * τ) :=
    Complex.continuous_exp.comp (continuous_const.mul Complex.continuous_ofReal)
  have c1 : Continuous fun τ : ℝ => (Complex.I / M) * (Complex.exp (Complex.I * τ) *
      ((B * Complex.exp (-(Complex.I * τ))).re : ℝ)) :=
    continuous_const.mul (ce.mul (Complex.continuous_ofReal.comp (continuous_wave B)))
  have c2 : Continuous fun τ : ℝ => (Complex.I / (3 * R ^ 2)) * (Complex.exp (Complex.I * τ) *
      ((A * Complex.exp (-(Complex.I * τ))).re ^ 3 : ℝ)) :=
    continuous_const.mul (ce.mul (Complex.continuous_ofReal.comp ((continuous_wave A).pow 3)))
  rw [e', average_add c1 c2, average_const_mul, average_const_mul, average_linear,
    average_cubic]
  have : (M : ℂ) ≠ 0 := by exact_mod_cast hM.ne'
  have : (R : ℂ) ≠ 0 := by exact_mod_cast hR
  field_simp

/-- Slow change of the field that the conversion to the Naxion makes. -/
noncomputable def slowNax (M R : ℝ) (A B : ℂ) : ℂ :=
  -(Complex.I * B / (2 * M)) - Complex.I * Complex.normSq A * A / (16 * R ^ 2)

/-- **C64** The equation of the field that the conversion to the Naxion makes. -/
theorem C64_average_nax {M R : ℝ} (hM : 0 < M) (hR : R ≠ 0) (A B : ℂ) {θ l : ℝ → ℝ}
    (hA : ∀ τ, θ τ = (A * Complex.exp (Complex.I * τ)).re / Real.sqrt M)
    (hB : ∀ τ, l τ = (B * Complex.exp (Complex.I * τ)).re / Real.sqrt M) :
    average (fun τ => Complex.exp (-(Complex.I * τ)) * (-Complex.I *
      ((l τ + M ^ 2 * θ τ ^ 3 / (6 * R ^ 2)) / Real.sqrt M : ℝ))) = slowNax M R A B := by
  have hre : ∀ (C : ℂ) (τ : ℝ), (C * Complex.exp (Complex.I * τ)).re =
      ((starRingEnd ℂ) C * Complex.exp (-(Complex.I * τ))).re := by
    intro C τ
    rw [← Complex.conj_re, map_mul, ← Complex.exp_conj]
    congr 3
    simp
  have e2 : Real.sqrt (2 * (2 * M)) = 2 * Real.sqrt M := by
    rw [show 2 * (2 * M) = 2 ^ 2 * M by ring, Real.sqrt_mul (by norm_num), Real.sqrt_sq (by norm_num)]
  have e3 : Real.sqrt (2 / (2 * M)) = 1 / Real.sqrt M := by
    rw [show 2 / (2 * M) = 1 / M by field_simp, Real.sqrt_div (by norm_num), Real.sqrt_one]
  have key := C64_average_pax (M := 2 * M) (R := 2 * R) (by positivity) (by simpa using hR)
    ((starRingEnd ℂ) A) ((starRingEnd ℂ) B) (θ := θ) (l := l)
    (fun τ => by rw [hA, e3, hre]; ring) (fun τ => by rw [hB, e3, hre]; ring)
  have e : (fun τ : ℝ => Complex.exp (-(Complex.I * τ)) * (-Complex.I *
      ((l τ + M ^ 2 * θ τ ^ 3 / (6 * R ^ 2)) / Real.sqrt M : ℝ))) = fun τ : ℝ => 2 *
      (starRingEnd ℂ) (Complex.exp (Complex.I * τ) * (Complex.I *
        ((l τ + (2 * M) ^ 2 * θ τ ^ 3 / (6 * (2 * R) ^ 2)) / Real.sqrt (2 * (2 * M)) : ℝ))) := by
    funext τ
    have h1 : (2 * M) ^ 2 * θ τ ^ 3 / (6 * (2 * R) ^ 2) = M ^ 2 * θ τ ^ 3 / (6 * R ^ 2) := by
      field_simp
    rw [h1, e2, map_mul, map_mul, Complex.conj_I, Complex.conj_ofReal, ← Complex.exp_conj, map_mul,
      Complex.conj_I, Complex.conj_ofReal, neg_mul]
    push_cast
    have : ((Real.sqrt M : ℝ) : ℂ) ≠ 0 := by exact_mod_cast (Real.sqrt_pos.2 hM).ne'
    field_simp
  rw [e, average_const_mul, average_conj, key]
  unfold slowNax
  have : (M : ℂ) ≠ 0 := by exact_mod_cast hM.ne'
  have : (R : ℂ) ≠ 0 := by exact_mod_cast hR
  push_cast
  simp only [map_add, map_div₀, map_mul, Complex.conj_I, Complex.conj_conj, Complex.conj_ofReal,
    Complex.normSq_conj, map_pow, map_ofNat]
  field_simp
  ring

/-- Rate of the kernel. -/
noncomputable def kernelRate (beta M R : ℝ) (A B : ℂ) : ℂ :=
  Complex.I * B / (2 * M) + Complex.I * beta * Complex.normSq A * A / (4 * R ^ 2)

/-- **C64** What a stage of the Naxion integrates: the rate of change of a site as the step shrinks. -/
theorem C64_rate {ct beta R frw a M : ℝ} (ht : 0 < ct) (ha : a ≠ 0) (hR : R = a * ct ^ frw)
    (hf : frw ≠ 1 / 2) (A B v : ℂ) {κ : ℝ → ℝ}
    (hκ : ∀ h, 0 < ct + h * 1 → kkt ct beta R frw h 1 = some (κ h)) :
    HasDerivAt (fun h : ℝ => (naxLaw (κ h) ((h / (2 * M) : ℝ) * B) A v).1)
      (kernelRate beta M R A B) 0 := by
  have hf' : 2 * frw - 1 ≠ 0 := fun h => hf (by linarith)
  have hex : ∀ h, 0 < ct + h → κ h = beta / 4 * ((ct + h) ^ (1 - 2 * frw) / (1 - 2 * frw) / a ^ 2 -
      ct ^ (1 - 2 * frw) / (1 - 2 * frw) / a ^ 2) := by
    intro h hh
    have := hκ h (by rwa [mul_one])
    rw [kkt_two (Paxion.kkt_anti (P := ⟨ct, R, 0, 0, frw, beta, 0, 0, 1⟩) ⟨ht, ha, hR⟩ hf'
      (by rwa [mul_one]))] at this
    rw [← Option.some.inj this]
    simp only [mul_one]
    ring
  have hκ0 : κ 0 = 0 := by
    rw [hex 0 (by linarith)]
    simp
  have hκd : HasDerivAt κ (beta / (4 * R ^ 2)) 0 := by
    have h1 : HasDerivAt (fun h : ℝ => ct + h) 1 0 := (hasDerivAt_id' (0 : ℝ)).const_add ct
    have h0 := Paxion.anti_R2 ha hf' (t := ct + 0) (by linarith)
    have h2 := h0.comp (0 : ℝ) h1
    have h3 := ((h2.sub_const (ct ^ (1 - 2 * frw) / (1 - 2 * frw) / a ^ 2)).const_mul (beta / 4))
    refine (h3.congr_of_eventuallyEq ?_).congr_deriv ?_
    · have : ∀ᶠ h : ℝ in nhds 0, -ct < h := lt_mem_nhds (by linarith)
      filter_upwards [this] with h hh
      rw [hex h (by linarith)]
      rfl
    · rw [add_zero, ← hR]
      field_simp
  have hp : HasDerivAt (fun h : ℝ => A + Complex.I * ((h / (2 * M) : ℝ) * B))
      (Complex.I * ((1 / (2 * M) : ℝ) * B)) 0 := by
    refine (((((hasDerivAt_id' (0 : ℝ)).div_const (2 * M)).ofReal_comp).mul_const B).const_mul
      Complex.I).const_add A
  have hn : HasDerivAt (fun h : ℝ => Complex.normSq (A + Complex.I * ((h / (2 * M) : ℝ) * B)))
      ((A.im * B.re - A.re * B.im) / M) 0 := by
    have e : (fun h : ℝ => Complex.normSq (A + Complex.I * ((h / (2 * M) : ℝ) * B))) =
        fun h : ℝ => (A.re - h / (2 * M) * B.im) ^ 2 + (A.im + h / (2 * M) * B.re) ^ 2 := by
      funext h
      generalize h / (2 * M) = c
      rw [Complex.normSq_apply]
      simp
      ring
    rw [e]
    have d0 := (hasDerivAt_id' (0 : ℝ)).div_const (2 * M)
    have d1 := ((d0.mul_const B.im).const_sub A.re).pow 2
    have d2 := ((d0.mul_const B.re).const_add A.im).pow 2
    refine (d1.add d2).congr_deriv ?_
    norm_num
    ring
  have ha' : HasDerivAt (fun h : ℝ => κ h * Complex.normSq (A + Complex.I * ((h / (2 * M) : ℝ) * B)))
      (beta / (4 * R ^ 2) * Complex.normSq A) 0 := by
    refine (hκd.mul hn).congr_deriv ?_
    rw [hκ0]
    simp
  have hE := ((ha'.ofReal_comp).const_mul Complex.I).cexp
  have := hE.mul hp
  simp only [C64_site]
  refine this.congr_deriv ?_
  simp only [hκ0, zero_mul, zero_div, Complex.ofReal_zero, mul_zero, Complex.exp_zero, one_mul,
    add_zero]
  unfold kernelRate
  push_cast
  ring

/-- Finding: for no coupling does the kernel integrate the field the conversion makes: the Laplacian
has the other sign.  It integrates the complex conjugate, and then only with `β = 1/4`. -/
theorem C64_wrong_sign {M R : ℝ} (hM : 0 < M) (hR : R ≠ 0) (beta : ℝ) :
    (∃ A B, kernelRate beta M R A B ≠ slowNax M R A B) ∧
      ((∀ A B, kernelRate beta M R A B =
        (starRingEnd ℂ) (slowNax M R ((starRingEnd ℂ) A) ((starRingEnd ℂ) B))) ↔ beta = 1 / 4) := by
  have hMc : (M : ℂ) ≠ 0 := by exact_mod_cast hM.ne'
  have hRc : (R : ℂ) ≠ 0 := by exact_mod_cast hR
  have hc : ∀ A B, (starRingEnd ℂ) (slowNax M R ((starRingEnd ℂ) A) ((starRingEnd ℂ) B)) =
      Complex.I * B / (2 * M) + Complex.I * Complex.normSq A * A / (16 * R ^ 2) := by
    intro A B
    unfold slowNax
    simp only [map_sub, map_neg, map_div₀, map_mul, Complex.conj_I, Complex.conj_conj,
      Complex.conj_ofReal, Complex.normSq_conj, map_pow, map_ofNat]
    ring
  refine ⟨⟨0, 1, ?_⟩, ?_⟩
  · unfold kernelRate slowNax
    simp only [mul_one, mul_zero, zero_div, add_zero, sub_zero]
    intro h
    have h1 : Complex.I / (2 * M) = 0 := by linear_combination h / 2
    rw [div_eq_zero_iff] at h1
    rcases h1 with h1 | h1
    · exact Complex.I_ne_zero h1
    · exact hMc (by simpa using h1)
  · constructor
    · intro h
      have h1 := h 1 0
      rw [hc] at h1
      unfold kernelRate at h1
      simp only [mul_zero, zero_div, zero_add, Complex.normSq_one, Complex.ofReal_one, mul_one] at h1
      rw [div_eq_div_iff (by simpa using hRc) (by simpa using hRc)] at h1
      have h2 : Complex.I * (R : ℂ) ^ 2 * (16 * beta - 4) = 0 := by linear_combination h1
      have h3 : (16 * beta - 4 : ℂ) = 0 := by
        rcases mul_eq_zero.1 h2 with h | h
        · rcases mul_eq_zero.1 h with h | h
          · exact absurd h Complex.I_ne_zero
          · exact absurd h (pow_ne_zero 2 hRc)
        · exact h
      have h4 : 16 * beta - 4 = 0 := by exact_mod_cast h3
      linarith
    · intro h A B
      rw [hc]
      unfold kernelRate
      rw [h]
      push_cast
      field_simp
      ring

/-! ### The hypotheses can be met -/

/-- Alternating signs along x: a wave of unit density. -/
noncomputable def stripes : Int → Int → Int → ℂ := fun x _ _ => if x % 2 = 0 then 1 else -1

theorem stripes_wave (w : Nat → ℝ) : Wave 1 w (-4 * w 0) 1 stripes := by
  constructor
  · intro x y z
    have a1 : (x + (0 + 1 : Nat)) % 2 = 0 ↔ ¬ x % 2 = 0 := by omega
    have a2 : (x - (0 + 1 : Nat)) % 2 = 0 ↔ ¬ x % 2 = 0 := by omega
    unfold laplacian
    rw [Finset.sum_range_one]
    simp only [stripes, a1, a2, Complex.real_smul]
    by_cases h : x % 2 = 0
    · simp only [h, not_true_eq_false, if_true, if_false]
      push_cast
      ring
    · simp only [h, not_false_eq_true, if_true, if_false]
      push_cast
      ring
  · intro x y z
    unfold stripes
    split <;> simp

example (w : Nat → ℝ) (st : List Stage) (x y z : Int) :
    Complex.normSq ((evolve (rules 1 w st) ⟨stripes, fun _ _ _ => 0⟩).φ x y z) =
      (st.map fun s => 1 + (s.o * (-4 * w 0)) ^ 2).prod * 1 :=
  C64_wave st (F := ⟨stripes, fun _ _ _ => 0⟩) (stripes_wave w) x y z

theorem stripes_periodic (N : Nat) : Periodic3 4 N stripes := by
  refine ⟨fun x y z => ?_, fun x y z => rfl, fun x y z => rfl⟩
  unfold stripes
  have : (x + ((4 : Nat) : Int)) % 2 = x % 2 := by omega
  rw [this]

example (w : Nat → ℝ) (o k : ℝ) :
    count 4 4 ((saxionRule 1 w o (naxLaw k)).step ⟨stripes, fun _ _ _ => 0⟩).φ =
      count 4 4 stripes + count 4 4 (laplacian (fun j => w j * o) 1 stripes) :=
  C64_grows 1 w o k (F := ⟨stripes, fun _ _ _ => 0⟩) (stripes_periodic 4)

example : kkt 2 1 2 1 (1 / 2) 1 = some (1 / 4 * ∫ s in (2 : ℝ)..2 + 1 / 2 * 1, 1 / (1 * s ^ (1 : ℝ)) ^ 2) :=
  (C64_kkt (a := 1) (by norm_num) one_ne_zero (by norm_num) (by norm_num)).1 (by norm_num)

end Jaxions.Nonrel
