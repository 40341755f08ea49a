import Verif.Lemmas.StartField
import Verif.Lemmas.MassRate
import Mathlib.Analysis.SpecialFunctions.Pow.Asymptotics
import Mathlib.Analysis.SpecialFunctions.ExpDeriv
import Mathlib.Analysis.SpecialFunctions.Complex.LogDeriv
/-
C69: the field and velocity the evolution starts from, and the evolution before the start.
-/

namespace Jaxions.StartField

open Jaxions.Norm (Buf Mem Geo FIdx)

/-- **C69** The operations between two fields do on every site what they say, in any order of the
iterations, and leave every other cell as it was. -/
theorem C69_pair_ops (g : Geo) (s d : Buf) (hsd : s ≠ d) (a b : ℝ) (o : List ℕ)
    (ho : o.Perm (List.range g.V)) (h : Mem) (X Y : ℕ → ℂ)
    (hX : ∀ i < g.V, h (base g s i) = some (X i)) (hY : ∀ i < g.V, h (base g d i) = some (Y i)) :
    (∃ h', axby g s d a b o h = some h' ∧ (∀ i < g.V, h' (base g d i) = some (b * Y i + a * X i)) ∧
      ∀ c, (∀ i < g.V, c ≠ base g d i) → h' c = h c) ∧
    (∃ h', mulmul g s d o h = some h' ∧ (∀ i < g.V, h' (base g d i) = some (Y i * X i)) ∧
      ∀ c, (∀ i < g.V, c ≠ base g d i) → h' c = h c) ∧
    (∃ h', susum g s d o h = some h' ∧ (∀ i < g.V, h' (base g d i) = some (Y i + X i)) ∧
      ∀ c, (∀ i < g.V, c ≠ base g d i) → h' c = h c) :=
  ⟨pair_spec g s d hsd _ g.V o ho h X Y hX hY, pair_spec g s d hsd _ g.V o ho h X Y hX hY,
    pair_spec g s d hsd _ g.V o ho h X Y hX hY⟩

theorem V_le_eSize (g : Geo) : g.S * g.Ng + g.V ≤ eSize g := by
  unfold eSize Geo.V
  nlinarith [Nat.zero_le (g.S * g.Ng)]

/-- The kick on a velocity that is long enough. -/
theorem kick_spec (low : Bool) (k : ℝ) (n nv : ℕ) (o : List ℕ) (ho : o.Perm (List.range n)) (h : Mem)
    (X : ℕ → ℂ) (hk : k ≠ 0 → n ≤ nv) (hX : ∀ i < nv, h (Buf.v, i) = some (X i)) :
    ∃ h', kick low k o h = some h' ∧
      (∀ i < nv, i < n → h' (Buf.v, i) = some ((1 + k) * X i)) ∧
      ∀ i, h' (Buf.m, i) = h (Buf.m, i) := by
  unfold kick
  by_cases h0 : k = 0
  · rw [if_pos h0]
    refine ⟨h, rfl, fun i hi _ => ?_, fun _ => rfl⟩
    rw [hX i hi, h0]
    simp
  · rw [if_neg h0]
    obtain ⟨h', e, h1, h2⟩ := scale_spec .v (1 + k) n o ho h X fun i hi => hX i (by have := hk h0; omega)
    refine ⟨h', e, fun i _ hi => ?_, fun i => h2 _ fun j _ => by simp⟩
    rw [h1 i hi, mul_comm]
    push_cast
    rfl

/-- **C69** CONF_SMOOTH without prepropagation: if `Rp` is the rate of the scale factor over the
scale factor, every site starts with the value and the rate of the conformal field, the rate times
one plus the kick.  `nv` elements of `v` are there; the kick needs `eSize` of them. -/
theorem C69_smooth_start (g : Geo) (low : Bool) (R Rp k : ℝ) (o1 o2 o3 : List ℕ)
    (h1 : o1.Perm (List.range g.V)) (h2 : o2.Perm (List.range (eSize g)))
    (h3 : o3.Perm (List.range (eSize g))) (h : Mem) (M W : ℕ → ℂ) (nv : ℕ) (hnv : g.V ≤ nv)
    (hk : k ≠ 0 → eSize g ≤ nv)
    (hM : ∀ i < eSize g, h (Buf.m, i) = some (M i)) (hW : ∀ i < nv, h (Buf.v, i) = some (W i))
    (a : ℝ → ℝ) (φ : ℕ → ℝ → ℂ) (t : ℝ) (ha : a t = R) (ha' : HasDerivAt a (Rp * R) t)
    (hφ : ∀ i < g.V, φ i t = M (g.S * g.Ng + i)) (hφ' : ∀ i < g.V, HasDerivAt (φ i) (W i) t) :
    ∃ h', finishSmooth g low false R Rp k o1 o2 o3 h = some h' ∧
      ∀ i < g.V, ∃ x y : ℂ, h' (Buf.m, g.S * g.Ng + i) = some x ∧
        h' (Buf.v, i) = some ((1 + (k : ℂ)) * y) ∧ IsStart a (φ i) t x y := by
  have hle := V_le_eSize g
  obtain ⟨s1, e1, p1, q1⟩ := pair_spec g .m .v (by decide) (fun y x => (R : ℂ) * y + (Rp * R : ℝ) * x)
    g.V o1 h1 h (fun i => M (g.S * g.Ng + i)) W (fun i hi => hM _ (by omega))
    fun i hi => hW i (by omega)
  have hm1 : ∀ i, s1 (Buf.m, i) = h (Buf.m, i) := fun i => q1 _ fun j _ => by simp [base]
  have hv1 : ∀ i < nv, s1 (Buf.v, i) = some (if i < g.V then
      (R : ℂ) * W i + (Rp * R : ℝ) * M (g.S * g.Ng + i) else W i) := by
    intro i hi
    by_cases hiV : i < g.V
    · rw [if_pos hiV]; exact p1 i hiV
    · rw [if_neg hiV, ← hW i hi]
      refine q1 _ fun j hj => ?_
      simp only [base, ne_eq, Prod.mk.injEq, true_and]
      omega
  obtain ⟨s2, e2, p2, q2⟩ := kick_spec low k (eSize g) nv o2 h2 s1 _ hk hv1
  obtain ⟨s3, e3, p3, q3⟩ := scale_spec .m R (eSize g) o3 h3 s2 M fun i hi => by
    rw [q2, hm1, hM i hi]
  refine ⟨s3, ?_, ?_⟩
  · unfold finishSmooth
    have e1' : axby g .m .v (Rp * R) R o1 h = some s1 := e1
    simp only [Bool.false_eq_true, if_false]
    rw [e1', Option.bind_some, e2, Option.bind_some]
    exact e3
  · intro i hi
    refine ⟨_, (R : ℂ) * W i + (Rp * R : ℝ) * M (g.S * g.Ng + i), p3 _ (by omega), ?_, ?_, ?_⟩
    · rw [q3 _ fun j _ => by simp, p2 i (by omega) (by omega), if_pos hi]
    · rw [ha, hφ i hi, mul_comm]
    · refine (ha'.ofReal_comp.mul (hφ' i hi)).congr_deriv ?_
      rw [ha, hφ i hi]
      ring

/-- **C69** In Minkowski space the field is left as it is and the velocity gets the kick alone. -/
theorem C69_smooth_mink (g : Geo) (low : Bool) (R Rp k : ℝ) (o1 o2 o3 : List ℕ)
    (h2 : o2.Perm (List.range (eSize g))) (h : Mem) (W : ℕ → ℂ) (nv : ℕ) (hnv : g.V ≤ nv)
    (hk : k ≠ 0 → eSize g ≤ nv) (hW : ∀ i < nv, h (Buf.v, i) = some (W i)) :
    ∃ h', finishSmooth g low true R Rp k o1 o2 o3 h = some h' ∧
      (∀ i, h' (Buf.m, i) = h (Buf.m, i)) ∧ ∀ i < g.V, h' (Buf.v, i) = some ((1 + k) * W i) := by
  have hle := V_le_eSize g
  obtain ⟨s2, e2, p2, q2⟩ := kick_spec low k (eSize g) nv o2 h2 h _ hk hW
  refine ⟨s2, ?_, q2, fun i hi => p2 i (by omega) (by omega)⟩
  unfold finishSmooth
  simp only [if_true, Option.bind_some]
  rw [e2]
  rfl

/-- **C69** The velocity of the complex field has room for one ghost slice on each side, while
`scaleField` runs over all of them: it stays inside the allocated memory exactly if there is at most
one ghost slice. -/
theorem C69_scale_velocity (g : Geo) (hS : 0 < g.S) (dbl low : Bool) (f : ℝ) (o : List ℕ)
    (ho : o.Perm (List.range (eSize g))) (h : Mem)
    (hv : ∀ i, (h (Buf.v, i)).isSome = true ↔ i < vSize g) :
    (∃ h', scale dbl .fV low f o h = some h') ↔ g.Ng ≤ 1 := by
  constructor
  · rintro ⟨h', e⟩
    by_contra hc
    have hlt : vSize g < eSize g := by
      unfold vSize eSize
      exact Nat.mul_lt_mul_of_pos_left (by omega) hS
    have hn : h (Buf.v, vSize g) = none := by
      rcases hz : h (Buf.v, vSize g) with _ | z
      · rfl
      · exact absurd ((hv (vSize g)).1 (by rw [hz]; rfl)) (lt_irrefl _)
    have := scale_none .v f (eSize g) o ho h (vSize g) hlt hn
    have e' : o.foldlM (scaleSite .v f) h = some h' := e
    rw [this] at e'
    cases e'
  · intro hN
    have hle : eSize g ≤ vSize g := by
      unfold vSize eSize
      exact Nat.mul_le_mul_left _ (by omega)
    obtain ⟨h', e, _⟩ := scale_spec .v f (eSize g) o ho h (fun i => (h (Buf.v, i)).getD 0) (by
      intro i hi
      obtain ⟨z, hz⟩ := Option.isSome_iff_exists.1 ((hv i).2 (by omega))
      rw [hz]; rfl)
    exact ⟨h', e⟩

/-- The constant history. -/
theorem start_const (a : ℝ → ℝ) (a' t R k : ℝ) (ha : a t = R) (ha' : HasDerivAt a a' t) (M : ℂ) :
    IsStart a (fun _ => M) t (M * R) ((1 + k) * M) ↔ a' = 1 + k ∨ M = 0 := by
  have hd : HasDerivAt (fun s => (a s : ℂ) * M) ((a' : ℂ) * M) t := ha'.ofReal_comp.mul_const M
  constructor
  · rintro ⟨_, h⟩
    have h := h.unique hd
    by_cases hM : M = 0
    · exact Or.inr hM
    · left
      have := mul_right_cancel₀ hM h
      have h2 : ((1 + k : ℝ) : ℂ) = (a' : ℝ) := by push_cast; exact this
      exact (Complex.ofReal_inj.1 h2).symm
  · intro h
    refine ⟨by rw [ha, mul_comm], hd.congr_deriv ?_⟩
    rcases h with h | h
    · rw [h]; push_cast; rfl
    · rw [h, mul_zero, mul_zero]

/-- **C69** The configurations that copy the field into the velocity: every site starts with
`R·φ` and `(1+k)·φ`.  That is the value and the rate of the conformal field of a field at rest
exactly if the scale factor grows at the rate `1+k`, or the field is zero there. -/
theorem C69_copy_start (g : Geo) (low : Bool) (R k : ℝ) (o2 o3 : List ℕ)
    (h2 : o2.Perm (List.range (eSize g))) (h3 : o3.Perm (List.range (eSize g))) (h : Mem)
    (M W : ℕ → ℂ) (nv : ℕ) (hnv : g.V ≤ nv) (hk : k ≠ 0 → eSize g ≤ nv)
    (hM : ∀ i < eSize g, h (Buf.m, i) = some (M i)) (hW : ∀ i < nv, h (Buf.v, i) = some (W i))
    (a : ℝ → ℝ) (a' t : ℝ) (ha : a t = R) (ha' : HasDerivAt a a' t) :
    ∃ h', finishCopy g low R k o2 o3 h = some h' ∧
      ∀ i < g.V, ∃ x y, h' (Buf.m, g.S * g.Ng + i) = some x ∧ h' (Buf.v, i) = some y ∧
        x = M (g.S * g.Ng + i) * R ∧ y = (1 + k) * M (g.S * g.Ng + i) ∧
        (IsStart a (fun _ => M (g.S * g.Ng + i)) t x y ↔ a' = 1 + k ∨ M (g.S * g.Ng + i) = 0) := by
  have hle := V_le_eSize g
  obtain ⟨s1, e1, p1, q1⟩ := memcpy_spec (fun k => (Buf.v, k)) (fun k => (Buf.m, g.S * g.Ng + k)) g.V h
    (fun i hi => by rw [hM _ (by omega)]; rfl) (fun i hi => by rw [hW i (by omega)]; rfl)
    (fun i _ j _ e => (Prod.mk.inj e).2) (fun i _ j _ => by simp)
  have hm1 : ∀ i, s1 (Buf.m, i) = h (Buf.m, i) := fun i => q1 _ fun j _ => by simp
  have hv1 : ∀ i < nv, s1 (Buf.v, i) = some (if i < g.V then M (g.S * g.Ng + i) else W i) := by
    intro i hi
    by_cases hiV : i < g.V
    · rw [if_pos hiV, p1 i hiV, hM _ (by omega)]
    · rw [if_neg hiV, ← hW i hi]
      refine q1 _ fun j hj => ?_
      simp only [ne_eq, Prod.mk.injEq, true_and]
      omega
  obtain ⟨s2, e2, p2, q2⟩ := kick_spec low k (eSize g) nv o2 h2 s1 _ hk hv1
  obtain ⟨s3, e3, p3, q3⟩ := scale_spec .m R (eSize g) o3 h3 s2 M fun i hi => by
    rw [q2, hm1, hM i hi]
  refine ⟨s3, ?_, ?_⟩
  · unfold finishCopy
    have e1' : copyMV g h = some s1 := e1
    rw [e1', Option.bind_some, e2, Option.bind_some]
    exact e3
  · intro i hi
    refine ⟨_, _, p3 _ (by omega), ?_, rfl, rfl, start_const a a' t R k ha ha' _⟩
    rw [q3 _ fun j _ => by simp, p2 i (by omega) (by omega), if_pos hi]

/-- **C69** For the power law `R = ct^frw` this means `frw·ct^(frw-1) = 1+k`: always in radiation
(`frw = 1`) without kick, for other expansions at one time at most. -/
theorem C69_copy_power (c : Cosmo.Cosmos) (hu : c.ueCosm = false)
    (hg : ¬ (c.frw = 1 ∧ c.grav > 0)) (ct k : ℝ) (hct : 0 < ct) (M : ℂ) (hM : M ≠ 0) :
    (IsStart c.R (fun _ => M) ct (M * c.R ct) ((1 + k) * M) ↔ c.frw * ct ^ (c.frw - 1) = 1 + k) ∧
    (c.frw = 1 → (IsStart c.R (fun _ => M) ct (M * c.R ct) ((1 + k) * M) ↔ k = 0)) := by
  have hR : c.R ct = ct ^ c.frw := by
    unfold Cosmo.Cosmos.R
    simp only [hu, Bool.false_eq_true, if_false, hg]
  have h1 : IsStart c.R (fun _ => M) ct (M * c.R ct) ((1 + k) * M) ↔
      c.frw * ct ^ (c.frw - 1) = 1 + k := by
    rw [start_const c.R _ ct _ k rfl (Cosmo.R_deriv c hu hg ct hct) M, hR,
      Real.rpow_sub_one hct.ne']
    constructor
    · rintro (h | h)
      · rw [← h]; ring
      · exact absurd h hM
    · intro h
      left
      rw [← h]; ring
  refine ⟨h1, fun hf => ?_⟩
  rw [h1, hf, sub_self, Real.rpow_zero]
  constructor <;> intro h <;> linarith

/-- **C69** With the matter term the copied velocity is too small, without kick and at every time. -/
theorem C69_copy_grav (c : Cosmo.Cosmos) (hu : c.ueCosm = false) (hf : c.frw = 1) (hg : 0 < c.grav)
    (ct : ℝ) (hct : 0 < ct) (M : ℂ) (hM : M ≠ 0) :
    ¬ IsStart c.R (fun _ => M) ct (M * c.R ct) ((1 + (0 : ℝ) : ℂ) * M) := by
  rw [start_const c.R _ ct _ 0 rfl (Cosmo.R_grav_deriv c hu hf hg ct) M]
  rintro (h | h)
  · have : 0 < 0.5 * ct * c.grav := by positivity
    linarith
  · exact hM h

/-! ### Prepropagation -/

/-- **C69** The evolution before the start ends exactly at the time asked for, whatever the steps, if
they do not become arbitrarily small; the coupling, its exponent and its kind are put back. -/
theorem C69_prep_time (Rf : ℝ → ℝ) (p : Prep) (dz : ℕ → ℝ) (ε : ℝ) (hε : 0 < ε)
    (hd : ∀ n, ε ≤ dz n) (b : Bg) (hz : b.z < p.zi) :
    ∃ K, ∀ fuel ≥ K, ∃ b', prepropa2 Rf p dz fuel b = some b' ∧ b'.z = p.zi ∧ b'.R = Rf p.zi ∧
      b'.lambda = b.lambda ∧ b'.lz2e = b.lz2e ∧ b'.ltype = b.ltype := by
  obtain ⟨K, hK⟩ := exists_nat_ge ((p.zi - b.z) / ε)
  refine ⟨K, fun fuel hf => ?_⟩
  have hz' : (enter Rf p b).z < p.zi := hz
  have hle : p.zi ≤ (enter Rf p b).z + fuel * ε := by
    have h1 : (p.zi - b.z) / ε ≤ fuel := hK.trans (by exact_mod_cast hf)
    rw [div_le_iff₀ hε] at h1
    show p.zi ≤ b.z + fuel * ε
    linarith
  obtain ⟨b1, e1⟩ := prepLoop_ends Rf p.zi dz ε hd fuel 0 _ hle
  refine ⟨leave b b1, ?_, ?_⟩
  · unfold prepropa2
    rw [e1]
    rfl
  · have := prepLoop_out Rf p.zi dz fuel 0 _ b1 e1 hz'
    rw [this]
    unfold leave
    rcases hl : b.ltype with _ | _ <;> exact ⟨rfl, rfl, rfl, rfl, rfl⟩

/-- **C69** Going back by a factor `prepcoe > 1` from the start time and evolving forward again leads
to the same time, scale factor, coupling, exponent and kind. -/
theorem C69_prep_round (Rf : ℝ → ℝ) (p : Prep) (dz : ℕ → ℝ) (ε : ℝ) (hε : 0 < ε)
    (hd : ∀ n, ε ≤ dz n) (b : Bg) (hb : b.z = p.zi) (hR : b.R = Rf b.z) (hz : 0 < p.zi)
    (hc : 1 < p.prepcoe) :
    ∃ K, ∀ fuel ≥ K, ∃ b', prepropa2 Rf p dz fuel (goBack Rf p b) = some b' ∧ b'.z = b.z ∧
      b'.R = b.R ∧ b'.lambda = b.lambda ∧ b'.lz2e = b.lz2e ∧ b'.ltype = b.ltype := by
  have hlt : (goBack Rf p b).z < p.zi := by
    show b.z / p.prepcoe < p.zi
    rw [hb]
    exact div_lt_self hz hc
  obtain ⟨K, h⟩ := C69_prep_time Rf p dz ε hε hd (goBack Rf p b) hlt
  refine ⟨K, fun fuel hf => ?_⟩
  obtain ⟨b', e, h1, h2, h3⟩ := h fuel hf
  exact ⟨b', e, h1.trans hb.symm, by rw [h2, hR, hb], h3⟩

/-- **C69** No step is taken if the time asked for is already there. -/
theorem C69_prep_late (Rf : ℝ → ℝ) (p : Prep) (dz : ℕ → ℝ) (fuel : ℕ) (b : Bg)
    (hz : p.zi ≤ b.z) : ∃ b', prepropa2 Rf p dz fuel b = some b' ∧ b'.z = b.z ∧ b'.R = b.R ∧
      b'.lambda = b.lambda ∧ b'.lz2e = b.lz2e ∧ b'.ltype = b.ltype := by
  refine ⟨leave b (enter Rf p b), ?_, ?_⟩
  · unfold prepropa2
    rw [prepLoop_done _ _ _ _ _ (enter Rf p b) (not_lt.2 hz)]
    rfl
  · unfold leave
    rcases hl : b.ltype with _ | _ <;> exact ⟨rfl, rfl, rfl, rfl, rfl⟩

/-- **C69** The damping is not put back: after the prepropagation it is what it was exactly if no
damping was asked for during it, or the same one. -/
theorem C69_prep_gamma (Rf : ℝ → ℝ) (p : Prep) (dz : ℕ → ℝ) (fuel : ℕ) (b b' : Bg)
    (h : prepropa2 Rf p dz fuel b = some b') :
    b'.gamma = b.gamma ↔ p.pregammo ≤ 0 ∨ p.pregammo = b.gamma := by
  have hg : b'.gamma = (enter Rf p b).gamma := by
    unfold prepropa2 at h
    rcases hl : prepLoop Rf p.zi dz fuel 0 (enter Rf p b) with _ | b1
    · rw [hl] at h; cases h
    · rw [hl] at h
      have e : b' = leave b b1 := (Option.some.inj h).symm
      have h1 : b1.gamma = (enter Rf p b).gamma := by
        by_cases hz : (enter Rf p b).z < p.zi
        · rw [prepLoop_out Rf p.zi dz fuel 0 _ b1 hl hz]
        · rw [prepLoop_done _ _ _ _ _ _ hz] at hl
          rw [Option.some.inj hl]
      rw [e, ← h1]
      unfold leave
      rcases b.ltype with _ | _ <;> rfl
  rw [hg]
  unfold enter
  dsimp only
  by_cases hp : p.pregammo > 0
  · rw [if_pos hp]
    constructor
    · exact Or.inr
    · rintro (h | h)
      · linarith
      · exact h
  · rw [if_neg hp]
    exact ⟨fun _ => Or.inl (not_lt.1 hp), fun _ => rfl⟩

/-- **C69** During the prepropagation the coupling is the physical one at the start, times the given
power of the expansion since; it joins the later one continuously at the start.  The parser gives
`LAMBDA_FIXED` the exponent zero (parse.cpp:2756, 2796). -/
theorem C69_prep_coupling (Rf : ℝ → ℝ) (hR : ∀ t, 0 < t → 0 < Rf t) (p : Prep) (b : Bg)
    (hz : 0 < p.zi) (hb : b.ltype = .fixed → b.lz2e = 0) (ct : ℝ) (hct : 0 < ct) :
    (enter Rf p b).lambdaP Rf ct = b.lambdaP Rf p.zi * (Rf p.zi / Rf ct) ^ p.prelz2e ∧
      (enter Rf p b).lambdaP Rf p.zi = b.lambdaP Rf p.zi := by
  have hi := hR _ hz
  have hl : llp Rf p b = b.lambdaP Rf p.zi := by
    unfold llp Bg.lambdaP
    rcases ht : b.ltype with _ | _
    · dsimp only
      rw [hb ht, Real.rpow_zero, div_one]
    · rfl
  have key : ∀ t, 0 < t → (enter Rf p b).lambdaP Rf t =
      b.lambdaP Rf p.zi * (Rf p.zi / Rf t) ^ p.prelz2e := by
    intro t ht
    rw [Real.div_rpow hi.le (hR t ht).le, ← hl, mul_div_assoc']
    rfl
  refine ⟨key ct hct, ?_⟩
  rw [key _ hz, div_self hi.ne', Real.one_rpow, mul_one]

/-- **C69** LOLA estimates the string density for the time it will jump back to, with the coupling
the prepropagation will have then, and the factor `prepcoe²` gives the number of plaquettes of that
earlier time although the clock still shows the start. -/
theorem C69_lola (Rf : ℝ → ℝ) (hR : ∀ t, 0 < t → 0 < Rf t) (p : Prep) (b : Bg) (hz : 0 < p.zi)
    (hc : 1 < p.prepcoe) (delta : ℝ) :
    lolaLambda Rf p b = (enter Rf p b).lambdaP Rf (p.zi / p.prepcoe) ∧
      nN3 (lolaXi Rf p b) delta p.zi = nN3 (xit (lolaLog Rf p b)) delta (p.zi / p.prepcoe) := by
  have hi := hR _ hz
  have hp : 0 < p.zi / p.prepcoe := div_pos hz (by linarith)
  constructor
  · unfold lolaLambda
    show _ = llp Rf p b * Rf p.zi ^ p.prelz2e / Rf (p.zi / p.prepcoe) ^ p.prelz2e
    rw [Real.div_rpow (hR _ hp).le hi.le]
    have h1 := (Real.rpow_pos_of_pos hi p.prelz2e).ne'
    have h2 := (Real.rpow_pos_of_pos (hR _ hp) p.prelz2e).ne'
    field_simp
  · unfold nN3 lolaXi
    have hc' : p.prepcoe ≠ 0 := by linarith
    field_simp

/-- **C69** The jump back in time at the end of VILGORK without damping.  If before the jump the
site holds the value and rate of `a·φ` for a field with value `φ` and rate `φ'`, then after the jump
it holds those of the scale factor at the earlier time with the same `φ` and `φ'` exactly if the
rates of the scale factor satisfy one relation, or the field is zero; in radiation they do. -/
theorem C69_jump (R0 R1 a0 a1 : ℝ) (h0 : R0 ≠ 0) (φ φ' : ℂ) :
    jumpM R0 R1 (R0 * φ) = R1 * φ ∧
    (jumpV R0 R1 (R0 * φ) (a0 * φ + R0 * φ') = a1 * φ + R1 * φ' ↔
      a1 = 1 + R1 / R0 * (a0 - 1) ∨ φ = 0) ∧
    (a0 = 1 → a1 = 1 → jumpV R0 R1 (R0 * φ) (a0 * φ + R0 * φ') = a1 * φ + R1 * φ') := by
  have hc : (R0 : ℂ) ≠ 0 := by exact_mod_cast h0
  have key : jumpV R0 R1 (R0 * φ) (a0 * φ + R0 * φ') =
      ((1 + R1 / R0 * (a0 - 1) : ℝ) : ℂ) * φ + R1 * φ' := by
    unfold jumpV
    push_cast
    field_simp
    ring
  have h2 : (jumpV R0 R1 (R0 * φ) (a0 * φ + R0 * φ') = a1 * φ + R1 * φ' ↔
      a1 = 1 + R1 / R0 * (a0 - 1) ∨ φ = 0) := by
    rw [key]
    constructor
    · intro h
      by_cases hφ : φ = 0
      · exact Or.inr hφ
      · left
        have := mul_right_cancel₀ hφ (add_right_cancel h)
        exact (Complex.ofReal_inj.1 this).symm
    · rintro (h | h)
      · rw [h]
      · rw [h, mul_zero, mul_zero]
  refine ⟨?_, h2, fun e0 e1 => h2.2 (Or.inl (by rw [e0, e1]; ring))⟩
  unfold jumpM
  push_cast
  field_simp

/-! ### Averages -/

/-- **C69** CONF_TKACHEV: after the factor the mean of the squared angle over the whole lattice is
`π²/3` times `kcr`, for any number of ranks. -/
theorem C69_tkachev (n3 : ℕ) (ranks : List (List ℂ)) (hl : ∀ r ∈ ranks, r.length = n3) (kcr : ℝ)
    (hk : 0 < kcr) (hne : mean ranks (fun z => z.re ^ 2) ≠ 0) :
    mean (ranks.map fun r => r.map fun z => z * (norma n3 ranks kcr : ℂ)) (fun z => z.re ^ 2) =
      Real.pi ^ 2 / 3 * kcr := by
  have ht : theta2 n3 ranks = mean ranks fun z => z.re ^ 2 := by
    unfold theta2 mean
    rw [flat_sum, flat_length n3 ranks hl]
  have hnn : 0 ≤ mean ranks fun z => z.re ^ 2 := by
    unfold mean
    refine div_nonneg (List.sum_nonneg ?_) (Nat.cast_nonneg _)
    intro x hx
    obtain ⟨z, _, rfl⟩ := List.mem_map.1 hx
    positivity
  have hpos : 0 < mean ranks fun z => z.re ^ 2 := lt_of_le_of_ne hnn hne.symm
  have hsc : ∀ c : ℝ, mean (ranks.map fun r => r.map fun z => z * (c : ℂ)) (fun z => z.re ^ 2) =
      c ^ 2 * mean ranks fun z => z.re ^ 2 := by
    intro c
    have hf : (ranks.map fun r => r.map fun z => z * (c : ℂ)).flatten =
        ranks.flatten.map fun z => z * (c : ℂ) := by
      rw [List.map_flatten]
    unfold mean
    rw [hf, List.map_map, List.length_map, ← mul_div_assoc, ← sum_scale]
    refine congrArg (· / _) (congrArg List.sum (List.map_congr_left fun z _ => ?_))
    simp only [Function.comp_apply, Complex.mul_re, Complex.ofReal_re, Complex.ofReal_im, mul_zero,
      sub_zero]
    ring
  rw [hsc]
  unfold norma
  rw [ht]
  generalize (mean ranks fun z => z.re ^ 2) = t at hpos
  rw [div_pow, Real.sq_sqrt (by positivity)]
  field_simp

/-- **C69** `anymean` is not the mean: even if the uninitialised sum starts at zero, the sum over all
ranks is divided by the size of one rank with its ghosts. -/
theorem C69_anymean (g : Geo) (hS : 0 < g.S) (hL : 0 < g.Lz) (ranks : List (ℝ × List ℂ))
    (hne : ranks ≠ []) (hl : ∀ r ∈ ranks, r.2.length = g.V) :
    anymean g ranks = (ranks.map Prod.fst).sum / (eSize g : ℕ) +
        mean (ranks.map Prod.snd) (fun z => ‖z‖) *
          ((ranks.length * g.Lz : ℕ) / (g.Lz + 2 * g.Ng : ℕ)) ∧
      ((∀ r ∈ ranks, r.1 = 0) →
        (anymean g ranks = mean (ranks.map Prod.snd) (fun z => ‖z‖) ↔
          ranks.length * g.Lz = g.Lz + 2 * g.Ng ∨
            mean (ranks.map Prod.snd) (fun z => ‖z‖) = 0)) := by
  have hn : 0 < ranks.length := List.length_pos_iff.2 hne
  have hlen : (ranks.map Prod.snd).flatten.length = g.V * ranks.length := by
    rw [flat_length g.V _ ?_, List.length_map]
    intro r hr
    obtain ⟨q, hq, rfl⟩ := List.mem_map.1 hr
    exact hl q hq
  have hS' : (g.S : ℝ) ≠ 0 := by positivity
  have hL' : (g.Lz : ℝ) ≠ 0 := by positivity
  have hn' : (ranks.length : ℝ) ≠ 0 := by positivity
  have hE : ((g.Lz : ℝ) + 2 * g.Ng) ≠ 0 := by positivity
  have h1 : anymean g ranks = (ranks.map Prod.fst).sum / (eSize g : ℕ) +
      mean (ranks.map Prod.snd) (fun z => ‖z‖) *
        ((ranks.length * g.Lz : ℕ) / (g.Lz + 2 * g.Ng : ℕ)) := by
    unfold anymean mean
    rw [split_sum, hlen, flat_sum]
    generalize ((ranks.map Prod.snd).map fun r => (r.map fun z => ‖z‖).sum).sum = s
    unfold eSize Geo.V
    push_cast
    field_simp
  refine ⟨h1, fun h0 => ?_⟩
  have hz : (ranks.map Prod.fst).sum = 0 := by
    refine List.sum_eq_zero fun x hx => ?_
    obtain ⟨q, hq, rfl⟩ := List.mem_map.1 hx
    exact h0 q hq
  rw [h1, hz, zero_div, zero_add]
  generalize mean (ranks.map Prod.snd) (fun z => ‖z‖) = m
  constructor
  · intro h
    by_cases hm : m = 0
    · exact Or.inr hm
    · left
      have h2 : ((ranks.length * g.Lz : ℕ) : ℝ) / (g.Lz + 2 * g.Ng : ℕ) = 1 :=
        mul_left_cancel₀ hm (by rw [h, mul_one])
      rw [div_eq_one_iff_eq (by push_cast; exact hE)] at h2
      exact_mod_cast h2
  · rintro (h | h)
    · rw [h, div_self (by push_cast; exact hE), mul_one]
    · rw [h, zero_mul]

/-! ### Merging strings and waves -/

/-- **C69** The end of CONF_SPAX for the complex field, for every order in which no site is worked on
after a site whose new velocity covers its old one: every site gets the value and the rate of
`φ·e^{iψ/a}·a`, where the strings `φ` are at rest and the waves have value `ψ` and rate given by the
old velocity. -/
theorem C69_merge (R Rp : ℝ) (hR : R ≠ 0) (psi : ℕ → ℝ) (s : Merge) (l : List ℕ) (hnd : l.Nodup)
    (hp : l.Pairwise fun x y => y ≠ 2 * x ∧ y ≠ 2 * x + 1) (a : ℝ → ℝ) (t : ℝ) (ha : a t = R)
    (ha' : HasDerivAt a (Rp * R) t) (ψ : ℕ → ℝ → ℝ) (hψ : ∀ j ∈ l, ψ j t = psi j)
    (hψ' : ∀ j ∈ l, HasDerivAt (ψ j) (s.v j) t) :
    ∀ j ∈ l, IsStart a (fun u => s.m j * Complex.exp (((ψ j u / a u : ℝ) : ℂ) * Complex.I)) t
      ((merge R Rp psi l s).m j) ((merge R Rp psi l s).vel j) := by
  intro j hj
  obtain ⟨e1, e2⟩ := merge_spec R Rp psi s l hnd hp j hj
  have hq : HasDerivAt (fun u => ψ j u / a u) (s.v j / R - psi j / R * Rp) t := by
    refine ((hψ' j hj).div ha' (by rw [ha]; exact hR)).congr_deriv ?_
    rw [ha, hψ j hj]
    field_simp
  refine ⟨?_, ?_⟩
  · rw [e1]
    dsimp only
    rw [ha, hψ j hj]
    unfold wantM
    ring
  · rw [e2]
    have h1 := ((hq.ofReal_comp.mul_const Complex.I).cexp.const_mul (s.m j))
    refine (ha'.ofReal_comp.mul h1).congr_deriv ?_
    rw [ha, hψ j hj]
    unfold wantV wantM
    have hz : (⟨Rp, s.v j / R - psi j / R * Rp⟩ : ℂ) =
        (Rp : ℂ) + ((s.v j / R - psi j / R * Rp : ℝ) : ℂ) * Complex.I := by
      rw [Complex.mk_eq_add_mul_I]
    rw [hz]
    push_cast
    ring

/-- **C69** One thread goes down the lattice, which is such an order and covers all sites. -/
theorem C69_merge_serial (vol : ℕ) : (serial vol).Nodup ∧ (∀ j, j ∈ serial vol ↔ j < vol) ∧
    (serial vol).Pairwise fun x y => y ≠ 2 * x ∧ y ≠ 2 * x + 1 := by
  have hp : (serial vol).Pairwise fun x y => y < x := by
    unfold serial
    rw [List.pairwise_map]
    refine List.Pairwise.imp_of_mem ?_ (List.pairwise_lt_range (n := vol))
    intro x y hx hy hxy
    rw [List.mem_range] at hx hy
    omega
  refine ⟨hp.imp fun h => (Nat.ne_of_lt h).symm, ?_, hp.imp fun h => ⟨by omega, by omega⟩⟩
  intro j
  unfold serial
  rw [List.mem_map]
  constructor
  · rintro ⟨q, hq, rfl⟩
    rw [List.mem_range] at hq
    omega
  · intro hj
    exact ⟨vol - j - 1, List.mem_range.2 (by omega), by omega⟩

/-- **C69** The loop is declared parallel, and that is wrong: with two threads and any even number of
sites from four on, if the second thread runs first then a field without waves gets a velocity that
is not the one of a field without waves. -/
theorem C69_merge_race (k : ℕ) (hk : 2 ≤ k) :
    (secondFirst k).Perm (List.range (2 * k)) ∧
    (merge 1 1 (fun _ => 0) (serial (2 * k)) ⟨fun _ => 1, fun _ => 0⟩).vel (2 * k - 2) = 1 ∧
    (merge 1 1 (fun _ => 0) (secondFirst k) ⟨fun _ => 1, fun _ => 0⟩).vel (2 * k - 2) ≠ 1 := by
  set s0 : Merge := ⟨fun _ => 1, fun _ => 0⟩ with hs0
  have hfirst : ((List.range k).map fun p => 2 * k - (k + p) - 1) = serial k := by
    unfold serial
    refine List.map_congr_left fun p _ => ?_
    omega
  have hn : secondFirst k = serial k ++ (List.range k).map fun p => 2 * k - p - 1 := by
    unfold secondFirst
    rw [hfirst]
  obtain ⟨n1, m1, p1⟩ := C69_merge_serial k
  have hmem2 : ∀ j, j ∈ ((List.range k).map fun p => 2 * k - p - 1) ↔ k ≤ j ∧ j < 2 * k := by
    intro j
    rw [List.mem_map]
    constructor
    · rintro ⟨q, hq, rfl⟩
      rw [List.mem_range] at hq
      omega
    · rintro ⟨h1, h2⟩
      exact ⟨2 * k - j - 1, List.mem_range.2 (by omega), by omega⟩
  have n2 : ((List.range k).map fun p => 2 * k - p - 1).Nodup := by
    refine (List.nodup_range).map_on ?_
    intro x hx y hy h
    rw [List.mem_range] at hx hy
    omega
  refine ⟨?_, ?_, ?_⟩
  · rw [List.perm_ext_iff_of_nodup _ List.nodup_range]
    · intro j
      rw [hn, List.mem_append, m1, hmem2, List.mem_range]
      omega
    · rw [hn]
      refine List.nodup_append.2 ⟨n1, n2, ?_⟩
      intro x hx y hy h
      rw [m1] at hx
      rw [hmem2] at hy
      omega
  · obtain ⟨n3, m3, p3⟩ := C69_merge_serial (2 * k)
    rw [(merge_spec 1 1 (fun _ => 0) s0 _ n3 p3 (2 * k - 2) ((m3 _).2 (by omega))).2]
    unfold wantV wantM
    simp [hs0, Complex.ext_iff]
  · -- the order of the second thread, then the sites 2k-1 and 2k-2 of the first, then the rest
    have hsplit : ((List.range k).map fun p => 2 * k - p - 1) =
        (2 * k - 1) :: (2 * k - 2) :: ((List.range (k - 2)).map fun p => 2 * k - (p + 2) - 1) := by
      obtain ⟨q, rfl⟩ := Nat.exists_eq_add_of_le hk
      rw [show 2 + q = (q + 1) + 1 by omega, List.range_succ_eq_map, List.map_cons,
        List.range_succ_eq_map, List.map_cons, List.map_map, List.map_cons, List.map_map]
      refine congrArg₂ _ (by omega) (congrArg₂ _ (by omega) ?_)
      rw [show q + 1 + 1 - 2 = q by omega]
      rfl
    have hs1 := merge_spec 1 1 (fun _ => 0) s0 (serial k) n1 p1 (k - 1) ((m1 _).2 (by omega))
    set s1 := merge 1 1 (fun _ => 0) (serial k) s0 with hs1d
    have hv1 : s1.v (2 * k - 2) = 1 := by
      have := congrArg Complex.re hs1.2
      unfold Merge.vel at this
      dsimp only at this
      rw [show 2 * (k - 1) = 2 * k - 2 by omega] at this
      rw [this]
      unfold wantV wantM
      simp [hs0]
    have hm1 : s1.m (2 * k - 2) = 1 := by
      rw [hs1d, merge_m_frame 1 1 _ _ _ _ (by rw [m1]; omega)]
    set s2 := mergeStep 1 1 (fun _ => 0) s1 (2 * k - 1) with hs2
    have hv2 : s2.v (2 * k - 2) = 1 := by
      rw [hs2]
      unfold mergeStep
      dsimp only
      rw [if_neg (by omega), if_neg (by omega), hv1]
    have hm2 : s2.m (2 * k - 2) = 1 := by
      rw [hs2]
      unfold mergeStep
      dsimp only
      rw [if_neg (by omega), hm1]
    set s3 := mergeStep 1 1 (fun _ => 0) s2 (2 * k - 2) with hs3
    have hv3 : s3.v (2 * (2 * k - 2) + 1) = 1 := by
      rw [hs3]
      unfold mergeStep
      dsimp only
      rw [if_neg (by omega), if_pos rfl, hv2, hm2]
      simp
    have hend : merge 1 1 (fun _ => 0) (secondFirst k) s0 =
        merge 1 1 (fun _ => 0) ((List.range (k - 2)).map fun p => 2 * k - (p + 2) - 1) s3 := by
      rw [hn, hsplit]
      unfold merge
      rw [List.foldl_append, List.foldl_cons, List.foldl_cons]
      rfl
    rw [hend]
    intro hc
    have him := congrArg Complex.im hc
    unfold Merge.vel at him
    dsimp only at him
    rw [merge_v_frame 1 1 _ _ _ _ (by
      intro x hx
      obtain ⟨q, hq, rfl⟩ := List.mem_map.1 hx
      rw [List.mem_range] at hq
      omega), hv3] at him
    simp at him

/-! ### The fits -/

/-- **C69** The fit of the string density is positive exactly above a value of the logarithm near
`-5.94`; below it the number of plaquettes is negative and has no critical mode number. -/
theorem C69_density_positive (l : ℝ) (N delta z : ℝ) (hd : delta ≠ 0) (hz : z ≠ 0) :
    (0 < xit l ↔ -(21775.3 / 3665.11) < l) ∧
      (l < -(21775.3 / 3665.11) → critical N (nN3 (xit l) delta z) = none) := by
  have hn := xit_num l
  have hq : (21775.3 : ℝ) / 3665.11 * 3665.11 = 21775.3 := by norm_num
  refine ⟨?_, fun h => ?_⟩
  · unfold xit
    rw [div_pos_iff_of_pos_left hn]
    constructor <;> intro h <;> nlinarith
  · have hx : xit l < 0 := div_neg_of_pos_of_neg hn (by nlinarith)
    have : nN3 (xit l) delta z < 0 := by
      unfold nN3
      have h1 : 0 < delta * delta := mul_self_pos.2 hd
      have h2 : 0 < z * z := mul_self_pos.2 hz
      rw [div_div]
      refine div_neg_of_neg_of_pos ?_ h2
      nlinarith
    unfold critical
    rw [if_neg (by rintro ⟨h, _⟩; linarith)]

/-- **C69** The critical mode number turns back the fit of plaquettes by mode number: with
`y = 4.7 (nc/N)²` the number of plaquettes is `y/(1+y^1.5)^(1/1.5)`. -/
theorem C69_critical_inverse (N x nc : ℝ) (hN : 0 < N) (hx : 0 < x) (h : critical N x = some nc) :
    x = 4.7 * (nc / N) ^ 2 / (1 + (4.7 * (nc / N) ^ 2) ^ (1.5 : ℝ)) ^ (1 / 1.5 : ℝ) := by
  unfold critical at h
  by_cases hc : 0 ≤ x ∧ x < 1
  swap
  · rw [if_neg hc] at h; cases h
  rw [if_pos hc] at h
  have hnc := (Option.some.inj h).symm
  set u := x ^ (1.5 : ℝ) with hu
  have hu0 : 0 < u := Real.rpow_pos_of_pos hx _
  have hu1 : u < 1 := Real.rpow_lt_one hc.1 hc.2 (by norm_num)
  have hy : 4.7 * (nc / N) ^ 2 = x * (1 - u) ^ (-1 / 1.5 : ℝ) := by
    rw [hnc, mul_div_cancel_left₀ _ hN.ne', Real.sq_sqrt (by
      have := Real.rpow_pos_of_pos (sub_pos.2 hu1) (-1 / 1.5)
      positivity)]
    ring
  rw [hy]
  have hw : 0 < 1 - u := sub_pos.2 hu1
  have h15 : (x * (1 - u) ^ (-1 / 1.5 : ℝ)) ^ (1.5 : ℝ) = u / (1 - u) := by
    rw [Real.mul_rpow hx.le (Real.rpow_pos_of_pos hw _).le, ← Real.rpow_mul hw.le,
      show (-1 / 1.5 * 1.5 : ℝ) = -1 by norm_num, Real.rpow_neg_one, ← hu]
    rfl
  rw [h15]
  have h1 : 1 + u / (1 - u) = (1 - u)⁻¹ := by
    field_simp
    ring
  rw [h1, Real.inv_rpow hw.le, show (-1 / 1.5 : ℝ) = -(1 / 1.5) by norm_num, Real.rpow_neg hw.le]
  have := (Real.rpow_pos_of_pos hw (1 / 1.5)).ne'
  field_simp

/-- **C69** It grows with the number of plaquettes, and there is none once the density is so high
that the number, after the cut at one (`min(nN3,1.0)`), is one. -/
theorem C69_critical_range (N : ℝ) (hN : 0 < N) :
    (∀ x y, 0 ≤ x → x < y → y < 1 → ∃ a b, critical N x = some a ∧ critical N y = some b ∧ a < b) ∧
      ∀ x, 0 ≤ x → (critical N (min x 1) = none ↔ 1 ≤ x) := by
  constructor
  · intro x y hx hxy hy
    unfold critical
    rw [if_pos ⟨hx, hxy.trans hy⟩, if_pos ⟨hx.trans hxy.le, hy⟩]
    refine ⟨_, _, rfl, rfl, ?_⟩
    have hux : x ^ (1.5 : ℝ) < y ^ (1.5 : ℝ) := Real.rpow_lt_rpow hx hxy (by norm_num)
    have huy : y ^ (1.5 : ℝ) < 1 := Real.rpow_lt_one (hx.trans hxy.le) hy (by norm_num)
    have hw : 0 < 1 - y ^ (1.5 : ℝ) := by linarith
    have hpow : (1 - x ^ (1.5 : ℝ)) ^ (-1 / 1.5 : ℝ) ≤ (1 - y ^ (1.5 : ℝ)) ^ (-1 / 1.5 : ℝ) :=
      Real.rpow_le_rpow_of_nonpos hw (by linarith) (by norm_num)
    have hp1 := Real.rpow_pos_of_pos hw (-1 / 1.5)
    refine mul_lt_mul_of_pos_left (Real.sqrt_lt_sqrt ?_ ?_) hN
    · have : 0 < 1 - x ^ (1.5 : ℝ) := by linarith
      have := Real.rpow_pos_of_pos this (-1 / 1.5)
      positivity
    · calc x / 4.7 * (1 - x ^ (1.5 : ℝ)) ^ (-1 / 1.5 : ℝ)
          ≤ x / 4.7 * (1 - y ^ (1.5 : ℝ)) ^ (-1 / 1.5 : ℝ) :=
            mul_le_mul_of_nonneg_left hpow (by positivity)
        _ < y / 4.7 * (1 - y ^ (1.5 : ℝ)) ^ (-1 / 1.5 : ℝ) :=
            mul_lt_mul_of_pos_right (div_lt_div_of_pos_right hxy (by norm_num)) hp1
  · intro x hx
    unfold critical
    constructor
    · intro h
      by_contra hc
      rw [if_pos ⟨le_min hx zero_le_one, by rw [min_eq_left (by linarith)]; linarith⟩] at h
      cases h
    · intro h
      rw [min_eq_right h, if_neg (by rintro ⟨_, h⟩; exact lt_irrefl _ h)]

theorem findct2_stop (pre delta aimed : ℝ) : ∀ (n : ℕ) (ct : ℝ),
    nAt pre delta (ct * 1.05 ^ n) ≤ aimed → ∃ r, findct2 pre delta aimed n ct = some r := by
  intro n
  induction n with
  | zero =>
    intro ct h
    rw [pow_zero, mul_one] at h
    refine ⟨ct, ?_⟩
    unfold findct2
    rw [if_neg (not_lt.2 h)]
  | succ n ih =>
    intro ct h
    by_cases hs : aimed < nAt pre delta ct
    · obtain ⟨r, e⟩ := ih (ct + ct / 20) (by
        rw [show (ct + ct / 20) * 1.05 ^ n = ct * 1.05 ^ (n + 1) by rw [pow_succ]; ring]
        exact h)
      refine ⟨r, ?_⟩
      unfold findct2
      rw [if_pos hs, e]
    · refine ⟨ct, ?_⟩
      unfold findct2
      rw [if_neg hs]

theorem findct2_out (pre delta aimed : ℝ) : ∀ (n : ℕ) (ct r : ℝ),
    findct2 pre delta aimed n ct = some r → nAt pre delta r ≤ aimed ∧ ∃ k, r = ct * 1.05 ^ k := by
  intro n
  induction n with
  | zero =>
    intro ct r h
    unfold findct2 at h
    by_cases hs : aimed < nAt pre delta ct
    · rw [if_pos hs] at h; cases h
    · rw [if_neg hs] at h
      cases h
      exact ⟨not_lt.1 hs, 0, by ring⟩
  | succ n ih =>
    intro ct r h
    unfold findct2 at h
    by_cases hs : aimed < nAt pre delta ct
    · rw [if_pos hs] at h
      obtain ⟨h1, k, h2⟩ := ih _ r h
      exact ⟨h1, k + 1, by rw [h2, pow_succ]; ring⟩
    · rw [if_neg hs] at h
      cases h
      exact ⟨not_lt.1 hs, 0, by ring⟩

/-- **C69** The search for the time of the same number of plaquettes ends exactly if that number is
positive, when the logarithm at the first time is not negative; what it returns is at or below the
number asked for. -/
theorem C69_findct2 (pre delta aimed ct : ℝ) (hp : 0 < pre) (hd : 0 < delta) (hct : 0 < ct)
    (hl : delta ≤ pre * ct) :
    ((∃ n r, findct2 pre delta aimed n ct = some r) ↔ 0 < aimed) ∧
      ∀ n r, findct2 pre delta aimed n ct = some r → nAt pre delta r ≤ aimed ∧ ct ≤ r := by
  have hge : ∀ k : ℕ, ct ≤ ct * 1.05 ^ k := by
    intro k
    have : (1 : ℝ) ≤ 1.05 ^ k := one_le_pow₀ (by norm_num)
    nlinarith
  have hpos : ∀ r, ct ≤ r → 0 < nAt pre delta r := by
    intro r hr
    have h1 : 1 ≤ pre / delta * r := by
      rw [div_mul_eq_mul_div, le_div_iff₀ hd, one_mul]
      nlinarith
    have h2 : 0 ≤ Real.log (pre / delta * r) := Real.log_nonneg h1
    have h3 : 0 < xit (Real.log (pre / delta * r)) :=
      div_pos (xit_num _) (by linarith)
    have h4 : 0 < delta / r := div_pos hd (by linarith)
    unfold nAt
    positivity
  refine ⟨⟨?_, ?_⟩, ?_⟩
  · rintro ⟨n, r, e⟩
    obtain ⟨h1, k, h2⟩ := findct2_out pre delta aimed n ct r e
    exact (hpos r (h2 ▸ hge k)).trans_le h1
  · intro ha
    -- log² x / x² tends to zero
    have hlim : Filter.Tendsto (fun x : ℝ => Real.log x ^ 2 / x) Filter.atTop (nhds 0) :=
      (Real.isLittleO_pow_log_id_atTop (n := 2)).tendsto_div_nhds_zero
    have hx : Filter.Tendsto (fun n : ℕ => pre / delta * (ct * (1.05 : ℝ) ^ n)) Filter.atTop
        Filter.atTop := by
      refine Filter.Tendsto.const_mul_atTop (div_pos hp hd) ?_
      exact Filter.Tendsto.const_mul_atTop hct (tendsto_pow_atTop_atTop_of_one_lt (by norm_num))
    have hev := (hlim.comp hx).eventually (gt_mem_nhds
      (show (0 : ℝ) < aimed / (6 * pre ^ 2) by positivity))
    have he := hx.eventually (Filter.eventually_ge_atTop (Real.exp 1))
    obtain ⟨n, hn1, hn2⟩ := (hev.and he).exists
    refine ⟨n, ?_⟩
    refine findct2_stop pre delta aimed n ct ?_
    simp only [Function.comp_apply] at hn1
    unfold nAt
    set T := ct * (1.05 : ℝ) ^ n with hT
    have hTpos : 0 < T := lt_of_lt_of_le hct (hge n)
    set x := pre / delta * T with hxd
    have hx1 : Real.exp 1 ≤ x := hn2
    have hx0 : 0 < x := (Real.exp_pos 1).trans_le hx1
    have hx2 : 1 ≤ x := (Real.one_le_exp (by norm_num)).trans hx1
    have hlog : 1 ≤ Real.log x := by
      rw [Real.le_log_iff_exp_le hx0]
      exact hx1
    obtain ⟨_, hxl⟩ := xit_le _ hlog
    have hdT : delta / T = pre / x := by
      rw [hxd]
      field_simp
    rw [hdT, div_pow]
    have h1 : 6 * xit (Real.log x) * (pre ^ 2 / x ^ 2) ≤ 6 * Real.log x ^ 2 * (pre ^ 2 / x ^ 2) :=
      mul_le_mul_of_nonneg_right (by linarith) (by positivity)
    refine h1.trans ?_
    have h2 : Real.log x ^ 2 / x * (6 * pre ^ 2) ≤ aimed :=
      ((lt_div_iff₀ (by positivity)).1 hn1).le
    have h3 : 6 * Real.log x ^ 2 * (pre ^ 2 / x ^ 2) = Real.log x ^ 2 / x * (6 * pre ^ 2) * (1 / x) := by
      field_simp
    rw [h3]
    have h4 : 1 / x ≤ 1 := by rw [div_le_one hx0]; exact hx2
    have h5 : 0 ≤ Real.log x ^ 2 / x * (6 * pre ^ 2) := by positivity
    nlinarith
  · intro n r e
    obtain ⟨h1, k, h2⟩ := findct2_out pre delta aimed n ct r e
    exact ⟨h1, h2 ▸ hge k⟩

/-- **C69** The number asked for is positive exactly if the logarithm given is above the pole of the
fit; below it the search never ends. -/
theorem C69_goal_positive (logi msa delta : ℝ) (hm : 0 < msa) (hd : 0 < delta) :
    0 < goal logi msa delta ↔ -(21775.3 / 3665.11) < logi := by
  rw [← (C69_density_positive logi 1 1 1 one_ne_zero one_ne_zero).1]
  unfold goal
  have h : 0 < (delta / (delta * Real.exp logi / msa)) ^ 2 := by positivity
  rw [mul_pos_iff_of_pos_right h]
  constructor <;> intro h <;> linarith

/-! ### Cases -/

/-- Two sites per side, one slice, one ghost slice: a lattice where the start is defined. -/
example : let g : Geo := ⟨2, 1, 1⟩
    eSize g = 12 ∧ vSize g = 12 ∧ g.V = 4 := by decide

/-- A copy in radiation at `ct = 1` is a start at rest; with `frw = 2` it is not. -/
example : IsStart (fun t => t) (fun _ => (1 : ℂ)) 1 (1 * ((1 : ℝ) : ℂ)) ((1 + ((0 : ℝ) : ℂ)) * 1) := by
  rw [start_const (fun t => t) 1 1 1 0 rfl (hasDerivAt_id (1 : ℝ)) 1]
  left; norm_num
example : ¬ IsStart (fun t => t ^ 2) (fun _ => (1 : ℂ)) 1 (1 * ((1 : ℝ) : ℂ))
    ((1 + ((0 : ℝ) : ℂ)) * 1) := by
  rw [start_const (fun t => t ^ 2) 2 1 1 0 (by norm_num) ((hasDerivAt_pow 2 (1 : ℝ)).congr_deriv
    (by norm_num)) 1]
  norm_num

/-- A damping asked for in the prepropagation alone stays on afterwards. -/
example : ∃ b', prepropa2 (fun t => t) ⟨2, 2, 2, 0.5⟩ (fun _ => 1) 1 ⟨1, 1, 4, 0, .fixed, 0⟩ = some b' ∧
    b'.z = 2 ∧ b'.gamma = 0.5 := by
  refine ⟨⟨2, 2, 4, 0, .fixed, 0.5⟩, ?_, rfl, rfl⟩
  · unfold prepropa2 prepLoop
    have h1 : (enter (fun t => t) ⟨2, 2, 2, 0.5⟩ ⟨1, 1, 4, 0, .fixed, 0⟩).z = 1 := rfl
    rw [if_pos (by rw [h1]; norm_num)]
    have ha : aim 2 1 1 = 1 := by unfold aim; norm_num
    rw [h1, ha, prepLoop_done _ _ _ _ _ _ (by norm_num)]
    simp only [Option.map_some, leave, enter]
    norm_num

end Jaxions.StartField
