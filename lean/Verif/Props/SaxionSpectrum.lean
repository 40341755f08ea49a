import Verif.Model.SaxionSpectrum
import Verif.Props.AxionStored
import Mathlib.Analysis.SpecialFunctions.Sqrt
import Mathlib.Analysis.Calculus.Deriv.Inv
import Mathlib.Tactic.FieldSimp

/-
**C73** Saxion spectra: the arrays they are taken of, what is stored, the spectrum of the energy, the
matrix of a mask.
-/

namespace Jaxions.AxSpec

open Complex

variable {g : Grid} {T z0 : ℕ} {M : Mem} {φ ω : ℕ → ℕ → ℕ → ℂ} {hit : ℕ → ℕ → ℕ → Bool}

/-- Rate of change of `|w| / R` when `w` changes at the rate `u` and `R` at the rate `R'`. -/
noncomputable def sizeRate (R R' : ℝ) (w u : ℂ) : ℝ :=
  ((starRingEnd ℂ w * u).re / ‖w‖ * R - ‖w‖ * R') / R ^ 2

/-- What a mask multiplies a site with. -/
noncomputable def saxWeight (k : Mask) (R : ℝ) (w : ℂ) (hit : Bool) : ℝ :=
  match k with
  | .redo | .ball => if hit then 0 else 1
  | .vil => ‖w‖ / R
  | .vil2 => (‖w‖ / R) ^ 2
  | _ => 1

theorem radial_eq (P : SPar) (hR : P.R ≠ 0) {w : ℂ} (hw : w ≠ 0) (u : ℂ) :
    radial P w u = some (sizeRate P.R P.R' w u) := by
  unfold radial sizeRate
  rw [if_neg hw]
  have : (starRingEnd ℂ w * u).re = w.re * u.re + w.im * u.im := by simp
  rw [this]
  have hn : ‖w‖ ≠ 0 := norm_ne_zero_iff.2 hw
  congr 1
  field_simp

/-- **C73** The saxion's arrays.  Whatever the order of the sites, `nSRun` leaves in the first half of
`m2` the rate of change of `|ψ - s| / R` times `R`, in the second half `|ψ - s| - R`, both times the
weight of the mask; the first is no number where the field vanishes, unless the mask takes the site
out.  No other cell changes. -/
theorem C73_saxion (hg : g.Ok) {order : List Site} (ho : g.Order order) {t : M2} (hr : g.Room t)
    (h : Holds g T z0 M φ ω hit) (P : SPar) (hR : P.R ≠ 0) (k : Mask) (hk : k.sax) :
    ∃ t', sweep (stepS g k P M) order t = some t' ∧
      (∀ x y z, x < g.L → y < g.L → z < g.Lz →
        (φ x y (z0 + z) - P.shift ≠ 0 ∨ Out k (hit x y (z0 + z)) →
          t' (g.pad (x, y, z)) = some (some (saxWeight k P.R (φ x y (z0 + z) - P.shift)
            (hit x y (z0 + z)) *
            (P.R * sizeRate P.R P.R' (φ x y (z0 + z) - P.shift) (ω x y (z0 + z)))))) ∧
        (φ x y (z0 + z) - P.shift = 0 → ¬ Out k (hit x y (z0 + z)) →
          t' (g.pad (x, y, z)) = some none) ∧
        t' (g.v3 + g.pad (x, y, z)) = some (some (saxWeight k P.R (φ x y (z0 + z) - P.shift)
            (hit x y (z0 + z)) * (‖φ x y (z0 + z) - P.shift‖ - P.R)))) ∧
      ∀ a, (∀ p, g.In p → a ≠ g.pad p ∧ a ≠ g.v3 + g.pad p) → t' a = t a := by
  classical
  obtain ⟨t', e1, e2, e3⟩ := two_writes hg ho hr (step := stepS g k P M) (fun p => g.v3 + g.pad p)
    (fun p => if Out k (hit p.1 p.2.1 (z0 + p.2.2)) then some 0 else
      if φ p.1 p.2.1 (z0 + p.2.2) - P.shift = 0 then none else
      some (saxWeight k P.R (φ p.1 p.2.1 (z0 + p.2.2) - P.shift) (hit p.1 p.2.1 (z0 + p.2.2)) *
        (P.R * sizeRate P.R P.R' (φ p.1 p.2.1 (z0 + p.2.2) - P.shift) (ω p.1 p.2.1 (z0 + p.2.2)))))
    (fun p => some (saxWeight k P.R (φ p.1 p.2.1 (z0 + p.2.2) - P.shift)
      (hit p.1 p.2.1 (z0 + p.2.2)) * (‖φ p.1 p.2.1 (z0 + p.2.2) - P.shift‖ - P.R)))
    (fun p hp => by have := pad_lt hg p hp; omega)
    (fun p q hp hq hpq => pad_inj p q hp hq (by omega))
    (by
      intro p hp t1 _
      have hm : M.m (g.ma (p.1 + g.L * p.2.1 + g.S * (p.2.2 + 1))) =
          some (φ p.1 p.2.1 (z0 + p.2.2)) := by
        have hroom := h.room
        have hz := hp.2.2
        have e0 : (z0 + (p.2.2 + 1) + T - 1) % T = z0 + p.2.2 := by
          rw [show z0 + (p.2.2 + 1) + T - 1 = z0 + p.2.2 + T by omega, Nat.add_mod_right,
            Nat.mod_eq_of_lt (by omega)]
        rw [h.m _ _ (p.2.2 + 1) hp.1 hp.2.1 (by omega), e0]
      have hv : M.v (g.bare p) = some (ω p.1 p.2.1 (z0 + p.2.2)) := h.v _ _ _ hp.1 hp.2.1 hp.2.2
      have hs := hit_of h hp
      unfold stepS
      rw [hm, hv]
      simp only [Option.bind_eq_bind, Option.bind_some]
      generalize φ p.1 p.2.1 (z0 + p.2.2) - (P.shift : ℂ) = w
      generalize ω p.1 p.2.1 (z0 + p.2.2) = u
      have key : ∀ f : ℝ → ℝ, ∀ c : ℝ, (∀ r, f r = c * (P.R * r)) →
          (radial P w u).map f = if w = 0 then none else
            some (c * (P.R * sizeRate P.R P.R' w u)) := by
        intro f c hf
        by_cases hw : w = 0
        · rw [if_pos hw, radial, if_pos hw]; rfl
        · rw [if_neg hw, radial_eq P hR hw, Option.map_some, hf]
      cases k <;> simp only [Mask.sax, Bool.false_eq_true] at hk <;>
        simp only [hs, Option.bind_some, saxWeight, Out, reduceCtorEq, false_or, or_false, or_self,
          false_and, if_false, true_and, one_mul]
      case flat => rw [key _ 1 fun r => (one_mul _).symm, one_mul]
      case vil => rw [key _ (‖w‖ / P.R) fun r => by field_simp]
      case vil2 => rw [key _ ((‖w‖ / P.R) ^ 2) fun r => by field_simp]
      all_goals
        rw [key _ 1 fun r => (one_mul _).symm]
        cases hit p.1 p.2.1 (z0 + p.2.2) <;> simp)
  refine ⟨t', e1, ?_, e3⟩
  intro x y z hx hy hz
  have hp : g.In (x, y, z) := ⟨hx, hy, hz⟩
  obtain ⟨f1, f2⟩ := e2 _ hp
  dsimp only at f1 f2
  refine ⟨?_, ?_, f2⟩
  · intro hc
    rw [f1]
    by_cases ho' : Out k (hit x y (z0 + z))
    · rw [if_pos ho']
      obtain ⟨hk', hh⟩ := ho'
      rcases hk' with rfl | rfl <;> simp [saxWeight, hh]
    · rw [if_neg ho', if_neg (hc.resolve_right ho')]
  · intro h0 ho'
    rw [f1, if_neg ho', if_pos h0]

/-- **C73** What goes to the second transform is the second array. -/
theorem C73_saxion_second (hg : g.Ok) {t : M2} (hr : g.Room t) :
    ∃ t', lower g t = some t' ∧ ∀ p, g.In p → t' (g.pad p) = t (g.v3 + g.pad p) := by
  obtain ⟨t', e1, e2, _⟩ := lower_spec hr
  exact ⟨t', e1, fun p hp => e2 _ (pad_lt hg p hp)⟩

/-! ### In terms of the field -/

theorem hasDerivAt_norm {f : ℝ → ℂ} {u : ℂ} {s : ℝ} (h : HasDerivAt f u s) (h0 : f s ≠ 0) :
    HasDerivAt (fun s => ‖f s‖) ((starRingEnd ℂ (f s) * u).re / ‖f s‖) s := by
  have hre : HasDerivAt (fun s => (f s).re) u.re s := 
    Complex.reCLM.hasFDerivAt.comp_hasDerivAt s h
  have him : HasDerivAt (fun s => (f s).im) u.im s := 
    Complex.imCLM.hasFDerivAt.comp_hasDerivAt s h
  have hsq := (hre.mul hre).add (him.mul him)
  have hne : (f s).re * (f s).re + (f s).im * (f s).im ≠ 0 := by
    rw [norm_sq']; exact pow_ne_zero 2 (norm_ne_zero_iff.2 h0)
  have := hsq.sqrt hne
  have e : (fun s => ‖f s‖) = fun s => √((f s).re * (f s).re + (f s).im * (f s).im) := by
    funext s; rw [sqrt_norm]
  rw [e]
  refine this.congr_deriv ?_
  simp only [Pi.add_apply, Pi.mul_apply]
  rw [sqrt_norm]
  have : ‖f s‖ ≠ 0 := norm_ne_zero_iff.2 h0
  have e2 : (starRingEnd ℂ (f s) * u).re = (f s).re * u.re + (f s).im * u.im := by simp
  rw [e2]
  field_simp
  ring

/-- **C73** About a fixed centre `s`, the stored rate is the derivative of `|ψ - s| / R`. -/
theorem C73_size_rate {ψ : ℝ → ℂ} {R : ℝ → ℝ} {u : ℂ} {R' s₀ : ℝ} (s : ℂ) (hψ : HasDerivAt ψ u s₀)
    (hR : HasDerivAt R R' s₀) (h0 : ψ s₀ - s ≠ 0) (hR0 : R s₀ ≠ 0) :
    HasDerivAt (fun t => ‖ψ t - s‖ / R t) (sizeRate (R s₀) R' (ψ s₀ - s) u) s₀ := by
  exact (hasDerivAt_norm (hψ.sub_const s) h0).div hR hR0

/-- **C73** (exact condition) About a centre that moves with the expansion, `s = σ R`, as the vacuum of
the shifted potential does, the stored rate is the derivative only if `σ`, `R'` or the real part of
the displacement vanishes. -/
theorem C73_size_rate_moving {ψ : ℝ → ℂ} {R : ℝ → ℝ} {u : ℂ} {R' s₀ σ : ℝ} (hψ : HasDerivAt ψ u s₀)
    (hR : HasDerivAt R R' s₀) (h0 : ψ s₀ - (σ * R s₀ : ℝ) ≠ 0) (hR0 : R s₀ ≠ 0) :
    HasDerivAt (fun t => ‖ψ t - (σ * R t : ℝ)‖ / R t)
        (sizeRate (R s₀) R' (ψ s₀ - (σ * R s₀ : ℝ)) u) s₀ ↔
      σ * R' * (ψ s₀ - (σ * R s₀ : ℝ)).re = 0 := by
  have h1 : HasDerivAt (fun t => ‖ψ t - (σ * R t : ℝ)‖ / R t)
      (sizeRate (R s₀) R' (ψ s₀ - (σ * R s₀ : ℝ)) (u - (σ * R' : ℝ))) s₀ :=
    (hasDerivAt_norm (f := fun t => ψ t - (σ * R t : ℝ)) (hψ.sub (hR.const_mul σ).ofReal_comp) h0).div
      hR hR0
  have hn : ‖ψ s₀ - (σ * R s₀ : ℝ)‖ ≠ 0 := norm_ne_zero_iff.2 h0
  have key : sizeRate (R s₀) R' (ψ s₀ - (σ * R s₀ : ℝ)) u -
      sizeRate (R s₀) R' (ψ s₀ - (σ * R s₀ : ℝ)) (u - (σ * R' : ℝ)) =
      σ * R' * (ψ s₀ - (σ * R s₀ : ℝ)).re / (‖ψ s₀ - (σ * R s₀ : ℝ)‖ * R s₀) := by
    generalize ψ s₀ - (σ * R s₀ : ℝ) = w at hn ⊢
    unfold sizeRate
    have e : (starRingEnd ℂ w * (u - (σ * R' : ℝ))).re = (starRingEnd ℂ w * u).re - σ * R' * w.re := by
      simp; ring
    rw [e]
    field_simp
    ring
  constructor
  · intro h2
    have h3 := h2.unique h1
    rw [h3, sub_self] at key
    rcases div_eq_zero_iff.1 key.symm with h | h
    · exact h
    · exact absurd h (mul_ne_zero hn hR0)
  · intro hz
    rw [hz, zero_div] at key
    rw [sub_eq_zero.1 key]
    exact h1

/-- **C73** (exact condition) The same for the phase of the displacement and the velocity behind the
axion spectra: only if `σ`, `R'` or the imaginary part of the displacement vanishes. -/
theorem C73_phase_rate_moving {r θ R : ℝ → ℝ} {r' θ' R' σ s : ℝ} {u : ℂ} (hr : HasDerivAt r r' s)
    (hθ : HasDerivAt θ θ' s) (hR : HasDerivAt R R' s) (h0 : r s ≠ 0)
    (hu : HasDerivAt (fun t => ((σ * R t : ℝ) : ℂ) + (r t : ℂ) * exp (θ t * I)) u s) :
    phaseRate (r s * exp (θ s * I)) u = θ' ↔ σ * R' * Real.sin (θ s) = 0 := by
  have h1 : HasDerivAt (fun t => (r t : ℂ) * exp (θ t * I)) (u - (σ * R' : ℝ)) s := by
    have := hu.sub (hR.const_mul σ).ofReal_comp
    refine this.congr_of_eventuallyEq (Filter.Eventually.of_forall fun t => ?_)
    simp
  have h2 := C72_phase hr hθ h0 h1
  have hr0 : (r s : ℂ) ≠ 0 := by exact_mod_cast h0
  have key : phaseRate (r s * exp (θ s * I)) u - phaseRate (r s * exp (θ s * I)) (u - (σ * R' : ℝ)) =
      -(σ * R' * Real.sin (θ s)) / r s := by
    unfold phaseRate
    rw [← sub_im, ← sub_div, sub_sub_cancel,
      show ((σ * R' : ℝ) : ℂ) / (r s * exp (θ s * I)) = ((σ * R' / r s : ℝ) : ℂ) * exp ((-θ s : ℝ) * I) by
        push_cast
        rw [neg_mul, exp_neg]
        field_simp]
    rw [im_ofReal_mul, exp_ofReal_mul_I_im, Real.sin_neg]
    ring
  rw [h2] at key
  constructor
  · intro h
    rw [h, sub_self] at key
    rcases div_eq_zero_iff.1 key.symm with h | h
    · linarith
    · exact absurd h h0
  · intro h
    rw [h, neg_zero, zero_div] at key
    linarith

/-! ### What is stored -/

/-- **C73** With the masks `nSRun` knows, each stored data set holds the spectrum of its name. -/
theorem C73_saxion_stored (n : Nrt) (mass2 : ℝ) (k : Mask) (hk : k.sax) (d : SData) (l : List Source) :
    (d, l) ∈ storedS n mass2 k ↔
      (d = .sKS ∧ n.K = true ∧ l = [.KS]) ∨ (d = .sGS ∧ n.G = true ∧ l = [.GS]) ∨
        (d = .sVS ∧ n.V = true ∧ l = [.VS]) := by
  obtain ⟨nK, nG, nV, nS, nCK, nCG, nCV, nCS⟩ := n
  unfold storedS after
  cases nK <;> cases nG <;> cases nV <;> simp [hk]

/-- **C73** (negative) With the others it reports an error, and the data sets written after it hold
spectra of the axion: those of the last axion run. -/
theorem C73_saxion_stored_axion (n : Nrt) (mass2 : ℝ) (k : Mask) (hk : ¬ k.sax)
    (hC : n.CK = false ∧ n.CG = false ∧ n.CV = false ∧ n.CS = false) (d : SData) (l : List Source) :
    (d, l) ∈ storedS n mass2 k ↔
      (d = .sKS ∧ n.K = true ∧ l = [.ax (.K true)]) ∨ (d = .sGS ∧ n.G = true ∧ l = [.ax (.G true)]) ∨
        (d = .sVS ∧ n.V = true ∧ l = if 0 < mass2 then [.ax .V] else []) := by
  obtain ⟨nK, nG, nV, nS, nCK, nCG, nCV, nCS⟩ := n
  obtain ⟨h1, h2, h3, h4⟩ := hC
  dsimp only at h1 h2 h3 h4
  subst h1 h2 h3 h4
  unfold storedS after before fills
  by_cases hm : 0 < mass2 <;> cases nK <;> cases nG <;> cases nV <;>
    simp [hk, hm, Filled.bin]

/-- **C73** (negative) If uncorrected spectra were asked for too, theirs is the last run: the data sets
named after the saxion hold the uncorrected spectra of the axion, or nothing. -/
theorem C73_saxion_stored_second (n : Nrt) (mass2 : ℝ) (k : Mask) (hk : ¬ k.sax)
    (hC : n.CK = true ∨ n.CG = true ∨ n.CV = true ∨ n.CS = true) (d : SData) (l : List Source) :
    (d, l) ∈ storedS n mass2 k ↔
      (d = .sKS ∧ n.K = true ∧ l = if n.CK then [.ax (.K false)] else []) ∨
      (d = .sGS ∧ n.G = true ∧ l = if n.CG then [.ax (.G false)] else []) ∨
        (d = .sVS ∧ n.V = true ∧ l = if n.CV = true ∧ 0 < mass2 then [.ax .VV] else []) := by
  obtain ⟨nK, nG, nV, nS, nCK, nCG, nCV, nCS⟩ := n
  dsimp only at hC
  unfold storedS after before fills
  simp only [hC, if_true, hk, if_false, Bool.false_eq_true]
  by_cases hm : 0 < mass2 <;> cases nK <;> cases nG <;> cases nV <;> cases nCK <;> cases nCG <;>
    cases nCV <;> simp [hm, Filled.bin]

/-- No data set then holds a spectrum of the saxion. -/
theorem C73_saxion_never (n : Nrt) (mass2 : ℝ) (k : Mask) (hk : ¬ k.sax) (d : SData) (l : List Source)
    (h : (d, l) ∈ storedS n mass2 k) : .KS ∉ l ∧ .GS ∉ l ∧ .VS ∉ l := by
  have hb : ∀ b, .KS ∉ before n mass2 b ∧ .GS ∉ before n mass2 b ∧ .VS ∉ before n mass2 b := by
    intro b
    unfold before
    simp
  have : ∃ b, l = before n mass2 b := by
    unfold storedS after at h
    simp only [hk, if_false, List.mem_append, Bool.false_eq_true] at h
    rcases h with (h | h) | h <;> split_ifs at h <;> simp at h <;> exact ⟨_, h.2⟩
  obtain ⟨b, rfl⟩ := this
  exact hb b

/-! ### The spectrum of the energy -/

theorem row_lt (hg : g.Ok) (r i : ℕ) (h1 : r < g.L * g.Lz) (h2 : i < g.L) :
    r * (g.L + 2) + i < g.v3 := by
  have h3 : r / g.L < g.Lz := Nat.div_lt_of_lt_mul h1
  have h4 := pad_lt hg (i, r % g.L, r / g.L) ⟨h2, Nat.mod_lt _ hg.L, h3⟩
  have h5 := div_mul_add_mod r g.L
  unfold Grid.pad at h4
  dsimp only at h4
  calc r * (g.L + 2) + i = (r / g.L * g.L + r % g.L) * (g.L + 2) + i := by rw [h5]
    _ = i + (g.L + 2) * (r % g.L) + g.L * (g.L + 2) * (r / g.L) := by ring
    _ < _ := h4

theorem spread_spec (hg : g.Ok) {t : M2} (hr : g.Room t) (src : ℕ) (hs : src = 0 ∨ src = g.v3) :
    ∃ t', spread g src t = some t' ∧
      (∀ r i, r < g.L * g.Lz → i < g.L → t' (r * (g.L + 2) + i) = t (src + r * g.L + i)) := by
  have hrow : ∀ r i, r < g.L * g.Lz → i < g.L → r * g.L + i < g.v3 := by
    intro r i h1 h2
    have := row_lt hg r i h1 h2
    have : r * g.L ≤ r * (g.L + 2) := Nat.mul_le_mul_left _ (by omega)
    omega
  obtain ⟨t', e1, e2, _⟩ := range_inv (f := fun (t : M2) i =>
      memmove (fun j => (g.L * g.Lz - 1 - i) * (g.L + 2) + j)
        (fun j => src + (g.L * g.Lz - 1 - i) * g.L + j) g.L t) (s := t)
    (P := fun n t' =>
      (∀ r i, g.L * g.Lz - n ≤ r → r < g.L * g.Lz → i < g.L →
        t' (r * (g.L + 2) + i) = t (src + r * g.L + i)) ∧
      (∀ a, a < (g.L * g.Lz - n) * (g.L + 2) ∨ g.v3 ≤ a → t' a = t a) ∧ g.Room t') (g.L * g.Lz)
    ⟨fun r i h1 h2 => by omega, fun a _ => rfl, hr⟩
    (by
      intro n hn t1 ⟨h1, h2, h3⟩
      set m := g.L * g.Lz - 1 - n with hm
      have hm1 : g.L * g.Lz - n = m + 1 := by omega
      have hm2 : g.L * g.Lz - (n + 1) = m := by omega
      rw [hm1] at h1 h2
      rw [hm2]
      have hm3 : m < g.L * g.Lz := by omega
      have hstep : (m + 1) * (g.L + 2) = m * (g.L + 2) + (g.L + 2) := by ring
      have hle : m * g.L ≤ m * (g.L + 2) := Nat.mul_le_mul_left _ (by omega)
      obtain ⟨t2, e1, e2, e3⟩ := memmove_spec (fun j => m * (g.L + 2) + j) (fun j => src + m * g.L + j)
        g.L t1
        (fun i hi => h3 _ (by have := hrow m i hm3 hi; rcases hs with rfl | rfl <;> omega))
        (fun i hi => h3 _ (by have := row_lt hg m i hm3 hi; omega))
        (fun i _ j _ h => by omega)
      refine ⟨t2, e1, ?_, ?_, ?_⟩
      · intro r i hr1 hr2 hi
        by_cases hrm : r = m
        · subst hrm
          rw [e2 i hi, h2]
          rcases hs with rfl | rfl
          · left; omega
          · right; omega
        · rw [e3, h1 r i (by omega) hr2 hi]
          intro j hj
          have : (m + 1) * (g.L + 2) ≤ r * (g.L + 2) := Nat.mul_le_mul_right _ (by omega)
          omega
      · intro a ha
        rw [e3, h2]
        · rcases ha with ha | ha
          · left; omega
          · exact Or.inr ha
        · intro j hj
          have := row_lt hg m j hm3 hj
          omega
      · intro a ha
        by_cases hd : ∃ j, j < g.L ∧ a = m * (g.L + 2) + j
        · obtain ⟨j, hj, rfl⟩ := hd
          rw [e2 j hj]
          exact h3 _ (by have := hrow m j hm3 hj; rcases hs with rfl | rfl <;> omega)
        · rw [e3 a fun j hj hc => hd ⟨j, hj, hc⟩]
          exact h3 a ha)
  exact ⟨t', e1, fun r i h1 h2 => e2 r i (by omega) h1 h2⟩

/-- **C73** The energy goes to the transform site by site, whether it lies in the first half of `m2`,
which is then spread over itself, or in the second. -/
theorem C73_energy_spread (hg : g.Ok) {t : M2} (hr : g.Room t) (src : ℕ) (hs : src = 0 ∨ src = g.v3) :
    ∃ t', spread g src t = some t' ∧ ∀ p, g.In p → t' (g.pad p) = t (src + g.bare p) := by
  obtain ⟨t', e1, e2⟩ := spread_spec hg hr src hs
  refine ⟨t', e1, ?_⟩
  rintro ⟨x, y, z⟩ ⟨hx, hy, hz⟩
  dsimp only at hx hy hz
  have h1 : z * g.L + y < g.L * g.Lz := by rw [Nat.mul_comm g.L]; exact pair_lt hz hy
  have := e2 _ _ h1 hx
  rw [show g.pad (x, y, z) = (z * g.L + y) * (g.L + 2) + x by simp only [Grid.pad]; ring, this]
  congr 1
  simp only [Grid.bare, Grid.S]
  ring

/-- **C73** `pRun` bins only amplitudes of the energy: it transforms what its place says is the energy,
does nothing when neither half holds it, and does not transform twice. -/
theorem C73_energy_status (m2 half : St) :
    ((prun g m2 half).1 = .nothing ↔ m2 = .other ∧ half ≠ .energy) ∧
    ((prun g m2 half).1 = .bin ↔ m2 = .energyFFT) ∧
    (∀ src, (prun g m2 half).1 = .fromPlace src →
      m2 = .energy ∧ src = 0 ∨ m2 = .other ∧ half = .energy ∧ src = g.v3) ∧
    ((prun g m2 half).1 ≠ .nothing → ∀ half', (prun g (prun g m2 half).2 half').1 = .bin) := by
  cases m2 <;> cases half <;> simp [prun, eq_comm]

/-! ### The matrix of a mask -/

/-- **C73** The couplings are symmetric in the two bins. -/
theorem C73_coupling_symm (vol : ℝ) (nn : ℕ → ℝ) (n i j k : ℕ) (hi : i < n) (hj : j < n) :
    coupling vol nn n i j k = coupling vol nn n j i k := by
  unfold coupling
  by_cases hk : k = 0
  · rw [if_pos hk, if_pos hk]
    by_cases h1 : i = 0 <;> by_cases h2 : j = 0
    · simp [h1, h2]
    · simp [h1, h2, Ne.symm h2]
    · simp [h1, h2, Ne.symm h1]
    · by_cases h3 : i = j
      · subst h3; rfl
      · simp [h1, h2, h3, Ne.symm h3]
  · rw [if_neg hk, if_neg hk]
    by_cases h1 : i = 0 <;> by_cases h2 : j = 0
    · subst h1 h2; rfl
    · by_cases h3 : j = k
      · subst h3; simp [h1, h2]
      · simp [h1, h2, h3]
    · by_cases h3 : i = k
      · subst h3; simp [h1, h2]
      · simp [h1, h2, h3]
    · rw [if_neg h2, if_neg h1, if_neg h1, if_neg h2]
      have : (((j : ℤ) - k).natAbs ≤ i ∧ i ≤ j + k ∧ i < n) ↔
          (((i : ℤ) - k).natAbs ≤ j ∧ j ≤ i + k ∧ j < n) := by omega
      rw [show ((i : ℝ) * j * k) = j * i * k by ring]
      exact if_congr this rfl rfl

/-- Nothing divides by zero when no bin is empty. -/
theorem coupling_some {vol : ℝ} {nn : ℕ → ℝ} {n : ℕ} (hn : ∀ b, b < n → nn b ≠ 0) {i j k : ℕ}
    (hj : j < n) (hk : k < n) : ∃ x, coupling vol nn n i j k = some x := by
  have hq : ∀ x y : ℝ, y ≠ 0 → Cosmo.quot x y = some (x / y) := fun x y h => if_neg h
  unfold coupling
  split_ifs
  all_goals first
    | exact ⟨_, rfl⟩
    | exact ⟨_, hq _ _ (hn _ hk)⟩
    | exact ⟨_, hq _ _ (hn _ hj)⟩
    | exact ⟨_, hq _ _ (hn _ (by omega))⟩
    | refine ⟨_, hq _ _ ?_⟩
      have : (i : ℝ) ≠ 0 := by exact_mod_cast ‹¬ i = 0›
      have : (j : ℝ) ≠ 0 := by exact_mod_cast ‹¬ j = 0›
      have : (k : ℝ) ≠ 0 := by exact_mod_cast ‹¬ k = 0›
      positivity

theorem foldlM_map_sum (f : ℕ → Option ℝ) (c : ℕ → ℝ) (x : ℕ → ℝ) (n : ℕ) (s : ℝ)
    (h : ∀ k, k < n → f k = some (x k)) :
    (List.range n).foldlM (fun s k => (f k).map fun J => s + c k * J) s =
      some (s + ∑ k ∈ Finset.range n, c k * x k) := by
  induction n with
  | zero => simp
  | succ n ih =>
    rw [List.range_succ, List.foldlM_append, ih fun k hk => h k (by omega)]
    simp [h n (by omega), Finset.sum_range_succ, add_assoc]

theorem entry_eq {vol : ℝ} {nn P : ℕ → ℝ} {n : ℕ} (hn : ∀ b, b < n → nn b ≠ 0) {i j : ℕ} (hj : j < n) :
    entry vol nn P n i j = some (∑ k ∈ Finset.range n,
      1 / vol * P k * ((coupling vol nn n i j k).getD 0)) := by
  have := foldlM_map_sum (coupling vol nn n i j) (fun k => 1 / vol * P k)
    (fun k => (coupling vol nn n i j k).getD 0) n 0 (by
      intro k hk
      obtain ⟨x, hx⟩ := coupling_some (vol := vol) hn (i := i) hj hk
      rw [hx]; rfl)
  rw [zero_add] at this
  exact this

/-- **C73** With no bin empty, the matrix of a mask is there, is symmetric, and the rows beyond the
bins are zero. -/
theorem C73_matrix {vol : ℝ} {nn P : ℕ → ℝ} {n : ℕ} (hn : ∀ b, b < n → nn b ≠ 0) :
    ∃ A : ℕ → ℕ → ℝ, (∀ i j, j < n → entry vol nn P n i j = some (A i j)) ∧
      (∀ i j, i < n → j < n → A i j = A j i) ∧ ∀ i j, n ≤ i → j < n → A i j = 0 := by
  refine ⟨fun i j => ∑ k ∈ Finset.range n, 1 / vol * P k * ((coupling vol nn n i j k).getD 0),
    fun i j hj => entry_eq hn hj, ?_, ?_⟩
  · intro i j hi hj
    exact Finset.sum_congr rfl fun k _ => by rw [C73_coupling_symm vol nn n i j k hi hj]
  · intro i j hi hj
    refine Finset.sum_eq_zero fun k hk => ?_
    have hk' : k < n := Finset.mem_range.1 hk
    have : coupling vol nn n i j k = some 0 := by
      unfold coupling
      rw [if_neg (show i ≠ j by omega), if_neg (show i ≠ k by omega), if_neg (show i ≠ 0 by omega),
        if_neg (show i ≠ 0 by omega), if_neg (show ¬ (((j : ℤ) - k).natAbs ≤ i ∧ i ≤ j + k ∧ i < n) by omega)]
      split_ifs <;> rfl
    rw [this]
    simp

/-- **C73** The gathered matrix is the same on any number of ranks. -/
theorem C73_gathered (vol : ℝ) (nn P : ℕ → ℝ) (n ranks : ℕ) (hr : 0 < ranks) (i j : ℕ) (hi : i < n)
    (hj : j < n) : i / nbinsPad n ranks < ranks ∧
      gathered vol nn P n ranks (i * n + j) = entry vol nn P n i j := by
  have hp : 0 < nbinsPad n ranks := Nat.succ_pos _
  refine ⟨?_, ?_⟩
  · rw [Nat.div_lt_iff_lt_mul hp]
    have := Nat.lt_div_mul_add (a := n) hr
    unfold nbinsPad
    nlinarith
  · unfold gathered sent
    generalize nbinsPad n ranks = b at hp
    have e := div_mul_add_mod i b
    have hm := Nat.mod_lt i hp
    have e1 : i * n + j = i / b * (b * n) + (i % b * n + j) := by
      calc i * n + j = (i / b * b + i % b) * n + j := by rw [e]
        _ = _ := by ring
    have hlt : i % b * n + j < b * n := pair_lt hm hj
    rw [e1, div_of hlt, mod_of hlt, div_of hj, mod_of hj]
    rw [show b * (i / b) + i % b = i by rw [Nat.mul_comm]; exact e]

/-! ### Cases -/

/-- A field in its vacuum and at rest in it: the saxion's arrays vanish. -/
example : sizeRate 2 3 (2 : ℂ) 3 = 0 := by
  unfold sizeRate
  norm_num

example : sizeRate 2 3 (2 : ℂ) 5 = 1 := by
  unfold sizeRate
  norm_num

/-- The small field of C72 with `R = 2`, `R' = 1`: at `(1, 0, 1)` the field is `i` and grows along
itself at the rate 1, so `|ψ| / R` grows at the rate `(2 - 1) / 4`; the displacement is `-1`; the mask
multiplies both by `|ψ| / R`. -/
example : ∃ t', sweep (stepS smallGrid .vil ⟨2, 1, 0⟩ smallMem) smallOrder (fun _ => some none) = some t' ∧
    t' (smallGrid.pad (1, 0, 1)) = some (some (1 / 4)) ∧
    t' (smallGrid.v3 + smallGrid.pad (1, 0, 1)) = some (some (-1 / 2)) := by
  obtain ⟨t', e1, e2, _⟩ := C73_saxion small_ok small_order (t := fun _ => some none) (fun _ _ => rfl)
    small_holds ⟨2, 1, 0⟩ (by norm_num) .vil rfl
  obtain ⟨f1, _, f3⟩ := e2 1 0 1 (by decide) (by decide) (by decide)
  refine ⟨t', e1, ?_, ?_⟩
  · rw [f1 (Or.inl (by simp))]
    simp [saxWeight, sizeRate]
    norm_num
  · rw [f3]
    simp [saxWeight]
    norm_num

/-- An energy in the second half of a grid of 2³ sites. -/
example : ∃ t', spread smallGrid smallGrid.v3 (fun a => some (some (a : ℝ))) = some t' ∧
    t' (smallGrid.pad (1, 1, 1)) = some (some ((smallGrid.v3 + 7 : ℕ) : ℝ)) := by
  obtain ⟨t', e1, e2⟩ := C73_energy_spread small_ok (t := fun a => some (some (a : ℝ))) (fun _ _ => rfl)
    smallGrid.v3 (Or.inr rfl)
  exact ⟨t', e1, e2 (1, 1, 1) ⟨by decide, by decide, by decide⟩⟩

example : Mask.sax .vil2 = true ∧ Mask.sax .gaus = false := ⟨rfl, rfl⟩

example : storedS ⟨true, false, false, false, false, false, false, false⟩ 1 .gaus =
    [(.sKS, [.ax (.K true)])] := by
  simp [storedS, after, before, fills, Mask.sax, Filled.bin]

example : nbinsPad 7 3 = 3 := rfl

/-- Rows `1` and `2` of seven bins, third rank of three: row 8 does not exist. -/
example : coupling 8 (fun _ => 1) 7 8 2 6 = some 0 := by
  simp [coupling]

end Jaxions.AxSpec
