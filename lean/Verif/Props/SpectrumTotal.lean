import Verif.Props.Spectrum
import Verif.Lemmas.Gravity
import Mathlib.Tactic.Linarith
import Mathlib.Tactic.NormNum

/-
**C73** What the bins of a spectrum add up to, and which of them are empty.

`f` is the real array that is transformed.  The transform library is taken to be exact
(`amp` are the moduli of the Fourier amplitudes in the layout of the library); the rest is
`fillBins` of `Verif/Model/Spectrum.lean`.
-/

namespace Jaxions.Spectrum

open Finset ComplexConjugate Gravity

/-- Mode number `i` of rank `r` in the transposed half-complex layout: `k_x` runs fastest and only up
to `Ly/2`, then `k_z`, then `k_y`, which is divided over the ranks. -/
def placeOf (c : Cfg) (r i : ℕ) : Torus c.Ly c.Tz :=
  ((i % (c.Ly / 2 + 1) : ℕ), (i / (c.Ly / 2 + 1) / c.Tz + c.Ly / c.ranks * r : ℕ),
    (i / (c.Ly / 2 + 1) % c.Tz : ℕ))

/-- The ranks hold the moduli of the Fourier amplitudes of `f`. -/
def Transformed (c : Cfg) [NeZero c.Ly] [NeZero c.Tz] (f : Torus c.Ly c.Tz → ℝ) (amp : ℕ → ℕ → ℝ) : Prop :=
  ∀ r i, r < c.ranks → i < c.modes → amp r i = ‖dft (fun x => (f x : ℂ)) (placeOf c r i)‖

/-- Which data type puts what multiple of the power in which vector. -/
def plain (p : Phys ℝ) : SType → Arr → Option ℝ
  | .K, .K | .KK, .K | .KS, .K | .VV, .V | .P, .P | .PS, .PS => some 1
  | .V, .V | .GV, .V | .VNL, .Vnl => some p.mass2
  | .VS, .V | .GVS, .V => some p.mass2Sax
  | _, _ => none

/-- Which data type puts the power of the gradient in which vector. -/
def graded : SType → Arr → Prop
  | .G, .G | .GS, .G | .GV, .G | .GVS, .G => True
  | _, _ => False

/-! ### Parseval -/

section
variable {L T : ℕ} [NeZero L] [NeZero T]

theorem sum_conj_synth (f : Torus L T → ℝ) (H : Torus L T → ℂ) :
    ∑ k, H k * conj (dft (fun x => (f x : ℂ)) k) = ∑ x, (f x : ℂ) * synth H x := by
  unfold dft synth
  simp only [map_sum, mul_sum]
  rw [sum_comm]
  refine sum_congr rfl fun x _ => sum_congr rfl fun k _ => ?_
  rw [map_mul, Complex.conj_ofReal, wave_conj, neg_neg]
  ring

theorem parseval (f : Torus L T → ℝ) :
    ∑ k, ‖dft (fun x => (f x : ℂ)) k‖ ^ 2 = (L * L * T : ℝ) * ∑ x, f x ^ 2 := by
  have h := sum_conj_synth f (dft fun x => (f x : ℂ))
  simp only [synth_dft, Complex.mul_conj, Complex.normSq_eq_norm_sq] at h
  have h2 : ∑ x, (f x : ℂ) * ((L * L * T : ℂ) * f x) = (((L * L * T : ℝ) * ∑ x, f x ^ 2 : ℝ) : ℂ) := by
    push_cast
    rw [mul_sum]
    exact sum_congr rfl fun x _ => by ring
  rw [h2] at h
  exact_mod_cast h

/-- The same for the gradient: `lapS` is the Laplacian of the trigonometric interpolation. -/
theorem parseval_grad (k₀ : ℝ) (f : Torus L T → ℝ) :
    ((∑ k, (ksq k : ℝ) * k₀ ^ 2 * ‖dft (fun x => (f x : ℂ)) k‖ ^ 2 : ℝ) : ℂ) =
      (L * L * T : ℂ) * ∑ x, (f x : ℂ) * -lapS k₀ (fun y => (f y : ℂ)) x := by
  have h := sum_conj_synth f fun k => (ksq k : ℂ) * k₀ ^ 2 * dft (fun x => (f x : ℂ)) k
  have hL : (L : ℂ) ≠ 0 := Nat.cast_ne_zero.2 (NeZero.ne L)
  have hT : (T : ℂ) ≠ 0 := Nat.cast_ne_zero.2 (NeZero.ne T)
  have e : ∀ x, synth (fun k => (ksq k : ℂ) * k₀ ^ 2 * dft (fun x => (f x : ℂ)) k) x =
      (L * L * T : ℂ) * -lapS k₀ (fun y => (f y : ℂ)) x := by
    intro x
    unfold synth lapS
    rw [mul_neg, ← mul_assoc, mul_one_div_cancel (by simp [hL, hT]), one_mul, ← sum_neg_distrib]
    exact sum_congr rfl fun k _ => by ring
  simp only [e] at h
  rw [mul_sum]
  rw [show ∑ x, (L * L * T : ℂ) * ((f x : ℂ) * -lapS k₀ (fun y => (f y : ℂ)) x) =
    ∑ x, (f x : ℂ) * ((L * L * T : ℂ) * -lapS k₀ (fun y => (f y : ℂ)) x) from
      sum_congr rfl fun x _ => by ring, ← h]
  push_cast
  refine sum_congr rfl fun k _ => ?_
  rw [mul_assoc _ _ (conj _), Complex.mul_conj, Complex.normSq_eq_norm_sq]
  push_cast
  ring

end

/-! ### The lattice of modes -/

section
variable (c : Cfg) [NeZero c.Ly] [NeZero c.Tz]

/-- Indices as a mode. -/
def asMode (q : ℕ × ℕ × ℕ) : Torus c.Ly c.Tz := ((q.1 : ℕ), (q.2.1 : ℕ), (q.2.2 : ℕ))

theorem sum_lattice {M : Type} [AddCommMonoid M] (F : Torus c.Ly c.Tz → M) :
    ∑ q ∈ lattice c, F (asMode c q) = ∑ k, F k := by
  refine sum_bij' (fun q _ => asMode c q) (fun k _ => (k.1.val, k.2.1.val, k.2.2.val)) ?_ ?_ ?_ ?_ ?_
  · simp
  · intro k _
    simp only [lattice, mem_product, mem_range]
    exact ⟨ZMod.val_lt _, ZMod.val_lt _, ZMod.val_lt _⟩
  · rintro ⟨x, y, z⟩ hq
    simp only [lattice, mem_product, mem_range] at hq
    simp only [asMode, ZMod.val_natCast]
    rw [Nat.mod_eq_of_lt hq.1, Nat.mod_eq_of_lt hq.2.1, Nat.mod_eq_of_lt hq.2.2]
  · rintro ⟨x, y, z⟩ _
    simp [asMode]
  · intro q _
    rfl

theorem asMode_opposite {q : ℕ × ℕ × ℕ} (hq : q ∈ lattice c) :
    asMode c (opposite c q) = -asMode c q := by
  have key : ∀ {N : ℕ} [NeZero N] {i : ℕ}, i < N → (((N - i) % N : ℕ) : ZMod N) = -(i : ZMod N) := by
    intro N _ i hi
    rw [ZMod.natCast_mod, Nat.cast_sub hi.le, ZMod.natCast_self, zero_sub]
  simp only [lattice, mem_product, mem_range] at hq
  simp only [asMode, opposite, key hq.1, key hq.2.1, key hq.2.2]
  rfl

theorem freq_signed {N i : ℕ} (hi : i < N) : freq N i = signed (i : ZMod N) := by
  unfold freq signed
  rw [ZMod.val_natCast, Nat.mod_eq_of_lt hi]

omit [NeZero c.Ly] [NeZero c.Tz] in
theorem sq_asMode {q : ℕ × ℕ × ℕ} (hq : q ∈ lattice c) : (sq (freqs c q) : ℤ) = ksq (asMode c q) := by
  simp only [lattice, mem_product, mem_range] at hq
  unfold sq freqs ksq asMode
  dsimp only
  rw [freq_signed hq.1, freq_signed hq.2.1, freq_signed hq.2.2, Int.toNat_of_nonneg
    (add_nonneg (add_nonneg (mul_self_nonneg _) (mul_self_nonneg _)) (mul_self_nonneg _))]
  ring

variable {c}

theorem holds_of {f : Torus c.Ly c.Tz → ℝ} {amp : ℕ → ℕ → ℝ} (h : c.Ok) (hf : Transformed c f amp) :
    Holds c amp fun q => ‖dft (fun x => (f x : ℂ)) (asMode c q)‖ ^ 2 := by
  intro r x y z hr hx hy hz
  have hi : (y * c.Tz + z) * c.Lx + x < c.modes := by
    rw [modes_eq h]
    exact pair_lt (pair_lt hy hz) hx
  rw [hf r _ hr hi, ← pow_two]
  have hx' : x < c.Ly / 2 + 1 := hx
  have : placeOf c r ((y * c.Tz + z) * c.Lx + x) = asMode c (x, y + c.Ly / c.ranks * r, z) := by
    unfold placeOf asMode Cfg.Lx
    rw [mod_of hx', div_of hx', mod_of hz, div_of hz]
  rw [this]

omit [NeZero c.Ly] [NeZero c.Tz] in
/-- Sum over the bins of what the modes in them contribute. -/
theorem sum_bins (h : c.Ok) (F : ℕ × ℕ × ℕ → ℝ) :
    ∑ j ∈ range c.nbins, ∑ q ∈ lattice c with InBin c (sq (freqs c q)) j, F q = ∑ q ∈ lattice c, F q := by
  simp only [inBin_iff]
  refine sum_fiberwise_of_maps_to ?_ _
  intro q hq
  simp only [lattice, mem_product, mem_range] at hq
  exact mem_range.mpr (inBin_lt (nbins_pos h.bins) (sq_lt c (freq_bound hq.1) (freq_bound hq.2.1)
    (freq_bound hq.2.2)) (myBin_inBin c _))

/-- **C73** The bins of a power spectrum add up to the sum of the squares over the lattice, on every
rank, whatever the number of ranks, threads and bins. -/
theorem C73_power_total (h : c.Ok) (p : Phys ℝ) {s : SType} {a : Arr} {w : ℝ} (hw : plain p s a = some w)
    {f : Torus c.Ly c.Tz → ℝ} {amp : ℕ → ℕ → ℝ} (hf : Transformed c f amp)
    {order : ℕ → List (ℕ × ℕ)} (ho : ∀ r, r < c.ranks → Order c (order r)) :
    ∃ t, fillBins c p s amp order (fun _ _ _ => 0) = some t ∧ ∀ r, r < c.ranks →
      ∑ j ∈ range c.nbins, t r a j = p.norm * w * ((c.Ly * c.Ly * c.Tz : ℝ) * ∑ x, f x ^ 2) := by
  obtain ⟨t, h1, h2⟩ := C26_fill h p s (holds_of h hf) (fun q hq => by
    rw [asMode_opposite c hq, dft_real, RCLike.norm_conj]) ho (fun _ _ _ => 0)
  refine ⟨t, h1, fun r hr => ?_⟩
  have hu : used s a = true ∧ s ≠ .GaSadd ∧ s ≠ .NN ∧ s ≠ .AK := by
    cases s <;> cases a <;> simp [plain] at hw <;> simp [used]
  rw [sum_congr rfl fun j hj => (h2 r a j hr (mem_range.1 hj)).1 hu.1 hu.2.1 hu.2.2.1 hu.2.2.2]
  simp only [sum_const_zero, zero_add, spectrum]
  rw [sum_bins h]
  have hs : ∀ k m, share p s a k m = p.norm * w * m := by
    intro k m
    cases s <;> cases a <;> simp [plain] at hw <;> subst hw <;> simp only [share] <;> ring
  simp only [hs]
  rw [← mul_sum, sum_lattice c fun k => ‖dft (fun x => (f x : ℂ)) k‖ ^ 2, parseval]

/-- **C73** The bins of the gradient of a real field add up to the gradient energy of its
trigonometric interpolation. -/
theorem C73_gradient_total (h : c.Ok) (p : Phys ℝ) (k₀ : ℝ) (hp : p.unit = k₀ ^ 2) {s : SType} {a : Arr}
    (hs : graded s a) {f : Torus c.Ly c.Tz → ℝ} {amp : ℕ → ℕ → ℝ} (hf : Transformed c f amp)
    {order : ℕ → List (ℕ × ℕ)} (ho : ∀ r, r < c.ranks → Order c (order r)) :
    ∃ t, fillBins c p s amp order (fun _ _ _ => 0) = some t ∧ ∀ r, r < c.ranks →
      ((∑ j ∈ range c.nbins, t r a j : ℝ) : ℂ) = p.norm *
        ((c.Ly * c.Ly * c.Tz : ℂ) * ∑ x, (f x : ℂ) * -lapS k₀ (fun y => (f y : ℂ)) x) := by
  obtain ⟨t, h1, h2⟩ := C26_fill h p s (holds_of h hf) (fun q hq => by
    rw [asMode_opposite c hq, dft_real, RCLike.norm_conj]) ho (fun _ _ _ => 0)
  refine ⟨t, h1, fun r hr => ?_⟩
  have hu : used s a = true ∧ s ≠ .GaSadd ∧ s ≠ .NN ∧ s ≠ .AK := by
    cases s <;> cases a <;> simp [graded] at hs <;> simp [used]
  rw [sum_congr rfl fun j hj => (h2 r a j hr (mem_range.1 hj)).1 hu.1 hu.2.1 hu.2.2.1 hu.2.2.2]
  simp only [sum_const_zero, zero_add, spectrum]
  rw [sum_bins h, ← parseval_grad]
  have hsh : ∀ q ∈ lattice c, share p s a (freqs c q) (‖dft (fun x => (f x : ℂ)) (asMode c q)‖ ^ 2) =
      p.norm * ((ksq (asMode c q) : ℝ) * k₀ ^ 2 * ‖dft (fun x => (f x : ℂ)) (asMode c q)‖ ^ 2) := by
    intro q hq
    have e : ((sq (freqs c q) : ℕ) : ℝ) = ((ksq (asMode c q) : ℤ) : ℝ) := by
      rw [← sq_asMode c hq, Int.cast_natCast]
    cases s <;> cases a <;> simp [graded] at hs <;> simp only [share, hp, e] <;> ring
  rw [sum_congr rfl hsh, ← mul_sum, sum_lattice c fun k => (ksq k : ℝ) * k₀ ^ 2 *
    ‖dft (fun x => (f x : ℂ)) k‖ ^ 2]
  push_cast
  ring

end

/-! ### Empty bins -/

theorem bin_step (c : Cfg) (hn : c.nbins ≤ c.powMax) {k a : ℕ} (ha : a * a ≤ k) :
    myBin c (k + (2 * a + 1)) ≤ myBin c k + 1 := by
  have h1 := (myBin_inBin c k).2
  have h2 := (myBin_inBin c (k + (2 * a + 1))).1
  generalize myBin c k = r at *
  generalize myBin c (k + (2 * a + 1)) = r' at *
  generalize c.nbins = n at *
  generalize c.powMax = m at *
  have h3 : n * a < (r + 1) * m := by
    apply Nat.mul_self_lt_mul_self_iff.mp
    calc n * a * (n * a) = n * n * (a * a) := by ring
      _ ≤ n * n * k := Nat.mul_le_mul_left _ ha
      _ < _ := h1
      _ = _ := by ring
  have h4 : r' * m < (r + 2) * m := by
    apply Nat.mul_self_lt_mul_self_iff.mp
    calc r' * m * (r' * m) = r' * r' * (m * m) := by ring
      _ ≤ n * n * (k + (2 * a + 1)) := h2
      _ = n * n * k + 2 * n * (n * a) + n * n := by ring
      _ < (r + 1) * (r + 1) * (m * m) + 2 * n * (n * a) + n * n := by omega
      _ ≤ (r + 1) * (r + 1) * (m * m) + 2 * m * ((r + 1) * m) + m * m := by
        have := Nat.mul_le_mul (Nat.mul_le_mul_left 2 hn) h3.le
        have := Nat.mul_le_mul hn hn
        omega
      _ = _ := by ring
  have := Nat.lt_of_mul_lt_mul_right h4
  omega

/-- A walk that rises by at most one at a time meets every number up to where it ends. -/
theorem meets (f : ℕ → ℕ) (h0 : f 0 = 0) (n : ℕ) (h : ∀ i, i < n → f (i + 1) ≤ f i + 1) (j : ℕ)
    (hj : j ≤ f n) : ∃ i, i ≤ n ∧ f i = j := by
  induction n with
  | zero => exact ⟨0, le_refl _, by omega⟩
  | succ n ih =>
    by_cases hc : j ≤ f n
    · obtain ⟨i, hi, e⟩ := ih (fun i hi => h i (by omega)) hc
      exact ⟨i, by omega, e⟩
    · exact ⟨n + 1, le_refl _, by have := h n (by omega); omega⟩

/-- A walk over the lattice from the mode zero to the corner: along x, along y, along z. -/
def walk (c : Cfg) (i : ℕ) : ℕ × ℕ × ℕ :=
  (min i (c.Ly / 2), min (i - c.Ly / 2) (c.Ly / 2), min (i - 2 * (c.Ly / 2)) (c.Tz / 2))

theorem walk_mem {c : Cfg} (h : c.Ok) (i : ℕ) : walk c i ∈ lattice c := by
  have h1 := h.len
  have h2 := h.depth
  simp only [lattice, mem_product, mem_range, walk]
  refine ⟨?_, ?_, ?_⟩ <;> omega

theorem walk_sq (c : Cfg) (i : ℕ) : sq (freqs c (walk c i)) =
    (walk c i).1 * (walk c i).1 + (walk c i).2.1 * (walk c i).2.1 + (walk c i).2.2 * (walk c i).2.2 := by
  have hf : ∀ {N k : ℕ}, k ≤ N / 2 → freq N k = k := fun h => if_pos h
  unfold freqs
  rw [hf (show (walk c i).1 ≤ c.Ly / 2 from min_le_right _ _),
    hf (show (walk c i).2.1 ≤ c.Ly / 2 from min_le_right _ _),
    hf (show (walk c i).2.2 ≤ c.Tz / 2 from min_le_right _ _)]
  unfold sq
  dsimp only
  exact_mod_cast Int.toNat_natCast _

theorem walk_step (c : Cfg) (i : ℕ) (hi : i < 2 * (c.Ly / 2) + c.Tz / 2) :
    ∃ a, a * a ≤ sq (freqs c (walk c i)) ∧
      sq (freqs c (walk c (i + 1))) = sq (freqs c (walk c i)) + (2 * a + 1) := by
  rw [walk_sq, walk_sq]
  unfold walk
  dsimp only
  generalize c.Ly / 2 = l at *
  generalize c.Tz / 2 = t at *
  rcases Nat.lt_or_ge i l with h1 | h1
  · refine ⟨i, ?_, ?_⟩
    · rw [min_eq_left h1.le]; omega
    · rw [min_eq_left h1.le, min_eq_left (by omega : i + 1 ≤ l), show i + 1 - l = 0 by omega,
        show i - l = 0 by omega, show i + 1 - 2 * l = 0 by omega, show i - 2 * l = 0 by omega]
      simp only [Nat.zero_min]
      ring
  · rcases Nat.lt_or_ge i (2 * l) with h2 | h2
    · obtain ⟨m, rfl⟩ := Nat.exists_eq_add_of_le h1
      refine ⟨m, ?_, ?_⟩
      · rw [Nat.add_sub_cancel_left, min_eq_left (by omega : m ≤ l)]; omega
      · rw [show min (l + m + 1) l = l by omega, show min (l + m) l = l by omega,
          show min (l + m + 1 - l) l = m + 1 by omega, show min (l + m - l) l = m by omega,
          show min (l + m + 1 - 2 * l) t = 0 by omega, show min (l + m - 2 * l) t = 0 by omega]
        ring
    · obtain ⟨m, rfl⟩ := Nat.exists_eq_add_of_le h2
      refine ⟨m, ?_, ?_⟩
      · rw [Nat.add_sub_cancel_left, min_eq_left (by omega : m ≤ t)]; omega
      · rw [show min (2 * l + m + 1) l = l by omega, show min (2 * l + m) l = l by omega,
          show min (2 * l + m + 1 - l) l = l by omega, show min (2 * l + m - l) l = l by omega,
          show min (2 * l + m + 1 - 2 * l) t = m + 1 by omega, show min (2 * l + m - 2 * l) t = m by omega]
        ring

/-- **C73** With the default number of bins, or fewer, no bin is empty: the number of modes the
users divide by is not zero. -/
theorem C73_no_empty {c : Cfg} (h : c.Ok) (hn : c.nbins ≤ c.powMax) (j : ℕ) (hj : j < c.nbins) :
    0 < modesIn c j := by
  have hz : myBin c 0 = 0 := by
    have := (myBin_inBin c 0).1
    by_contra hc
    have hp := powMax_pos c
    have : 0 < myBin c 0 * myBin c 0 * (c.powMax * c.powMax) :=
      Nat.mul_pos (Nat.mul_pos (by omega) (by omega)) (Nat.mul_pos hp hp)
    omega
  have hend : j ≤ myBin c (sq (freqs c (walk c (2 * (c.Ly / 2) + c.Tz / 2)))) := by
    have hs : sq (freqs c (walk c (2 * (c.Ly / 2) + c.Tz / 2))) =
        2 * (c.Ly / 2) * (c.Ly / 2) + c.Tz / 2 * (c.Tz / 2) := by
      rw [walk_sq]
      unfold walk
      dsimp only
      rw [min_eq_right (by omega), min_eq_right (by omega), min_eq_right (by omega)]
      ring
    rw [hs]
    have hq := Nat.sqrt_le (2 * (c.Ly / 2) * (c.Ly / 2) + c.Tz / 2 * (c.Tz / 2))
    have hp : c.powMax = Nat.sqrt (2 * (c.Ly / 2) * (c.Ly / 2) + c.Tz / 2 * (c.Tz / 2)) + 1 := rfl
    have hb := (myBin_inBin c (2 * (c.Ly / 2) * (c.Ly / 2) + c.Tz / 2 * (c.Tz / 2))).2
    generalize 2 * (c.Ly / 2) * (c.Ly / 2) + c.Tz / 2 * (c.Tz / 2) = K at *
    generalize myBin c K = b at *
    generalize Nat.sqrt K = u at *
    generalize c.nbins = n at *
    generalize c.powMax = m at *
    subst hp
    have h1 : n * u < (b + 1) * (u + 1) := by
      apply Nat.mul_self_lt_mul_self_iff.mp
      calc n * u * (n * u) = n * n * (u * u) := by ring
        _ ≤ n * n * K := Nat.mul_le_mul_left _ hq
        _ < _ := hb
        _ = _ := by ring
    by_contra hc
    have h2 : (b + 1) * (u + 1) ≤ (n - 1) * (u + 1) := Nat.mul_le_mul_right _ (by omega)
    obtain ⟨n', rfl⟩ : ∃ n', n = n' + 1 := ⟨n - 1, by omega⟩
    have h3 : (n' + 1) * u = n' * u + u := by ring
    have h4 : (n' + 1 - 1) * (u + 1) = n' * u + n' := by rw [Nat.add_sub_cancel]; ring
    omega
  obtain ⟨i, _, hi⟩ := meets (fun i => myBin c (sq (freqs c (walk c i))))
    (by
      show myBin c (sq (freqs c (walk c 0))) = 0
      rw [walk_sq]
      simp [walk, hz])
    (2 * (c.Ly / 2) + c.Tz / 2)
    (by
      intro i hi
      obtain ⟨a, ha, e⟩ := walk_step c i hi
      show myBin c (sq (freqs c (walk c (i + 1)))) ≤ _
      rw [e]
      exact bin_step c hn ha) j hend
  unfold modesIn
  refine card_pos.2 ⟨walk c i, mem_filter.2 ⟨walk_mem h i, ?_⟩⟩
  rw [inBin_iff]
  exact hi

/-- **C73** (negative) With at least twice as many bins as the default, the second one is empty, and
an average per mode divides zero by zero. -/
theorem C73_empty {c : Cfg} (hn : 2 * c.powMax ≤ c.nbins) : modesIn c 1 = 0 := by
  unfold modesIn
  rw [card_eq_zero, filter_eq_empty_iff]
  rintro q _ ⟨h1, h2⟩
  have hp := powMax_pos c
  have h3 : 0 < sq (freqs c q) := by
    rcases Nat.eq_zero_or_pos (sq (freqs c q)) with hc | hc
    · rw [hc] at h1
      have := Nat.mul_pos hp hp
      omega
    · exact hc
  have h4 := Nat.mul_le_mul hn hn
  have h5 := Nat.le_mul_of_pos_right (c.nbins * c.nbins) h3
  have h6 : (1 + 1) * (1 + 1) * (c.powMax * c.powMax) = 2 * c.powMax * (2 * c.powMax) := by ring
  omega

/-- **C73** In numbers of the run: the bins of a kinetic spectrum add up to the volume of the box
times half the mean square of the array. -/
theorem C73_energy {c : Cfg} [NeZero c.Ly] [NeZero c.Tz] (h : c.Ok) (p : Phys ℝ) (V : ℝ)
    (hp : p.norm = V / (2 * ((c.Ly * c.Ly * c.Tz : ℝ) * (c.Ly * c.Ly * c.Tz : ℝ)))) {s : SType} {a : Arr}
    {w : ℝ} (hw : plain p s a = some w) {f : Torus c.Ly c.Tz → ℝ} {amp : ℕ → ℕ → ℝ}
    (hf : Transformed c f amp) {order : ℕ → List (ℕ × ℕ)} (ho : ∀ r, r < c.ranks → Order c (order r)) :
    ∃ t, fillBins c p s amp order (fun _ _ _ => 0) = some t ∧ ∀ r, r < c.ranks →
      ∑ j ∈ range c.nbins, t r a j = V * (w / 2 * ((∑ x, f x ^ 2) / (c.Ly * c.Ly * c.Tz : ℝ))) := by
  obtain ⟨t, h1, h2⟩ := C73_power_total h p hw hf ho
  refine ⟨t, h1, fun r hr => ?_⟩
  have hL : (c.Ly : ℝ) ≠ 0 := Nat.cast_ne_zero.2 (NeZero.ne _)
  have hT : (c.Tz : ℝ) ≠ 0 := Nat.cast_ne_zero.2 (NeZero.ne _)
  rw [h2 r hr, hp]
  field_simp

/-! ### A case -/

instance : NeZero small.Ly := ⟨by decide⟩
instance : NeZero small.Tz := ⟨by decide⟩

example (f : Torus small.Ly small.Tz → ℝ) : ∃ t, fillBins small ⟨1, 1, 2, 3, fun _ => 1, 0⟩ .K
      (fun r i => ‖dft (fun x => (f x : ℂ)) (placeOf small r i)‖) (fun _ => smallOrder) (fun _ _ _ => 0) = some t ∧
    ∑ j ∈ range small.nbins, t 1 .K j =
      1 * 1 * ((small.Ly * small.Ly * small.Tz : ℝ) * ∑ x, f x ^ 2) := by
  obtain ⟨t, h1, h2⟩ := C73_power_total small_ok ⟨1, 1, 2, 3, fun _ => 1, 0⟩ (s := .K) (a := .K) (w := 1) rfl
    (f := f) (fun _ _ _ _ => rfl) (order := fun _ => smallOrder) fun _ _ => smallOrder_ok
  exact ⟨t, h1, h2 1 (by decide)⟩

example : 0 < modesIn ⟨8, 8, 1, 1, -1⟩ 6 :=
  C73_no_empty ⟨by decide, by decide, by decide, by decide, by decide, by decide, by decide, by decide⟩
    (le_refl _) 6 (by decide +kernel)

example : modesIn ⟨8, 8, 1, 1, 14⟩ 1 = 0 := C73_empty (by decide +kernel)

end Jaxions.Spectrum
