import Verif.Lemmas.Spectrum
import Mathlib.Data.Rat.Defs
import Mathlib.Algebra.Order.Field.Rat
import Mathlib.Tactic.NormNum

/-!
# C26: spectrum binning

Every mode goes to the bin of its momentum, the half-complex layout counts every mode of the full
lattice once, and neither ranks nor threads change the result.
-/

namespace Jaxions
namespace Spectrum

open Finset

variable {K : Type} [Field K]

/-! ## Bins -/

/-- The integer form of the bin is the floor of the code: with `s = sqrt(k2)` in any ordered field
and `nbinmul` as the code has it, the bin `b` has `b ≤ nbinmul s < b + 1`. -/
theorem bin_floor [LinearOrder K] [IsStrictOrderedRing K] (c : Cfg) (k2 : Nat) {s mul : K}
    (hs : 0 ≤ s) (hk : s * s = k2)
    (hm : mul = if c.nbinsspec < 0 then 1 else (c.nbinsspec.toNat : K) / c.powMax) :
    (myBin c k2 : K) ≤ mul * s ∧ mul * s < (myBin c k2 : K) + 1 := by
  have hp : (0 : K) < c.powMax := by exact_mod_cast powMax_pos c
  have hm' : mul * c.powMax = c.nbins := by
    rw [hm, Cfg.nbins]; split
    · rw [one_mul]
    · rw [div_mul_cancel₀ _ hp.ne']
  have hm0 : 0 ≤ mul := by
    rw [hm]; split
    · exact zero_le_one
    · exact div_nonneg (Nat.cast_nonneg _) hp.le
  obtain ⟨h1, h2⟩ := myBin_inBin c k2
  set b := myBin c k2
  have h1' : (b : K) * b * (c.powMax * c.powMax) ≤ c.nbins * c.nbins * k2 := by exact_mod_cast h1
  have h2' : (c.nbins : K) * c.nbins * k2 < ((b : K) + 1) * (b + 1) * (c.powMax * c.powMax) := by
    exact_mod_cast h2
  rw [← hm', ← hk] at h1' h2'
  have e : mul * c.powMax * (mul * c.powMax) * (s * s) =
      (mul * s) * (mul * s) * (c.powMax * c.powMax) := by ring
  rw [e] at h1' h2'
  have hpp : (0 : K) < c.powMax * c.powMax := mul_pos hp hp
  constructor
  · exact (mul_self_le_mul_self_iff (Nat.cast_nonneg _) (mul_nonneg hm0 hs)).mpr
      (le_of_mul_le_mul_right h1' hpp)
  · exact lt_of_mul_self_lt_mul_self₀ (by positivity) (lt_of_mul_lt_mul_right h2' hpp.le)

/-- **C26.**  Every mode a rank holds lies in exactly one bin, inside the vector, and it is the bin
of the code. -/
theorem C26_bin {c : Cfg} (h : c.Ok) {r : Nat} (hr : r < c.ranks) {i : Nat} (hi : i < c.modes) :
    myBin c (sq (mode c r i)) < c.nbins ∧
      ∀ b, InBin c (sq (mode c r i)) b ↔ b = myBin c (sq (mode c r i)) := by
  obtain ⟨_, _, _, _, _, _, _, hlt⟩ := mode_bound h hr hi
  refine ⟨inBin_lt (nbins_pos h.bins) hlt (myBin_inBin c _), fun b => ?_⟩
  rw [inBin_iff, eq_comm]

/-! ## Sums -/

theorem spectrum_eq (c : Cfg) (p : Phys K) (s : SType) (a : Arr) (P : Nat × Nat × Nat → K) (j : Nat) :
    spectrum c p s a P j = ∑ y ∈ range c.Ly, ∑ z ∈ range c.Tz, ∑ x ∈ range c.Ly,
      (if InBin c (sq (freqs c (x, y, z))) j then share p s a (freqs c (x, y, z)) (P (x, y, z))
        else 0) := by
  rw [spectrum, lattice, sum_filter, sum_product, sum_comm' (t' := range c.Ly ×ˢ range c.Tz)
    (s' := fun _ => range c.Ly) (by simp), sum_product]

/-- The sums of all ranks, before they are put together, add up to the spectrum. -/
theorem parts {c : Cfg} (h : c.Ok) (p : Phys K) (s : SType) {amp : Nat → Nat → K}
    {P : Nat × Nat × Nat → K} (hP : Holds c amp P) (hsym : ∀ q ∈ lattice c, P (opposite c q) = P q)
    (a : Arr) (j : Nat) :
    (∑ r ∈ range c.ranks, if used s a then ∑ i ∈ range c.modes,
        (if myBin c (sq (mode c r i)) = j then
          amount p s a (mode c r i) (weight c (mode c r i) (modulus s (amp r i))) * factor p s
          else 0) else 0) = spectrum c p s a P j := by
  have hLx : c.Lx - 1 = c.Ly / 2 := rfl
  have fx : ∀ x, x < c.Lx → freq c.Ly x = x := by
    intro x hx; unfold freq; rw [if_pos (by unfold Cfg.Lx at hx; omega)]
  have hLxLy : ∀ x, x < c.Lx → x < c.Ly := by
    intro x hx; have := h.even; have := h.len; unfold Cfg.Lx at hx; omega
  cases hu : used s a
  · simp only [Bool.false_eq_true, if_false, sum_const_zero]
    rw [spectrum]
    exact (sum_eq_zero fun q _ => share_unused p s a _ _ hu).symm
  simp only [if_true]
  rw [rank_sum h _ (fun x y z => if x = 0 ∨ x = c.Lx - 1 then
    (if InBin c (sq (freqs c (x, y, z))) j then share p s a (freqs c (x, y, z)) (P (x, y, z)) else 0)
    else 2 * (if InBin c (sq (freqs c (x, y, z))) j then share p s a (freqs c (x, y, z)) (P (x, y, z))
      else 0)) ?_, spectrum_eq]
  · refine half_full h (fun x y z => if InBin c (sq (freqs c (x, y, z))) j then
      share p s a (freqs c (x, y, z)) (P (x, y, z)) else 0) ?_
    intro x y z hx hy hz
    have f1 := freq_opp hx
    have f2 := freq_opp hy
    have f3 := freq_opp hz
    have e : sq (freqs c ((c.Ly - x) % c.Ly, (c.Ly - y) % c.Ly, (c.Tz - z) % c.Tz)) =
        sq (freqs c (x, y, z)) := by
      rw [sq_natAbs, sq_natAbs]; dsimp only [freqs]; rw [f1.2, f2.2, f3.2]
    rw [e]
    have hq := hsym (x, y, z) (by simp [lattice, hx, hy, hz])
    dsimp only [opposite] at hq
    rw [hq, share_abs p s a (l := freqs c (x, y, z)) _ f1.2 f2.2 f3.2]
  · intro r x y z hr hx hy hz
    have hm : mode c r ((y * c.Tz + z) * c.Lx + x) =
        freqs c (x, y + c.Ly / c.ranks * r, z) := by
      rw [mode_eq hx hz, freqs]; dsimp only; rw [fx x hx]
    have hx1 : (freqs c (x, y + c.Ly / c.ranks * r, z)).1 = (x : Int) := by
      dsimp only [freqs]; exact fx x hx
    rw [hm, ← hP r x y z hr hx hy hz, ← amount_share]
    simp only [← inBin_iff, weight, hx1]
    have c1 : ((x : Int) = 0 ∨ (x : Int) = (c.Lx - 1 : Nat)) ↔ (x = 0 ∨ x = c.Lx - 1) := by omega
    simp only [c1]
    by_cases hb : x = 0 ∨ x = c.Lx - 1
    · simp only [if_pos hb]
    · simp only [if_neg hb]
      rw [mul_assoc 2, amount_two]
      split
      · ring
      · ring

/-- All ranks: what each of them has before the reduction, and after. -/
theorem fillBins_eq {c : Cfg} (h : c.Ok) (p : Phys K) (s : SType) {amp : Nat → Nat → K}
    {P : Nat × Nat × Nat → K} (hP : Holds c amp P) (hsym : ∀ q ∈ lattice c, P (opposite c q) = P q)
    {order : Nat → List (Nat × Nat)} (ho : ∀ r, r < c.ranks → Order c (order r)) (old : Nat → Bins K) :
    ∃ (t part : Nat → Bins K), fillBins c p s amp order old = some t ∧
      (∀ a j, j < c.nbins → ∑ r ∈ range c.ranks, part r a j = spectrum c p s a P j) ∧
      (∀ r a j, used s a = false → part r a j = 0) ∧
      ∀ r a j, r < c.ranks → j < c.nbins → t r a j =
        if used s a ∧ reduced s then ∑ q ∈ range c.ranks, (start s (old q) a j + part q a j)
        else start s (old r) a j + part r a j := by
  have hrank : ∀ r, r < c.ranks → _ := fun r hr => fillRank_eq c p s r (amp r) (ho r hr)
    (fun i hi => (C26_bin h hr hi).1) (old r)
  choose! g hg1 hg2 using hrank
  refine ⟨fun r a j => if used s a ∧ reduced s then
      (((List.range c.ranks).map g).map fun b => b a j).sum
      else match ((List.range c.ranks).map g)[r]? with
      | some b => b a j
      | none => old r a j, fun r a j => if used s a then ∑ i ∈ range c.modes,
        (if myBin c (sq (mode c r i)) = j then
          amount p s a (mode c r i) (weight c (mode c r i) (modulus s (amp r i))) * factor p s
          else 0) else 0, ?_, fun a j _ => parts h p s hP hsym a j,
      fun r a j hu => by simp [hu], ?_⟩
  · rw [fillBins, mapM_some _ g _ fun r hr => hg1 r (List.mem_range.mp hr)]
    rfl
  · intro r a j hr hj
    beta_reduce
    split
    · rw [List.map_map, list_range_sum]
      exact sum_congr rfl fun q hq => hg2 q (mem_range.mp hq) a j hj
    · rw [List.getElem?_map, List.getElem?_range hr]
      exact hg2 r hr a j hj

/-- **C26.**  After `fillBins` every rank has in each bin what all ranks had before plus the sum over
all modes of the whole lattice whose momentum is in the bin; other vectors are not touched.  No
access is outside the vectors.  Any number of ranks that divides the axes, any number of threads, any
schedule. -/
theorem C26_fill {c : Cfg} (h : c.Ok) (p : Phys K) (s : SType) {amp : Nat → Nat → K}
    {P : Nat × Nat × Nat → K} (hP : Holds c amp P) (hsym : ∀ q ∈ lattice c, P (opposite c q) = P q)
    {order : Nat → List (Nat × Nat)} (ho : ∀ r, r < c.ranks → Order c (order r)) (old : Nat → Bins K) :
    ∃ t, fillBins c p s amp order old = some t ∧ ∀ r a j, r < c.ranks → j < c.nbins →
      (used s a = true → s ≠ .GaSadd → s ≠ .NN → s ≠ .AK →
        t r a j = ∑ q ∈ range c.ranks, old q a j + spectrum c p s a P j) ∧
      (s = .NN → a = .NN → t r a j = spectrum c p s a P j) ∧
      (s = .AK → a = .AK → t r a j = spectrum c p s a P j) ∧
      (used s a = false → t r a j = old r a j) := by
  obtain ⟨t, part, h1, h2, h0, h3⟩ := fillBins_eq h p s hP hsym ho old
  refine ⟨t, h1, fun r a j hr hj => ⟨?_, ?_, ?_, ?_⟩⟩
  · intro hu hs1 hs2 hs3
    rw [h3 r a j hr hj, if_pos ⟨hu, by cases s <;> first | rfl | exact absurd rfl hs1⟩,
      sum_add_distrib, h2 a j hj]
    congr 1
    refine sum_congr rfl fun q _ => ?_
    cases s <;> cases a <;> first | rfl | exact absurd rfl hs2 | exact absurd rfl hs3
  · rintro rfl rfl
    rw [h3 r _ j hr hj, if_pos ⟨rfl, rfl⟩, sum_add_distrib, h2 _ j hj]
    simp [start]
  · rintro rfl rfl
    rw [h3 r _ j hr hj, if_pos ⟨rfl, rfl⟩, sum_add_distrib, h2 _ j hj]
    simp [start]
  · intro hu
    rw [h3 r a j hr hj, if_neg (by simp [hu]), h0 r a j hu, add_zero]
    cases s <;> cases a <;> first | rfl | exact absurd hu (by decide)

/-- **C26.**  The gradient: two directions summed on each rank (`GaSadd`), the third one summed and
reduced (`GaS`) give the spectrum of the three directions. -/
theorem C26_gradient {c : Cfg} (h : c.Ok) (p : Nat → Phys K) {amp : Nat → Nat → Nat → K}
    {P : Nat → Nat × Nat × Nat → K} (hP : ∀ d, Holds c (amp d) (P d))
    (hsym : ∀ d, ∀ q ∈ lattice c, P d (opposite c q) = P d q)
    {order : Nat → Nat → List (Nat × Nat)} (ho : ∀ d r, r < c.ranks → Order c (order d r))
    (old : Nat → Bins K) (h0 : ∀ r j, old r .G j = 0) :
    ∃ t0 t1 t2, fillBins c (p 0) .GaSadd (amp 0) (order 0) old = some t0 ∧
      fillBins c (p 1) .GaSadd (amp 1) (order 1) t0 = some t1 ∧
      fillBins c (p 2) .GaS (amp 2) (order 2) t1 = some t2 ∧
      ∀ r j, r < c.ranks → j < c.nbins → t2 r .G j = spectrum c (p 0) .GaSadd .G (P 0) j +
        spectrum c (p 1) .GaSadd .G (P 1) j + spectrum c (p 2) .GaS .G (P 2) j := by
  obtain ⟨t0, q0, a0, b0, _, d0⟩ := fillBins_eq h (p 0) .GaSadd (hP 0) (hsym 0) (ho 0) old
  obtain ⟨t1, q1, a1, b1, _, d1⟩ := fillBins_eq h (p 1) .GaSadd (hP 1) (hsym 1) (ho 1) t0
  obtain ⟨t2, q2, a2, b2, _, d2⟩ := fillBins_eq h (p 2) .GaS (hP 2) (hsym 2) (ho 2) t1
  refine ⟨t0, t1, t2, a0, a1, a2, fun r j hr hj => ?_⟩
  rw [d2 r _ j hr hj, if_pos ⟨rfl, rfl⟩, ← b0 _ j hj, ← b1 _ j hj, ← b2 _ j hj,
    ← sum_add_distrib, ← sum_add_distrib]
  refine sum_congr rfl fun q hq => ?_
  have hq := mem_range.mp hq
  show t1 q .G j + _ = _
  rw [d1 q _ j hq hj, if_neg (by simp [reduced])]
  show t0 q .G j + _ + _ = _
  rw [d0 q _ j hq hj, if_neg (by simp [reduced])]
  show old q .G j + _ + _ + _ = _
  rw [h0, zero_add]

/-- Number of modes of the lattice in a bin. -/
def modesIn (c : Cfg) (j : Nat) : Nat := (lattice c |>.filter fun q => InBin c (sq (freqs c q)) j).card

/-- **C26.**  The number of modes in a bin is the number of points of the lattice of modes in it,
whatever the vectors held before and whatever is in the memory of the transform. -/
theorem C26_count {c : Cfg} (h : c.Ok) (p : Phys K) (amp : Nat → Nat → K)
    {order : Nat → List (Nat × Nat)} (ho : ∀ r, r < c.ranks → Order c (order r)) (old : Nat → Bins K) :
    ∃ t, fillBins c p .NN amp order old = some t ∧ ∀ r j, r < c.ranks → j < c.nbins →
      t r .NN j = (modesIn c j : K) := by
  have key : fillBins c p .NN amp order old = fillBins c p .NN (fun _ _ => 1) order old := by
    unfold fillBins fillRank fillOne; rfl
  obtain ⟨t, h1, h2⟩ := C26_fill h p .NN (amp := fun _ _ => 1) (P := fun _ => 1)
    (by intro r x y z _ _ _ _; rw [one_mul]) (fun _ _ => rfl) ho old
  refine ⟨t, key.trans h1, fun r j hr hj => ?_⟩
  rw [(h2 r .NN j hr hj).2.1 rfl rfl, spectrum]
  simp only [share, sum_const, nsmul_eq_mul, mul_one]
  rfl

/-- **C26.**  The numbers of modes of all bins add up to the number of sites. -/
theorem C26_total {c : Cfg} (h : c.Ok) :
    ∑ j ∈ range c.nbins, modesIn c j = c.Ly * c.Ly * c.Tz := by
  have e : (lattice c).card = c.Ly * c.Ly * c.Tz := by
    rw [lattice, card_product, card_product, card_range, card_range]; ring
  rw [← e, card_eq_sum_card_fiberwise (f := fun q => myBin c (sq (freqs c q))) (t := range c.nbins)]
  · refine sum_congr rfl fun j _ => ?_
    unfold modesIn
    simp only [inBin_iff]
  · intro q hq
    have hq : q ∈ lattice c := hq
    simp only [lattice, mem_product, mem_range] at hq
    refine mem_coe.mpr (mem_range.mpr (inBin_lt (nbins_pos h.bins) (sq_lt c ?_ ?_ ?_)
      (myBin_inBin c _)))
    · exact freq_bound hq.1
    · exact freq_bound hq.2.1
    · exact freq_bound hq.2.2

/-! ## Findings -/

/-- **C26, finding.**  A second run into the same vector without clearing it does not overwrite and
does not add: the first result is multiplied by the number of ranks.  `nRun` with both `NRUN_K` and
`NRUN_CK` does this (`spectrum.cpp:1102-1145`, "overwrites K!"). -/
theorem C26_twice {c : Cfg} (h : c.Ok) (p : Phys K) {amp amp' : Nat → Nat → K}
    {P P' : Nat × Nat × Nat → K} (hP : Holds c amp P) (hP' : Holds c amp' P')
    (hsym : ∀ q ∈ lattice c, P (opposite c q) = P q)
    (hsym' : ∀ q ∈ lattice c, P' (opposite c q) = P' q)
    {order order' : Nat → List (Nat × Nat)} (ho : ∀ r, r < c.ranks → Order c (order r))
    (ho' : ∀ r, r < c.ranks → Order c (order' r)) :
    ∃ t t', fillBins c p .KK amp order (fun _ _ _ => 0) = some t ∧
      fillBins c p .KK amp' order' t = some t' ∧ ∀ r j, r < c.ranks → j < c.nbins →
        t' r .K j = c.ranks * spectrum c p .KK .K P j + spectrum c p .KK .K P' j := by
  obtain ⟨t, a1, a2⟩ := C26_fill h p .KK hP hsym ho fun _ _ _ => 0
  obtain ⟨t', b1, b2⟩ := C26_fill h p .KK hP' hsym' ho' t
  refine ⟨t, t', a1, b1, fun r j hr hj => ?_⟩
  rw [(b2 r .K j hr hj).1 rfl (by decide) (by decide) (by decide)]
  congr 1
  rw [sum_congr rfl fun q hq => by
    rw [(a2 q .K j (mem_range.mp hq) hj).1 rfl (by decide) (by decide) (by decide)]]
  simp

/-- **C26, finding.**  A run of type `SPECTRUM_V` multiplies what is in the gradient vector by the
number of ranks. -/
theorem C26_potential_gradient {c : Cfg} (h : c.Ok) (p : Phys K) {amp : Nat → Nat → K}
    {P : Nat × Nat × Nat → K} (hP : Holds c amp P) (hsym : ∀ q ∈ lattice c, P (opposite c q) = P q)
    {order : Nat → List (Nat × Nat)} (ho : ∀ r, r < c.ranks → Order c (order r)) (G : Nat → K)
    (old : Nat → Bins K) (hold : ∀ r j, old r .G j = G j) :
    ∃ t, fillBins c p .V amp order old = some t ∧ ∀ r j, r < c.ranks → j < c.nbins →
      t r .G j = c.ranks * G j := by
  obtain ⟨t, a1, a2⟩ := C26_fill h p .V hP hsym ho old
  refine ⟨t, a1, fun r j hr hj => ?_⟩
  rw [(a2 r .G j hr hj).1 rfl (by decide) (by decide) (by decide), spectrum]
  simp [share, hold]

/-- **C26, finding.**  With `--nbinsspec 0` the first mode is outside the vectors: `at` throws. -/
theorem C26_no_bins {c : Cfg} (h : c.nbinsspec = 0) (p : Phys K) (s : SType) (amp : Nat → Nat → K)
    (order : Nat → List (Nat × Nat)) (hr : 0 < c.ranks) (ho : order 0 ≠ []) (old : Nat → Bins K) :
    fillBins c p s amp order old = none := by
  have hn : c.nbins = 0 := by unfold Cfg.nbins; rw [h]; rfl
  have hb : ∀ k2, myBin c k2 = 0 := by intro k2; unfold myBin; rw [h]; simp
  obtain ⟨i, l, hl⟩ := List.exists_cons_of_ne_nil ho
  have hone : ∀ t : Bins K, fillOne c p s 0 (amp 0) t i = none := by
    intro t
    unfold fillOne
    simp only [hb, hn, Nat.not_lt_zero, gt_iff_lt, if_false]
    have : ∀ (a : Arr) (k : Nat) (x : K) (t : Bins K), addAt c s t a k x = none := by
      intro a k x t; unfold addAt; rw [if_neg]; rw [hn]; simp
    cases s <;> simp [terms, this]
  have h0 : fillRank c p s 0 (amp 0) (order 0) (old 0) = none := by
    rw [fillRank, hl, List.foldlM_cons, hone]; rfl
  obtain ⟨n, hn'⟩ : ∃ n, c.ranks = n + 1 := ⟨c.ranks - 1, by omega⟩
  rw [fillBins, hn', List.range_succ_eq_map, List.mapM_cons, h0]
  rfl

/-- **C26, finding.**  On an axis of odd length the last plane is not its own opposite, but the code
counts it once: a line of modes counts `Ly - 1` instead of `Ly`. -/
theorem C26_odd {c : Cfg} (h : c.Ly % 2 = 1) (h3 : 3 ≤ c.Ly) (ky kz : Int) :
    ∑ x ∈ range c.Lx, weight c ((x : Int), ky, kz) (1 : K) = (c.Ly : K) - 1 := by
  obtain ⟨m, hm⟩ : ∃ m, c.Ly = 2 * m + 1 := ⟨c.Ly / 2, by omega⟩
  have hLx : c.Lx = m + 1 := by unfold Cfg.Lx; omega
  have := sum_half (fun _ => (1 : K)) m (by omega)
  rw [hLx]
  rw [sum_congr rfl fun x _ => by
    show _ = if x = 0 ∨ x = m then (1 : K) else 2 * 1
    unfold weight
    rw [hLx]
    have e : ((x : Int) = 0 ∨ (x : Int) = (m + 1 - 1 : Nat)) ↔ (x = 0 ∨ x = m) := by omega
    simp only [e, mul_one]]
  rw [this, hm]
  simp only [sum_const, card_range, nsmul_eq_mul, mul_one]
  rw [Nat.cast_sub (by omega)]
  push_cast
  ring

/-- The right number, on an even axis. -/
theorem C26_even {c : Cfg} (h : c.Ly % 2 = 0) (h2 : 2 ≤ c.Ly) (ky kz : Int) :
    ∑ x ∈ range c.Lx, weight c ((x : Int), ky, kz) (1 : K) = (c.Ly : K) := by
  obtain ⟨m, hm⟩ : ∃ m, c.Ly = 2 * m := ⟨c.Ly / 2, by omega⟩
  have hLx : c.Lx = m + 1 := by unfold Cfg.Lx; omega
  have := sum_half (fun _ => (1 : K)) m (by omega)
  rw [hLx]
  rw [sum_congr rfl fun x _ => by
    show _ = if x = 0 ∨ x = m then (1 : K) else 2 * 1
    unfold weight
    rw [hLx]
    have e : ((x : Int) = 0 ∨ (x : Int) = (m + 1 - 1 : Nat)) ↔ (x = 0 ∨ x = m) := by omega
    simp only [e, mul_one]]
  rw [this, hm]
  simp only [sum_const, card_range, nsmul_eq_mul, mul_one]
  rw [Nat.cast_sub (by omega)]
  push_cast
  ring

/-! ## A case -/

/-- A grid of `8 × 8 × 12` on two ranks with three threads and ten bins. -/
def small : Cfg := ⟨8, 12, 2, 3, 10⟩

theorem small_ok : small.Ok := ⟨by decide, by decide, by decide, by decide, by decide, by decide,
  by decide, by decide⟩

/-- Modes in turn to the threads, backwards. -/
def smallOrder : List (Nat × Nat) := (List.range small.modes).reverse.map fun i => (i, i % 3)

theorem smallOrder_ok : Order small smallOrder := by
  constructor
  · rw [smallOrder, List.map_map]
    have : (Prod.fst ∘ fun i : Nat => (i, i % 3)) = id := rfl
    rw [this, List.map_id]
    exact List.reverse_perm _
  · intro i hi
    simp only [smallOrder, List.mem_map] at hi
    obtain ⟨k, _, rfl⟩ := hi
    exact Nat.mod_lt _ (by decide)

/-- Moduli 1 in all modes of the planes `ky = 0` (index) and 0 elsewhere. -/
example : Holds (K := ℚ) small (fun r i => if r = 0 ∧ i / small.Lx / small.Tz = 0 then 1 else 0)
    (fun q => if q.2.1 = 0 then 1 else 0) := by
  intro r x y z hr hx hy hz
  beta_reduce
  rw [div_of hx, div_of hz]
  have : (y + small.Ly / small.ranks * r = 0) ↔ (r = 0 ∧ y = 0) := by
    show (y + 4 * r = 0) ↔ _
    omega
  simp only [this]
  split <;> norm_num

example : ∀ q ∈ lattice small, (fun q : Nat × Nat × Nat => if q.2.1 = 0 then (1 : ℚ) else 0)
    (opposite small q) = (fun q : Nat × Nat × Nat => if q.2.1 = 0 then (1 : ℚ) else 0) q := by
  intro q hq
  simp only [lattice, mem_product, mem_range] at hq
  have : (small.Ly - q.2.1) % small.Ly = 0 ↔ q.2.1 = 0 := by
    have : small.Ly = 8 := rfl
    rw [this] at hq ⊢
    omega
  simp [opposite, this]

example : ∃ t, fillBins small (⟨1, 1, 1, 1, fun _ => 1, 0⟩ : Phys ℚ) .NN (fun _ _ => 5)
    (fun _ => smallOrder) (fun _ _ _ => 7) = some t ∧ ∀ r j, r < 2 → j < 10 →
      t r .NN j = (modesIn small j : ℚ) :=
  C26_count small_ok _ _ (fun _ _ => smallOrder_ok) _

end Spectrum
end Jaxions
