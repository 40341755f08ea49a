import Verif.Lemmas.StringLength
import Mathlib.Analysis.SpecialFunctions.Pow.Deriv
import Mathlib.Tactic.FieldSimp
import Mathlib.Tactic.Linarith
import Mathlib.Tactic.LinearCombination
import Mathlib.Tactic.Positivity

/-!
# C75: the speed of strings
-/

namespace Jaxions
namespace StrLen

open Winding

/-! ## Specification -/

/-- The factor of a speed. -/
noncomputable def lorentz (b : ℝ) : ℝ := 1 / √(1 - b ^ 2)

/-- The average over plaquettes of speeds `bs`, each counted with its factor. -/
noncomputable def weighted (f : ℝ → ℝ) (bs : List ℝ) : ℝ :=
  (bs.map fun b => lorentz b * f b).sum / (bs.map lorentz).sum

/-! ## Sums -/

theorem foldl_add (l : List ℝ) (s : Speed) :
    l.foldl Speed.add s =
      ⟨s.gamma + (l.map fun q => √(1 + q)).sum, s.gamma2 + (l.map fun q => 1 + q).sum,
        s.vel + (l.map fun q => √(1 + q) * √(q / (1 + q))).sum,
        s.vel2 + (l.map fun q => √(1 + q) * q / (1 + q)).sum⟩ := by
  induction l generalizing s with
  | nil => simp
  | cons q l ih =>
    rw [List.foldl_cons, ih]
    simp only [Speed.add, List.map_cons, List.sum_cons, add_assoc]

theorem sum_ranks (f : ℝ → ℝ) (ls : List (List ℝ)) :
    (ls.map fun l => (l.map f).sum).sum = (ls.flatten.map f).sum := by
  induction ls with
  | nil => rfl
  | cons l ls ih => simp [ih]

/-- What `strDeng`, `strVel`, `strVel2` and `strGam` are, for the averages of the pierced plaquettes of
all ranks. -/
theorem total_eq (ls : List (List ℝ)) :
    totalSpeed (ls.map fun l => l.foldl Speed.add ⟨0, 0, 0, 0⟩) =
      let q := ls.flatten
      { strDeng := (q.map fun q => √(1 + q)).sum
        strVel := quo (q.map fun q => √(1 + q) * √(q / (1 + q))).sum (q.map fun q => √(1 + q)).sum
        strVel2 := quo (q.map fun q => √(1 + q) * q / (1 + q)).sum (q.map fun q => √(1 + q)).sum
        strGam := quo (q.map fun q => 1 + q).sum (q.map fun q => √(1 + q)).sum } := by
  simp only [totalSpeed, foldl_add, zero_add, List.map_map, Function.comp_def, sum_ranks]

/-! ## Plaquettes -/

theorem lorentz_pos {b : ℝ} (h0 : 0 ≤ b) (h1 : b < 1) : 1 ≤ lorentz b := by
  have : 0 < 1 - b ^ 2 := by nlinarith
  rw [lorentz, le_div_iff₀ (Real.sqrt_pos.mpr this), one_mul, Real.sqrt_le_iff]
  exact ⟨one_pos.le, by nlinarith⟩

/-- **C75, speed of a plaquette.**  If the average is the one of the speed `b`, `γ² b²`, the sums of
the code get `γ`, `γ²`, `γ b` and `γ b²`. -/
theorem C75_plaquette (s : Speed) {b : ℝ} (h0 : 0 ≤ b) (h1 : b < 1) :
    s.add (lorentz b ^ 2 * b ^ 2) =
      ⟨s.gamma + lorentz b, s.gamma2 + lorentz b ^ 2, s.vel + lorentz b * b,
        s.vel2 + lorentz b * b ^ 2⟩ := by
  have hp : 0 < 1 - b ^ 2 := by nlinarith
  have hg : 0 < lorentz b := lt_of_lt_of_le one_pos (lorentz_pos h0 h1)
  have h2 : lorentz b ^ 2 = 1 / (1 - b ^ 2) := by
    rw [lorentz, div_pow, one_pow, Real.sq_sqrt hp.le]
  have e1 : 1 + lorentz b ^ 2 * b ^ 2 = lorentz b ^ 2 := by
    rw [h2]; field_simp; ring
  have e3 : lorentz b ^ 2 * b ^ 2 / lorentz b ^ 2 = b ^ 2 := by field_simp
  simp only [Speed.add, e1, e3, Real.sqrt_sq h0, Real.sqrt_sq hg.le, mul_div_assoc]

/-- Every average that is not negative is the one of a speed below that of light. -/
theorem speed_of {q : ℝ} (hq : 0 ≤ q) : ∃ b, 0 ≤ b ∧ b < 1 ∧ lorentz b ^ 2 * b ^ 2 = q := by
  have h1 : 0 < 1 + q := by linarith
  have hb : √(q / (1 + q)) ^ 2 = q / (1 + q) := Real.sq_sqrt (by positivity)
  refine ⟨√(q / (1 + q)), Real.sqrt_nonneg _, ?_, ?_⟩
  · rw [Real.sqrt_lt' one_pos, one_pow, div_lt_one h1]; linarith
  · have e : 1 - q / (1 + q) = 1 / (1 + q) := by field_simp; ring
    rw [lorentz, div_pow, one_pow, hb, e, Real.sq_sqrt (by positivity)]
    field_simp

theorem speeds_of {l : List ℝ} (h : ∀ q ∈ l, 0 ≤ q) :
    ∃ bs : List ℝ, (∀ b ∈ bs, 0 ≤ b ∧ b < 1) ∧ l = bs.map fun b => lorentz b ^ 2 * b ^ 2 := by
  induction l with
  | nil => exact ⟨[], by simp, rfl⟩
  | cons q l ih =>
    obtain ⟨bs, hb, e⟩ := ih fun q hq => h q (List.mem_cons_of_mem _ hq)
    obtain ⟨b, b0, b1, e1⟩ := speed_of (h q List.mem_cons_self)
    refine ⟨b :: bs, ?_, by rw [List.map_cons, e1, e]⟩
    intro b' hb'
    rcases List.mem_cons.mp hb' with rfl | hb'
    · exact ⟨b0, b1⟩
    · exact hb b' hb'

theorem total_speeds (bs : List ℝ) (hb : ∀ b ∈ bs, 0 ≤ b ∧ b < 1) (ls : List (List ℝ))
    (hl : ls.flatten = bs.map fun b => lorentz b ^ 2 * b ^ 2) :
    totalSpeed (ls.map fun l => l.foldl Speed.add ⟨0, 0, 0, 0⟩) =
      { strDeng := (bs.map lorentz).sum
        strVel := quo (bs.map fun b => lorentz b * b).sum (bs.map lorentz).sum
        strVel2 := quo (bs.map fun b => lorentz b * b ^ 2).sum (bs.map lorentz).sum
        strGam := quo (bs.map fun b => lorentz b ^ 2).sum (bs.map lorentz).sum } := by
  rw [total_eq, hl]
  have key : ∀ b ∈ bs, √(1 + lorentz b ^ 2 * b ^ 2) = lorentz b ∧
      1 + lorentz b ^ 2 * b ^ 2 = lorentz b ^ 2 ∧
      √(1 + lorentz b ^ 2 * b ^ 2) * √(lorentz b ^ 2 * b ^ 2 / (1 + lorentz b ^ 2 * b ^ 2)) =
        lorentz b * b ∧
      √(1 + lorentz b ^ 2 * b ^ 2) * (lorentz b ^ 2 * b ^ 2) / (1 + lorentz b ^ 2 * b ^ 2) =
        lorentz b * b ^ 2 := by
    intro b h
    have := C75_plaquette ⟨0, 0, 0, 0⟩ (hb b h).1 (hb b h).2
    simpa only [Speed.add, Speed.mk.injEq, zero_add] using this
  simp only [List.map_map, Function.comp_def]
  rw [List.map_congr_left (fun b h => (key b h).1), List.map_congr_left (fun b h => (key b h).2.1),
    List.map_congr_left (fun b h => (key b h).2.2.1), List.map_congr_left (fun b h => (key b h).2.2.2)]

theorem sum_lorentz {bs : List ℝ} (hb : ∀ b ∈ bs, 0 ≤ b ∧ b < 1) :
    (bs.length : ℝ) ≤ (bs.map lorentz).sum := by
  induction bs with
  | nil => simp
  | cons b bs ih =>
    have := ih fun b h => hb b (List.mem_cons_of_mem _ h)
    have := lorentz_pos (hb b List.mem_cons_self).1 (hb b List.mem_cons_self).2
    simp only [List.length_cons, List.map_cons, List.sum_cons]
    push_cast
    linarith

theorem sum_lt {bs : List ℝ} (f g : ℝ → ℝ) (hne : bs ≠ []) (h : ∀ b ∈ bs, f b < g b) :
    (bs.map f).sum < (bs.map g).sum := by
  induction bs with
  | nil => exact absurd rfl hne
  | cons b bs ih =>
    simp only [List.map_cons, List.sum_cons]
    have h1 := h b List.mem_cons_self
    by_cases hb : bs = []
    · subst hb; simpa using h1
    · have := ih hb fun b hb => h b (List.mem_cons_of_mem _ hb)
      linarith

theorem sum_le {bs : List ℝ} (f g : ℝ → ℝ) (h : ∀ b ∈ bs, f b ≤ g b) :
    (bs.map f).sum ≤ (bs.map g).sum := by
  induction bs with
  | nil => simp
  | cons b bs ih =>
    simp only [List.map_cons, List.sum_cons]
    have h1 := h b List.mem_cons_self
    have := ih fun b hb => h b (List.mem_cons_of_mem _ hb)
    linarith

/-! ## The averages stored -/

/-- **C75, what the averages are.**  For averages that are not negative on the plaquettes of the ranks
and at least one plaquette there are speeds of the plaquettes, below that of light, such that
`strDeng` is the sum of their factors and `strVel`, `strVel2` and `strGam` are the averages of the
speed, its square and the factor, each plaquette counted with its factor: no matter how the
plaquettes are shared among the ranks. -/
theorem C75_speed (ls : List (List ℝ)) (h0 : ∀ q ∈ ls.flatten, 0 ≤ q) (hne : ls.flatten ≠ []) :
    ∃ bs : List ℝ, (∀ b ∈ bs, 0 ≤ b ∧ b < 1) ∧
      ls.flatten = bs.map (fun b => lorentz b ^ 2 * b ^ 2) ∧
      totalSpeed (ls.map fun l => l.foldl Speed.add ⟨0, 0, 0, 0⟩) =
        { strDeng := (bs.map lorentz).sum, strVel := some (weighted (fun b => b) bs),
          strVel2 := some (weighted (fun b => b ^ 2) bs), strGam := some (weighted lorentz bs) } := by
  obtain ⟨bs, hb, e⟩ := speeds_of h0
  refine ⟨bs, hb, e, ?_⟩
  have hl : bs ≠ [] := by rintro rfl; exact hne (by simpa using e)
  have hG : (bs.map lorentz).sum ≠ 0 := by
    have h1 := sum_lorentz hb
    have h2 : 0 < (bs.length : ℝ) := by exact_mod_cast List.length_pos_iff.mpr hl
    linarith
  rw [total_speeds bs hb ls e]
  simp only [quo, if_neg hG, weighted, pow_two]

/-- **C75, range of the averages.**  The average speed lies in `[0, 1)`, the average of its square is
at least the square of the average and below 1, the average factor is at least 1, and `strDeng` is at
least the number of pierced plaquettes. -/
theorem C75_speed_range (ls : List (List ℝ)) (h0 : ∀ q ∈ ls.flatten, 0 ≤ q)
    (hne : ls.flatten ≠ []) :
    ∃ v v2 g : ℝ, (totalSpeed (ls.map fun l => l.foldl Speed.add ⟨0, 0, 0, 0⟩)).strVel = some v ∧
      (totalSpeed (ls.map fun l => l.foldl Speed.add ⟨0, 0, 0, 0⟩)).strVel2 = some v2 ∧
      (totalSpeed (ls.map fun l => l.foldl Speed.add ⟨0, 0, 0, 0⟩)).strGam = some g ∧
      0 ≤ v ∧ v < 1 ∧ v ^ 2 ≤ v2 ∧ v2 < 1 ∧ 1 ≤ g ∧
      (ls.flatten.length : ℝ) ≤ (totalSpeed (ls.map fun l => l.foldl Speed.add ⟨0, 0, 0, 0⟩)).strDeng := by
  obtain ⟨bs, hb, e, ht⟩ := C75_speed ls h0 hne
  have hl : bs ≠ [] := by rintro rfl; exact hne (by simpa using e)
  have hG1 := sum_lorentz hb
  have hG : 0 < (bs.map lorentz).sum := by
    have h2 : 0 < (bs.length : ℝ) := by exact_mod_cast List.length_pos_iff.mpr hl
    linarith
  have gp : ∀ b ∈ bs, 0 < lorentz b := fun b h =>
    lt_of_lt_of_le one_pos (lorentz_pos (hb b h).1 (hb b h).2)
  rw [ht]
  refine ⟨_, _, _, rfl, rfl, rfl, ?_, ?_, ?_, ?_, ?_, ?_⟩
  · refine div_nonneg ?_ hG.le
    have := sum_le (bs := bs) (fun _ => 0) (fun b => lorentz b * b)
      fun b h => mul_nonneg (gp b h).le (hb b h).1
    simpa using this
  · rw [weighted, div_lt_one hG]
    exact sum_lt _ _ hl fun b h => by nlinarith [gp b h, (hb b h).2]
  · set v := weighted (fun b => b) bs with hv
    have ev : (bs.map fun b => lorentz b * b).sum = v * (bs.map lorentz).sum := by
      rw [hv, weighted, div_mul_cancel₀ _ hG.ne']
    rw [weighted, le_div_iff₀ hG]
    have k := sum_le (bs := bs) (fun _ => 0) (fun b => lorentz b * (b - v) ^ 2)
      fun b h => mul_nonneg (gp b h).le (sq_nonneg _)
    have k' : (bs.map fun b => lorentz b * (b - v) ^ 2).sum =
        (bs.map fun b => lorentz b * b ^ 2).sum - 2 * v * (bs.map fun b => lorentz b * b).sum +
          v ^ 2 * (bs.map lorentz).sum := by
      clear_value v
      clear * -
      induction bs with
      | nil => simp
      | cons b bs ih =>
        simp only [List.map_cons, List.sum_cons, ih]; ring
    rw [k', ev] at k
    simp only [List.map_const', List.sum_replicate, smul_zero] at k
    linarith
  · rw [weighted, div_lt_one hG]
    refine sum_lt _ _ hl fun b h => ?_
    have := gp b h
    have h2 : b ^ 2 < 1 := by nlinarith [(hb b h).1, (hb b h).2]
    nlinarith
  · rw [weighted, le_div_iff₀ hG, one_mul]
    exact sum_le _ _ fun b h => by nlinarith [gp b h, lorentz_pos (hb b h).1 (hb b h).2]
  · rw [e, List.length_map]; exact hG1

/-- **C75, no strings.**  Without a pierced plaquette the averages are `0/0`. -/
theorem C75_speed_none (ls : List (List ℝ)) (h : ls.flatten = []) :
    totalSpeed (ls.map fun l => l.foldl Speed.add ⟨0, 0, 0, 0⟩) = ⟨0, none, none, none⟩ := by
  rw [total_eq, h]; simp [quo]

/-! ## The averages of the code -/

theorem cst_pos : 0 < cst := by norm_num [cst]

theorem absSq_nonneg (z : Cx ℝ) : 0 ≤ absSq z :=
  add_nonneg (mul_self_nonneg _) (mul_self_nonneg _)

theorem g2v2_nonneg {mssq : ℝ} (hm : 0 < mssq) (R Hc : ℝ) (m v : Cx ℝ) : 0 ≤ g2v2 mssq R Hc m v := by
  have := cst_pos
  have n := absSq_nonneg
  unfold g2v2
  simp only
  have n1 := n (dphi R Hc m v)
  have n2 := n (phi R m)
  have n3 := n ⟨2 * ((phi R m).re * (dphi R Hc m v).re + (phi R m).im * (dphi R Hc m v).im), 0⟩
  positivity

/-- **C75, the averages of the code.**  With a positive mass of the saxion they are never negative, so
`C75_speed` and `C75_speed_range` hold for the ranks of the code. -/
theorem C75_speed_code {mssq : ℝ} (hm : 0 < mssq) (R Hc : ℝ) (ma va : ℕ → ℕ → Cx ℝ)
    (sd : ℕ → ℕ → ℕ) (Lx Lz n : ℕ) :
    ((List.range n).map fun r => rankSpeed mssq R Hc (ma r) (va r) (sd r) Lx Lz) =
      (((List.range n).map fun r => rankQ mssq R Hc (ma r) (va r) (sd r) Lx Lz).map
        fun l => l.foldl Speed.add ⟨0, 0, 0, 0⟩) ∧
    ∀ q ∈ ((List.range n).map fun r => rankQ mssq R Hc (ma r) (va r) (sd r) Lx Lz).flatten, 0 ≤ q := by
  constructor
  · rw [List.map_map]; rfl
  · intro q hq
    obtain ⟨l, hl, hq⟩ := List.mem_flatten.mp hq
    obtain ⟨r, -, rfl⟩ := List.mem_map.mp hl
    obtain ⟨p, -, rfl⟩ := List.mem_map.mp hq
    have k := fun i => g2v2_nonneg hm R Hc (ma r i) (va r i)
    unfold plaqQ
    have := k p.1; have := k p.2.1; have := k p.2.2.1; have := k p.2.2.2
    simp only
    linarith

/-- A case: one plaquette at `γ² v² = 1/3`, the speed being one half. -/
example : ∃ v v2 g : ℝ, (totalSpeed ([[], [1 / 3]].map fun l => l.foldl Speed.add ⟨0, 0, 0, 0⟩)).strVel
    = some v ∧ (totalSpeed ([[], [1 / 3]].map fun l => l.foldl Speed.add ⟨0, 0, 0, 0⟩)).strVel2 = some v2 ∧
    (totalSpeed ([[], [1 / 3]].map fun l => l.foldl Speed.add ⟨0, 0, 0, 0⟩)).strGam = some g ∧
    0 ≤ v ∧ v < 1 ∧ v ^ 2 ≤ v2 ∧ v2 < 1 ∧ 1 ≤ g := by
  obtain ⟨v, v2, g, h1, h2, h3, h4, h5, h6, h7, h8, -⟩ :=
    C75_speed_range [[], [1 / 3]] (by norm_num) (by simp)
  exact ⟨v, v2, g, h1, h2, h3, h4, h5, h6, h7, h8⟩

/-! ## Plaquettes of the lattice -/

theorem map_if {α β : Type} {c : Bool} {d : Prop} [Decidable d] (h : c = true ↔ d) (a : α) (f : α → β) :
    (if c then [a] else []).map f = if d then [f a] else [] := by
  by_cases hd : d
  · rw [if_pos hd, if_pos (h.mpr hd)]; rfl
  · rw [if_neg hd, if_neg (fun k => hd (h.mp k))]; rfl

/-- **C75, plaquettes.**  If the slice above is there for the field and for the velocities, the averages
the code takes in a cell are those over the four corners of each of its pierced plaquettes. -/
theorem C75_plaqs {mssq R Hc : ℝ} {Lx Lz r : ℕ} {ma va : ℕ → Cx ℝ} {sd : ℕ → ℕ} {φ u : Lat ℝ}
    (hm : Holds Lx Lz r ma φ) (hv : Holds Lx Lz r va u) (hs : MapOf Lx Lz r sd φ) (hc : Closed Lx φ)
    (hu : Closed Lx u) {ix iy iz : ℕ} (hx : ix < Lx) (hy : iy < Lx) (hz : iz < Lz) :
    let f := fun x y z => g2v2 mssq R Hc (φ x y z) (u x y z)
    let z : ℤ := (r * Lz + iz : ℕ)
    (plaqs sd Lx ix iy iz).map (plaqQ mssq R Hc ma va) =
      (if xy stringHand φ ix iy z ≠ 0 then
        [(f ix iy z + f (ix + 1) iy z + f ix (iy + 1) z + f (ix + 1) (iy + 1) z) / 4] else []) ++
      (if yz stringHand φ ix iy z ≠ 0 then
        [(f ix iy z + f ix (iy + 1) z + f ix iy (z + 1) + f ix (iy + 1) (z + 1)) / 4] else []) ++
      (if zx stringHand φ ix iy z ≠ 0 then
        [(f ix iy z + f ix iy (z + 1) + f (ix + 1) iy z + f (ix + 1) iy (z + 1)) / 4] else []) := by
  obtain ⟨c1, c2, c3, c4, c5, c6, c7, c8⟩ := corners hm hc hx hy hz
  obtain ⟨d1, d2, d3, d4, d5, d6, d7, d8⟩ := corners hv hu hx hy hz
  obtain ⟨b1, b2, b3, -⟩ := bits hs hc hx hy hz
  intro f z
  unfold plaqs
  simp only [List.map_append]
  rw [map_if (bne_iff_ne.trans b1), map_if (bne_iff_ne.trans b2), map_if (bne_iff_ne.trans b3)]
  simp only [plaqQ, c1, c2, c3, c4, c5, c6, c7, d1, d2, d3, d4, d5, d6, d7]
  rfl

/-! ## Expansion -/

/-- **C75, units.**  In terms of the field `φ` and its rate `d` the expansion drops out: the code's field
is `R φ` and its velocity `R (R d) + Hc (R φ)`. -/
theorem C75_physical {R : ℝ} (hR : R ≠ 0) (mssq Hc : ℝ) (φ d : Cx ℝ) :
    g2v2 mssq R Hc ⟨R * φ.re, R * φ.im⟩
      ⟨R * (R * d.re) + Hc * (R * φ.re), R * (R * d.im) + Hc * (R * φ.im)⟩ = g2v2 mssq 1 0 φ d := by
  have e1 : phi R ⟨R * φ.re, R * φ.im⟩ = phi 1 φ := by
    unfold phi; simp [hR]
  have e2 : dphi R Hc ⟨R * φ.re, R * φ.im⟩
      ⟨R * (R * d.re) + Hc * (R * φ.re), R * (R * d.im) + Hc * (R * φ.im)⟩ = dphi 1 0 φ d := by
    unfold dphi
    have : ∀ a b : ℝ, (R * (R * a) + Hc * (R * b) - Hc * (R * b)) / (R * R) = a := by
      intro a b; field_simp; ring
    simp only [this]
    simp
  unfold g2v2
  rw [e1, e2]

/-- **C75, at rest.**  A field that does not move but for the expansion, `m = R φ`, `v = R' φ`, is found
at rest if the code is given `R'/R`. -/
theorem C75_rest {R R' : ℝ} (hR : R ≠ 0) (mssq : ℝ) (φ : Cx ℝ) :
    g2v2 mssq R (R' / R) ⟨R * φ.re, R * φ.im⟩ ⟨R' * φ.re, R' * φ.im⟩ = 0 := by
  have e : dphi R (R' / R) ⟨R * φ.re, R * φ.im⟩ ⟨R' * φ.re, R' * φ.im⟩ = ⟨0, 0⟩ := by
    unfold dphi
    have h1 : ∀ x : ℝ, R' * x - R' / R * (R * x) = 0 := by intro x; field_simp; ring
    simp only [h1, zero_div]
  simp [g2v2, e, absSq]

/-- With anything else it is found moving. -/
theorem rest_other {R R' Hc mssq : ℝ} (hR : R ≠ 0) (hm : 0 < mssq) (hH : Hc * R ≠ R') {φ : Cx ℝ}
    (hφ : φ.re ≠ 0 ∨ φ.im ≠ 0) :
    0 < g2v2 mssq R Hc ⟨R * φ.re, R * φ.im⟩ ⟨R' * φ.re, R' * φ.im⟩ := by
  have hc := cst_pos
  have hk : R' - Hc * R ≠ 0 := fun h => hH (by linarith)
  have e : ∀ x : ℝ, R' * x - Hc * (R * x) = (R' - Hc * R) * x := by intro x; ring
  have hd : 0 < absSq (dphi R Hc ⟨R * φ.re, R * φ.im⟩ ⟨R' * φ.re, R' * φ.im⟩) := by
    simp only [absSq, dphi, e]
    have s : ∀ x : ℝ, 0 ≤ (R' - Hc * R) * x / (R * R) * ((R' - Hc * R) * x / (R * R)) :=
      fun x => mul_self_nonneg _
    have p : ∀ x : ℝ, x ≠ 0 → 0 < (R' - Hc * R) * x / (R * R) * ((R' - Hc * R) * x / (R * R)) := by
      intro x hx
      exact mul_self_pos.mpr (div_ne_zero (mul_ne_zero hk hx) (mul_ne_zero hR hR))
    rcases hφ with h | h
    · exact add_pos_of_pos_of_nonneg (p _ h) (s _)
    · exact add_pos_of_nonneg_of_pos (s _) (p _ h)
  unfold g2v2
  simp only
  refine add_pos_of_pos_of_nonneg ?_ (div_nonneg (absSq_nonneg _) (by positivity))
  have := absSq_nonneg (phi R ⟨R * φ.re, R * φ.im⟩)
  positivity

/-- **C75, what is given.**  For `R = z ^ frw`, `frw ≥ 0`, `HubbleConformal` is `R'/R` exactly if `frw`
is 0 or at least 2. -/
theorem C75_hubble {frw z : ℝ} (hf : 0 ≤ frw) (hz : 0 < z) :
    hubbleConformal frw z = some (deriv (fun z => z ^ frw) z / z ^ frw) ↔ frw = 0 ∨ 2 ≤ frw := by
  have hd : deriv (fun z : ℝ => z ^ frw) z / z ^ frw = frw / z := by
    rw [Real.deriv_rpow_const, Real.rpow_sub_one hz.ne']
    have := (Real.rpow_pos_of_pos hz frw).ne'
    field_simp
  rw [hd, hubbleConformal, trunc, if_pos hf]
  have f0 : ⌊frw⌋ = 0 ∨ ⌊frw⌋ = 1 ↔ frw < 2 := by
    have h0 : 0 ≤ ⌊frw⌋ := Int.floor_nonneg.mpr hf
    have h2 : ⌊frw⌋ < 2 ↔ frw < 2 := by
      rw [Int.floor_lt]; norm_num
    rw [← h2]; omega
  by_cases h : frw < 2
  · rw [if_pos (f0.mpr h), Option.some.injEq]
    constructor
    · intro e
      left
      rcases div_eq_zero_iff.mp e.symm with e | e
      · exact e
      · exact absurd e hz.ne'
    · rintro (rfl | h')
      · rw [zero_div]
      · linarith
  · rw [if_neg (fun k => h (f0.mp k)), quo, if_neg hz.ne']
    exact iff_of_true rfl (Or.inr (not_lt.mp h))

/-- **C75, radiation.**  In the usual case `R = z` a field at rest is found moving wherever it is not
zero. -/
theorem C75_radiation {z mssq : ℝ} (hz : 0 < z) (hm : 0 < mssq) {φ : Cx ℝ} (hφ : φ.re ≠ 0 ∨ φ.im ≠ 0) :
    ∃ Hc, hubbleConformal 1 z = some Hc ∧
      0 < g2v2 mssq z Hc ⟨z * φ.re, z * φ.im⟩ ⟨1 * φ.re, 1 * φ.im⟩ := by
  refine ⟨0, ?_, rest_other hz.ne' hm (by norm_num) hφ⟩
  simp [hubbleConformal, trunc]

/-! ## A moving string -/

/-- The field near the middle of a straight string at rest along `z`, to third order in the distance:
slope `c μ` and the next term that the field equation `∇²φ = (μ²/2) φ (|φ|² - 1)` then requires. -/
noncomputable def core (μ x y : ℝ) : Cx ℝ :=
  ⟨cst * μ * (1 - μ ^ 2 * (x ^ 2 + y ^ 2) / 16) * x, cst * μ * (1 - μ ^ 2 * (x ^ 2 + y ^ 2) / 16) * y⟩

theorem core_deriv (μ x y : ℝ) :
    deriv (fun x => (core μ x y).re) x =
      cst * μ * (1 - μ ^ 2 * (x ^ 2 + y ^ 2) / 16 - μ ^ 2 * x ^ 2 / 8) ∧
    deriv (fun x => (core μ x y).im) x = cst * μ * (-(μ ^ 2 * x * y / 8)) := by
  have h2 : HasDerivAt (fun x : ℝ => 1 - μ ^ 2 * (x ^ 2 + y ^ 2) / 16) (-(μ ^ 2 * (2 * x) / 16)) x := by
    have := (((hasDerivAt_pow 2 x).add_const (y ^ 2)).const_mul (μ ^ 2)).div_const 16
    have := this.const_sub 1
    simpa using this
  constructor
  · have := ((h2.const_mul (cst * μ)).mul (hasDerivAt_id x)).deriv
    have e : (fun x => (core μ x y).re) =
        (fun x => cst * μ * (1 - μ ^ 2 * (x ^ 2 + y ^ 2) / 16)) * id := rfl
    rw [e, this]
    simp only [id]
    ring
  · have := ((h2.const_mul (cst * μ)).mul_const y).deriv
    have e : (fun x => (core μ x y).im) =
        fun x => cst * μ * (1 - μ ^ 2 * (x ^ 2 + y ^ 2) / 16) * y := rfl
    rw [e, this]
    ring

/-- **C75, a moving string.**  Let the string move along `x`, so that the rate of change is `-γ v` times
the derivative of the field at rest.  What the code takes for `γ² v²` at a site is `γ² v²` but for
terms of fourth order in the distance from the middle. -/
theorem C75_moving {μ x y w : ℝ} (hμ : 0 < μ) (hs : μ ^ 2 * (x ^ 2 + y ^ 2) / 16 ≤ 1) :
    |g2v2 (μ ^ 2) 1 0 (core μ x y)
        ⟨-w * deriv (fun x => (core μ x y).re) x, -w * deriv (fun x => (core μ x y).im) x⟩ - w ^ 2| ≤
      93 * w ^ 2 * (μ ^ 2 * (x ^ 2 + y ^ 2) / 16) ^ 2 := by
  have hc := cst_pos
  rw [(core_deriv μ x y).1, (core_deriv μ x y).2]
  set s := μ ^ 2 * (x ^ 2 + y ^ 2) / 16 with hsd
  set t := μ ^ 2 * x ^ 2 / 16 with htd
  have ht0 : 0 ≤ t := by positivity
  have hts : t ≤ s := by
    rw [hsd, htd]
    have := mul_nonneg (sq_nonneg μ) (sq_nonneg y)
    linarith
  have hs0 : 0 ≤ s := ht0.trans hts
  have key : g2v2 (μ ^ 2) 1 0 (core μ x y)
      ⟨-w * (cst * μ * (1 - s - μ ^ 2 * x ^ 2 / 8)), -w * (cst * μ * (-(μ ^ 2 * x * y / 8)))⟩ =
      w ^ 2 * (((1 - s) ^ 2 - 4 * (1 - s) * t + 4 * t * s) * (1 + 2 * (1 - s) ^ 2 * s) +
        4 * (1 - s) ^ 2 * (1 - 3 * s) ^ 2 * t) := by
    have r2 : x ^ 2 + y ^ 2 = 16 * s / μ ^ 2 := by rw [hsd]; field_simp
    have x2 : x ^ 2 = 16 * t / μ ^ 2 := by rw [htd]; field_simp
    have y2 : y ^ 2 = 16 * (s - t) / μ ^ 2 := by
      have : y ^ 2 = 16 * s / μ ^ 2 - x ^ 2 := by linarith
      rw [this, x2]; ring
    have eA : (1 - μ ^ 2 * (x ^ 2 + y ^ 2) / 16 : ℝ) = 1 - s := rfl
    have d1 : absSq (dphi 1 0 (core μ x y)
        ⟨-w * (cst * μ * (1 - s - μ ^ 2 * x ^ 2 / 8)), -w * (cst * μ * (-(μ ^ 2 * x * y / 8)))⟩) =
        w ^ 2 * (cst ^ 2 * μ ^ 2) * ((1 - s) ^ 2 - 4 * (1 - s) * t + 4 * t * s) := by
      have hx8 : μ ^ 2 * x ^ 2 / 8 = 2 * t := by rw [htd]; ring
      have hxy : (μ ^ 2 * x * y / 8) ^ 2 = 4 * t * (s - t) := by
        have : (μ ^ 2 * x * y / 8) ^ 2 = μ ^ 4 / 64 * (x ^ 2 * y ^ 2) := by ring
        rw [this, x2, y2]; field_simp; ring
      simp only [absSq, dphi, hx8]
      have : ∀ a b : ℝ, (-w * (cst * μ * a) - 0 * b) / (1 * 1) * ((-w * (cst * μ * a) - 0 * b) / (1 * 1)) =
          w ^ 2 * (cst ^ 2 * μ ^ 2) * a ^ 2 := by intro a b; ring
      rw [this, this, neg_sq, hxy]
      ring
    have d2 : absSq (phi 1 (core μ x y)) = cst ^ 2 * (1 - s) ^ 2 * (16 * s) := by
      simp only [absSq, phi, core, eA]
      have : cst * μ * (1 - s) * x / 1 * (cst * μ * (1 - s) * x / 1) +
          cst * μ * (1 - s) * y / 1 * (cst * μ * (1 - s) * y / 1) =
          cst ^ 2 * (1 - s) ^ 2 * (μ ^ 2 * (x ^ 2 + y ^ 2)) := by ring
      rw [this, r2]; field_simp
    have d3 : (2 * ((phi 1 (core μ x y)).re * (dphi 1 0 (core μ x y)
          ⟨-w * (cst * μ * (1 - s - μ ^ 2 * x ^ 2 / 8)), -w * (cst * μ * (-(μ ^ 2 * x * y / 8)))⟩).re +
        (phi 1 (core μ x y)).im * (dphi 1 0 (core μ x y)
          ⟨-w * (cst * μ * (1 - s - μ ^ 2 * x ^ 2 / 8)), -w * (cst * μ * (-(μ ^ 2 * x * y / 8)))⟩).im)) =
        -(2 * w * (cst ^ 2 * μ ^ 2) * (1 - s) * (1 - 3 * s) * x) := by
      simp only [phi, dphi, core, eA]
      have : μ ^ 2 * x ^ 2 / 8 * x + μ ^ 2 * x * y / 8 * y = 2 * s * x := by rw [hsd]; ring
      linear_combination 2 * w * (cst ^ 2 * μ ^ 2) * (1 - s) * this
    unfold g2v2
    simp only
    rw [d1, d2]
    simp only [absSq]
    rw [d3]
    have e5 : -(2 * w * (cst ^ 2 * μ ^ 2) * (1 - s) * (1 - 3 * s) * x) *
        -(2 * w * (cst ^ 2 * μ ^ 2) * (1 - s) * (1 - 3 * s) * x) + 0 * 0 =
        4 * w ^ 2 * (cst ^ 4 * μ ^ 4) * (1 - s) ^ 2 * (1 - 3 * s) ^ 2 * x ^ 2 := by ring
    rw [e5, x2]
    field_simp
    ring
  rw [key]
  have eQ : w ^ 2 * (((1 - s) ^ 2 - 4 * (1 - s) * t + 4 * t * s) * (1 + 2 * (1 - s) ^ 2 * s) +
      4 * (1 - s) ^ 2 * (1 - 3 * s) ^ 2 * t) - w ^ 2 =
      w ^ 2 * (s ^ 2 * (-7 + 12 * s - 8 * s ^ 2 + 2 * s ^ 3) +
        t * s * (-32 + 120 * s - 136 * s ^ 2 + 52 * s ^ 3)) := by ring
  rw [eQ, abs_mul, abs_of_nonneg (sq_nonneg w)]
  rw [show 93 * w ^ 2 * s ^ 2 = w ^ 2 * (93 * s ^ 2) by ring]
  refine mul_le_mul_of_nonneg_left ?_ (sq_nonneg w)
  have b1 : |-7 + 12 * s - 8 * s ^ 2 + 2 * s ^ 3| ≤ 29 := by
    rw [abs_le]; constructor <;> nlinarith [mul_nonneg hs0 hs0, mul_nonneg (mul_nonneg hs0 hs0) hs0]
  have b2 : |-32 + 120 * s - 136 * s ^ 2 + 52 * s ^ 3| ≤ 64 := by
    rw [abs_le]; constructor <;> nlinarith [mul_nonneg hs0 hs0, mul_nonneg (mul_nonneg hs0 hs0) hs0]
  calc |s ^ 2 * (-7 + 12 * s - 8 * s ^ 2 + 2 * s ^ 3) +
        t * s * (-32 + 120 * s - 136 * s ^ 2 + 52 * s ^ 3)|
      ≤ s ^ 2 * |-7 + 12 * s - 8 * s ^ 2 + 2 * s ^ 3| +
        t * s * |-32 + 120 * s - 136 * s ^ 2 + 52 * s ^ 3| := by
        refine (abs_add_le _ _).trans ?_
        rw [abs_mul, abs_mul, abs_of_nonneg (sq_nonneg s), abs_of_nonneg (mul_nonneg ht0 hs0)]
    _ ≤ s ^ 2 * 29 + s * s * 64 := by
        refine add_le_add (mul_le_mul_of_nonneg_left b1 (sq_nonneg s)) ?_
        exact mul_le_mul (mul_le_mul_of_nonneg_right hts hs0) b2 (abs_nonneg _) (mul_nonneg hs0 hs0)
    _ = 93 * s ^ 2 := by ring

/-- A case: `γ v = 1` at a hundredth of a core radius. -/
example : |g2v2 (1 ^ 2) 1 0 (core 1 (1 / 100) 0)
    ⟨-1 * deriv (fun x => (core 1 x 0).re) (1 / 100), -1 * deriv (fun x => (core 1 x 0).im) (1 / 100)⟩ -
      1 ^ 2| ≤ 93 * 1 ^ 2 * (1 ^ 2 * ((1 / 100) ^ 2 + 0 ^ 2) / 16) ^ 2 :=
  C75_moving one_pos (by norm_num)

/-! ## Ghosts of the velocity -/

theorem mem_cells {Lx Lz : ℕ} {c : ℕ × ℕ × ℕ} :
    c ∈ cells Lx Lz ↔ c.1 < Lx ∧ c.2.1 < Lx ∧ c.2.2 < Lz := by
  obtain ⟨x, y, z⟩ := c
  simp [cells]
  tauto

theorem of_mem_if {α : Type} {c : Prop} [Decidable c] {a p : α} (h : p ∈ if c then [a] else []) :
    c ∧ p = a := by
  by_cases hc : c
  · rw [if_pos hc] at h; exact ⟨hc, List.mem_singleton.mp h⟩
  · rw [if_neg hc] at h; exact (nomatch h)

/-- **C75, velocities read.**  If no plaquette that reaches the slice above is pierced on the last slice
of a rank, the sums of the rank depend on the velocities of its own slices only. -/
theorem C75_speed_own {mssq R Hc : ℝ} {ma va va' : ℕ → Cx ℝ} {sd : ℕ → ℕ} {Lx Lz : ℕ}
    (hv : ∀ i < Lx * Lx * Lz, va i = va' i)
    (hs : ∀ x < Lx, ∀ y < Lx, sd (x + Lx * y + Lx * Lx * (Lz - 1)) &&& StringMap.YZ = 0 ∧
      sd (x + Lx * y + Lx * Lx * (Lz - 1)) &&& StringMap.ZX = 0) :
    rankSpeed mssq R Hc ma va sd Lx Lz = rankSpeed mssq R Hc ma va' sd Lx Lz := by
  unfold rankSpeed
  congr 1
  unfold rankQ
  refine List.map_congr_left fun p hp => ?_
  obtain ⟨⟨x, y, z⟩, hc, hp⟩ := List.mem_flatMap.mp hp
  obtain ⟨hx, hy, hz⟩ := mem_cells.mp hc
  simp only at hx hy hz hp
  have hL : 0 < Lx := by omega
  have row : ∀ {a b c : ℕ}, a < Lx → b < Lx → c < Lz → a + Lx * b + Lx * Lx * c < Lx * Lx * Lz := by
    intro a b c ha hb hc
    have h1 : Lx * (b + 1) ≤ Lx * Lx := Nat.mul_le_mul_left _ hb
    have h2 : Lx * Lx * (c + 1) ≤ Lx * Lx * Lz := Nat.mul_le_mul_left _ hc
    rw [Nat.mul_add, Nat.mul_one] at h1 h2
    omega
  have hx' : (x + 1) % Lx < Lx := Nat.mod_lt _ hL
  have hy' : (y + 1) % Lx < Lx := Nat.mod_lt _ hL
  have own : p.1 < Lx * Lx * Lz ∧ p.2.1 < Lx * Lx * Lz ∧ p.2.2.1 < Lx * Lx * Lz ∧
      p.2.2.2 < Lx * Lx * Lz := by
    simp only [plaqs, corner, List.mem_append] at hp
    have last : ∀ {M : ℕ}, (sd (x + Lx * y + Lx * Lx * (Lz - 1)) &&& M = 0) →
        (sd (x + Lx * y + Lx * Lx * z) &&& M != 0) = true → z + 1 < Lz := by
      intro M h0 hb
      by_contra hn
      have : z = Lz - 1 := by omega
      rw [this, h0] at hb
      exact absurd hb (by decide)
    rcases hp with (hp | hp) | hp
    · obtain ⟨-, rfl⟩ := of_mem_if hp
      exact ⟨row hx hy hz, row hx' hy hz, row hx hy' hz, row hx' hy' hz⟩
    · obtain ⟨hb, rfl⟩ := of_mem_if hp
      have hz1 := last (hs x hx y hy).1 hb
      exact ⟨row hx hy hz, row hx hy' hz, row hx hy hz1, row hx hy' hz1⟩
    · obtain ⟨hb, rfl⟩ := of_mem_if hp
      have hz1 := last (hs x hx y hy).2 hb
      exact ⟨row hx hy hz, row hx hy hz1, row hx' hy hz, row hx' hy hz1⟩
  simp only [plaqQ, hv _ own.1, hv _ own.2.1, hv _ own.2.2.1, hv _ own.2.2.2]

/-- **C75, ghosts of the velocity.**  In general they do not: two ranks with the same map, the same
field and the same velocities on their slices, one plaquette being pierced, have different sums.  The
code reads the velocities of the slice above, which it does not fetch. -/
theorem C75_speed_ghost : ∃ (ma va va' : ℕ → Cx ℝ) (sd : ℕ → ℕ),
    (∀ i < 2 * 2 * 1, va i = va' i) ∧
    (rankSpeed 1 1 0 ma va sd 2 1).gamma = 1 ∧ 1 < (rankSpeed 1 1 0 ma va' sd 2 1).gamma := by
  have hcells : cells 2 1 = [(0, 0, 0), (1, 0, 0), (0, 1, 0), (1, 1, 0)] := by decide
  have hq : ∀ va : ℕ → Cx ℝ, rankQ 1 1 0 (fun _ => ⟨0, 0⟩) va (fun i => if i = 0 then 2 else 0) 2 1 =
      [plaqQ 1 1 0 (fun _ => ⟨0, 0⟩) va (0, 2, 4, 6)] := by
    intro va
    rw [rankQ, hcells]
    rfl
  refine ⟨fun _ => ⟨0, 0⟩, fun _ => ⟨0, 0⟩, fun i => if i < 4 then ⟨0, 0⟩ else ⟨1, 0⟩,
    fun i => if i = 0 then 2 else 0, ?_, ?_, ?_⟩
  · intro i hi
    simp only
    rw [if_pos (by omega)]
  · rw [rankSpeed, hq]
    norm_num [plaqQ, g2v2, phi, dphi, absSq, Speed.add]
  · rw [rankSpeed, hq]
    simp only [List.foldl_cons, List.foldl_nil, Speed.add, zero_add]
    rw [Real.lt_sqrt (by norm_num)]
    norm_num [plaqQ, g2v2, phi, dphi, absSq, cst]

end StrLen
end Jaxions
