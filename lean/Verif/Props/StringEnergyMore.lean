import Verif.Props.StringEnergy

/-!
# C76: the energy of strings, continued

Number of ranks; boxes that are not cubes; fields without strings; when there is no number; expansion.
-/

namespace Jaxions
namespace StrEn

open Complex Finset StrLen

/-! ## Number of ranks -/

theorem Stored.unique {D D' : Data} {P : Polar} {out : ℤ → ℤ → ℤ → Bool} {h lam : ℝ} {L N : ℕ}
    (a : Stored D P out h lam L N) (b : Stored D' P out h lam L N) : D = D' := by
  obtain ⟨a1, a2, a3, a4, a5, a6, a7, a8⟩ := a
  obtain ⟨b1, b2, b3, b4, b5, b6, b7, b8⟩ := b
  obtain ⟨d1, d2, d3, d4, d5, d6, d7⟩ := D
  obtain ⟨e1, e2, e3, e4, e5, e6, e7⟩ := D'
  dsimp only at *
  subst a1 b1 a6 a7 a8 b6 b7 b8
  by_cases h0 : count L N out = 0
  · obtain ⟨rfl, rfl, rfl⟩ := a5 h0
    obtain ⟨rfl, rfl, rfl⟩ := b5 h0
    rfl
  · rw [a2 h0, a3 h0, a4 h0, b2 h0, b3 h0, b4 h0]

/-- **C76, ranks.**  The numbers are the same however the box is cut into slabs. -/
theorem C76_ranks {E : Env} {P : Polar} {out : ℤ → ℤ → ℤ → Bool} {n n' Lx Lz Lz' : ℕ}
    {ma va ma' va' : ℕ → ℕ → ℂ} {sd sd' : ℕ → ℕ → ℕ} (hL : 0 < Lx) (hR : 0 < E.R)
    (hs : E.s = E.R * P.σ) (hρ : ∀ x y z, 0 < P.ρ x y z) (hc : P.Closed Lx) (hN : n * Lz = n' * Lz')
    (h : ∀ r < n, Rank E P out Lx Lz r (ma r) (va r) (sd r))
    (h' : ∀ r < n', Rank E P out Lx Lz' r (ma' r) (va' r) (sd' r)) :
    stringenergy E n ma va sd Lx Lz = stringenergy E n' ma' va' sd' Lx Lz' :=
  (C76_stored hL hR hs hρ hc h).unique (hN ▸ C76_stored hL hR hs hρ hc h')

/-! ## Boxes that are not cubes -/

/-- The mean over a box. -/
noncomputable def mean (L N : ℕ) (f : ℤ → ℤ → ℤ → ℝ) : ℝ := box L N f / (L * L * N : ℕ)

/-- **C76, boxes.**  The second axion energy is the mean over the box of the squared rate of the angle times
the squared distance exactly if the box is a cube or nothing turns. -/
theorem C76_cube {D : Data} {P : Polar} {out : ℤ → ℤ → ℤ → Bool} {h lam : ℝ} {L N : ℕ} (hL : 0 < L)
    (hN : 0 < N) (a : Stored D P out h lam L N) :
    D.rho_a_Vil = some (mean L N fun x y z => P.ρ x y z ^ 2 * P.dθ x y z ^ 2) ↔
      N = L ∨ box L N (fun x y z => P.ρ x y z ^ 2 * P.dθ x y z ^ 2) = 0 := by
  rw [a.aV, Option.some.injEq, mean]
  generalize box L N _ = b
  have hL' : (L : ℝ) ≠ 0 := by exact_mod_cast hL.ne'
  have hN' : (N : ℝ) ≠ 0 := by exact_mod_cast hN.ne'
  push_cast
  rw [div_eq_div_iff (by positivity) (by positivity)]
  constructor
  · intro e
    by_cases hb : b = 0
    · exact Or.inr hb
    · left
      have : (L : ℝ) * L * (b * (N - L)) = 0 := by linear_combination e
      have := (mul_eq_zero.mp this).resolve_left (mul_ne_zero hL' hL')
      have := (mul_eq_zero.mp this).resolve_left hb
      exact_mod_cast sub_eq_zero.mp this
  · rintro (rfl | rfl)
    · ring
    · simp

theorem box_add (L N : ℕ) (f g : ℤ → ℤ → ℤ → ℝ) :
    box L N (fun x y z => f x y z + g x y z) = box L N f + box L N g := by
  simp only [box, sum_add_distrib]

theorem box_sub (L N : ℕ) (f g : ℤ → ℤ → ℤ → ℝ) :
    box L N (fun x y z => f x y z - g x y z) = box L N f - box L N g := by
  simp only [box, sum_sub_distrib]

theorem box_const (L N : ℕ) (a : ℝ) : box L N (fun _ _ _ => a) = (L * L * N : ℕ) * a := by
  simp only [box, sum_const, card_range, nsmul_eq_mul]; push_cast; ring

theorem count_all (L N : ℕ) : count L N (fun _ _ _ => true) = L * L * N := by
  simp only [count, if_true, sum_const, card_range, smul_eq_mul]; ring

theorem only_all (f : ℤ → ℤ → ℤ → ℝ) : only (fun _ _ _ => true) f = f := by
  funext x y z; simp [only]

/-- The field that turns everywhere at rate one. -/
def turning : Polar := ⟨0, fun _ _ _ => 1, fun _ _ _ => 0, fun _ _ _ => 0, fun _ _ _ => 1⟩

theorem turning_stored (n Lz : ℕ) : Stored (stringenergy ⟨2, 3, 0, 1, 1⟩ n (fun _ _ => 2)
    (fun _ _ => 4 * I + 6) (fun _ _ => 3) 4 Lz) turning (fun _ _ _ => true) (2 * 1) 1 4 (n * Lz) := by
  refine C76_stored (E := ⟨2, 3, 0, 1, 1⟩) (by norm_num) (by norm_num) (by simp [turning])
    (fun _ _ _ => by norm_num [turning]) (fun _ _ _ => ⟨rfl, rfl⟩) (fun r _ => ⟨?_, ?_, ?_⟩)
  · intros; simp [Polar.field, turning]
  · intros; simp [Polar.field, Polar.rate, turning]; norm_num
  · intros; simp [STRING_MASK]

/-- A case: half a cube gives half the axion energy. -/
example : (stringenergy ⟨2, 3, 0, 1, 1⟩ 1 (fun _ _ => 2) (fun _ _ => 4 * I + 6) (fun _ _ => 3) 4 2).rho_a_Vil
    = some (1 / 2) ∧ mean 4 2 (fun x y z => turning.ρ x y z ^ 2 * turning.dθ x y z ^ 2) = 1 := by
  rw [(turning_stored 1 2).aV, mean]
  simp only [turning, one_pow, mul_one, box_const]
  norm_num

/-- A case: two ranks or one. -/
example : stringenergy ⟨2, 3, 0, 1, 1⟩ 2 (fun _ _ => 2) (fun _ _ => 4 * I + 6) (fun _ _ => 3) 4 3 =
    stringenergy ⟨2, 3, 0, 1, 1⟩ 1 (fun _ _ => 2) (fun _ _ => 4 * I + 6) (fun _ _ => 3) 4 6 :=
  (turning_stored 2 3).unique (turning_stored 1 6)

/-! ## Fields without strings -/

/-- **C76, no mask.**  In a cube without masked sites, a field that stays on the unit circle has for
"string energy" the mean of its gradient energy less that of its kinetic energy. -/
theorem C76_unmasked {D : Data} {P : Polar} {h lam : ℝ} {L : ℕ} (hL : 0 < L) (hσ : P.σ = 0)
    (hρ : ∀ x y z, P.ρ x y z = 1) (hd : ∀ x y z, P.dρ x y z = 0)
    (a : Stored D P (fun _ _ _ => true) h lam L L) :
    D.rho_str = some (mean L L fun x y z =>
      (‖P.field (x + 1) y z - P.field x y z‖ ^ 2 + ‖P.field x (y + 1) z - P.field x y z‖ ^ 2 +
        ‖P.field x y (z + 1) - P.field x y z‖ ^ 2) / (2 * h ^ 2) - P.dθ x y z ^ 2 / 2) := by
  have hc : count L L (fun _ _ _ => true) = L * L * L := count_all L L
  have h0 : count L L (fun _ _ _ => true) ≠ 0 := by rw [hc]; positivity
  have hp : ∀ x y z, P.pot lam x y z = 0 := by
    intro x y z
    unfold Polar.pot Polar.field
    rw [hσ, hρ]
    simp [Complex.norm_exp_ofReal_mul_I]
  have hsax : P.sax h lam = fun _ _ _ => 0 := by
    funext x y z
    simp [Polar.sax, hρ, hd, hp]
  rw [a.str h0, hc, only_all, only_all, hsax, mean]
  have e3 : ((L * L * L : ℕ) : ℝ) = (L : ℝ) ^ 3 := by push_cast; ring
  rw [e3, ← sub_div, ← sub_div, ← box_sub, ← box_sub]
  congr 2
  congr 1
  funext x y z
  simp only [Polar.total, hρ, hd, hp]
  ring

/-- **C76, no strings.**  A field without strings, the same everywhere and turning at rate `w`, has string
energy `-w²/2` in both sets of numbers, on every cube of every size. -/
theorem C76_negative {D : Data} {P : Polar} {h lam w : ℝ} {L : ℕ} (hL : 0 < L) (hσ : P.σ = 0)
    (hρ : ∀ x y z, P.ρ x y z = 1) (hd : ∀ x y z, P.dρ x y z = 0) (hθ : ∀ x y z, P.θ x y z = 0)
    (hw : ∀ x y z, P.dθ x y z = w) (a : Stored D P (fun _ _ _ => true) h lam L L) :
    D.rho_str = some (-(w ^ 2 / 2)) ∧ D.rho_str_Vil = some (-(w ^ 2 / 2)) := by
  have hL3 : ((L * L * L : ℕ) : ℝ) ≠ 0 := by
    have : 0 < L * L * L := by positivity
    exact_mod_cast this.ne'
  have e3 : ((L * L * L : ℕ) : ℝ) = (L : ℝ) ^ 3 := by push_cast; ring
  have hf : ∀ x y z, P.field x y z = 1 := by
    intro x y z; simp [Polar.field, hσ, hρ, hθ]
  have hp : ∀ x y z, P.pot lam x y z = 0 := by intro x y z; simp [Polar.pot, hf]
  have hsax : P.sax h lam = fun _ _ _ => 0 := by funext x y z; simp [Polar.sax, hρ, hd, hp]
  have htot : P.total h lam = fun _ _ _ => w ^ 2 / 2 := by
    funext x y z; simp [Polar.total, hρ, hd, hp, hf, hw]
  constructor
  · rw [C76_unmasked hL hσ hρ hd a, mean]
    simp only [hf, hw, sub_self, norm_zero]
    rw [box_const, mul_div_cancel_left₀ _ hL3]
    congr 1; ring
  · rw [a.strV, hsax, htot]
    simp only [hρ, hw, mul_zero]
    rw [box_const, box_const, box_const, ← e3, mul_div_cancel_left₀ _ hL3, mul_div_cancel_left₀ _ hL3]
    congr 1; ring

/-- A case: arrays of two ranks for such a field, so that the result of the code is negative. -/
example : (stringenergy ⟨2, 3, 0, 1, 1⟩ 2 (fun _ _ => 2) (fun _ _ => 4 * I + 6) (fun _ _ => 3) 4 2).rho_str
    = some (-(1 ^ 2 / 2)) := by
  exact (C76_negative (w := 1) (L := 4) (by norm_num) rfl (fun _ _ _ => rfl) (fun _ _ _ => rfl)
    (fun _ _ _ => rfl) (fun _ _ _ => rfl) (turning_stored 2 2)).1

/-! ## When there is no number -/

theorem rhoakin_none {E : Env} {m v : ℂ} : rhoakin E m v = none ↔ m = E.s := by
  unfold rhoakin cquo
  rw [Option.map_eq_none_iff]
  split_ifs with h
  · exact iff_of_true rfl (sub_eq_zero.mp h)
  · exact iff_of_false (by simp) (fun k => h (sub_eq_zero.mpr k))

theorem plus_eq_none {a b : Option ℝ} : plus a b = none ↔ a = none ∨ b = none := by
  cases a <;> cases b <;> simp [plus]

theorem fold_none {E : Env} (ma va : ℕ → ℂ) (sd : ℕ → ℕ) (Lx : ℕ) (l : List (ℕ × ℕ × ℕ)) :
    ∀ t, ((l.foldl (site E ma va sd Lx) t).aV = none ↔
        t.aV = none ∨ ∃ p ∈ l, ma (corner Lx p.1 p.2.1 p.2.2).o = E.s) ∧
      ((l.foldl (site E ma va sd Lx) t).a = none ↔
        t.a = none ∨ ∃ p ∈ l, ma (corner Lx p.1 p.2.1 p.2.2).o = E.s ∧
          sd (corner Lx p.1 p.2.1 p.2.2).o &&& STRING_MASK = 0) ∧
      ((l.foldl (site E ma va sd Lx) t).nout = 0 ↔
        t.nout = 0 ∧ ∀ p ∈ l, sd (corner Lx p.1 p.2.1 p.2.2).o &&& STRING_MASK ≠ 0) := by
  induction l with
  | nil => intro t; simp
  | cons p l ih =>
    intro t
    rw [List.foldl_cons]
    obtain ⟨h1, h2, h3⟩ := ih (site E ma va sd Lx t p)
    rw [h1, h2, h3]
    refine ⟨?_, ?_, ?_⟩
    · unfold site
      simp only [plus_eq_none, Option.map_eq_none_iff, rhoakin_none, List.exists_mem_cons_iff, or_assoc]
    · unfold site
      by_cases ho : sd (corner Lx p.1 p.2.1 p.2.2).o &&& STRING_MASK = 0
      · simp only [plus_eq_none, Option.map_eq_none_iff, rhoakin_none,
          List.exists_mem_cons_iff, ho, if_true, and_true, or_assoc]
      · simp only [List.exists_mem_cons_iff, ho, if_false, and_false, false_or]
    · unfold site
      by_cases ho : sd (corner Lx p.1 p.2.1 p.2.2).o &&& STRING_MASK = 0
      · simp [ho]
      · simp [ho]

theorem reduce_none (l : List Sums) :
    ((reduce l).aV = none ↔ ∃ t ∈ l, t.aV = none) ∧ ((reduce l).a = none ↔ ∃ t ∈ l, t.a = none) ∧
    ((reduce l).nout = 0 ↔ ∀ t ∈ l, t.nout = 0) := by
  unfold reduce
  have key : ∀ s : Sums,
      ((l.foldl (fun t u => (⟨t.tot + u.tot, plus t.a u.a, plus t.s u.s, plus t.aV u.aV, plus t.sV u.sV,
        t.nout + u.nout⟩ : Sums)) s).aV = none ↔ s.aV = none ∨ ∃ t ∈ l, t.aV = none) ∧
      ((l.foldl (fun t u => (⟨t.tot + u.tot, plus t.a u.a, plus t.s u.s, plus t.aV u.aV, plus t.sV u.sV,
        t.nout + u.nout⟩ : Sums)) s).a = none ↔ s.a = none ∨ ∃ t ∈ l, t.a = none) ∧
      ((l.foldl (fun t u => (⟨t.tot + u.tot, plus t.a u.a, plus t.s u.s, plus t.aV u.aV, plus t.sV u.sV,
        t.nout + u.nout⟩ : Sums)) s).nout = 0 ↔ s.nout = 0 ∧ ∀ t ∈ l, t.nout = 0) := by
    induction l with
    | nil => intro s; simp
    | cons u l ih =>
      intro s
      rw [List.foldl_cons]
      obtain ⟨h1, h2, h3⟩ := ih ⟨s.tot + u.tot, plus s.a u.a, plus s.s u.s, plus s.aV u.aV,
        plus s.sV u.sV, s.nout + u.nout⟩
      rw [h1, h2, h3]
      refine ⟨?_, ?_, ?_⟩
      · simp only [plus_eq_none, List.exists_mem_cons_iff, or_assoc]
      · simp only [plus_eq_none, List.exists_mem_cons_iff, or_assoc]
      · simp only [Nat.add_eq_zero_iff, List.forall_mem_cons, and_assoc]
  obtain ⟨h1, h2, h3⟩ := key Sums.zero
  rw [h1, h2, h3]
  simp [Sums.zero]

/-- **C76, numbers.**  The second axion energy is a number exactly if the field is at `zaskaF` at no site;
the first exactly if the mask leaves a site and the field is at `zaskaF` at none of those left. -/
theorem C76_number (E : Env) {n Lx Lz : ℕ} (hL : 0 < Lx) (ma va : ℕ → ℕ → ℂ) (sd : ℕ → ℕ → ℕ) :
    ((stringenergy E n ma va sd Lx Lz).rho_a_Vil ≠ none ↔
      ∀ r x y z, r < n → x < Lx → y < Lx → z < Lz → ma r (x + Lx * y + Lx * Lx * z) ≠ E.s) ∧
    ((stringenergy E n ma va sd Lx Lz).rho_a ≠ none ↔
      (∃ r x y z, r < n ∧ x < Lx ∧ y < Lx ∧ z < Lz ∧
        sd r (x + Lx * y + Lx * Lx * z) &&& STRING_MASK = 0) ∧
      ∀ r x y z, r < n → x < Lx → y < Lx → z < Lz →
        sd r (x + Lx * y + Lx * Lx * z) &&& STRING_MASK = 0 → ma r (x + Lx * y + Lx * Lx * z) ≠ E.s) := by
  obtain ⟨k1, k2, k3⟩ := reduce_none ((List.range n).map fun r => rankSums E (ma r) (va r) (sd r) Lx Lz)
  have hV : ((Lx * Lx * Lx : ℕ) : ℝ) ≠ 0 := by
    have : 0 < Lx * Lx * Lx := by positivity
    exact_mod_cast this.ne'
  have f := fun r => fold_none (E := E) (ma r) (va r) (sd r) Lx (cells Lx Lz) Sums.zero
  have over : ∀ (a : Option ℝ) (c : ℝ), (a.bind fun a => quo a c) = none ↔ a = none ∨ c = 0 := by
    intro a c
    cases a <;> simp [quo]
  constructor
  · rw [ne_eq, show (stringenergy E n ma va sd Lx Lz).rho_a_Vil =
      ((reduce ((List.range n).map fun r => rankSums E (ma r) (va r) (sd r) Lx Lz)).aV.bind fun a =>
        quo a ((Lx * Lx * Lx : ℕ) : ℝ)) from rfl, over, or_iff_left hV, k1]
    constructor
    · intro h r x y z hr hx hy hz e
      apply h
      refine ⟨_, List.mem_map.mpr ⟨r, List.mem_range.mpr hr, rfl⟩, ((f r).1).mpr (Or.inr ?_)⟩
      exact ⟨(x, y, z), StrLen.mem_cells.mpr ⟨hx, hy, hz⟩, e⟩
    · rintro h ⟨t, ht, e⟩
      obtain ⟨r, hr, rfl⟩ := List.mem_map.mp ht
      rcases ((f r).1).mp e with e | ⟨p, hp, e⟩
      · exact nomatch e
      · obtain ⟨hx, hy, hz⟩ := StrLen.mem_cells.mp hp
        exact h r p.1 p.2.1 p.2.2 (List.mem_range.mp hr) hx hy hz e
  · rw [ne_eq, show (stringenergy E n ma va sd Lx Lz).rho_a =
      ((reduce ((List.range n).map fun r => rankSums E (ma r) (va r) (sd r) Lx Lz)).a.bind fun a =>
        quo a (((reduce ((List.range n).map fun r => rankSums E (ma r) (va r) (sd r) Lx Lz)).nout : ℕ) : ℝ))
        from rfl, over, not_or, k2, Nat.cast_eq_zero, k3, and_comm]
    refine and_congr ?_ ?_
    · constructor
      · intro h
        by_contra hn
        apply h
        intro t ht
        obtain ⟨r, hr, rfl⟩ := List.mem_map.mp ht
        refine ((f r).2.2).mpr ⟨rfl, fun p hp e => hn ?_⟩
        obtain ⟨hx, hy, hz⟩ := StrLen.mem_cells.mp hp
        exact ⟨r, p.1, p.2.1, p.2.2, List.mem_range.mp hr, hx, hy, hz, e⟩
      · rintro ⟨r, x, y, z, hr, hx, hy, hz, e⟩ h
        have := h _ (List.mem_map.mpr ⟨r, List.mem_range.mpr hr, rfl⟩)
        exact (((f r).2.2).mp this).2 (x, y, z) (StrLen.mem_cells.mpr ⟨hx, hy, hz⟩) e
    · constructor
      · intro h r x y z hr hx hy hz e e'
        apply h
        refine ⟨_, List.mem_map.mpr ⟨r, List.mem_range.mpr hr, rfl⟩, ((f r).2.1).mpr (Or.inr ?_)⟩
        exact ⟨(x, y, z), StrLen.mem_cells.mpr ⟨hx, hy, hz⟩, e', e⟩
      · rintro h ⟨t, ht, e⟩
        obtain ⟨r, hr, rfl⟩ := List.mem_map.mp ht
        rcases ((f r).2.1).mp e with e | ⟨p, hp, e, e'⟩
        · exact nomatch e
        · obtain ⟨hx, hy, hz⟩ := StrLen.mem_cells.mp hp
          exact h r p.1 p.2.1 p.2.2 (List.mem_range.mp hr) hx hy hz e' e

/-- A case: the field vanishes at one masked site; there is an axion energy, but not the second one. -/
example : (stringenergy ⟨1, 0, 0, 1, 1⟩ 1 (fun _ i => if i = 0 then 0 else 1) (fun _ _ => I)
      (fun _ i => if i = 0 then 128 else 0) 2 2).rho_a_Vil = none ∧
    (stringenergy ⟨1, 0, 0, 1, 1⟩ 1 (fun _ i => if i = 0 then 0 else 1) (fun _ _ => I)
      (fun _ i => if i = 0 then 128 else 0) 2 2).rho_a ≠ none := by
  have k := C76_number ⟨1, 0, 0, 1, 1⟩ (n := 1) (Lx := 2) (Lz := 2) (by norm_num)
    (fun _ i => if i = 0 then 0 else 1) (fun _ _ => I) (fun _ i => if i = 0 then 128 else 0)
  constructor
  · by_contra hn
    exact k.1.mp hn 0 0 0 0 (by norm_num) (by norm_num) (by norm_num) (by norm_num) (by simp)
  · refine k.2.mpr ⟨⟨0, 1, 0, 0, by norm_num, by norm_num, by norm_num, by norm_num, by simp⟩, ?_⟩
    intro r x y z _ _ _ _ h
    by_cases h0 : x + 2 * y + 2 * 2 * z = 0
    · rw [if_pos h0] at h; simp [STRING_MASK] at h
    · rw [if_neg h0]; simp

/-! ## Expansion -/

/-- **C76, radiation.**  In the usual case `R = z` a field at rest, that only grows with `R` in the code's
units, is given kinetic energy `|φ|²/(2 z⁴)`. -/
theorem C76_radiation {z : ℝ} (hz : 0 < z) (s depta lam : ℝ) (φ : ℂ) :
    ∃ Hc, hubbleConformal 1 z = some Hc ∧
      rhokin ⟨z, Hc, s, depta, lam⟩ (z * φ) (1 * φ) = ‖φ‖ ^ 2 / (2 * z ^ 4) := by
  refine ⟨0, by simp [hubbleConformal, trunc], ?_⟩
  simp only [rhokin, Complex.ofReal_zero, zero_mul, sub_zero, one_mul]
  field_simp

end StrEn
end Jaxions
