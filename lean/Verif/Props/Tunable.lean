import Verif.Model.Tunable
import Verif.Basic.DivMod
/-
C17: the block size search.
-/
namespace Jaxions.Tunable

/-! ### The inner loop -/

theorem nextDiv_spec {n b d : Nat} (hn : 0 < n) (h : nextDiv n b = some d) :
    b < d ∧ d ≤ n ∧ d ∣ n ∧ ∀ e, b < e → e < d → ¬ e ∣ n := by
  unfold nextDiv at h
  rw [if_neg (by omega)] at h
  rw [List.find?_range'_eq_some] at h
  obtain ⟨h1, h2, h3⟩ := h
  simp only [decide_eq_true_eq] at h1
  rw [List.mem_range'_1] at h2
  refine ⟨by omega, by omega, Nat.dvd_of_mod_eq_zero h1, ?_⟩
  intro e he hed hdvd
  have := h3 e (by omega) hed
  simp only [Bool.not_eq_true', decide_eq_false_iff_not] at this
  exact this (Nat.mod_eq_zero_of_dvd hdvd)

theorem nextDiv_none_iff {n b : Nat} (hn : 0 < n) : nextDiv n b = none ↔ n ≤ b := by
  unfold nextDiv
  rw [if_neg (by omega), List.find?_eq_none]
  constructor
  · intro h
    by_cases hb : n ≤ b
    · exact hb
    · have := h n (by rw [List.mem_range'_1]; omega)
      simp at this
  · intro h d hd
    rw [List.mem_range'_1] at hd
    omega

theorem nextDiv_exists {n b : Nat} (h : b < n) : ∃ d, nextDiv n b = some d := by
  cases hd : nextDiv n b with
  | none => rw [nextDiv_none_iff (by omega)] at hd; omega
  | some d => exact ⟨d, rfl⟩

/-! ### One call -/

/-- Sizes with enough rows, and a block inside the grid. -/
structure Ok (t : Tun) : Prop where
  rows : 4 ≤ t.ySize
  depth : 1 ≤ t.zSize
  z1 : 1 ≤ t.block.z
  zle : t.block.z ≤ t.zSize

theorem advance_spec {t : Tun} (h : Ok t) : ∃ t', advance t = some t' ∧ Ok t' ∧
    t'.ySize = t.ySize ∧ t'.zSize = t.zSize ∧ t'.best = t.best ∧ t'.block.x = t.block.x ∧
    t'.block.y ∣ t.ySize ∧ (t'.block.z ∣ t.zSize ∨ t'.block.z = t.block.z) ∧
    ((t.block.y < t.ySize ∧ t.block.y < t'.block.y ∧ t'.block.z = t.block.z ∧ t'.isTuned = t.isTuned
        ∧ ∀ e, t.block.y < e → e < t'.block.y → ¬ e ∣ t.ySize) ∨
     (t.ySize ≤ t.block.y ∧ t.block.z < t.zSize ∧ t.block.z < t'.block.z ∧ t'.isTuned = t.isTuned ∧
        (∀ e, t.block.z < e → e < t'.block.z → ¬ e ∣ t.zSize) ∧
        ∀ e, 4 ≤ e → e < t'.block.y → ¬ e ∣ t.ySize) ∨
     (t.ySize ≤ t.block.y ∧ t.zSize ≤ t.block.z ∧ t'.block.z = t.block.z ∧ t'.isTuned = true)) := by
  have hr := h.rows; have hd := h.depth; have hz1 := h.z1; have hzl := h.zle
  unfold advance
  by_cases hy : t.block.y < t.ySize
  · rw [if_pos hy]
    obtain ⟨d, hd⟩ := nextDiv_exists hy
    obtain ⟨s1, s2, s3, s4⟩ := nextDiv_spec (by omega) hd
    rw [hd]
    exact ⟨_, rfl, ⟨hr, h.depth, hz1, hzl⟩, rfl, rfl, rfl, rfl, s3, Or.inr rfl,
      Or.inl ⟨hy, s1, rfl, rfl, s4⟩⟩
  · rw [if_neg hy]
    obtain ⟨d, hd⟩ := nextDiv_exists (n := t.ySize) (b := 3) (by omega)
    obtain ⟨s1, s2, s3, s4⟩ := nextDiv_spec (by omega) hd
    rw [hd]
    simp only
    by_cases hz : t.block.z < t.zSize
    · rw [if_pos hz]
      obtain ⟨e, he⟩ := nextDiv_exists hz
      obtain ⟨u1, u2, u3, u4⟩ := nextDiv_spec (by omega) he
      rw [he]
      refine ⟨_, rfl, ⟨hr, h.depth, ?_, u2⟩, rfl, rfl, rfl, rfl, s3, Or.inl u3,
        Or.inr (Or.inl ⟨by omega, hz, u1, rfl, u4, fun e he => s4 e (by omega)⟩)⟩
      show 1 ≤ e
      omega
    · rw [if_neg hz]
      exact ⟨_, rfl, ⟨hr, h.depth, hz1, hzl⟩, rfl, rfl, rfl, rfl, s3, Or.inr rfl,
        Or.inr (Or.inr ⟨by omega, by omega, rfl, rfl⟩)⟩

/-! ### Any number of calls -/

theorem advances_ok {t : Tun} (h : Ok t) (k : Nat) : ∃ t', advances t k = some t' ∧ Ok t' ∧
    t'.ySize = t.ySize ∧ t'.zSize = t.zSize ∧ t'.block.x = t.block.x := by
  induction k with
  | zero => exact ⟨t, rfl, h, rfl, rfl, rfl⟩
  | succ k ih =>
    obtain ⟨t1, h1, o1, e1, e2, e3⟩ := ih
    obtain ⟨t2, h2, o2, f1, f2, _, f3, _⟩ := advance_spec o1
    exact ⟨t2, by simp [advances, h1, h2], o2, by rw [f1, e1], by rw [f2, e2], by rw [f3, e3]⟩

/-- **C17** Every block obtained by advancing, any number of times, divides the grid. -/
theorem C17_blocks_divide {t : Tun} (h : Ok t) (hz : t.block.z ∣ t.zSize) (k : Nat) :
    ∃ t', advances t (k + 1) = some t' ∧ t'.block.y ∣ t.ySize ∧ t'.block.z ∣ t.zSize := by
  have key : ∀ k, ∃ t', advances t k = some t' ∧ Ok t' ∧ t'.ySize = t.ySize ∧ t'.zSize = t.zSize ∧
      t'.block.z ∣ t.zSize := by
    intro k
    induction k with
    | zero => exact ⟨t, rfl, h, rfl, rfl, hz⟩
    | succ k ih =>
      obtain ⟨t1, h1, o1, e1, e2, e3⟩ := ih
      obtain ⟨t2, h2, o2, f1, f2, _, _, _, f5, _⟩ := advance_spec o1
      refine ⟨t2, by simp [advances, h1, h2], o2, by rw [f1, e1], by rw [f2, e2], ?_⟩
      rcases f5 with f | f
      · rw [← e2]; exact f
      · rw [f]; exact e3
  obtain ⟨t1, h1, o1, e1, e2, e3⟩ := key k
  obtain ⟨t2, h2, o2, f1, f2, _, _, f4, f5, _⟩ := advance_spec o1
  refine ⟨t2, by simp [advances, h1, h2], by rw [← e1]; exact f4, ?_⟩
  rcases f5 with f | f
  · rw [← e2]; exact f
  · rw [f]; exact e3

/-- Order in which blocks are tried: by depth, then by height. -/
def Before (a b : Block) : Prop := a.z < b.z ∨ (a.z = b.z ∧ a.y < b.y)

theorem Before.trans {a b c : Block} (h1 : Before a b) (h2 : Before b c) : Before a c := by
  unfold Before at *; omega

/-- **C17** No block is tried twice: as long as the search is not over every block comes strictly
after all earlier ones. -/
theorem C17_never_repeats {t : Tun} (h : Ok t) (i j : Nat) (hij : i < j) (ti tj : Tun)
    (hi : advances t i = some ti) (hj : advances t j = some tj) (hn : tj.isTuned = false) :
    Before ti.block tj.block := by
  obtain ⟨d, rfl⟩ : ∃ d, j = i + 1 + d := ⟨j - i - 1, by omega⟩
  clear hij
  induction d generalizing tj with
  | zero =>
    obtain ⟨t1, h1, o1, _⟩ := advances_ok h i
    rw [hi] at h1
    cases h1
    obtain ⟨t2, h2, o2, _, _, _, _, _, _, f⟩ := advance_spec o1
    have : tj = t2 := by
      simp only [advances, hi, Option.bind_some, h2, Option.some.injEq] at hj
      exact hj.symm
    subst this
    unfold Before
    rcases f with f | f | f
    · right; omega
    · left; omega
    · rw [f.2.2.2] at hn; cases hn
  | succ d ih =>
    obtain ⟨t1, h1, o1, _⟩ := advances_ok h (i + 1 + d)
    obtain ⟨t2, h2, o2, _, _, _, _, _, _, f⟩ := advance_spec o1
    have : tj = t2 := by
      have hj' : advances t (i + 1 + d + 1) = some tj := hj
      simp only [advances] at hj'
      rw [h1] at hj'
      simp only [Option.bind_some, h2, Option.some.injEq] at hj'
      exact hj'.symm
    subst this
    have hn1 : t1.isTuned = false := by
      rcases f with f | f | f
      · rw [← f.2.2.2.1]; exact hn
      · rw [← f.2.2.2.1]; exact hn
      · rw [f.2.2.2] at hn; cases hn
    refine Before.trans (ih t1 hn1 h1) ?_
    unfold Before
    rcases f with f | f | f
    · right; omega
    · left; omega
    · rw [f.2.2.2] at hn; cases hn

/-- Calls that remain at most, from a block. -/
def budget (t : Tun) : Nat := (t.zSize - t.block.z) * (t.ySize + 1) + (t.ySize - t.block.y) + 1

/-- **C17** The search reports completion after finitely many calls, at most one per pair of a row
count and a depth. -/
theorem C17_terminates {t : Tun} (h : Ok t) :
    ∃ k t', k ≤ budget t ∧ advances t k = some t' ∧ t'.isTuned = true := by
  have gen : ∀ n (s : Tun) (k : Nat), advances t k = some s → Ok s → budget s ≤ n →
      ∃ k' t', k' ≤ k + budget s ∧ advances t k' = some t' ∧ t'.isTuned = true := by
    intro n
    induction n with
    | zero => intro s k _ _ hb; unfold budget at hb; omega
    | succ n ih =>
      intro s k hk hs hb
      obtain ⟨s', h2, o2, f1, f2, _, _, _, _, f⟩ := advance_spec hs
      have hk' : advances t (k + 1) = some s' := by simp [advances, hk, h2]
      have less : s'.isTuned = true ∨ budget s' < budget s := by
        rcases f with f | f | f
        · right
          unfold budget
          rw [f1, f2, f.2.2.1]
          have := f.1; have := f.2.1
          omega
        · right
          unfold budget
          rw [f1, f2]
          have hlt : s.zSize - s'.block.z + 1 ≤ s.zSize - s.block.z := by omega
          have := Nat.mul_le_mul_right (s.ySize + 1) hlt
          rw [Nat.add_mul, Nat.one_mul] at this
          omega
        · left; exact f.2.2.2
      rcases less with ht | hl
      · refine ⟨k + 1, s', ?_, hk', ht⟩
        unfold budget; omega
      · obtain ⟨k', t', h1, h2, h3⟩ := ih s' (k + 1) hk' o2 (by omega)
        exact ⟨k', t', by omega, h2, h3⟩
  obtain ⟨k, t', h1, h2, h3⟩ := gen (budget t) t 0 rfl h (Nat.le_refl _)
  exact ⟨k, t', by omega, h2, h3⟩

/-- **C17** Nothing is skipped: every block of at least four rows that divides the grid and comes
after the first block is tried before the search is over. -/
theorem C17_nothing_skipped {t : Tun} (h : Ok t) (hnt : t.isTuned = false) (y z : Nat) (hy : y ∣ t.ySize)
    (hz : z ∣ t.zSize) (hy4 : 4 ≤ y) (hafter : Before t.block ⟨t.block.x, y, z⟩) :
    ∃ k t', advances t k = some t' ∧ t'.isTuned = false ∧ t'.block = ⟨t.block.x, y, z⟩ := by
  have hyle : y ≤ t.ySize := Nat.le_of_dvd (by have := h.rows; omega) hy
  have hzle : z ≤ t.zSize := Nat.le_of_dvd (by have := h.depth; omega) hz
  have gen : ∀ n (s : Tun) (k : Nat), advances t k = some s → Ok s → s.ySize = t.ySize →
      s.zSize = t.zSize → s.block.x = t.block.x → s.isTuned = false →
      Before s.block ⟨t.block.x, y, z⟩ → budget s ≤ n →
      ∃ k t', advances t k = some t' ∧ t'.isTuned = false ∧ t'.block = ⟨t.block.x, y, z⟩ := by
    intro n
    induction n with
    | zero => intro s k _ _ _ _ _ _ _ hb; unfold budget at hb; omega
    | succ n ih =>
      intro s k hk hs e1 e2 e3 hnt' hbef hb
      obtain ⟨s', h2, o2, f1, f2, _, f3, f4, f5, f⟩ := advance_spec hs
      have hk' : advances t (k + 1) = some s' := by simp [advances, hk, h2]
      simp only [Before] at hbef
      have notlast : ¬ (s.ySize ≤ s.block.y ∧ s.zSize ≤ s.block.z) := by omega
      have hnt2 : s'.isTuned = false := by
        rcases f with f | f | f
        · rw [f.2.2.2.1]; exact hnt'
        · rw [f.2.2.2.1]; exact hnt'
        · exact absurd ⟨f.1, f.2.1⟩ notlast
      have less : budget s' < budget s := by
        rcases f with f | f | f
        · unfold budget
          rw [f1, f2, f.2.2.1]
          have := f.1; have := f.2.1
          omega
        · unfold budget
          rw [f1, f2]
          have hlt : s.zSize - s'.block.z + 1 ≤ s.zSize - s.block.z := by omega
          have := Nat.mul_le_mul_right (s.ySize + 1) hlt
          rw [Nat.add_mul, Nat.one_mul] at this
          omega
        · exact absurd ⟨f.1, f.2.1⟩ notlast
      have cmp : s'.block = ⟨t.block.x, y, z⟩ ∨ Before s'.block ⟨t.block.x, y, z⟩ := by
        have hx : s'.block.x = t.block.x := by rw [f3, e3]
        have hb3 : ∀ b : Block, b.x = t.block.x → b.y = y → b.z = z → b = ⟨t.block.x, y, z⟩ := by
          intro b h1 h2 h3; cases b; simp_all
        rcases f with f | f | f
        · obtain ⟨g1, g2, g3, _, g4⟩ := f
          by_cases hzz : s.block.z < z
          · right; left; show s'.block.z < z; omega
          · have hze : s.block.z = z := by omega
            have hyy : s.block.y < y := by omega
            by_cases hlt : y < s'.block.y
            · exact absurd (e1 ▸ hy) (g4 y hyy hlt)
            · by_cases heq : s'.block.y = y
              · left; exact hb3 _ hx heq (by omega)
              · right; right; exact ⟨by show s'.block.z = z; omega, by show s'.block.y < y; omega⟩
        · obtain ⟨g1, g2, g3, _, g4, g5⟩ := f
          have hzz : s.block.z < z := by omega
          by_cases hlt : z < s'.block.z
          · exact absurd (e2 ▸ hz) (g4 z hzz hlt)
          · by_cases heq : s'.block.z = z
            · by_cases hlt2 : y < s'.block.y
              · exact absurd (e1 ▸ hy) (g5 y hy4 hlt2)
              · by_cases heq2 : s'.block.y = y
                · left; exact hb3 _ hx heq2 heq
                · right; right; exact ⟨heq, by show s'.block.y < y; omega⟩
            · right; left; show s'.block.z < z; omega
        · exact absurd ⟨f.1, f.2.1⟩ notlast
      rcases cmp with hc | hc
      · exact ⟨k + 1, s', hk', hnt2, hc⟩
      · exact ih s' (k + 1) hk' o2 (by rw [f1, e1]) (by rw [f2, e2]) (by rw [f3, e3]) hnt2 hc (by omega)
  exact gen (budget t) t 0 rfl h rfl rfl rfl hnt hafter (Nat.le_refl _)

/-! ### The starting block -/

theorem initShift_pow (s : Nat) : initShift (2 ^ s) = some s := by
  induction s with
  | zero => simp [initShift]
  | succ s ih =>
    obtain ⟨m, hm⟩ : ∃ m, 2 ^ (s + 1) = m + 2 := ⟨2 ^ (s + 1) - 2, by
      have := Nat.one_le_two_pow (n := s); rw [Nat.pow_succ]; omega⟩
    rw [hm, initShift, ← hm]
    have : 2 ^ (s + 1) / 2 = 2 ^ s := by rw [Nat.pow_succ]; omega
    rw [this, ih]
    rfl

/-- **C17** `InitBlockSize` with `2^s` lanes on a grid whose rows split into lane blocks covers the
slice exactly, and its starting block divides the grid exactly when the number of rows is even. -/
theorem C17_init (Lx Lz data s : Nat) (hd : 0 < data) (hdiv : 2 ^ s ∣ Lx) :
    ∃ t, init Lx Lz data (2 ^ s * data) = some t ∧ t.block.x * t.ySize = Lx * Lx ∧
      t.zSize = Lz ∧ t.block.z ∣ Lz ∧ (t.block.y ∣ t.ySize ↔ t.ySize % 2 = 0) := by
  unfold init
  rw [Nat.mul_div_cancel _ hd, initShift_pow]
  refine ⟨_, rfl, ?_, rfl, Nat.one_dvd _, ?_⟩
  · obtain ⟨q, rfl⟩ := hdiv
    show 2 ^ s * q * 2 ^ s * (2 ^ s * q / 2 ^ s) = _
    rw [Nat.mul_div_cancel_left _ (Nat.two_pow_pos s), Nat.mul_assoc (2 ^ s * q)]
  · exact ⟨Nat.mod_eq_zero_of_dvd, Nat.dvd_of_mod_eq_zero⟩

/-- Finding: on a grid with fewer than four rows per lane block the search never comes to an end;
the counter runs past the grid (and, after wrapping, divides by zero). -/
theorem C17_small_grid_diverges (t : Tun) (h0 : 0 < t.ySize) (h3 : t.ySize ≤ 3) :
    ∃ k, advances t k = none := by
  have stuck : ∀ s : Tun, s.ySize = t.ySize → s.ySize ≤ s.block.y → advance s = none := by
    intro s hs hy
    unfold advance
    rw [if_neg (by omega)]
    have : nextDiv s.ySize 3 = none := (nextDiv_none_iff (by omega)).mpr (by omega)
    rw [this]
  have gen : ∀ n (s : Tun) (k : Nat), advances t k = some s → s.ySize = t.ySize →
      s.ySize - s.block.y ≤ n → ∃ k, advances t k = none := by
    intro n
    induction n with
    | zero =>
      intro s k hk hs hle
      exact ⟨k + 1, by simp [advances, hk, stuck s hs (by omega)]⟩
    | succ n ih =>
      intro s k hk hs hle
      by_cases hy : s.ySize ≤ s.block.y
      · exact ⟨k + 1, by simp [advances, hk, stuck s hs hy]⟩
      · obtain ⟨d, hd⟩ := nextDiv_exists (n := s.ySize) (b := s.block.y) (by omega)
        obtain ⟨s1, s2, _⟩ := nextDiv_spec (by omega) hd
        refine ih { s with block := { s.block with y := d } } (k + 1) ?_ hs ?_
        · simp only [advances, hk, Option.bind_some, advance]
          rw [if_pos (by omega), hd]
          rfl
        · show s.ySize - d ≤ n
          omega
  exact gen _ t 0 rfl rfl (Nat.le_refl _)

-- 64 x 64 x 6, 8 lanes: 8 rows
example : ((List.range 12).map fun k => (advances ⟨8, 6, ⟨512, 2, 1⟩, ⟨512, 2, 1⟩, false⟩ k).map
      fun t => (t.block.y, t.block.z, t.isTuned)) =
    [some (2, 1, false), some (4, 1, false), some (8, 1, false), some (4, 2, false),
     some (8, 2, false), some (4, 3, false), some (8, 3, false), some (4, 6, false),
     some (8, 6, false), some (4, 6, true), some (8, 6, true), some (4, 6, true)] := by decide +kernel
example : init 64 6 4 32 = some ⟨8, 6, ⟨512, 2, 1⟩, ⟨512, 2, 1⟩, false⟩ := by decide +kernel
-- 24 x 24 in double precision with AVX-512: three rows per lane block
example : init 24 24 8 64 = some ⟨3, 24, ⟨192, 2, 1⟩, ⟨192, 2, 1⟩, false⟩ ∧
    advances ⟨3, 24, ⟨192, 2, 1⟩, ⟨192, 2, 1⟩, false⟩ 1 ≠ none ∧
    advances ⟨3, 24, ⟨192, 2, 1⟩, ⟨192, 2, 1⟩, false⟩ 2 = none := by decide +kernel

end Jaxions.Tunable
