/-
**C71** The N-body snapshot of the "halo" kind: how many particles every rank and every point
gets.
-/
import Verif.Model.GadgetHalo
import Mathlib.Algebra.Order.BigOperators.Group.Finset
import Mathlib.Data.Fin.VecNotation
import Mathlib.Tactic.Ring
import Mathlib.Tactic.Linarith
import Mathlib.Tactic.NormNum
import Mathlib.Tactic.Positivity

namespace Jaxions
namespace Halo

/-! ### Points -/

/-- Every point has its density rounded down or up, and the running sum is the sum. -/
structure Near (n3 : ℕ) (c : ℕ → ℝ) (s : Bal) : Prop where
  lo : ∀ i < n3, ⌊c i⌋ ≤ s.n i
  hi : ∀ i < n3, s.n i ≤ ⌈c i⌉
  sum : s.tPart = ∑ i ∈ Finset.range n3, s.n i

/-- **C71** The first number of particles of a point is its density rounded down or up, whatever
number is drawn; a whole density is taken over; on average the number is the density. -/
theorem C71_first_count (c : ℝ) :
    (∃ d, drawable (firstProb c) d) ∧
    (∀ d, drawable (firstProb c) d → ⌊c⌋ ≤ firstCount c d ∧ firstCount c d ≤ ⌈c⌉) ∧
    (1 - firstProb c) * (firstCount c 0 : ℝ) + firstProb c * (firstCount c 1 : ℝ) = c := by
  have h1 := Int.floor_le c
  have h2 := Int.lt_floor_add_one c
  refine ⟨⟨0, ?_, ?_, Or.inl ⟨rfl, ?_⟩⟩, ?_, ?_⟩
  · unfold firstProb; linarith
  · unfold firstProb; linarith
  · unfold firstProb; linarith
  · rintro d ⟨_, _, hd⟩
    unfold firstCount firstProb at *
    rcases hd with ⟨rfl, _⟩ | ⟨rfl, h⟩
    · have := Int.floor_le_ceil c
      constructor <;> push_cast <;> omega
    · have : ⌊c⌋ < ⌈c⌉ := Int.lt_ceil.2 (by linarith)
      constructor <;> push_cast <;> omega
  · unfold firstCount firstProb
    push_cast
    ring

theorem start_near (n3 : ℕ) (c : ℕ → ℝ) (d : ℕ → ℕ)
    (hd : ∀ i < n3, drawable (firstProb (c i)) (d i)) : Near n3 c (start n3 c d) :=
  ⟨fun i hi => ((C71_first_count (c i)).2.1 _ (hd i hi)).1,
   fun i hi => ((C71_first_count (c i)).2.1 _ (hd i hi)).2, rfl⟩

theorem sum_turn (n3 : ℕ) (f : ℕ → ℤ) (i : ℕ) (hi : i < n3) (ch : ℤ) :
    ∑ j ∈ Finset.range n3, (if j = i then f j + ch else f j) =
      ∑ j ∈ Finset.range n3, f j + ch := by
  have : ∀ j ∈ Finset.range n3, (if j = i then f j + ch else f j) =
      f j + (if j = i then ch else 0) := by
    intro j _
    split <;> simp
  rw [Finset.sum_congr rfl this, Finset.sum_add_distrib, Finset.sum_ite_eq' (Finset.range n3) i
    (fun _ => ch), if_pos (Finset.mem_range.2 hi)]

/-- What a branch does to a number that is the density rounded down or up. -/
theorem act_near (c : ℝ) (n t goal : ℤ) (h1 : ⌊c⌋ ≤ n) (h2 : n ≤ ⌈c⌉) :
    0 ≤ actProb c n (act c n t goal) ∧ actProb c n (act c n t goal) < 1 ∧
    ∀ d, drawable (actProb c n (act c n t goal)) d →
      ⌊c⌋ ≤ n + actChange d (act c n t goal) ∧ n + actChange d (act c n t goal) ≤ ⌈c⌉ ∧
      (t ≤ goal → t ≤ t + actChange d (act c n t goal) ∧ t + actChange d (act c n t goal) ≤ goal) ∧
      (goal ≤ t → goal ≤ t + actChange d (act c n t goal) ∧ t + actChange d (act c n t goal) ≤ t) := by
  have hf := Int.lt_floor_add_one c
  have hc := Int.ceil_lt_add_one c
  have h1' : (⌊c⌋ : ℝ) ≤ n := by exact_mod_cast h1
  have h2' : (n : ℝ) ≤ ⌈c⌉ := by exact_mod_cast h2
  unfold act
  by_cases ha : c > n ∧ t < goal
  · rw [if_pos ha]
    simp only [actProb, actChange]
    have hlt : n < ⌈c⌉ := Int.lt_ceil.2 ha.1
    refine ⟨by linarith [ha.1], by linarith, ?_⟩
    rintro d ⟨_, _, hd⟩
    have hd1 : d ≤ 1 := by rcases hd with h | h <;> omega
    omega
  · rw [if_neg ha]
    by_cases hb : c < n ∧ t > goal
    · rw [if_pos hb]
      simp only [actProb, actChange]
      have hlt : ⌊c⌋ < n := Int.floor_lt.2 hb.1
      refine ⟨by linarith [hb.1], by linarith, ?_⟩
      rintro d ⟨_, _, hd⟩
      have hd1 : d ≤ 1 := by rcases hd with h | h <;> omega
      omega
    · rw [if_neg hb]
      simp only [actProb, actChange]
      refine ⟨le_refl _, by norm_num, ?_⟩
      intro d _
      omega

theorem turn_near (n3 : ℕ) (c : ℕ → ℝ) (goal : ℤ) (s s' : Bal) (hs : Near n3 c s)
    (h : Turn c goal (· < n3) s s') : Near n3 c s' ∧ |goal - s'.tPart| ≤ |goal - s.tPart| := by
  obtain ⟨_, i, d, hi, hd, rfl⟩ := h
  obtain ⟨_, _, h3⟩ := act_near (c i) (s.n i) s.tPart goal (hs.lo i hi) (hs.hi i hi)
  obtain ⟨h4, h5, h6, h7⟩ := h3 d hd
  refine ⟨⟨?_, ?_, ?_⟩, ?_⟩
  · intro j hj
    unfold turnAt
    dsimp only
    by_cases e : j = i
    · rw [if_pos e, e]; exact h4
    · rw [if_neg e]; exact hs.lo j hj
  · intro j hj
    unfold turnAt
    dsimp only
    by_cases e : j = i
    · rw [if_pos e, e]; exact h5
    · rw [if_neg e]; exact hs.hi j hj
  · unfold turnAt
    dsimp only
    rw [sum_turn n3 s.n i hi, hs.sum]
  · unfold turnAt
    dsimp only
    rcases le_total s.tPart goal with h | h
    · have := h6 h
      rw [abs_of_nonneg (by omega), abs_of_nonneg (by omega)]
      omega
    · have := h7 h
      rw [abs_of_nonpos (by omega), abs_of_nonpos (by omega)]
      omega

theorem turns_near (n3 : ℕ) (c : ℕ → ℝ) (goal : ℤ) {s s' : Bal} (h : Turns c goal (· < n3) s s') :
    Near n3 c s → Near n3 c s' ∧ |goal - s'.tPart| ≤ |goal - s.tPart| := by
  induction h with
  | nil s => exact fun h => ⟨h, le_refl _⟩
  | cons h1 _ ih =>
    intro hs
    obtain ⟨a, b⟩ := turn_near n3 c goal _ _ hs h1
    obtain ⟨a', b'⟩ := ih a
    exact ⟨a', b'.trans b⟩

/-- **C71** At any time of the balancing loop, as long as only points of the rank are drawn: every
point has its density rounded down or up, the running sum is the sum over the points, the distance
from the target has not grown, and the probability handed to the random number generator at the
next turn lies between 0 and 1, whatever point comes next. -/
theorem C71_balance_partial (n3 : ℕ) (c : ℕ → ℝ) (d : ℕ → ℕ)
    (hd : ∀ i < n3, drawable (firstProb (c i)) (d i)) (goal : ℤ) (s : Bal)
    (h : Turns c goal (· < n3) (start n3 c d) s) :
    (∀ i < n3, s.n i = ⌊c i⌋ ∨ s.n i = ⌈c i⌉) ∧
    s.tPart = ∑ i ∈ Finset.range n3, s.n i ∧
    |goal - s.tPart| ≤ |goal - (start n3 c d).tPart| ∧
    ∀ i < n3, 0 ≤ actProb (c i) (s.n i) (act (c i) (s.n i) s.tPart goal) ∧
      actProb (c i) (s.n i) (act (c i) (s.n i) s.tPart goal) ≤ 1 := by
  obtain ⟨h1, h2⟩ := turns_near n3 c goal h (start_near n3 c d hd)
  refine ⟨fun i hi => ?_, h1.sum, h2, fun i hi => ?_⟩
  · have a := h1.lo i hi
    have b := h1.hi i hi
    have e := Int.ceil_le_floor_add_one (c i)
    omega
  · have := act_near (c i) (s.n i) s.tPart goal (h1.lo i hi) (h1.hi i hi)
    exact ⟨this.1, this.2.1.le⟩

theorem reach (n3 : ℕ) (c : ℕ → ℝ) (goal : ℤ) (hlo : ∑ i ∈ Finset.range n3, ⌊c i⌋ ≤ goal)
    (hhi : goal ≤ ∑ i ∈ Finset.range n3, ⌈c i⌉) : ∀ (k : ℕ) (s : Bal), Near n3 c s →
    |goal - s.tPart| ≤ k → ∃ s', Turns c goal (· < n3) s s' ∧ s'.tPart = goal := by
  intro k
  induction k with
  | zero =>
    intro s _ hk
    have : goal - s.tPart = 0 := abs_eq_zero.1 (le_antisymm (by exact_mod_cast hk) (abs_nonneg _))
    exact ⟨s, .nil s, by omega⟩
  | succ k ih =>
    intro s hs hk
    push_cast at hk
    rcases lt_trichotomy s.tPart goal with hlt | heq | hgt
    · have hex : ∃ i < n3, s.n i < ⌈c i⌉ := by
        by_contra hcon
        push Not at hcon
        have : ∑ i ∈ Finset.range n3, ⌈c i⌉ ≤ ∑ i ∈ Finset.range n3, s.n i :=
          Finset.sum_le_sum fun i hi => hcon i (Finset.mem_range.1 hi)
        rw [← hs.sum] at this
        omega
      obtain ⟨i, hi, hic⟩ := hex
      have hci : (s.n i : ℝ) < c i := Int.lt_ceil.1 hic
      have hact : act (c i) (s.n i) s.tPart goal = .add := if_pos ⟨hci, hlt⟩
      have hp := act_near (c i) (s.n i) s.tPart goal (hs.lo i hi) (hs.hi i hi)
      have hturn : Turn c goal (· < n3) s (turnAt c goal i 1 s) := by
        refine ⟨by omega, i, 1, hi, ⟨hp.1, hp.2.1.le, Or.inr ⟨rfl, ?_⟩⟩, rfl⟩
        rw [hact]
        simp only [actProb]
        linarith
      have ht : (turnAt c goal i 1 s).tPart = s.tPart + 1 := by
        unfold turnAt
        rw [hact]
        rfl
      obtain ⟨s', h1, h2⟩ := ih _ (turn_near n3 c goal _ _ hs hturn).1 (by
        rw [ht, abs_of_nonneg (by omega)]
        rw [abs_of_nonneg (by omega)] at hk
        omega)
      exact ⟨s', .cons hturn h1, h2⟩
    · exact ⟨s, .nil s, heq⟩
    · have hex : ∃ i < n3, ⌊c i⌋ < s.n i := by
        by_contra hcon
        push Not at hcon
        have : ∑ i ∈ Finset.range n3, s.n i ≤ ∑ i ∈ Finset.range n3, ⌊c i⌋ :=
          Finset.sum_le_sum fun i hi => hcon i (Finset.mem_range.1 hi)
        rw [← hs.sum] at this
        omega
      obtain ⟨i, hi, hic⟩ := hex
      have hci : c i < (s.n i : ℝ) := Int.floor_lt.1 hic
      have hact : act (c i) (s.n i) s.tPart goal = .sub := by
        unfold act
        rw [if_neg (fun h => by omega), if_pos ⟨hci, hgt⟩]
      have hp := act_near (c i) (s.n i) s.tPart goal (hs.lo i hi) (hs.hi i hi)
      have hturn : Turn c goal (· < n3) s (turnAt c goal i 1 s) := by
        refine ⟨by omega, i, 1, hi, ⟨hp.1, hp.2.1.le, Or.inr ⟨rfl, ?_⟩⟩, rfl⟩
        rw [hact]
        simp only [actProb]
        linarith
      have ht : (turnAt c goal i 1 s).tPart = s.tPart - 1 := by
        unfold turnAt
        rw [hact]
        rfl
      obtain ⟨s', h1, h2⟩ := ih _ (turn_near n3 c goal _ _ hs hturn).1 (by
        rw [ht, abs_of_nonpos (by omega)]
        rw [abs_of_nonpos (by omega)] at hk
        omega)
      exact ⟨s', .cons hturn h1, h2⟩

/-- **C71** When the balancing loop can end: from any state that it can be in there is a run that
reaches the target, if the target lies between the sum of the densities rounded down and the sum of
the densities rounded up; otherwise no run reaches it, and the loop goes on for ever. -/
theorem C71_balance_ends_iff (n3 : ℕ) (c : ℕ → ℝ) (d : ℕ → ℕ)
    (hd : ∀ i < n3, drawable (firstProb (c i)) (d i)) (goal : ℤ) (s : Bal)
    (h : Turns c goal (· < n3) (start n3 c d) s) :
    (∃ s', Turns c goal (· < n3) s s' ∧ s'.tPart = goal) ↔
      ∑ i ∈ Finset.range n3, ⌊c i⌋ ≤ goal ∧ goal ≤ ∑ i ∈ Finset.range n3, ⌈c i⌉ := by
  have hs := (turns_near n3 c goal h (start_near n3 c d hd)).1
  constructor
  · rintro ⟨s', h1, rfl⟩
    have hs' := (turns_near n3 c _ h1 hs).1
    rw [hs'.sum]
    exact ⟨Finset.sum_le_sum fun i hi => hs'.lo i (Finset.mem_range.1 hi),
      Finset.sum_le_sum fun i hi => hs'.hi i (Finset.mem_range.1 hi)⟩
  · rintro ⟨h1, h2⟩
    exact reach n3 c goal h1 h2 (|goal - s.tPart|).toNat s hs
      (by rw [Int.toNat_of_nonneg (abs_nonneg _)])

/-- Two points of density 3/2, first rounded down, and three particles to be placed. -/
example : ∃ s', Turns (fun _ => 3 / 2) 3 (· < 2) (start 2 (fun _ => 3 / 2) fun _ => 0) s' ∧
    s'.tPart = 3 := by
  have hf : ⌊(3 / 2 : ℝ)⌋ = 1 := by rw [Int.floor_eq_iff]; norm_num
  have hc : ⌈(3 / 2 : ℝ)⌉ = 2 := by rw [Int.ceil_eq_iff]; norm_num
  refine (C71_balance_ends_iff 2 (fun _ => 3 / 2) (fun _ => 0) ?_ 3 _ (.nil _)).2 ?_
  · intro i _
    unfold firstProb
    rw [hf]
    refine ⟨by norm_num, by norm_num, Or.inl ⟨rfl, by norm_num⟩⟩
  · rw [Finset.sum_range_succ, Finset.sum_range_one, Finset.sum_range_succ, Finset.sum_range_one,
      hf, hc]
    norm_num

/-! ### Ranks -/

theorem roundTo_near {x : ℝ} (hx : 0 ≤ x) :
    ((roundTo x : ℤ) = ⌊x + 1 / 2⌋) ∧ (x - 1 / 2 < (roundTo x : ℝ)) ∧
      (roundTo x : ℝ) ≤ x + 1 / 2 := by
  have h0 : 0 ≤ ⌊x + 1 / 2⌋ := Int.floor_nonneg.2 (by linarith)
  have e : (roundTo x : ℤ) = ⌊x + 1 / 2⌋ := Int.toNat_of_nonneg h0
  have e' : (roundTo x : ℝ) = (⌊x + 1 / 2⌋ : ℝ) := by exact_mod_cast congrArg (Int.cast (R := ℝ)) e
  refine ⟨e, ?_, ?_⟩
  · rw [e']
    linarith [Int.lt_floor_add_one (x + 1 / 2)]
  · rw [e']
    exact Int.floor_le _

/-- **C71** The share of a rank before the readjustment is a target that the balancing loop of
that rank can reach. -/
theorem C71_share_in_reach (n3 : ℕ) (c : ℕ → ℝ) (hc : ∀ i < n3, 0 ≤ c i) :
    ∑ i ∈ Finset.range n3, ⌊c i⌋ ≤ (share n3 c : ℤ) ∧
    (share n3 c : ℤ) ≤ ∑ i ∈ Finset.range n3, ⌈c i⌉ := by
  have hx : 0 ≤ ∑ i ∈ Finset.range n3, c i :=
    Finset.sum_nonneg fun i hi => hc i (Finset.mem_range.1 hi)
  unfold share
  rw [(roundTo_near hx).1]
  have h1 : ((∑ i ∈ Finset.range n3, ⌊c i⌋ : ℤ) : ℝ) ≤ ∑ i ∈ Finset.range n3, c i := by
    push_cast
    exact Finset.sum_le_sum fun i _ => Int.floor_le _
  have h2 : ∑ i ∈ Finset.range n3, c i ≤ ((∑ i ∈ Finset.range n3, ⌈c i⌉ : ℤ) : ℝ) := by
    push_cast
    exact Finset.sum_le_sum fun i _ => Int.le_ceil _
  constructor
  · exact Int.le_floor.2 (by linarith)
  · have : ⌊∑ i ∈ Finset.range n3, c i + 1 / 2⌋ < ∑ i ∈ Finset.range n3, ⌈c i⌉ + 1 :=
      Int.floor_lt.2 (by push_cast at h2 ⊢; linarith)
    omega

/-- **C71** The shares of the ranks differ from the number of particles by no more than half the
number of ranks, if the densities are normalised to that number. -/
theorem C71_surplus (R n3 nPrt : ℕ) (c : ℕ → ℕ → ℝ) (hc : ∀ r < R, ∀ i < n3, 0 ≤ c r i)
    (hn : ∑ r ∈ Finset.range R, ∑ i ∈ Finset.range n3, c r i = nPrt) :
    2 * |(∑ r ∈ Finset.range R, (share n3 (c r) : ℤ)) - nPrt| ≤ R := by
  have hx : ∀ r < R, 0 ≤ ∑ i ∈ Finset.range n3, c r i := fun r hr =>
    Finset.sum_nonneg fun i hi => hc r hr i (Finset.mem_range.1 hi)
  have h1 : (∑ r ∈ Finset.range R, (share n3 (c r) : ℝ)) ≤ nPrt + R / 2 := by
    rw [← hn]
    have : ∑ r ∈ Finset.range R, (share n3 (c r) : ℝ) ≤
        ∑ r ∈ Finset.range R, (∑ i ∈ Finset.range n3, c r i + 1 / 2) :=
      Finset.sum_le_sum fun r hr => (roundTo_near (hx r (Finset.mem_range.1 hr))).2.2
    rw [Finset.sum_add_distrib, Finset.sum_const, Finset.card_range, nsmul_eq_mul] at this
    linarith
  have h2 : (nPrt : ℝ) - R / 2 ≤ ∑ r ∈ Finset.range R, (share n3 (c r) : ℝ) := by
    rw [← hn]
    have : ∑ r ∈ Finset.range R, (∑ i ∈ Finset.range n3, c r i - 1 / 2) ≤
        ∑ r ∈ Finset.range R, (share n3 (c r) : ℝ) :=
      Finset.sum_le_sum fun r hr => (roundTo_near (hx r (Finset.mem_range.1 hr))).2.1.le
    rw [Finset.sum_sub_distrib, Finset.sum_const, Finset.card_range, nsmul_eq_mul] at this
    linarith
  have h3 : ((2 * |(∑ r ∈ Finset.range R, (share n3 (c r) : ℤ)) - nPrt| : ℤ) : ℝ) ≤ R := by
    push_cast
    have : |(∑ r ∈ Finset.range R, (share n3 (c r) : ℝ)) - nPrt| ≤ R / 2 :=
      abs_le.2 ⟨by linarith, by linarith⟩
    linarith
  exact_mod_cast h3

/-- **C71** After rank 0 has taken up the difference, the targets of all ranks sum up to the
number of particles exactly if the surplus is not larger than the share of rank 0; otherwise the
target of rank 0 wraps around and the sum is `2^64` too large. -/
theorem C71_targets (R nPrt : ℕ) (m : ℕ → ℕ) (hR : 0 < R) (hn : nPrt < 2 ^ 64)
    (hm : ∑ r ∈ Finset.range R, m r < 2 ^ 64) :
    let total := ∑ r ∈ Finset.range R, m r
    ∑ r ∈ Finset.range R, target nPrt total r (m r) =
      if total ≤ nPrt + m 0 then nPrt else nPrt + 2 ^ 64 := by
  intro total
  obtain ⟨k, rfl⟩ : ∃ k, R = k + 1 := ⟨R - 1, by omega⟩
  have e1 : total = ∑ r ∈ Finset.range k, m (r + 1) + m 0 := Finset.sum_range_succ' _ _
  rw [Finset.sum_range_succ']
  have e2 : ∑ r ∈ Finset.range k, target nPrt total (r + 1) (m (r + 1)) =
      ∑ r ∈ Finset.range k, m (r + 1) := by
    apply Finset.sum_congr rfl
    intro r _
    unfold target
    simp
  have e3 : target nPrt total 0 (m 0) = (m 0 + (nPrt + 2 ^ 64 - total % 2 ^ 64)) % 2 ^ 64 := by
    unfold target
    simp
  rw [e2, e3]
  change total < 2 ^ 64 at hm
  clear_value total
  generalize ∑ r ∈ Finset.range k, m (r + 1) = rest at *
  rw [Nat.mod_eq_of_lt hm]
  by_cases h : total ≤ nPrt + m 0
  · rw [if_pos h]
    have : m 0 + (nPrt + 2 ^ 64 - total) = (nPrt - rest) + 2 ^ 64 := by omega
    rw [this, Nat.add_mod_right, Nat.mod_eq_of_lt (by omega)]
    omega
  · rw [if_neg h]
    rw [Nat.mod_eq_of_lt (by omega)]
    omega

/-- Three ranks, one too many. -/
example : ∑ r ∈ Finset.range 3, target 12 13 r (if r = 0 then 7 else 3) = 12 := by decide

/-- The densities of three ranks with four points each. -/
noncomputable def uneven : ℕ → ℕ → ℝ := fun r i =>
  if r = 0 then (if i = 0 then 4 else 1) else 5 / 8

/-- **C71** (negative) Densities normalised to twelve particles on three ranks with four points
each: the target of rank 0 after the readjustment is six, and no run of its balancing loop, whatever
numbers are drawn, ends. -/
theorem C71_rank0_never_ends :
    (∑ r ∈ Finset.range 3, ∑ i ∈ Finset.range 4, uneven r i = 12) ∧
    (target 12 (∑ r ∈ Finset.range 3, share 4 (uneven r)) 0 (share 4 (uneven 0)) = 6) ∧
    ∀ d, (∀ i < 4, drawable (firstProb (uneven 0 i)) (d i)) → ∀ s,
      Turns (uneven 0) 6 (· < 4) (start 4 (uneven 0) d) s → s.tPart ≠ 6 := by
  have h0 : ∑ i ∈ Finset.range 4, uneven 0 i = 7 := by
    simp only [Finset.sum_range_succ, Finset.sum_range_zero, uneven]
    norm_num
  have h1 : ∀ r, r ≠ 0 → ∑ i ∈ Finset.range 4, uneven r i = 5 / 2 := by
    intro r hr
    simp only [Finset.sum_range_succ, Finset.sum_range_zero, uneven, if_neg hr]
    norm_num
  have s0 : share 4 (uneven 0) = 7 := by
    unfold share roundTo
    rw [h0]
    have : ⌊(7 + 1 / 2 : ℝ)⌋ = 7 := by rw [Int.floor_eq_iff]; norm_num
    rw [this]
    rfl
  have s1 : ∀ r, r ≠ 0 → share 4 (uneven r) = 3 := by
    intro r hr
    unfold share roundTo
    rw [h1 r hr]
    have : ⌊(5 / 2 + 1 / 2 : ℝ)⌋ = 3 := by rw [Int.floor_eq_iff]; norm_num
    rw [this]
    rfl
  refine ⟨?_, ?_, ?_⟩
  · rw [Finset.sum_range_succ, Finset.sum_range_succ, Finset.sum_range_one, h0,
      h1 1 (by decide), h1 2 (by decide)]
    norm_num
  · rw [Finset.sum_range_succ, Finset.sum_range_succ, Finset.sum_range_one, s0,
      s1 1 (by decide), s1 2 (by decide)]
    decide
  · intro d hd s h hs
    have := ((C71_balance_ends_iff 4 (uneven 0) d hd 6 _ (.nil _)).1 ⟨s, h, hs⟩).1
    have e : ∀ i, ⌊uneven 0 i⌋ = if i = 0 then 4 else 1 := by
      intro i
      unfold uneven
      rw [if_pos rfl]
      split
      · exact_mod_cast Int.floor_intCast (R := ℝ) 4
      · exact Int.floor_one
    simp only [e] at this
    exact absurd this (by decide)

/-! ### The cell behind the last point -/

/-- **C71** (negative) The generator also draws the cell behind the last point.  If a particle is
added or taken there, the running sum, which decides when the loop ends, is no longer the sum over
the points. -/
theorem C71_cell_behind (n3 : ℕ) (c : ℕ → ℝ) (goal : ℤ) (s : Bal)
    (hs : s.tPart = ∑ i ∈ Finset.range n3, s.n i) :
    cellDrawn n3 n3 ∧
    (act (c n3) (s.n n3) s.tPart goal ≠ .keep →
      (turnAt c goal n3 1 s).tPart ≠ ∑ i ∈ Finset.range n3, (turnAt c goal n3 1 s).n i) ∧
    (1 < actProb (c n3) (s.n n3) (act (c n3) (s.n n3) s.tPart goal) →
      ∀ d, ¬ drawable (actProb (c n3) (s.n n3) (act (c n3) (s.n n3) s.tPart goal)) d) := by
  refine ⟨le_refl _, ?_, ?_⟩
  · intro h
    have e : ∑ i ∈ Finset.range n3, (turnAt c goal n3 1 s).n i = s.tPart := by
      rw [hs]
      apply Finset.sum_congr rfl
      intro i hi
      have := Finset.mem_range.1 hi
      unfold turnAt
      dsimp only
      rw [if_neg (by omega)]
    rw [e]
    unfold turnAt
    dsimp only
    cases ha : act (c n3) (s.n n3) s.tPart goal with
    | add => simp [actChange]
    | sub => simp [actChange]
    | keep => exact absurd ha h
  · rintro h d ⟨_, h2, _⟩
    linarith

/-- One point of density 1/2 with no particle, a target of one, and a cell behind it of density
1 and no particles: the loop ends after a turn there, with no particle at the point. -/
example : Turn (fun i => if i = 0 then 1 / 2 else 1) 1 (cellDrawn 1) ⟨fun _ => 0, 0⟩
      (turnAt (fun i => if i = 0 then 1 / 2 else 1) 1 1 1 ⟨fun _ => 0, 0⟩) ∧
    (turnAt (fun i => if i = 0 then 1 / 2 else 1) 1 1 1 ⟨fun _ => 0, 0⟩).tPart = 1 ∧
    (turnAt (fun i => if i = 0 then 1 / 2 else 1) 1 1 1 ⟨fun _ => 0, 0⟩).n 0 = 0 := by
  have h : act (if (1 : ℕ) = 0 then 1 / 2 else 1) 0 0 1 = .add := by
    unfold act
    rw [if_pos (by norm_num)]
  refine ⟨⟨by norm_num, 1, 1, le_refl _, ?_, rfl⟩, ?_, ?_⟩
  · rw [h]
    refine ⟨by norm_num [actProb], by norm_num [actProb], Or.inr ⟨rfl, by norm_num [actProb]⟩⟩
  · unfold turnAt
    dsimp only
    rw [h]
    rfl
  · unfold turnAt
    simp

end Halo
end Jaxions
