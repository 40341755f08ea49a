import Verif.Model.Binner
import Mathlib.Algebra.BigOperators.Ring.Finset
import Mathlib.Algebra.BigOperators.Field
import Mathlib.Algebra.Order.BigOperators.Group.Finset
import Mathlib.Algebra.BigOperators.Group.List.Basic
import Mathlib.Data.Finset.Card
import Mathlib.Data.Rat.Floor
import Mathlib.Algebra.Module.Defs
import Mathlib.Algebra.Group.Action.Defs
import Mathlib.Tactic.Linarith
import Mathlib.Tactic.Ring
import Mathlib.Tactic.FieldSimp
import Mathlib.Tactic.NormNum
/-
C20: histograms.
-/
namespace Jaxions.Binner

variable {K : Type} [Field K] [LinearOrder K] [IsStrictOrderedRing K] [FloorRing K]

/-- Specification: `v` lies in the limits and in interval `j` of width `w` starting at `b`. -/
def InBin (lo hi b w : K) (j : Nat) (v : K) : Prop := lo ≤ v ∧ v ≤ hi ∧ b + j * w ≤ v ∧ v < b + (j + 1) * w

theorem step_pos (c : Cfg) (hN : 2 ≤ c.N) {lo hi : K} (h : lo < hi) : 0 < step c lo hi := by
  have : (2 : K) ≤ c.N := by exact_mod_cast hN
  exact div_pos (by linarith) (by linarith)

/-- **C20** Every value inside the limits falls in exactly one bin, the one whose interval holds it;
values outside are not binned. -/
theorem C20_bin (c : Cfg) (hN : 2 ≤ c.N) {lo hi : K} (h : lo < hi) (v : K) (j : Nat) :
    binOf c lo hi v = some j ↔
      j < c.N ∧ InBin lo hi (baseVal c lo hi) (step c lo hi) j v := by
  have hs := step_pos c hN h
  have hb : baseVal c lo hi = lo - step c lo hi / 2 := rfl
  have hN' : (2 : K) ≤ c.N := by exact_mod_cast hN
  have htop : step c lo hi * ((c.N : K) - 1) = hi - lo := by
    unfold step; field_simp [show (c.N : K) - 1 ≠ 0 by linarith]
  unfold binOf InBin
  by_cases hin : lo ≤ v ∧ v ≤ hi
  · have hlow : step c lo hi / 2 ≤ v - baseVal c lo hi := by rw [hb]; linarith [hin.1]
    have hnot : ¬ |v - baseVal c lo hi| < step c lo hi / 100 := by
      rw [abs_of_nonneg (by linarith)]
      intro h'
      linarith
    have hnn : 0 ≤ ⌊(v - baseVal c lo hi) / step c lo hi⌋ :=
      Int.floor_nonneg.mpr (div_nonneg (by linarith) hs.le)
    have hlt : ⌊(v - baseVal c lo hi) / step c lo hi⌋ < c.N := by
      rw [Int.floor_lt]
      rw [div_lt_iff₀ hs]
      have := hin.2
      push_cast
      nlinarith
    simp only [if_pos hin, if_neg hnot, if_pos (And.intro hnn hlt), Option.some.injEq]
    have key : (⌊(v - baseVal c lo hi) / step c lo hi⌋.toNat = j) ↔
        ⌊(v - baseVal c lo hi) / step c lo hi⌋ = (j : ℤ) := by omega
    rw [key, Int.floor_eq_iff, le_div_iff₀ hs, div_lt_iff₀ hs]
    constructor
    · rintro ⟨h1, h2⟩
      push_cast at h1 h2
      refine ⟨?_, hin.1, hin.2, by linarith, by linarith⟩
      have : ((j : ℤ)) < c.N := by
        rw [← (Int.floor_eq_iff (z := (j : ℤ)) (a := (v - baseVal c lo hi) / step c lo hi)).mpr
          ⟨by rw [le_div_iff₀ hs]; push_cast; exact h1, by rw [div_lt_iff₀ hs]; push_cast; exact h2⟩]
        exact hlt
      exact_mod_cast this
    · rintro ⟨-, -, -, h1, h2⟩
      push_cast
      exact ⟨by linarith, by linarith⟩
  · simp only [if_neg hin]
    constructor
    · intro h'; cases h'
    · rintro ⟨-, h1, h2, -⟩; exact absurd ⟨h1, h2⟩ hin

/-- Inside the limits some bin is found. -/
theorem C20_inside (c : Cfg) (hN : 2 ≤ c.N) {lo hi : K} (h : lo < hi) (v : K) :
    (∃ j, binOf c lo hi v = some j) ↔ lo ≤ v ∧ v ≤ hi := by
  constructor
  · rintro ⟨j, hj⟩
    have := (C20_bin c hN h v j).mp hj
    exact ⟨this.2.1, this.2.2.1⟩
  · rintro ⟨h1, h2⟩
    have hs := step_pos c hN h
    have hb : baseVal c lo hi = lo - step c lo hi / 2 := rfl
    have hnn : 0 ≤ ⌊(v - baseVal c lo hi) / step c lo hi⌋ :=
      Int.floor_nonneg.mpr (div_nonneg (by rw [hb]; linarith) hs.le)
    have hN' : (2 : K) ≤ c.N := by exact_mod_cast hN
    have htop : step c lo hi * ((c.N : K) - 1) = hi - lo := by
      unfold step; field_simp [show (c.N : K) - 1 ≠ 0 by linarith]
    refine ⟨⌊(v - baseVal c lo hi) / step c lo hi⌋.toNat, (C20_bin c hN h v _).mpr ?_⟩
    have e : ((⌊(v - baseVal c lo hi) / step c lo hi⌋.toNat : ℕ) : K) =
        ((⌊(v - baseVal c lo hi) / step c lo hi⌋ : ℤ) : K) := by
      have : ((⌊(v - baseVal c lo hi) / step c lo hi⌋.toNat : ℕ) : ℤ) =
        ⌊(v - baseVal c lo hi) / step c lo hi⌋ := Int.toNat_of_nonneg hnn
      exact_mod_cast congrArg (fun z : ℤ => (z : K)) this
    have f1 := Int.floor_le ((v - baseVal c lo hi) / step c lo hi)
    have f2 := Int.lt_floor_add_one ((v - baseVal c lo hi) / step c lo hi)
    rw [le_div_iff₀ hs] at f1
    rw [div_lt_iff₀ hs] at f2
    refine ⟨?_, h1, h2, ?_, ?_⟩
    · have : (⌊(v - baseVal c lo hi) / step c lo hi⌋) < (c.N : ℤ) := by
        rw [Int.floor_lt, div_lt_iff₀ hs]
        push_cast
        nlinarith
      omega
    · rw [e]; linarith
    · rw [e]; linarith

/-! ### Counting -/

/-- Entries of `order` that thread `k / N` puts in counter `k`. -/
def hits (c : Cfg) (lo hi : K) (data : Nat → K) (thr : Nat → Nat) (k : Nat) (i : Nat) : Bool :=
  !c.skip i && (match binOf c lo hi (data i) with
    | none => false
    | some b => b + c.N * thr i == k)

theorem count_fold (c : Cfg) (hN : 2 ≤ c.N) {lo hi : K} (h : lo < hi) (data : Nat → K) (thr : Nat → Nat)
    (hthr : ∀ i, thr i < c.threads) (order : List Nat) (t : Counters) :
    ∃ t', order.foldlM (countOne c lo hi data thr) t = some t' ∧
      ∀ k, t' k = t k + order.countP (hits c lo hi data thr k) := by
  induction order generalizing t with
  | nil => exact ⟨t, rfl, fun k => by simp⟩
  | cons i rest ih =>
    have key : ∃ t1, countOne c lo hi data thr t i = some t1 ∧
        ∀ k, t1 k = t k + if hits c lo hi data thr k i then 1 else 0 := by
      unfold countOne hits
      by_cases hsk : c.skip i
      · exact ⟨t, by simp [hsk], fun k => by simp [hsk]⟩
      · cases hb : binOf c lo hi (data i) with
        | none => exact ⟨t, by simp [hsk], fun k => by simp⟩
        | some b =>
          have hlt : b < c.N := ((C20_bin c hN h (data i) b).mp hb).1
          have hidx : b + c.N * thr i < c.N * c.threads := by
            have := hthr i
            have : c.N * (thr i + 1) ≤ c.N * c.threads := Nat.mul_le_mul_left _ this
            rw [Nat.mul_add, Nat.mul_one] at this
            omega
          refine ⟨_, by simp only [hsk, Bool.false_eq_true, if_false, incr, hidx, if_true]; rfl, fun k => ?_⟩
          simp only [hsk, Bool.not_false, Bool.true_and, beq_iff_eq]
          by_cases hk : k = b + c.N * thr i
          · simp [hk]
          · simp [hk, Ne.symm hk]
    obtain ⟨t1, h1, e1⟩ := key
    obtain ⟨t2, h2, e2⟩ := ih t1
    refine ⟨t2, by rw [List.foldlM_cons, h1]; exact h2, fun k => ?_⟩
    rw [e2, e1, List.countP_cons]
    omega

/-- Entries of a rank that the code puts in bin `j`. -/
def binCount (c : Cfg) (lo hi : K) (data : Nat → K) (j : Nat) : Nat :=
  (List.range c.dSize).countP fun i => !c.skip i && binOf c lo hi (data i) == some j

theorem sum_hits (c : Cfg) {lo hi : K} (data : Nat → K) (thr : Nat → Nat)
    (hthr : ∀ i, thr i < c.threads) (hbin : ∀ v b, binOf c lo hi v = some b → b < c.N)
    (l : List Nat) (j : Nat) (hj : j < c.N) :
    ∑ t ∈ Finset.range c.threads, l.countP (hits c lo hi data thr (j + t * c.N)) =
      l.countP fun i => !c.skip i && binOf c lo hi (data i) == some j := by
  induction l with
  | nil => simp
  | cons i rest ih =>
    simp only [List.countP_cons, Finset.sum_add_distrib, ih]
    congr 1
    unfold hits
    by_cases hsk : c.skip i
    · simp [hsk]
    · cases hb : binOf c lo hi (data i) with
      | none => simp
      | some b =>
        have hbl := hbin _ _ hb
        simp only [hsk, Bool.not_false, Bool.true_and, beq_iff_eq, Option.some.injEq]
        have : ∀ t, (b + c.N * thr i = j + t * c.N) ↔ (b = j ∧ t = thr i) := by
          intro t
          constructor
          · intro e
            have e' : b + c.N * thr i = j + c.N * t := by rw [e, Nat.mul_comm]
            have m := congrArg (· % c.N) e'
            simp only [Nat.add_mul_mod_self_left, Nat.mod_eq_of_lt hbl, Nat.mod_eq_of_lt hj] at m
            subst m
            have : c.N * thr i = c.N * t := by omega
            exact ⟨rfl, (Nat.eq_of_mul_eq_mul_left (by omega) this).symm⟩
          · rintro ⟨rfl, rfl⟩; rw [Nat.mul_comm]
        simp only [this]
        by_cases e : b = j
        · simp [e, Finset.sum_ite_eq', hthr i]
        · simp [e]

instance (lo hi b w : K) (j : Nat) (v : K) : Decidable (InBin lo hi b w j v) := by
  unfold InBin; infer_instance

/-- Specification: number of values of a rank in interval `j`. -/
def inBinCount (c : Cfg) (lo hi : K) (data : Nat → K) (j : Nat) : Nat :=
  (List.range c.dSize).countP fun i =>
    !c.skip i && decide (InBin lo hi (baseVal c lo hi) (step c lo hi) j (data i))

theorem binCount_eq (c : Cfg) (hN : 2 ≤ c.N) {lo hi : K} (h : lo < hi) (data : Nat → K) (j : Nat)
    (hj : j < c.N) : binCount c lo hi data j = inBinCount c lo hi data j := by
  unfold binCount inBinCount
  apply List.countP_congr
  intro i _
  have := C20_bin c hN h (data i) j
  simp only [Bool.and_eq_true, beq_iff_eq, decide_eq_true_eq, this, hj, true_and]

theorem mapM_some {α β : Type} (f : α → Option β) (g : α → β) (l : List α) (h : ∀ x ∈ l, f x = some (g x)) :
    l.mapM f = some (l.map g) := by
  induction l with
  | nil => rfl
  | cons x xs ih =>
    rw [List.mapM_cons, h x (by simp), ih fun y hy => h y (by simp [hy])]
    rfl

/-- **C20** Whatever the order in which threads and ranks handle the entries, no counter outside the
table is touched and bin `j` holds the number of values in its interval, divided by the number of
entries and by the bin width. -/
theorem C20_counts (c : Cfg) (hN : 2 ≤ c.N) (hpad : c.dataLen ≤ c.padded) {lo hi : K} (h : lo < hi)
    (data : Nat → Nat → K) (thr : Nat → Nat → Nat) (hthr : ∀ r i, thr r i < c.threads)
    (order : Nat → List Nat) (horder : ∀ r, (order r).Perm (List.range c.dSize)) :
    ∃ bins, runAll c lo hi (fun _ _ => 0) data thr order = some bins ∧
      ∀ j, j < c.N → bins j =
        ((∑ r ∈ Finset.range c.ranks, inBinCount c lo hi (data r) j : Nat) : K) / tSize c lo hi := by
  suffices hx : ∃ bins, runAll c lo hi (fun _ _ => 0) data thr order = some bins ∧
      ∀ j, j < c.N → bins j =
        ((∑ r ∈ Finset.range c.ranks, binCount c lo hi (data r) j : Nat) : K) / tSize c lo hi by
    obtain ⟨bins, hb, e⟩ := hx
    refine ⟨bins, hb, fun j hj => ?_⟩
    rw [e j hj, Finset.sum_congr rfl fun r _ => binCount_eq c hN h (data r) j hj]
  have hbin : ∀ v b, binOf c lo hi v = some b → b < c.N := fun v b hb => ((C20_bin c hN h v b).mp hb).1
  have each : ∀ r, ∃ f : Nat → K,
      runRank c lo hi (fun _ => 0) (data r) (thr r) (order r) = some f ∧
      ∀ j, j < c.N → f j = (binCount c lo hi (data r) j : K) / tSize c lo hi := by
    intro r
    obtain ⟨t, ht, et⟩ := count_fold c hN h (data r) (thr r) (hthr r) (order r) fun _ => 0
    refine ⟨_, by unfold runRank; rw [if_neg (by omega), ht]; rfl, fun j hj => ?_⟩
    simp only [zero_add, et]
    rw [← Finset.sum_div, ← Nat.cast_sum, sum_hits c (data r) (thr r) (hthr r) hbin (order r) j hj]
    rw [(horder r).countP_eq]
    rfl
  choose f hf hfj using each
  refine ⟨fun j => ((List.range c.ranks).map fun r => f r j).sum, ?_, fun j hj => ?_⟩
  · unfold runAll
    rw [mapM_some _ f _ fun r _ => hf r]
    simp only [Option.map_some, List.map_map]
    rfl
  · show ((List.range c.ranks).map fun r => f r j).sum = _
    have : ∀ n : Nat, ((List.range n).map fun r => f r j).sum = ∑ r ∈ Finset.range n, f r j := by
      intro n
      induction n with
      | zero => simp
      | succ n ih => rw [List.range_succ, List.map_append, List.sum_append, ih, Finset.sum_range_succ]; simp
    rw [this, Nat.cast_sum, Finset.sum_div]
    exact Finset.sum_congr rfl fun r _ => hfj r j hj

/-! ### Limits -/

theorem find_fold (c : Cfg) (data : Nat → K) (l : List Nat) (s : K × K) :
    (∀ i ∈ l, c.skip i = false →
      data i ≤ (l.foldl (fun s i => if c.skip i then s else
        (if data i > s.1 then data i else s.1, if data i < s.2 then data i else s.2)) s).1 ∧
      (l.foldl (fun s i => if c.skip i then s else
        (if data i > s.1 then data i else s.1, if data i < s.2 then data i else s.2)) s).2 ≤ data i) ∧
    s.1 ≤ (l.foldl (fun s i => if c.skip i then s else
        (if data i > s.1 then data i else s.1, if data i < s.2 then data i else s.2)) s).1 ∧
    (l.foldl (fun s i => if c.skip i then s else
        (if data i > s.1 then data i else s.1, if data i < s.2 then data i else s.2)) s).2 ≤ s.2 ∧
    ((l.foldl (fun s i => if c.skip i then s else
        (if data i > s.1 then data i else s.1, if data i < s.2 then data i else s.2)) s).1 = s.1 ∨
      ∃ i ∈ l, c.skip i = false ∧ data i = (l.foldl (fun s i => if c.skip i then s else
        (if data i > s.1 then data i else s.1, if data i < s.2 then data i else s.2)) s).1) ∧
    ((l.foldl (fun s i => if c.skip i then s else
        (if data i > s.1 then data i else s.1, if data i < s.2 then data i else s.2)) s).2 = s.2 ∨
      ∃ i ∈ l, c.skip i = false ∧ data i = (l.foldl (fun s i => if c.skip i then s else
        (if data i > s.1 then data i else s.1, if data i < s.2 then data i else s.2)) s).2) := by
  induction l generalizing s with
  | nil => simp
  | cons x xs ih =>
    rw [List.foldl_cons]
    by_cases hx : c.skip x
    · rw [if_pos hx]
      obtain ⟨a, b, d, e, g⟩ := ih s
      refine ⟨?_, b, d, ?_, ?_⟩
      · intro i hi hs
        rcases List.mem_cons.mp hi with rfl | hi
        · rw [hx] at hs; cases hs
        · exact a i hi hs
      · rcases e with e | ⟨i, hi, h2⟩
        · exact Or.inl e
        · exact Or.inr ⟨i, List.mem_cons_of_mem _ hi, h2⟩
      · rcases g with e | ⟨i, hi, h2⟩
        · exact Or.inl e
        · exact Or.inr ⟨i, List.mem_cons_of_mem _ hi, h2⟩
    · rw [if_neg hx]
      have hx' : c.skip x = false := by simpa using hx
      obtain ⟨a, b, d, e, g⟩ := ih (if data x > s.1 then data x else s.1, if data x < s.2 then data x else s.2)
      have h1 : data x ≤ (if data x > s.1 then data x else s.1) ∧ s.1 ≤ (if data x > s.1 then data x else s.1) := by
        split
        · rename_i h; exact ⟨le_refl _, le_of_lt h⟩
        · rename_i h; exact ⟨not_lt.mp h, le_refl _⟩
      have h2 : (if data x < s.2 then data x else s.2) ≤ data x ∧ (if data x < s.2 then data x else s.2) ≤ s.2 := by
        split
        · rename_i h; exact ⟨le_refl _, le_of_lt h⟩
        · rename_i h; exact ⟨not_lt.mp h, le_refl _⟩
      refine ⟨?_, le_trans h1.2 b, le_trans d h2.2, ?_, ?_⟩
      · intro i hi hs
        rcases List.mem_cons.mp hi with rfl | hi
        · exact ⟨le_trans h1.1 b, le_trans d h2.1⟩
        · exact a i hi hs
      · rcases e with e | ⟨i, hi, h2⟩
        · by_cases hc : data x > s.1
          · right; refine ⟨x, by simp, hx', ?_⟩; rw [e]; simp [hc]
          · left; rw [e]; simp [hc]
        · exact Or.inr ⟨i, List.mem_cons_of_mem _ hi, h2⟩
      · rcases g with e | ⟨i, hi, h2⟩
        · by_cases hc : data x < s.2
          · right; refine ⟨x, by simp, hx', ?_⟩; rw [e]; simp [hc]
          · left; rw [e]; simp [hc]
        · exact Or.inr ⟨i, List.mem_cons_of_mem _ hi, h2⟩

/-- Entries that count. -/
def Used (c : Cfg) (r i : Nat) : Prop := r < c.ranks ∧ i < c.dSize ∧ c.skip i = false

theorem fold_max (f : Nat → K) (n : Nat) (a : K) :
    (∀ r < n, f r ≤ (List.range n).foldl (fun a r => max a (f r)) a) ∧
    a ≤ (List.range n).foldl (fun a r => max a (f r)) a ∧
    ((List.range n).foldl (fun a r => max a (f r)) a = a ∨
      ∃ r < n, f r = (List.range n).foldl (fun a r => max a (f r)) a) := by
  induction n with
  | zero => simp
  | succ n ih =>
    obtain ⟨h1, h2, h3⟩ := ih
    rw [List.range_succ, List.foldl_append, List.foldl_cons, List.foldl_nil]
    refine ⟨?_, le_trans h2 (le_max_left _ _), ?_⟩
    · intro r hr
      rcases Nat.lt_succ_iff_lt_or_eq.mp hr with hr | rfl
      · exact le_trans (h1 r hr) (le_max_left _ _)
      · exact le_max_right _ _
    · rcases max_choice ((List.range n).foldl (fun a r => max a (f r)) a) (f n) with e | e
      · rw [e]
        rcases h3 with e' | ⟨r, hr, e'⟩
        · exact Or.inl e'
        · exact Or.inr ⟨r, by omega, e'⟩
      · exact Or.inr ⟨n, by omega, e.symm⟩

theorem fold_min (f : Nat → K) (n : Nat) (a : K) :
    (∀ r < n, (List.range n).foldl (fun a r => min a (f r)) a ≤ f r) ∧
    (List.range n).foldl (fun a r => min a (f r)) a ≤ a ∧
    ((List.range n).foldl (fun a r => min a (f r)) a = a ∨
      ∃ r < n, f r = (List.range n).foldl (fun a r => min a (f r)) a) := by
  induction n with
  | zero => simp
  | succ n ih =>
    obtain ⟨h1, h2, h3⟩ := ih
    rw [List.range_succ, List.foldl_append, List.foldl_cons, List.foldl_nil]
    refine ⟨?_, le_trans (min_le_left _ _) h2, ?_⟩
    · intro r hr
      rcases Nat.lt_succ_iff_lt_or_eq.mp hr with hr | rfl
      · exact le_trans (min_le_left _ _) (h1 r hr)
      · exact min_le_right _ _
    · rcases min_choice ((List.range n).foldl (fun a r => min a (f r)) a) (f n) with e | e
      · rw [e]
        rcases h3 with e' | ⟨r, hr, e'⟩
        · exact Or.inl e'
        · exact Or.inr ⟨r, by omega, e'⟩
      · exact Or.inr ⟨n, by omega, e.symm⟩

theorem skip_zero (c : Cfg) (hd : 0 < c.dataLen) : c.skip 0 = false := by
  simp [Cfg.skip]; omega

/-- **C20** The limits found are the largest and the smallest entry of all ranks, for every order
of the entries. -/
theorem C20_limits (c : Cfg) (hr : 0 < c.ranks) (hs : 0 < c.dSize) (hd : 0 < c.dataLen)
    (data : Nat → Nat → K) (order : Nat → List Nat)
    (horder : ∀ r, (order r).Perm (List.range' 1 (c.dSize - 1))) :
    (∀ r i, Used c r i → (findAll c data order).2 ≤ data r i ∧ data r i ≤ (findAll c data order).1) ∧
    (∃ r i, Used c r i ∧ data r i = (findAll c data order).1) ∧
    (∃ r i, Used c r i ∧ data r i = (findAll c data order).2) := by
  have loc : ∀ r, (∀ i, i < c.dSize → c.skip i = false →
        data r i ≤ (findRank c (data r) (order r)).1 ∧ (findRank c (data r) (order r)).2 ≤ data r i) ∧
      (∃ i, i < c.dSize ∧ c.skip i = false ∧ data r i = (findRank c (data r) (order r)).1) ∧
      (∃ i, i < c.dSize ∧ c.skip i = false ∧ data r i = (findRank c (data r) (order r)).2) := by
    intro r
    have mem : ∀ i, i ∈ order r ↔ (1 ≤ i ∧ i < c.dSize) := by
      intro i; rw [(horder r).mem_iff, List.mem_range'_1]; omega
    obtain ⟨a, b, d, e, g⟩ := find_fold c (data r) (order r) (data r 0, data r 0)
    refine ⟨?_, ?_, ?_⟩
    · intro i hi hsk
      by_cases h0 : i = 0
      · subst h0; exact ⟨b, d⟩
      · exact a i ((mem i).mpr ⟨by omega, hi⟩) hsk
    · rcases e with e | ⟨i, hi, h1, h2⟩
      · exact ⟨0, hs, skip_zero c hd, e.symm⟩
      · exact ⟨i, ((mem i).mp hi).2, h1, h2⟩
    · rcases g with e | ⟨i, hi, h1, h2⟩
      · exact ⟨0, hs, skip_zero c hd, e.symm⟩
      · exact ⟨i, ((mem i).mp hi).2, h1, h2⟩
  have M := fold_max (fun r => (findRank c (data r) (order r)).1) c.ranks (findRank c (data 0) (order 0)).1
  have m := fold_min (fun r => (findRank c (data r) (order r)).2) c.ranks (findRank c (data 0) (order 0)).2
  refine ⟨?_, ?_, ?_⟩
  · rintro r i ⟨h1, h2, h3⟩
    have := (loc r).1 i h2 h3
    exact ⟨le_trans (m.1 r h1) this.2, le_trans this.1 (M.1 r h1)⟩
  · rcases M.2.2 with e | ⟨r, hr', e⟩
    · obtain ⟨i, h1, h2, h3⟩ := (loc 0).2.1
      exact ⟨0, i, ⟨hr, h1, h2⟩, by rw [h3]; exact e.symm⟩
    · obtain ⟨i, h1, h2, h3⟩ := (loc r).2.1
      exact ⟨r, i, ⟨hr', h1, h2⟩, by rw [h3]; exact e⟩
  · rcases m.2.2 with e | ⟨r, hr', e⟩
    · obtain ⟨i, h1, h2, h3⟩ := (loc 0).2.2
      exact ⟨0, i, ⟨hr, h1, h2⟩, by rw [h3]; exact e.symm⟩
    · obtain ⟨i, h1, h2, h3⟩ := (loc r).2.2
      exact ⟨r, i, ⟨hr', h1, h2⟩, by rw [h3]; exact e⟩

/-! ### Normalisation -/

/-- Entries of a rank that are not padding. -/
theorem used_count (c : Cfg) (hpad : c.dataLen ≤ c.padded) (hwhole : c.padded ≠ c.dataLen → c.padded ∣ c.dSize) :
    (List.range c.dSize).countP (fun i => !c.skip i) =
      if c.padded = c.dataLen then c.dSize else c.dSize / c.padded * c.dataLen := by
  by_cases he : c.padded = c.dataLen
  · simp [Cfg.skip, he]
  · rw [if_neg he]
    obtain ⟨q, hq⟩ := hwhole he
    have hp : 0 < c.padded := by omega
    rw [hq, Nat.mul_div_cancel_left _ hp]
    have : ∀ q : Nat, (List.range (c.padded * q)).countP (fun i => !c.skip i) = q * c.dataLen := by
      intro q
      induction q with
      | zero => simp
      | succ q ih =>
        rw [Nat.mul_succ, List.range_add, List.countP_append, ih, List.countP_map, Nat.succ_mul]
        congr 1
        have e : ∀ i ∈ List.range c.padded,
            (((fun i => !c.skip i) ∘ (c.padded * q + ·)) i) = decide (i < c.dataLen) := by
          intro i hi
          have hi := List.mem_range.mp hi
          have : (c.padded * q + i) % c.padded = i := by
            rw [Nat.mul_add_mod, Nat.mod_eq_of_lt hi]
          by_cases h : i < c.dataLen
          · simp [Cfg.skip, this, h]
          · simp [Cfg.skip, this, h, he]; omega
        rw [List.countP_congr fun i hi => by rw [e i hi]]
        have split : ∀ a b : Nat, a ≤ b → (List.range b).countP (fun i => decide (i < a)) = a := by
          intro a b hab
          obtain ⟨k, rfl⟩ := Nat.exists_eq_add_of_le hab
          rw [List.range_add, List.countP_append]
          have h1 : (List.range a).countP (fun i => decide (i < a)) = a := by
            rw [List.countP_eq_length.mpr (by intro x hx; simpa using hx)]; simp
          have h2 : ((List.range k).map (a + ·)).countP (fun i => decide (i < a)) = 0 := by
            rw [List.countP_eq_zero]; intro x hx; simp at hx ⊢; omega
          omega
        exact split _ _ hpad
    exact this q

theorem sum_bins (c : Cfg) {lo hi : K} (data : Nat → K) (hbin : ∀ v b, binOf c lo hi v = some b → b < c.N)
    (l : List Nat) :
    ∑ j ∈ Finset.range c.N, l.countP (fun i => !c.skip i && binOf c lo hi (data i) == some j) =
      l.countP fun i => !c.skip i && (binOf c lo hi (data i)).isSome := by
  induction l with
  | nil => simp
  | cons i rest ih =>
    simp only [List.countP_cons, Finset.sum_add_distrib, ih]
    congr 1
    by_cases hsk : c.skip i
    · simp [hsk]
    · cases hb : binOf c lo hi (data i) with
      | none => simp
      | some b => simp [hsk, hbin _ _ hb]

/-- **C20** The histogram is normalised: with the limits found by `find`, the sum of the bins times
the bin width is one, for every sharing of the entries among threads and ranks. -/
theorem C20_normalised (c : Cfg) (hN : 2 ≤ c.N) (hr : 0 < c.ranks) (hs : 0 < c.dSize)
    (hd : 0 < c.dataLen) (hpad : c.dataLen ≤ c.padded)
    (hwhole : c.padded ≠ c.dataLen → c.padded ∣ c.dSize)
    (data : Nat → Nat → K) (thr : Nat → Nat → Nat) (hthr : ∀ r i, thr r i < c.threads)
    (order0 order : Nat → List Nat) (h0 : ∀ r, (order0 r).Perm (List.range' 1 (c.dSize - 1)))
    (horder : ∀ r, (order r).Perm (List.range c.dSize)) (lo hi : K)
    (hlim : findAll c data order0 = (hi, lo)) (hlt : lo < hi) :
    ∃ bins, runAll c lo hi (fun _ _ => 0) data thr order = some bins ∧
      (∑ j ∈ Finset.range c.N, bins j) * step c lo hi = 1 := by
  have hbin : ∀ v b, binOf c lo hi v = some b → b < c.N := fun v b hb => ((C20_bin c hN hlt v b).mp hb).1
  have lim := (C20_limits c hr hs hd data order0 h0).1
  rw [hlim] at lim
  obtain ⟨bins, hb, hj⟩ := C20_counts c hN hpad hlt data thr hthr order horder
  refine ⟨bins, hb, ?_⟩
  rw [Finset.sum_congr rfl fun j hj' => by
    rw [hj j (Finset.mem_range.mp hj'), Finset.sum_congr rfl fun r _ =>
      (binCount_eq c hN hlt (data r) j (Finset.mem_range.mp hj')).symm], ← Finset.sum_div, ← Nat.cast_sum,
    Finset.sum_comm]
  have rank : ∀ r ∈ Finset.range c.ranks, ∑ j ∈ Finset.range c.N, binCount c lo hi (data r) j =
      if c.padded = c.dataLen then c.dSize else c.dSize / c.padded * c.dataLen := by
    intro r hr'
    unfold binCount
    rw [sum_bins c (data r) hbin, ← used_count c hpad hwhole]
    apply List.countP_congr
    intro i hi'
    have hi' := List.mem_range.mp hi'
    by_cases hsk : c.skip i
    · simp [hsk]
    · have := (C20_inside c hN hlt (data r i)).mpr
        (lim r i ⟨Finset.mem_range.mp hr', hi', by simpa using hsk⟩)
      obtain ⟨j, hj⟩ := this
      simp [hsk, hj]
  rw [Finset.sum_congr rfl rank, Finset.sum_const, Finset.card_range, smul_eq_mul]
  unfold tSize
  have hst := step_pos c hN hlt
  have hne : ((c.ranks * (if c.padded = c.dataLen then c.dSize else c.dSize / c.padded * c.dataLen) : Nat) : K) ≠ 0 := by
    apply Nat.cast_ne_zero.mpr
    apply Nat.mul_ne_zero (by omega)
    split
    · omega
    · rename_i he
      obtain ⟨q, hq⟩ := hwhole he
      have hp : 0 < c.padded := by omega
      rw [hq, Nat.mul_div_cancel_left _ hp]
      have : q ≠ 0 := by rintro rfl; omega
      exact Nat.mul_ne_zero this (by omega)
  rw [Nat.mul_comm c.ranks] at hne ⊢
  field_simp

/-- Finding: the histogram is not reset by `run`, and what is added to is the sum over ranks, so a
second call does not give a normalised histogram: the bins are scaled by the number of ranks and the
new ones added. -/
theorem C20_second_run (c : Cfg) (hN : 2 ≤ c.N) (hpad : c.dataLen ≤ c.padded) {lo hi : K} (h : lo < hi)
    (data : Nat → Nat → K) (thr : Nat → Nat → Nat) (hthr : ∀ r i, thr r i < c.threads)
    (order : Nat → List Nat) (horder : ∀ r, (order r).Perm (List.range c.dSize)) :
    ∃ b1 b2, runAll c lo hi (fun _ _ => 0) data thr order = some b1 ∧
      runAll c lo hi (fun _ => b1) data thr order = some b2 ∧
      ∀ j, j < c.N → b2 j = (c.ranks + 1) * b1 j := by
  obtain ⟨b1, h1, e1⟩ := C20_counts c hN hpad h data thr hthr order horder
  have hbin : ∀ v b, binOf c lo hi v = some b → b < c.N := fun v b hb => ((C20_bin c hN h v b).mp hb).1
  have each : ∀ r, ∃ f : Nat → K,
      runRank c lo hi b1 (data r) (thr r) (order r) = some f ∧
      ∀ j, j < c.N → f j = b1 j + (binCount c lo hi (data r) j : K) / tSize c lo hi := by
    intro r
    obtain ⟨t, ht, et⟩ := count_fold c hN h (data r) (thr r) (hthr r) (order r) fun _ => 0
    refine ⟨_, by unfold runRank; rw [if_neg (by omega), ht]; rfl, fun j hj => ?_⟩
    simp only [et, zero_add]
    rw [← Finset.sum_div, ← Nat.cast_sum, sum_hits c (data r) (thr r) (hthr r) hbin (order r) j hj]
    rw [(horder r).countP_eq]
    rfl
  choose f hf hfj using each
  refine ⟨b1, fun j => ((List.range c.ranks).map fun r => f r j).sum, h1, ?_, fun j hj => ?_⟩
  · unfold runAll
    rw [mapM_some _ f _ fun r _ => hf r]
    simp only [Option.map_some, List.map_map]
    rfl
  · show ((List.range c.ranks).map fun r => f r j).sum = _
    have : ∀ n : Nat, ((List.range n).map fun r => f r j).sum = ∑ r ∈ Finset.range n, f r j := by
      intro n
      induction n with
      | zero => simp
      | succ n ih => rw [List.range_succ, List.map_append, List.sum_append, ih, Finset.sum_range_succ]; simp
    rw [this, Finset.sum_congr rfl fun r _ => (hfj r j hj).trans (by rw [binCount_eq c hN h (data r) j hj]),
      Finset.sum_add_distrib, Finset.sum_const,
      Finset.card_range, ← Finset.sum_div, ← Nat.cast_sum, ← e1 j hj]
    simp
    ring

/-- The hypotheses are met: two ranks of five values, two threads, three bins; a value at a limit
and values at bin edges. -/
example : let c : Cfg := ⟨3, 5, 1, 1, 2, 2⟩
    let data : Nat → Nat → ℚ := fun r i => (r + i : ℚ)
    findAll c data (fun _ => [2, 1, 4, 3]) = (5, 0) ∧
    (runAll c 0 5 (fun _ _ => 0) data (fun _ i => i % 2) (fun _ => [4, 0, 1, 3, 2])).map
      (fun b => [b 0, b 1, b 2]) = some [3/25, 4/25, 3/25] := by
  refine ⟨?_, ?_⟩
  · decide +kernel
  · decide +kernel

end Jaxions.Binner
