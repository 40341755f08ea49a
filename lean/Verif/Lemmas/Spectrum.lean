import Verif.Spec.Spectrum
import Verif.Basic.DivMod
import Mathlib.Algebra.BigOperators.Ring.Finset
import Mathlib.Algebra.BigOperators.Group.List.Basic
import Mathlib.Algebra.BigOperators.Intervals
import Mathlib.Tactic.Ring
import Mathlib.Tactic.Linarith

/-!
Lemmas for spectra.
-/

namespace Jaxions
namespace Spectrum

open Finset

/-! ## Sums -/

theorem sum_blocks {M : Type} [AddCommMonoid M] (f : Nat → M) (A B : Nat) :
    ∑ i ∈ range (A * B), f i = ∑ a ∈ range A, ∑ b ∈ range B, f (a * B + b) := by
  induction A with
  | zero => simp
  | succ A ih => rw [Nat.succ_mul, sum_range_add, ih, sum_range_succ]

theorem sum_opp {M : Type} [AddCommMonoid M] (f : Nat → M) (N : Nat) :
    ∑ i ∈ range N, f ((N - i) % N) = ∑ i ∈ range N, f i := by
  rcases Nat.eq_zero_or_pos N with rfl | hN
  · simp
  have inv : ∀ i, i < N → (N - (N - i) % N) % N = i := by
    intro i hi
    rcases Nat.eq_zero_or_pos i with rfl | h0
    · simp
    · rw [Nat.mod_eq_of_lt (by omega : N - i < N), Nat.mod_eq_of_lt (by omega)]; omega
  refine sum_nbij' (fun i => (N - i) % N) (fun i => (N - i) % N) ?_ ?_ ?_ ?_ ?_
  · intro i _; exact mem_range.mpr (Nat.mod_lt _ hN)
  · intro i _; exact mem_range.mpr (Nat.mod_lt _ hN)
  · intro i hi; exact inv i (mem_range.mp hi)
  · intro i hi; exact inv i (mem_range.mp hi)
  · intro i _; rfl

/-- Half of an even axis with the inner points twice. -/
theorem sum_half {K : Type} [Field K] (f : Nat → K) (h : Nat) (hh : 0 < h) :
    ∑ x ∈ range (h + 1), (if x = 0 ∨ x = h then f x else 2 * f x) =
      ∑ x ∈ range (h + 1), f x + ∑ x ∈ range (h - 1), f (h - 1 - x) := by
  obtain ⟨m, rfl⟩ : ∃ m, h = m + 1 := ⟨h - 1, by omega⟩
  rw [sum_range_succ, sum_range_succ', sum_range_succ f, sum_range_succ' f]
  have e1 : ∑ x ∈ range m, (if x + 1 = 0 ∨ x + 1 = m + 1 then f (x + 1) else 2 * f (x + 1)) =
      ∑ x ∈ range m, f (x + 1) + ∑ x ∈ range m, f (x + 1) := by
    rw [← sum_add_distrib]
    refine sum_congr rfl fun x hx => ?_
    rw [if_neg (by have := mem_range.mp hx; omega)]; ring
  have e2 : ∑ x ∈ range (m + 1 - 1), f (m + 1 - 1 - x) = ∑ x ∈ range m, f (x + 1) := by
    rw [Nat.add_sub_cancel, ← sum_range_reflect (fun x => f (x + 1)) m]
    refine sum_congr rfl fun x hx => ?_
    have := mem_range.mp hx
    congr 1; omega
  rw [e1, e2, if_pos (Or.inl rfl), if_pos (Or.inr rfl)]
  ring

/-! ## Mode numbers -/

theorem freq_opp {N i : Nat} (hi : i < N) : freq N ((N - i) % N) * freq N ((N - i) % N) =
    freq N i * freq N i ∧ (freq N ((N - i) % N)).natAbs = (freq N i).natAbs := by
  have key : freq N ((N - i) % N) = - freq N i ∨ freq N ((N - i) % N) = freq N i := by
    rcases Nat.eq_zero_or_pos i with rfl | h0
    · right; simp
    · rw [Nat.mod_eq_of_lt (by omega)]
      unfold freq
      split <;> split <;> omega
  rcases key with e | e <;> rw [e] <;> constructor <;> simp

theorem freq_bound {N i : Nat} (hi : i < N) : (freq N i).natAbs ≤ N / 2 := by
  unfold freq; split <;> omega

theorem sq_natAbs (k : Int × Int × Int) : sq k =
    k.1.natAbs * k.1.natAbs + k.2.1.natAbs * k.2.1.natAbs + k.2.2.natAbs * k.2.2.natAbs := by
  unfold sq
  have : k.1 * k.1 + k.2.1 * k.2.1 + k.2.2 * k.2.2 = ((k.1.natAbs * k.1.natAbs +
    k.2.1.natAbs * k.2.1.natAbs + k.2.2.natAbs * k.2.2.natAbs : Nat) : Int) := by
    push_cast
    simp only [abs_mul_abs_self]
  rw [this, Int.toNat_natCast]

theorem powMax_sq (c : Cfg) :
    2 * (c.Ly / 2) * (c.Ly / 2) + c.Tz / 2 * (c.Tz / 2) < c.powMax * c.powMax := by
  unfold Cfg.powMax
  exact Nat.lt_succ_sqrt _

theorem sq_lt (c : Cfg) {k : Int × Int × Int} (h1 : k.1.natAbs ≤ c.Ly / 2)
    (h2 : k.2.1.natAbs ≤ c.Ly / 2) (h3 : k.2.2.natAbs ≤ c.Tz / 2) : sq k < c.powMax * c.powMax := by
  refine lt_of_le_of_lt ?_ (powMax_sq c)
  rw [sq_natAbs]
  have a := Nat.mul_le_mul h1 h1
  have b := Nat.mul_le_mul h2 h2
  have d := Nat.mul_le_mul h3 h3
  have e : 2 * (c.Ly / 2) * (c.Ly / 2) = c.Ly / 2 * (c.Ly / 2) + c.Ly / 2 * (c.Ly / 2) := by ring
  rw [e]; omega

theorem powMax_pos (c : Cfg) : 0 < c.powMax := Nat.succ_pos _

/-! ## Bins -/

theorem nbins_pos {c : Cfg} (h : c.nbinsspec ≠ 0) : 0 < c.nbins := by
  unfold Cfg.nbins; split
  · exact powMax_pos c
  · omega

theorem myBin_inBin (c : Cfg) (k2 : Nat) : InBin c k2 (myBin c k2) := by
  have hp := powMax_pos c
  have hpp : 0 < c.powMax * c.powMax := Nat.mul_pos hp hp
  unfold InBin myBin Cfg.nbins
  split
  · constructor
    · rw [Nat.mul_comm (c.powMax * c.powMax)]
      exact Nat.mul_le_mul_right _ (Nat.sqrt_le k2)
    · rw [Nat.mul_comm (c.powMax * c.powMax)]
      exact Nat.mul_lt_mul_of_pos_right (Nat.lt_succ_sqrt k2) hpp
  · set w := c.nbinsspec.toNat * c.nbinsspec.toNat * k2
    constructor
    · exact (Nat.le_div_iff_mul_le hpp).mp (Nat.sqrt_le _)
    · exact (Nat.div_lt_iff_lt_mul hpp).mp (Nat.lt_succ_sqrt _)

theorem inBin_unique (c : Cfg) {k2 a b : Nat} (ha : InBin c k2 a) (hb : InBin c k2 b) : a = b := by
  have hp := powMax_pos c
  have hpp : 0 < c.powMax * c.powMax := Nat.mul_pos hp hp
  have key : ∀ a b, InBin c k2 a → InBin c k2 b → a ≤ b := by
    intro a b ha hb
    have := lt_of_le_of_lt ha.1 hb.2
    have := Nat.lt_of_mul_lt_mul_right this
    exact Nat.lt_succ_iff.mp (Nat.mul_self_lt_mul_self_iff.mp this)
  exact le_antisymm (key a b ha hb) (key b a hb ha)

theorem inBin_iff (c : Cfg) (k2 b : Nat) : InBin c k2 b ↔ myBin c k2 = b :=
  ⟨fun h => inBin_unique c (myBin_inBin c k2) h, fun h => h ▸ myBin_inBin c k2⟩

theorem inBin_lt {c : Cfg} (hn : 0 < c.nbins) {k2 b : Nat} (h2 : k2 < c.powMax * c.powMax)
    (h : InBin c k2 b) : b < c.nbins := by
  have hp := powMax_pos c
  have hpp : 0 < c.powMax * c.powMax := Nat.mul_pos hp hp
  have a := lt_of_le_of_lt h.1 (Nat.mul_lt_mul_of_pos_left h2 (Nat.mul_pos hn hn))
  exact Nat.mul_self_lt_mul_self_iff.mp (Nat.lt_of_mul_lt_mul_right a)

/-! ## The loops of one rank -/

variable {K : Type} [Field K]

/-- What an iteration adds to vector `a`. -/
def amount (p : Phys K) (s : SType) (a : Arr) (k : Int × Int × Int) (m2 : K) : K :=
  ((terms p s k m2).map fun e => if e.1 = a then e.2 else 0).sum

theorem terms_used (p : Phys K) (s : SType) (k : Int × Int × Int) (m2 : K) :
    ∀ e ∈ terms p s k m2, used s e.1 = true := by
  intro e he
  cases s <;> simp only [terms, List.mem_cons, List.not_mem_nil, or_false] at he <;>
    (try rcases he with rfl | rfl) <;> rfl

theorem addAt_fold (c : Cfg) (s : SType) {k : Nat} (hk : k < c.nbins * c.threads) :
    ∀ (l : List (Arr × K)) (t : Bins K), (∀ e ∈ l, used s e.1 = true) →
      l.foldlM (fun t e => addAt c s t e.1 k e.2) t = some fun a j =>
        t a j + if j = k then (l.map fun e => if e.1 = a then e.2 else 0).sum else 0 := by
  intro l
  induction l with
  | nil => intro t _; simp [pure]
  | cons e l ih =>
    intro t h
    rw [List.foldlM_cons, addAt, if_pos ⟨h e (by simp), hk⟩]
    show l.foldlM _ _ = _
    rw [ih _ fun x hx => h x (by simp [hx])]
    refine congrArg some (funext fun a => funext fun j => ?_)
    by_cases hj : j = k
    · by_cases ha : a = e.1
      · subst ha; simp [hj, List.map_cons, List.sum_cons]; ring
      · have ha' : ¬e.1 = a := fun h => ha h.symm
        simp [hj, ha, ha']
    · simp [hj]

theorem fill_fold (c : Cfg) (p : Phys K) (s : SType) (rank : Nat) (amp : Nat → K) :
    ∀ (order : List (Nat × Nat)) (t : Bins K),
      (∀ i ∈ order, myBin c (sq (mode c rank i.1)) < c.nbins ∧ i.2 < c.threads) →
      order.foldlM (fillOne c p s rank amp) t = some fun a k => t a k +
        (order.map fun i => if k = myBin c (sq (mode c rank i.1)) + c.nbins * i.2 then
          amount p s a (mode c rank i.1) (weight c (mode c rank i.1) (modulus s (amp i.1)))
          else 0).sum := by
  intro order
  induction order with
  | nil => intro t _; simp [pure]
  | cons i l ih =>
    intro t h
    have hi := h i (by simp)
    rw [List.foldlM_cons, fillOne, if_neg (by omega),
      addAt_fold c s (by rw [Nat.add_comm, Nat.mul_comm, Nat.mul_comm _ c.threads]; exact pair_lt hi.2 hi.1) _ _
      (terms_used p s _ _)]
    show l.foldlM _ _ = _
    rw [ih _ fun x hx => h x (by simp [hx])]
    refine congrArg some (funext fun a => funext fun j => ?_)
    rw [List.map_cons, List.sum_cons, add_assoc]
    rfl

theorem foldl_sum (f : Nat → K) (n : Nat) (x : K) :
    (List.range n).foldl (fun x i => x + f i) x = x + ∑ i ∈ range n, f i := by
  induction n with
  | zero => simp
  | succ n ih => rw [List.range_succ, List.foldl_append, ih, sum_range_succ]; simp [add_assoc]

/-- Sum over the threads of the part of a bin. -/
theorem thread_sum (c : Cfg) {j : Nat} (hj : j < c.nbins) (bin : Nat → Nat) (g : Nat → K) :
    ∀ (order : List (Nat × Nat)), (∀ i ∈ order, bin i.1 < c.nbins ∧ i.2 < c.threads) →
      ∑ q ∈ range c.threads, (order.map fun i =>
        if j + q * c.nbins = bin i.1 + c.nbins * i.2 then g i.1 else 0).sum =
      ((order.map Prod.fst).map fun i => if bin i = j then g i else 0).sum := by
  intro order
  induction order with
  | nil => intro _; simp
  | cons i l ih =>
    intro h
    have hi := h i (by simp)
    simp only [List.map_cons, List.sum_cons]
    rw [sum_add_distrib, ih fun x hx => h x (by simp [hx])]
    congr 1
    have e : ∀ q, (j + q * c.nbins = bin i.1 + c.nbins * i.2) ↔ (q = i.2 ∧ bin i.1 = j) := by
      intro q
      constructor
      · intro e
        have := pair_inj (b := c.nbins) (q := q) (q' := i.2) (r := j) (r' := bin i.1) hj hi.1
          (by rw [Nat.mul_comm i.2]; omega)
        exact ⟨this.1, this.2.symm⟩
      · rintro ⟨rfl, rfl⟩; ring
    simp only [e]
    by_cases hb : bin i.1 = j
    · simp only [hb, and_true, if_true]
      rw [sum_ite_eq' (range c.threads) i.2 fun _ => g i.1, if_pos (mem_range.mpr hi.2)]
    · simp [hb]

theorem list_range_sum (f : Nat → K) (n : Nat) : ((List.range n).map f).sum = ∑ i ∈ range n, f i := by
  induction n with
  | zero => simp
  | succ n ih => rw [List.range_succ, List.map_append, List.sum_append, ih, sum_range_succ]; simp

theorem mapM_some {α β : Type} (f : α → Option β) (g : α → β) (l : List α)
    (h : ∀ x ∈ l, f x = some (g x)) : l.mapM f = some (l.map g) := by
  induction l with
  | nil => rfl
  | cons x l ih =>
    rw [List.mapM_cons, h x (by simp), ih fun y hy => h y (by simp [hy])]
    rfl

theorem fillRank_eq (c : Cfg) (p : Phys K) (s : SType) (rank : Nat) (amp : Nat → K)
    {order : List (Nat × Nat)} (ho : Order c order)
    (hb : ∀ i < c.modes, myBin c (sq (mode c rank i)) < c.nbins) (old : Bins K) :
    ∃ t, fillRank c p s rank amp order old = some t ∧ ∀ a j, j < c.nbins →
      t a j = start s old a j + if used s a then ∑ i ∈ range c.modes,
        (if myBin c (sq (mode c rank i)) = j then
          amount p s a (mode c rank i) (weight c (mode c rank i) (modulus s (amp i))) * factor p s
          else 0) else 0 := by
  have hlt : ∀ i ∈ order, myBin c (sq (mode c rank i.1)) < c.nbins ∧ i.2 < c.threads := by
    intro i hi
    refine ⟨hb _ ?_, ho.2 i hi⟩
    exact List.mem_range.mp (ho.1.mem_iff.mp (List.mem_map_of_mem hi))
  rw [fillRank, fill_fold c p s rank amp order _ hlt, Option.map_some]
  refine ⟨_, rfl, ?_⟩
  intro a j hj
  beta_reduce
  cases hu : used s a
  · simp
  · simp only [if_true]
    rw [foldl_sum, ← sum_mul]
    congr 1
    simp only [zero_add]
    rw [thread_sum c hj (fun i => myBin c (sq (mode c rank i)))
      (fun i => amount p s a (mode c rank i) (weight c (mode c rank i) (modulus s (amp i)))) order hlt,
      (ho.1.map _).sum_eq, list_range_sum, sum_mul]
    refine sum_congr rfl fun i _ => ?_
    split
    · rfl
    · rw [zero_mul]

/-! ## All ranks -/

theorem mode_eq {c : Cfg} {r x y z : Nat} (hx : x < c.Lx) (hz : z < c.Tz) :
    mode c r ((y * c.Tz + z) * c.Lx + x) =
      ((x : Int), freq c.Ly (y + c.Ly / c.ranks * r), freq c.Tz z) := by
  have e1 : ((y * c.Tz + z) * c.Lx + x) / c.Lx = y * c.Tz + z := div_of hx
  have e2 : (y * c.Tz + z) / c.Tz = y := div_of hz
  unfold mode
  simp only [e1, e2, Nat.add_sub_cancel_left, Cfg.zBase]
  refine Prod.ext ?_ (Prod.ext ?_ ?_) <;> dsimp only [freq]
  · split <;> split <;> omega
  · split <;> split <;> omega

theorem modes_eq {c : Cfg} (h : c.Ok) : c.modes = c.Ly / c.ranks * c.Tz * c.Lx := by
  obtain ⟨u, hu⟩ := h.divY
  obtain ⟨v, hv⟩ := h.divZ
  have hr := h.ranks
  rw [Cfg.modes, Cfg.Lz, hu, hv, Nat.mul_div_cancel_left _ hr, Nat.mul_div_cancel_left _ hr]
  ring

theorem mode_bound {c : Cfg} (h : c.Ok) {r : Nat} (hr : r < c.ranks) {i : Nat} (hi : i < c.modes) :
    ∃ x y z, x < c.Lx ∧ y < c.Ly / c.ranks ∧ z < c.Tz ∧ i = (y * c.Tz + z) * c.Lx + x ∧
      sq (mode c r i) < c.powMax * c.powMax := by
  rw [modes_eq h] at hi
  have h1 : i / c.Lx < c.Ly / c.ranks * c.Tz := lt_of_mul_div hi
  have hx : i % c.Lx < c.Lx := Nat.mod_lt _ (Nat.succ_pos _)
  have hy : i / c.Lx / c.Tz < c.Ly / c.ranks := lt_of_mul_div h1
  have hz : i / c.Lx % c.Tz < c.Tz := Nat.mod_lt _ h.depth
  refine ⟨i % c.Lx, i / c.Lx / c.Tz, i / c.Lx % c.Tz, hx, hy, hz, ?_, ?_⟩
  · rw [div_mul_add_mod, div_mul_add_mod]
  · have e : i = (i / c.Lx / c.Tz * c.Tz + i / c.Lx % c.Tz) * c.Lx + i % c.Lx := by
      rw [div_mul_add_mod, div_mul_add_mod]
    rw [e, mode_eq hx hz]
    have hyy : i / c.Lx / c.Tz + c.Ly / c.ranks * r < c.Ly := by
      have := pair_lt hr hy
      rw [Nat.mul_div_cancel' h.divY, Nat.mul_comm r] at this
      omega
    refine sq_lt c ?_ (freq_bound hyy) (freq_bound hz)
    exact Nat.lt_succ_iff.mp hx

/-- Sum over the modes of all ranks. -/
theorem rank_sum {c : Cfg} (h : c.Ok) (F : Nat → Nat → K) (G : Nat → Nat → Nat → K)
    (hF : ∀ r x y z, r < c.ranks → x < c.Lx → y < c.Ly / c.ranks → z < c.Tz →
      F r ((y * c.Tz + z) * c.Lx + x) = G x (y + c.Ly / c.ranks * r) z) :
    ∑ r ∈ range c.ranks, ∑ i ∈ range c.modes, F r i =
      ∑ y ∈ range c.Ly, ∑ z ∈ range c.Tz, ∑ x ∈ range c.Lx, G x y z := by
  have e : c.Ly = c.ranks * (c.Ly / c.ranks) := (Nat.mul_div_cancel' h.divY).symm
  conv_rhs => rw [e, sum_blocks]
  refine sum_congr rfl fun r hr => ?_
  rw [modes_eq h, sum_blocks, sum_blocks]
  refine sum_congr rfl fun y hy => sum_congr rfl fun z hz => sum_congr rfl fun x hx => ?_
  rw [hF r x y z (mem_range.mp hr) (mem_range.mp hx) (mem_range.mp hy) (mem_range.mp hz),
    Nat.add_comm y, Nat.mul_comm _ r]

/-- The half-complex sum is the sum over the lattice. -/
theorem half_full {c : Cfg} (h : c.Ok) (G : Nat → Nat → Nat → K)
    (hG : ∀ x y z, x < c.Ly → y < c.Ly → z < c.Tz →
      G ((c.Ly - x) % c.Ly) ((c.Ly - y) % c.Ly) ((c.Tz - z) % c.Tz) = G x y z) :
    ∑ y ∈ range c.Ly, ∑ z ∈ range c.Tz, ∑ x ∈ range c.Lx,
      (if x = 0 ∨ x = c.Lx - 1 then G x y z else 2 * G x y z) =
    ∑ y ∈ range c.Ly, ∑ z ∈ range c.Tz, ∑ x ∈ range c.Ly, G x y z := by
  obtain ⟨m, hm⟩ := h.even
  have hm0 : 0 < m := by have := h.len; omega
  have hLx : c.Lx = m + 1 := by unfold Cfg.Lx; omega
  have swap : ∀ (A : Nat) (F : Nat → Nat → Nat → K), ∑ y ∈ range c.Ly, ∑ z ∈ range c.Tz,
      ∑ x ∈ range A, F x y z = ∑ x ∈ range A, ∑ y ∈ range c.Ly, ∑ z ∈ range c.Tz, F x y z := by
    intro A F
    rw [sum_comm]
    conv_lhs => enter [2, z]; rw [sum_comm]
    rw [sum_comm]
    refine sum_congr rfl fun x _ => ?_
    rw [sum_comm]
  have e1 : ∀ y z, ∑ x ∈ range c.Lx, (if x = 0 ∨ x = c.Lx - 1 then G x y z else 2 * G x y z) =
      ∑ x ∈ range (m + 1), G x y z + ∑ x ∈ range (m - 1), G (m - 1 - x) y z := by
    intro y z
    rw [hLx, Nat.add_sub_cancel]
    exact sum_half (fun x => G x y z) m hm0
  have e2 : ∀ y z, ∑ x ∈ range c.Ly, G x y z =
      ∑ x ∈ range (m + 1), G x y z + ∑ x ∈ range (m - 1), G (m + 1 + x) y z := by
    intro y z
    rw [show c.Ly = m + 1 + (m - 1) by omega, sum_range_add]
  simp only [e1, e2, sum_add_distrib]
  congr 1
  rw [swap, swap]
  refine sum_congr rfl fun x hx => ?_
  have hxm := mem_range.mp hx
  rw [← sum_opp (fun y => ∑ z ∈ range c.Tz, G (m + 1 + x) y z)]
  refine sum_congr rfl fun y hy => ?_
  rw [← sum_opp (fun z => G (m + 1 + x) ((c.Ly - y) % c.Ly) z)]
  refine sum_congr rfl fun z hz => ?_
  rw [← hG (m - 1 - x) y z (by omega) (mem_range.mp hy) (mem_range.mp hz)]
  congr 1
  rw [Nat.mod_eq_of_lt (by omega)]; omega

theorem amount_two (p : Phys K) (s : SType) (a : Arr) (k : Int × Int × Int) (m : K) :
    amount p s a k (2 * m) = 2 * amount p s a k m := by
  cases s <;> cases a <;> simp [amount, terms] <;> ring

omit [Field K] in
theorem tableIdx_eq (p : Phys K) (k : Int × Int × Int) :
    tableIdx p k = (alongAxis p.control k).natAbs := by
  unfold tableIdx alongAxis
  split
  · simp [*]
  · simp [*]
  · rw [if_neg ‹_›, if_neg ‹_›]

/-- What a mode contributes is what the specification says. -/
theorem amount_share (p : Phys K) (s : SType) (a : Arr) (k : Int × Int × Int) (m : K) :
    amount p s a k (modulus s m * modulus s m) * factor p s = share p s a k (m * m) := by
  cases s <;> cases a <;> simp [amount, terms, share, modulus, factor, tableIdx_eq] <;> ring

theorem share_unused (p : Phys K) (s : SType) (a : Arr) (k : Int × Int × Int) (m : K)
    (h : used s a = false) : share p s a k m = 0 := by
  cases s <;> cases a <;> simp [share, used] at *

theorem share_abs (p : Phys K) (s : SType) (a : Arr) {k l : Int × Int × Int} (m : K)
    (h1 : k.1.natAbs = l.1.natAbs) (h2 : k.2.1.natAbs = l.2.1.natAbs)
    (h3 : k.2.2.natAbs = l.2.2.natAbs) : share p s a k m = share p s a l m := by
  have e : sq k = sq l := by rw [sq_natAbs, sq_natAbs, h1, h2, h3]
  have e' : (alongAxis p.control k).natAbs = (alongAxis p.control l).natAbs := by
    unfold alongAxis; split
    · exact h2
    · split <;> assumption
  cases s <;> cases a <;> simp [share, e, e']

end Spectrum
end Jaxions
