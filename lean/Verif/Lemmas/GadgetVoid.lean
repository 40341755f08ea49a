/-
Helper lemmas about the snapshot of the "void" kind.
-/
import Verif.Spec.GadgetVoid
import Mathlib.Analysis.SpecialFunctions.Complex.Arg
import Mathlib.Algebra.BigOperators.Intervals
import Mathlib.Algebra.BigOperators.Field
import Mathlib.Tactic.Ring
import Mathlib.Tactic.Linarith
import Mathlib.Tactic.FieldSimp
import Mathlib.Tactic.NormNum

namespace Jaxions
namespace Gadget

/-- The phase difference of two points. -/
theorem dPhase_eq {r s : ℝ} (hr : 0 < r) (hs : 0 < s) (a b : ℝ) :
    dPhase (r * Real.cos a, r * Real.sin a) (s * Real.cos b, s * Real.sin b) = turn (a - b) := by
  have h := Complex.arg_mul_cos_add_sin_mul_I_eq_toIocMod (mul_pos hr hs) (a - b)
  have e : (((r * s : ℝ)) : ℂ) * (Complex.cos ((a - b : ℝ) : ℂ) + Complex.sin ((a - b : ℝ) : ℂ) * Complex.I)
      = ⟨r * s * Real.cos (a - b), r * s * Real.sin (a - b)⟩ := by
    rw [← Complex.ofReal_cos, ← Complex.ofReal_sin]
    generalize Real.cos (a - b) = u
    generalize Real.sin (a - b) = w
    apply Complex.ext <;> simp
  rw [e] at h
  unfold dPhase atan2 turn
  rw [← h]
  congr 1
  rw [Real.cos_sub, Real.sin_sub]
  apply Complex.ext <;> simp only <;> ring

/-- Small differences are not changed. -/
theorem turn_small {a : ℝ} (h : |a| < Real.pi) : turn a = a := by
  unfold turn
  rw [toIocMod_eq_self]
  constructor
  · exact (abs_lt.1 h).1
  · have := (abs_lt.1 h).2
    linarith

theorem siteNo_int (L x y z : ℕ) : ((siteNo L x y z : ℕ) : ℤ) = ((z : ℤ) * L + y) * L + x := by
  unfold siteNo; push_cast; ring

/-- The coordinates of a point. -/
theorem begin_val (g : Grid) (rank i : ℕ) :
    begin_ g rank i = ⟨i, i % g.L, i / g.L % g.L, i / g.L / g.L + rank * g.Lz⟩ := by
  have h1 : i - g.L * (i / g.L) = i % g.L := by
    have := Nat.div_add_mod i g.L
    omega
  have h2 : i / g.L - i / g.L / g.L * g.L = i / g.L % g.L := by
    have := Nat.div_add_mod (i / g.L) g.L
    rw [Nat.mul_comm] at this
    omega
  unfold begin_
  dsimp only
  rw [h1, h2]

/-- One step moves to the next point. -/
theorem advance_begin (g : Grid) (hL : 0 < g.L) (rank i : ℕ) :
    advance g (begin_ g rank i) = begin_ g rank (i + 1) := by
  rw [begin_val, begin_val]
  have succ : ∀ n : ℕ, (n + 1) % g.L = (if n % g.L + 1 = g.L then 0 else n % g.L + 1) ∧
      (n + 1) / g.L = (if n % g.L + 1 = g.L then n / g.L + 1 else n / g.L) := by
    intro n
    have hm := Nat.mod_lt n hL
    have hd := Nat.div_add_mod n g.L
    split
    · next h =>
      have e : n + 1 = (n / g.L + 1) * g.L + 0 := by
        rw [Nat.add_mul, Nat.mul_comm (n / g.L)]; omega
      rw [e]
      exact ⟨(divmod_of hL).2, (divmod_of hL).1⟩
    · next h =>
      have e : n + 1 = n / g.L * g.L + (n % g.L + 1) := by
        rw [Nat.mul_comm (n / g.L)]; omega
      have hlt : n % g.L + 1 < g.L := by omega
      rw [e]
      refine ⟨?_, ?_⟩
      · exact (divmod_of hlt).2
      · exact (divmod_of hlt).1
  obtain ⟨hx, hy⟩ := succ i
  obtain ⟨hy', hz⟩ := succ (i / g.L)
  unfold advance
  dsimp only
  rw [hx, hy]
  by_cases h : i % g.L + 1 = g.L
  · simp only [if_pos h]
    rw [hy', hz]
    by_cases h' : i / g.L % g.L + 1 = g.L
    · simp only [if_pos h']
      rw [Part.mk.injEq]
      refine ⟨rfl, rfl, rfl, ?_⟩
      omega
    · simp only [if_neg h']
  · simp only [if_neg h]
    have : i / g.L % g.L ≠ g.L := (Nat.mod_lt _ hL).ne
    simp only [if_neg this]

/-- The loop of a slab takes `k` points, if it can take `k` and has to stop then. -/
theorem fill_run (g : Grid) (hL : 0 < g.L) (p rank : ℕ) : ∀ (k i : ℕ) (buf : List Part),
    i + k ≤ g.n3 → (∀ j < k, buf.length + j * p < g.S) →
    (i + k = g.n3 ∨ g.S ≤ buf.length + k * p) →
    fill g p (begin_ g rank i) buf =
      (i + k, buf ++ (List.range' i k).flatMap fun s => List.replicate p (begin_ g rank s)) := by
  intro k
  induction k with
  | zero =>
    intro i buf _ _ h3
    rw [fill, if_neg]
    · simp [begin_]
    · intro hc
      simp only [begin_] at hc
      rcases h3 with h | h <;> omega
  | succ k ih =>
    intro i buf h1 h2 h3
    have h0 := h2 0 (by omega)
    rw [fill, if_pos ⟨by simp only [begin_]; omega, by simpa using h0⟩, advance_begin g hL, ih]
    · rw [List.range'_succ, List.flatMap_cons, List.append_assoc]
      congr 1
      omega
    · omega
    · intro j hj
      have := h2 (j + 1) (by omega)
      rw [List.length_append, List.length_replicate]
      rw [Nat.succ_mul] at this
      omega
    · rw [List.length_append, List.length_replicate]
      rw [Nat.succ_mul] at h3
      omega

/-- The entries of a list of repeated points. -/
theorem rep_get {α : Type} (f : ℕ → α) (p : ℕ) (hp : 0 < p) : ∀ (k i j : ℕ), j < k * p →
    ((List.range' i k).flatMap fun s => List.replicate p (f s))[j]? = some (f (i + j / p)) := by
  intro k
  induction k with
  | zero => intro i j h; omega
  | succ k ih =>
    intro i j h
    rw [List.range'_succ, List.flatMap_cons]
    by_cases hj : j < p
    · rw [List.getElem?_append_left (by simpa using hj), List.getElem?_replicate, if_pos hj,
        Nat.div_eq_of_lt hj, Nat.add_zero]
    · rw [List.getElem?_append_right (by simpa using Nat.not_lt.1 hj), List.length_replicate]
      have hs : j - p < k * p := by rw [Nat.succ_mul] at h; omega
      rw [ih (i + 1) (j - p) hs]
      have : j / p = (j - p) / p + 1 := by
        conv_lhs => rw [show j = j - p + p by omega]
        rw [Nat.add_div_right _ hp]
      rw [this]
      congr 2
      omega

theorem rep_none {α : Type} (f : ℕ → α) (p k i j : ℕ) (h : k * p ≤ j) :
    ((List.range' i k).flatMap fun s => List.replicate p (f s))[j]? = none := by
  rw [List.getElem?_eq_none]
  rw [List.length_flatMap]
  simp only [List.length_replicate]
  rw [List.map_const', List.sum_replicate, List.length_range']
  simpa using h

/-- The slabs when each takes `q` whole points. -/
theorem slabs_get (g : Grid) (hL : 0 < g.L) (p q rank : ℕ) (hp : 0 < p) (hq : g.S = q * p) :
    ∀ (n a zd : ℕ), zd < n → (a + n) * q ≤ g.n3 →
      (slabs g p rank n (a * q))[zd]? =
        some ((List.range' ((a + zd) * q) q).flatMap
          fun s => List.replicate p (begin_ g rank s)) := by
  intro n
  induction n with
  | zero => intro a zd h; omega
  | succ n ih =>
    intro a zd h hn
    have hfit : a * q + q ≤ g.n3 := by
      refine le_trans ?_ hn
      rw [show a * q + q = (a + 1) * q by rw [Nat.succ_mul]]
      exact Nat.mul_le_mul_right q (by omega)
    have hf := fill_run g hL p rank q (a * q) [] hfit
      (by
        intro j hj
        rw [hq, List.length_nil, Nat.zero_add]
        exact Nat.mul_lt_mul_of_pos_right hj hp)
      (Or.inr (by rw [hq, List.length_nil, Nat.zero_add]))
    unfold slabs
    dsimp only
    rw [hf]
    cases zd with
    | zero => simp
    | succ zd =>
      rw [List.getElem?_cons_succ]
      dsimp only
      rw [show a * q + q = (a + 1) * q by rw [Nat.succ_mul], ih (a + 1) zd (by omega)
        (by rw [show a + 1 + n = a + (n + 1) by omega]; exact hn)]
      rw [show a + 1 + zd = a + (zd + 1) by omega]

/-- The sum in pairs is the sum. -/
theorem pairSum_eq (e : ℕ → ℝ) (n : ℕ) (order : List ℕ) (h : order.Perm (List.range n)) :
    pairSum e order = ∑ i ∈ Finset.range (2 * n), e i := by
  have h1 : pairSum e order = pairSum e (List.range n) := (h.map _).sum_eq
  rw [h1]
  clear h h1
  induction n with
  | zero => simp [pairSum]
  | succ n ih =>
    have : pairSum e (List.range (n + 1)) = pairSum e (List.range n) + (e (2 * n) + e (2 * n + 1)) := by
      simp [pairSum, List.range_succ]
    rw [this, ih, show 2 * (n + 1) = 2 * n + 1 + 1 by omega, Finset.sum_range_succ,
      Finset.sum_range_succ]
    ring

/-- The mean over the ranks. -/
theorem eMean_eq (n ranks : ℕ) (s : ℕ → ℝ) :
    eMean n ((List.range ranks).map s) = (∑ r ∈ Finset.range ranks, s r) / (n * ranks) := by
  unfold eMean
  rw [List.length_map, List.length_range, List.map_map]
  have : (List.map ((fun s : ℝ => s / (n : ℝ)) ∘ s) (List.range ranks)).sum =
      (∑ r ∈ Finset.range ranks, s r) / n := by
    rw [Finset.sum_div]
    induction ranks with
    | zero => simp
    | succ k ih => rw [List.range_succ, List.map_append, List.sum_append, ih, Finset.sum_range_succ]; simp
  rw [this, div_div]

end Gadget
end Jaxions
