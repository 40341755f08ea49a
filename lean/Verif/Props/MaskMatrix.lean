import Verif.Model.MaskMatrix
import Verif.Spec.MaskMatrix
import Mathlib.Tactic.Linarith
import Mathlib.Tactic.Ring
import Mathlib.Tactic.FieldSimp
import Mathlib.Tactic.NormNum
import Mathlib.Tactic.Push
import Mathlib.Tactic.Positivity

/-!
# C99: the matrix that corrects spectra of masked fields
-/

namespace Jaxions.MaskMatrix

open scoped BigOperators

theorem coupling_swap (vol : ℝ) (n : ℕ → ℝ) (i j k : ℕ) : coupling vol n i j k = coupling vol n j i k := by
  unfold coupling
  have h1 : Triangle i j k ↔ Triangle j i k := by unfold Triangle; omega
  have h2 : (i = 0 ∧ j = 0 ∧ k = 0) ↔ (j = 0 ∧ i = 0 ∧ k = 0) := by tauto
  have h3 : (i = 0 ∨ j = 0 ∨ k = 0) ↔ (j = 0 ∨ i = 0 ∨ k = 0) := by tauto
  simp only [h1, h2, h3, max_left_comm i j k]
  congr 3
  ring

theorem coupling_rot (vol : ℝ) (n : ℕ → ℝ) (i j k : ℕ) : coupling vol n i j k = coupling vol n i k j := by
  unfold coupling
  have h1 : Triangle i j k ↔ Triangle i k j := by unfold Triangle; omega
  have h2 : (i = 0 ∧ j = 0 ∧ k = 0) ↔ (i = 0 ∧ k = 0 ∧ j = 0) := by tauto
  have h3 : (i = 0 ∨ j = 0 ∨ k = 0) ↔ (i = 0 ∨ k = 0 ∨ j = 0) := by tauto
  simp only [h1, h2, h3, max_comm j k]
  congr 3
  ring

theorem get_some {T : List ℝ} {i : ℕ} (h : i < T.length) : T[i]? = some (T.getD i 0) := by
  rw [List.getD_eq_getElem?_getD, List.getElem?_eq_getElem h]
  rfl

/-- What the code computes for an element: the coupling, and nothing behind the last bin. -/
theorem J_eq {vol : ℝ} {NN : List ℝ} {nbins : ℕ} (hN : NN.length = nbins) {is j k : ℕ} (hj : j < nbins)
    (hk : k < nbins) :
    J vol NN nbins is j k = some (if is < nbins then coupling vol (fun i => NN.getD i 0) is j k else 0) := by
  unfold J
  by_cases hk0 : k = 0
  · subst hk0
    rw [if_pos rfl]
    by_cases hj0 : j = 0
    · subst hj0
      rw [if_pos rfl]
      by_cases hi : is = 0
      · subst hi
        rw [if_pos rfl, if_pos hj]
        simp [coupling, Triangle]
      · rw [if_neg hi]
        have : ¬ Triangle is 0 0 := by unfold Triangle; omega
        simp [coupling, this]
    · rw [if_neg hj0]
      by_cases hi : is = j
      · subst hi
        rw [if_pos rfl, get_some (by omega), if_pos hj]
        have : Triangle is is 0 := by unfold Triangle; omega
        simp [coupling, this, hj0]
      · rw [if_neg hi]
        have : ¬ Triangle is j 0 := by unfold Triangle; omega
        simp [coupling, this]
  · rw [if_neg hk0]
    by_cases hj0 : j = 0
    · subst hj0
      rw [if_pos rfl]
      by_cases hi : is = k
      · subst hi
        rw [if_pos rfl, get_some (by omega), if_pos hk]
        have : Triangle is 0 is := by unfold Triangle; omega
        simp [coupling, this, hk0]
      · rw [if_neg hi]
        have : ¬ Triangle is 0 k := by unfold Triangle; omega
        simp [coupling, this]
    · rw [if_neg hj0]
      dsimp only
      by_cases hi0 : is = 0
      · subst hi0
        rw [if_pos rfl, if_pos (by omega : 0 < nbins)]
        by_cases hjk : j = k
        · subst hjk
          rw [if_pos rfl, get_some (by omega)]
          have : Triangle 0 j j := by unfold Triangle; omega
          simp [coupling, this, hj0]
        · rw [if_neg hjk]
          have : ¬ Triangle 0 j k := by unfold Triangle; omega
          simp [coupling, this]
      · rw [if_neg hi0]
        by_cases hib : is < nbins
        · rw [if_pos hib]
          by_cases ht : Triangle is j k
          · rw [if_pos (by unfold Triangle at ht; omega)]
            simp only [coupling, ht, if_true, hi0, hj0, hk0, false_and, or_self, if_false]
            rw [div_div]
            congr 2
            ring
          · rw [if_neg (by unfold Triangle at ht; omega)]
            simp [coupling, ht]
        · rw [if_neg (by omega), if_neg hib]

theorem cell_eq {vol : ℝ} {NN P : List ℝ} {nbins : ℕ} (hN : NN.length = nbins) (hP : P.length = nbins)
    {is j : ℕ} (hj : j < nbins) :
    cell vol NN P nbins is j =
      some (if is < nbins then matrix vol (fun i => NN.getD i 0) (fun i => P.getD i 0) nbins is j else 0) := by
  have key : ∀ m, m ≤ nbins → (List.range m).foldl (fun s k => do
      let s ← s
      let x ← J vol NN nbins is j k
      let p ← P[k]?
      return s + 1 / vol * p * x) (some 0) = some (∑ k ∈ Finset.range m, if is < nbins then
        P.getD k 0 * coupling vol (fun i => NN.getD i 0) is j k / vol else 0) := by
    intro m hm
    induction m with
    | zero => simp
    | succ m ih =>
      rw [List.range_succ, List.foldl_append, ih (by omega), Finset.sum_range_succ]
      simp only [List.foldl_cons, List.foldl_nil]
      rw [J_eq hN hj (by omega), get_some (by omega : m < P.length)]
      show some _ = some _
      congr 2
      split_ifs
      · ring
      · ring
  unfold cell matrix
  rw [key nbins le_rfl]
  split_ifs
  · rfl
  · simp

theorem flatMap_get {α : Type} (g : ℕ → List α) {L : ℕ} {a : ℕ} (hg : ∀ i, i < a → (g i).length = L) {i l : ℕ}
    (hi : i < a) (hl : l < L) : ((List.range a).flatMap g)[i * L + l]? = (g i)[l]? := by
  have hlen : ∀ b, b ≤ a → ((List.range b).flatMap g).length = b * L := by
    intro b hb
    induction b with
    | zero => simp
    | succ b ih =>
      rw [List.range_succ, List.flatMap_append, List.length_append, ih (by omega)]
      simp [hg b (by omega), Nat.succ_mul]
  induction a with
  | zero => omega
  | succ a ih =>
    rw [List.range_succ, List.flatMap_append]
    rcases Nat.lt_succ_iff_lt_or_eq.1 hi with h | h
    · rw [List.getElem?_append_left]
      · exact ih (fun i hi => hg i (by omega)) h fun b hb => hlen b (by omega)
      · rw [hlen a (by omega)]
        have : (i + 1) * L ≤ a * L := Nat.mul_le_mul_right _ h
        rw [Nat.succ_mul] at this
        omega
    · subst h
      rw [List.getElem?_append_right (by rw [hlen i (by omega)]; omega), hlen i (by omega)]
      simp

theorem sbuf_get {vol : ℝ} {NN P : List ℝ} {nbins size rank i j : ℕ} (hi : i < nbins / size + 1) (hj : j < nbins) :
    (sbuf vol NN P nbins size rank)[i * nbins + j]? =
      some (cell vol NN P nbins ((nbins / size + 1) * rank + i) j) := by
  unfold sbuf
  rw [flatMap_get _ (L := nbins) (fun i _ => by simp) hi hj]
  simp [hj]

theorem sbuf_length (vol : ℝ) (NN P : List ℝ) (nbins size rank : ℕ) :
    (sbuf vol NN P nbins size rank).length = (nbins / size + 1) * nbins := by
  unfold sbuf
  simp [List.length_flatMap]

/-- **C99** The matrix gathered on rank 0: with any number of ranks element `(i, j)` stands at `i nbins + j`
and is the sum over all bins of the spectrum of the mask times the coupling of the three shells over the
volume; no bin behind the last is used. Rows behind the last bin are zero. -/
theorem C99_gather {vol : ℝ} {NN P : List ℝ} {nbins size : ℕ} (hN : NN.length = nbins)
    (hP : P.length = nbins) {i j : ℕ} (hi : i < (nbins / size + 1) * size) (hj : j < nbins) :
    (gather vol NN P nbins size)[i * nbins + j]? = some (some (if i < nbins then
      matrix vol (fun i => NN.getD i 0) (fun i => P.getD i 0) nbins i j else 0)) := by
  have hp : 0 < nbins / size + 1 := Nat.succ_pos _
  have hr : i / (nbins / size + 1) < size := by
    rw [Nat.div_lt_iff_lt_mul hp, mul_comm]; exact hi
  have hm : i % (nbins / size + 1) < nbins / size + 1 := Nat.mod_lt _ hp
  have hd := Nat.div_add_mod i (nbins / size + 1)
  have hl : i % (nbins / size + 1) * nbins + j < (nbins / size + 1) * nbins := by
    have : (i % (nbins / size + 1) + 1) * nbins ≤ (nbins / size + 1) * nbins := Nat.mul_le_mul_right _ hm
    rw [Nat.succ_mul] at this
    omega
  have e : i * nbins + j = i / (nbins / size + 1) * ((nbins / size + 1) * nbins) +
      (i % (nbins / size + 1) * nbins + j) := by
    conv_lhs => rw [← hd]
    ring
  unfold gather
  rw [e, flatMap_get _ (fun r _ => sbuf_length vol NN P nbins size r) hr hl, sbuf_get hm hj, hd,
    cell_eq hN hP hj]

/-- **C99** All rows that belong to a bin are there, for every number of ranks. -/
theorem C99_rows (nbins : ℕ) {size : ℕ} (hs : 0 < size) : nbins < (nbins / size + 1) * size := by
  have h := Nat.div_add_mod nbins size
  have h2 := Nat.mod_lt nbins hs
  rw [Nat.succ_mul, mul_comm]
  omega

/-- **C99** The number of ranks makes no difference, and the matrix is symmetric. -/
theorem C99_symmetric {vol : ℝ} {NN P : List ℝ} {nbins size size' : ℕ} (hs : 0 < size) (hs' : 0 < size')
    (hN : NN.length = nbins) (hP : P.length = nbins) {i j : ℕ} (hi : i < nbins) (hj : j < nbins) :
    (gather vol NN P nbins size)[i * nbins + j]? = (gather vol NN P nbins size')[i * nbins + j]? ∧
      (gather vol NN P nbins size)[i * nbins + j]? = (gather vol NN P nbins size)[j * nbins + i]? := by
  have r := C99_rows nbins hs
  have r' := C99_rows nbins hs'
  rw [C99_gather hN hP (by omega) hj, C99_gather hN hP (by omega) hj,
    C99_gather hN hP (by omega) hi, if_pos hi, if_pos hj]
  refine ⟨rfl, ?_⟩
  unfold matrix
  simp only [coupling_swap vol _ i j]

/-- **C99** Without a mask (only the mode zero in its spectrum) the matrix is diagonal: the spectrum of the
mask over the number of modes of the shell. -/
theorem C99_unmasked {vol : ℝ} (hv : vol ≠ 0) {n P : ℕ → ℝ} {nbins i j : ℕ} (hi : i < nbins)
    (hP : ∀ k, 0 < k → P k = 0) (hn : n 0 = 1) :
    matrix vol n P nbins i j = if i = j then P 0 / n i else 0 := by
  unfold matrix
  rw [Finset.sum_eq_single 0]
  · by_cases h : i = j
    · subst h
      have ht : Triangle i i 0 := by unfold Triangle; omega
      rw [if_pos rfl]
      by_cases h0 : i = 0
      · subst h0
        simp [coupling, ht, hn, hv]
      · simp only [coupling, ht, if_true, h0, false_and, if_false, or_true]
        rw [Nat.max_zero, max_self]
        field_simp
    · have ht : ¬ Triangle i j 0 := by unfold Triangle; omega
      simp [coupling, ht, h]
  · intro k _ hk
    rw [hP k (by omega)]
    simp
  · intro h
    exact absurd (Finset.mem_range.2 (by omega)) h

/-- **C99** The element of a spectrum of nonnegative numbers is positive exactly if some shell present in the
mask forms triangles with the two. -/
theorem C99_positive {vol : ℝ} (hv : 0 < vol) {n P : ℕ → ℝ} (hn : ∀ k, 0 < n k) (hP : ∀ k, 0 ≤ P k) (nbins i j : ℕ) :
    0 < matrix vol n P nbins i j ↔ ∃ k, k < nbins ∧ 0 < P k ∧ Triangle i j k := by
  have hc : ∀ k, 0 ≤ coupling vol n i j k ∧ (0 < coupling vol n i j k ↔ Triangle i j k) := by
    intro k
    unfold coupling
    by_cases ht : Triangle i j k
    · rw [if_pos ht]
      have hp : 0 < (if i = 0 ∧ j = 0 ∧ k = 0 then vol
          else if i = 0 ∨ j = 0 ∨ k = 0 then vol / n (max i (max j k))
          else vol / (8 * Real.pi * i * j * k)) := by
        split_ifs with h1 h2
        · exact hv
        · exact div_pos hv (hn _)
        · push Not at h2
          have a1 : (0 : ℝ) < i := by exact_mod_cast Nat.pos_of_ne_zero h2.1
          have a2 : (0 : ℝ) < j := by exact_mod_cast Nat.pos_of_ne_zero h2.2.1
          have a3 : (0 : ℝ) < k := by exact_mod_cast Nat.pos_of_ne_zero h2.2.2
          have := Real.pi_pos
          positivity
      exact ⟨hp.le, by simp [hp, ht]⟩
    · rw [if_neg ht]
      simp [ht]
  have h0 : ∀ k ∈ Finset.range nbins, 0 ≤ P k * coupling vol n i j k / vol := fun k _ =>
    div_nonneg (mul_nonneg (hP k) (hc k).1) hv.le
  unfold matrix
  constructor
  · intro h
    by_contra hn
    push Not at hn
    refine h.ne' (Finset.sum_eq_zero fun k hk => ?_)
    rcases (hP k).lt_or_eq with hp | hp
    · have hz : coupling vol n i j k = 0 := by
        have := hn k (Finset.mem_range.1 hk) hp
        rw [← (hc k).2] at this
        exact le_antisymm (not_lt.1 this) (hc k).1
      rw [hz]; simp
    · rw [← hp]; simp
  · rintro ⟨k, hk, hp, ht⟩
    exact Finset.sum_pos' h0 ⟨k, Finset.mem_range.2 hk,
      div_pos (mul_pos hp ((hc k).2.2 ht)) hv⟩

/-! ### Examples -/

/-- Three bins on two ranks: element (1, 2) stands at 5. -/
example : (gather 2 [1, 6, 12] [3, 5, 7] 3 2)[5]? =
    some (some (5 * (2 / (8 * Real.pi * 1 * 2 * 1)) / 2 + 7 * (2 / (8 * Real.pi * 1 * 2 * 2)) / 2)) := by
  have := C99_gather (vol := 2) (NN := [1, 6, 12]) (P := [3, 5, 7]) (nbins := 3) (size := 2) rfl rfl
    (i := 1) (j := 2) (by decide) (by decide)
  rw [show 1 * 3 + 2 = 5 from rfl] at this
  rw [this]
  simp [matrix, Finset.sum_range_succ, coupling, Triangle]

end Jaxions.MaskMatrix
