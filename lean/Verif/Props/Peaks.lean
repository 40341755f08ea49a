import Verif.Model.Peaks
import Mathlib.Data.List.Sort
import Mathlib.Data.Rat.Defs
import Mathlib.Algebra.Order.Field.Rat
import Mathlib.Tactic.Linarith
/-
C21: the bounded list of peaks.
-/
namespace Jaxions.Peaks

variable {K : Type} [LinearOrder K]

/-- Specification: `L` holds the `cap` largest of `cands` in decreasing order (`rest` are the ones
left out). -/
def TopOf (cap : Nat) (cands L : List (Entry K)) : Prop :=
  L.length = min cap cands.length ∧ L.Pairwise (fun x y => y.1 ≤ x.1) ∧
  ∃ rest, (L ++ rest).Perm cands ∧ ∀ r ∈ rest, ∀ x ∈ L, r.1 ≤ x.1

/-- The arrays hold `L`. -/
def Holds (cap : Nat) (l : Lst K) (L : List (Entry K)) : Prop :=
  l.size = L.length ∧ l.size ≤ cap ∧ (∀ i, i < cap → (l.a i).isSome) ∧ (∀ i, i < L.length → l.a i = L[i]?)

theorem shiftDown_spec (cap : Nat) (val : K) (p : Nat) (hp : p ≤ cap) (a : Heap Nat (Entry K))
    (ha : ∀ i, i < cap → (a i).isSome) :
    ∃ k a', shiftDown cap val p a = some (k, a') ∧ k ≤ p ∧
      (∀ j e, k ≤ j → j < p → a j = some e → e.1 < val) ∧
      (∀ e, 0 < k → a (k - 1) = some e → val ≤ e.1) ∧
      (∀ j, a' j = if k < j ∧ j ≤ p ∧ j < cap then a (j - 1) else a j) := by
  induction p generalizing a with
  | zero =>
    refine ⟨0, a, rfl, le_refl _, by intros; omega, by intros; omega, ?_⟩
    intro j
    rw [if_neg (by omega)]
  | succ p ih =>
    obtain ⟨e, he⟩ := Option.isSome_iff_exists.mp (ha p (by omega))
    by_cases hlt : e.1 < val
    · have hw : ∃ a1, moveUp cap p e a = some a1 ∧
          ∀ j, a1 j = if j = p + 1 ∧ j < cap then some e else a j := by
        by_cases hc : (p : Int) < (cap : Int) - 1
        · refine ⟨fun j => if j = p + 1 then some e else a j, ?_, ?_⟩
          · rw [moveUp, if_pos hc, write_eq _ _ _ (ha (p + 1) (by omega))]
          · intro j
            by_cases hj : j = p + 1
            · simp [hj]; intro; omega
            · simp [hj]
        · refine ⟨a, by rw [moveUp, if_neg hc], ?_⟩
          intro j
          rw [if_neg (by omega)]
      obtain ⟨a1, ha1, e1⟩ := hw
      have hs1 : ∀ i, i < cap → (a1 i).isSome := by
        intro i hi
        rw [e1]; split
        · rfl
        · exact ha i hi
      obtain ⟨k, a', hk, hkp, hless, hge, hval⟩ := ih (by omega) a1 hs1
      refine ⟨k, a', ?_, by omega, ?_, ?_, ?_⟩
      · simp only [shiftDown, he, Option.bind_eq_bind, Option.bind_some, if_pos hlt, ha1]
        exact hk
      · intro j e' hj1 hj2 hj3
        by_cases hjp : j = p
        · subst hjp; rw [he] at hj3; cases hj3; exact hlt
        · exact hless j e' hj1 (by omega) (by rw [e1, if_neg (by omega)]; exact hj3)
      · intro e' hk0 hk1
        exact hge e' hk0 (by rw [e1, if_neg (by omega)]; exact hk1)
      · intro j
        rw [hval]
        by_cases h1 : k < j ∧ j ≤ p ∧ j < cap
        · rw [if_pos h1, if_pos ⟨h1.1, by omega, h1.2.2⟩, e1, if_neg (by omega)]
        · rw [if_neg h1, e1]
          by_cases h2 : j = p + 1 ∧ j < cap
          · obtain ⟨rfl, h2⟩ := h2
            rw [if_pos ⟨rfl, h2⟩, if_pos ⟨by omega, le_refl _, h2⟩, Nat.add_sub_cancel, he]
          · rw [if_neg h2, if_neg (by omega)]
    · refine ⟨p + 1, a, ?_, le_refl _, by intros; omega, ?_, ?_⟩
      · simp only [shiftDown, he, Option.bind_eq_bind, Option.bind_some, if_neg hlt]
      · intro e' _ h1
        rw [Nat.add_sub_cancel, he] at h1
        cases h1
        exact not_lt.mp hlt
      · intro j
        rw [if_neg (by omega)]

/-- One insertion, on lists. -/
theorem insert_spec (cap : Nat) (l : Lst K) (L : List (Entry K)) (e : Entry K)
    (hL : L.Pairwise (fun x y => y.1 ≤ x.1)) (h : Holds cap l L) :
    ∃ l' L1 L2, insertPeak cap l e = some l' ∧ L = L1 ++ L2 ∧ (∀ x ∈ L1, e.1 ≤ x.1) ∧ (∀ x ∈ L2, x.1 < e.1) ∧
      Holds cap l' ((L1 ++ e :: L2).take cap) := by
  obtain ⟨hsz, hcap, hsome, hval⟩ := h
  obtain ⟨k, a', hk, hkp, hless, hge, ha'⟩ := shiftDown_spec cap e.1 l.size hcap l.a hsome
  have hlen1 : (L.take k).length = k := by simp; omega
  have hcatlen : (L.take k ++ e :: L.drop k).length = L.length + 1 := by simp; omega
  have hget : ∀ i, i < L.length → l.a i = L[i]? := hval
  have hpre : ∀ x ∈ L.take k, e.1 ≤ x.1 := by
    intro x hx
    obtain ⟨i, hi, rfl⟩ := List.mem_iff_getElem.mp hx
    have hi' : i < k := by simp at hi; omega
    have hkL : k - 1 < L.length := by omega
    have last : e.1 ≤ (L[k-1]).1 := hge _ (by omega) (by rw [hget _ hkL, List.getElem?_eq_getElem hkL])
    rw [List.getElem_take]
    by_cases hik : i = k - 1
    · subst hik; exact last
    · exact le_trans last (List.pairwise_iff_getElem.mp hL i (k-1) (by omega) hkL (by omega))
  have hpost : ∀ x ∈ L.drop k, x.1 < e.1 := by
    intro x hx
    obtain ⟨i, hi, rfl⟩ := List.mem_iff_getElem.mp hx
    have hi' : k + i < L.length := by simp at hi; omega
    rw [List.getElem_drop]
    exact hless (k + i) _ (by omega) (by omega) (by rw [hget _ hi', List.getElem?_eq_getElem hi'])
  have hsome' : ∀ i, i < cap → (a' i).isSome := by
    intro i hi
    rw [ha']; split
    · exact hsome _ (by omega)
    · exact hsome i hi
  -- contents after the shift, before the write
  have hcont : ∀ i, i < L.length + 1 → i < cap → i ≠ k →
      a' i = (L.take k ++ e :: L.drop k)[i]? := by
    intro i hi hic hik
    rw [ha']
    by_cases hlt : i < k
    · rw [if_neg (by omega), hget i (by omega), List.getElem?_append_left (by omega),
        List.getElem?_take_of_lt hlt]
    · rw [if_pos ⟨by omega, by omega, hic⟩, hget _ (by omega), List.getElem?_append_right (by omega), hlen1]
      obtain ⟨d, hd⟩ : ∃ d, i = k + 1 + d := ⟨i - k - 1, by omega⟩
      subst hd
      rw [show k + 1 + d - k = d + 1 by omega, List.getElem?_cons_succ, List.getElem?_drop]
      congr 1; omega
  have hat : (L.take k ++ e :: L.drop k)[k]? = some e := by
    rw [List.getElem?_append_right (by omega), hlen1]; simp
  by_cases hroom : l.size < cap
  · -- there is room
    refine ⟨⟨fun j => if j = k then some e else a' j, l.size + 1⟩, L.take k, L.drop k, ?_, (List.take_append_drop k L).symm,
      hpre, hpost, ?_, ?_, ?_, ?_⟩
    · simp only [insertPeak, hk, Option.bind_eq_bind, Option.bind_some, if_pos hroom,
        if_pos (show k < l.size + 1 by omega), write_eq _ _ _ (hsome' k (by omega))]
      rfl
    · simp only [List.length_take, hcatlen]; omega
    · show l.size + 1 ≤ cap; omega
    · intro i hi
      show (if i = k then some e else a' i).isSome
      split
      · rfl
      · exact hsome' i hi
    · intro i hi
      simp only [List.length_take, hcatlen] at hi
      show (if i = k then some e else a' i) = _
      rw [List.getElem?_take_of_lt (by omega)]
      by_cases hik : i = k
      · rw [if_pos hik, hik, hat]
      · rw [if_neg hik]; exact hcont i (by omega) (by omega) hik
  · -- full
    have hfull : l.size = cap := by omega
    by_cases hkc : k < cap
    · refine ⟨⟨fun j => if j = k then some e else a' j, l.size⟩, L.take k, L.drop k, ?_, (List.take_append_drop k L).symm,
        hpre, hpost, ?_, ?_, ?_, ?_⟩
      · simp only [insertPeak, hk, Option.bind_eq_bind, Option.bind_some, if_neg hroom,
          if_pos (show k < l.size by omega), write_eq _ _ _ (hsome' k (by omega))]
        rfl
      · simp only [List.length_take, hcatlen]; omega
      · exact hcap
      · intro i hi
        show (if i = k then some e else a' i).isSome
        split
        · rfl
        · exact hsome' i hi
      · intro i hi
        simp only [List.length_take, hcatlen] at hi
        show (if i = k then some e else a' i) = _
        rw [List.getElem?_take_of_lt (by omega)]
        by_cases hik : i = k
        · rw [if_pos hik, hik, hat]
        · rw [if_neg hik]; exact hcont i (by omega) (by omega) hik
    · refine ⟨⟨a', l.size⟩, L.take k, L.drop k, ?_, (List.take_append_drop k L).symm,
        hpre, hpost, ?_, ?_, ?_, ?_⟩
      · simp only [insertPeak, hk, Option.bind_eq_bind, Option.bind_some, if_neg hroom,
          if_neg (show ¬ k < l.size by omega)]
        rfl
      · simp only [List.length_take, hcatlen]; omega
      · exact hcap
      · exact hsome'
      · intro i hi
        simp only [List.length_take, hcatlen] at hi
        show a' i = _
        rw [List.getElem?_take_of_lt (by omega)]
        exact hcont i (by omega) (by omega) (by omega)

/-- The list stays the list of the largest. -/
theorem top_step (cap : Nat) (cands L L1 L2 : List (Entry K)) (e : Entry K)
    (h : TopOf cap cands L) (hL : L = L1 ++ L2) (h1 : ∀ x ∈ L1, e.1 ≤ x.1) (h2 : ∀ x ∈ L2, x.1 < e.1) :
    TopOf cap (cands ++ [e]) ((L1 ++ e :: L2).take cap) := by
  obtain ⟨hlen, hsort, rest, hperm, hrest⟩ := h
  subst hL
  have hsort' : (L1 ++ e :: L2).Pairwise (fun x y => y.1 ≤ x.1) := by
    rw [List.pairwise_append] at hsort ⊢
    refine ⟨hsort.1, List.pairwise_cons.mpr ⟨fun x hx => le_of_lt (h2 x hx), hsort.2.1⟩, ?_⟩
    intro a ha b hb
    rcases List.mem_cons.mp hb with rfl | hb
    · exact h1 a ha
    · exact hsort.2.2 a ha b hb
  have hl : (L1 ++ e :: L2).length = (L1 ++ L2).length + 1 := by simp; omega
  refine ⟨?_, hsort'.sublist (List.take_sublist _ _), (L1 ++ e :: L2).drop cap ++ rest, ?_, ?_⟩
  · rw [List.length_take, hl, List.length_append (as := cands), List.length_singleton]
    have := hperm.length_eq
    rw [List.length_append] at this
    omega
  · rw [← List.append_assoc, List.take_append_drop]
    refine List.Perm.trans ?_ (hperm.append_right [e])
    have : (L1 ++ e :: L2).Perm (L1 ++ L2 ++ [e]) := by
      rw [List.append_assoc]
      apply List.Perm.append_left
      exact (List.perm_append_singleton e L2).symm
    refine (this.append_right rest).trans ?_
    rw [List.append_assoc, List.append_assoc (L1 ++ L2)]
    apply List.Perm.append_left
    exact List.perm_append_comm
  · intro r hr x hx
    have hcut : ∀ r ∈ (L1 ++ e :: L2).drop cap, ∀ x ∈ (L1 ++ e :: L2).take cap, r.1 ≤ x.1 := by
      rw [← List.take_append_drop cap (L1 ++ e :: L2), List.pairwise_append] at hsort'
      intro r hr x hx
      exact hsort'.2.2 x hx r hr
    rcases List.mem_append.mp hr with hr' | hr'
    · exact hcut r hr' x hx
    · -- something was left out before, so the list was full
      by_cases hfull : (L1 ++ L2).length < cap
      · exfalso
        have := hperm.length_eq
        rw [List.length_append] at this
        have h0 : rest.length = 0 := by omega
        rw [List.length_eq_zero_iff] at h0
        subst h0; cases hr'
      · rcases List.mem_append.mp (List.mem_of_mem_take hx) with hx1 | hx1
        · exact hrest r hr' x (by simp [hx1])
        · rcases List.mem_cons.mp hx1 with rfl | hx1
          · -- the new entry is in the list
            by_cases hL2 : L2 = []
            · subst hL2
              have hc : cap ≤ L1.length := by simp at hfull; omega
              rw [List.take_append_of_le_length hc] at hx
              exact hrest r hr' x (by simp [List.mem_of_mem_take hx])
            · obtain ⟨y, hy⟩ := List.exists_mem_of_ne_nil _ hL2
              exact le_trans (hrest r hr' y (by simp [hy])) (le_of_lt (h2 y hy))
          · exact hrest r hr' x (by simp [hx1])

/-- **C21** After any sequence of candidates the list holds the largest ones, up to its capacity, in
decreasing order, and no entry outside the arrays was touched. -/
theorem C21_top [Zero K] (cap : Nat) (cands : List (Entry K)) :
    ∃ l L, insertAll cap (start cap) cands = some l ∧ l.size = L.length ∧
      (∀ i, i < L.length → l.a i = L[i]?) ∧ TopOf cap cands L := by
  suffices h : ∀ (cands done : List (Entry K)) (l : Lst K) (L : List (Entry K)), Holds cap l L →
      TopOf cap done L → ∃ l' L', insertAll cap l cands = some l' ∧ Holds cap l' L' ∧
        TopOf cap (done ++ cands) L' by
    obtain ⟨l, L, h1, h2, h3⟩ := h cands [] (start cap) []
      ⟨rfl, Nat.zero_le _, fun i hi => by simp [start, hi], fun i hi => by simp at hi⟩
      ⟨by simp, List.Pairwise.nil, [], by simp, by simp⟩
    exact ⟨l, L, h1, h2.1, h2.2.2.2, by simpa using h3⟩
  intro cands
  induction cands with
  | nil => intro done l L h1 h2; exact ⟨l, L, rfl, h1, by simpa using h2⟩
  | cons e es ih =>
    intro done l L h1 h2
    obtain ⟨l1, L1, L2, hi, hsplit, ha, hb, hh⟩ := insert_spec cap l L e h2.2.1 h1
    have ht := top_step cap done L L1 L2 e h2 hsplit ha hb
    obtain ⟨l2, L3, hl2, hh2, ht2⟩ := ih (done ++ [e]) l1 _ hh ht
    refine ⟨l2, L3, ?_, hh2, by simpa using ht2⟩
    simp only [insertAll, List.foldlM_cons, hi, Option.bind_eq_bind, Option.bind_some]
    exact hl2

/-- **C21** The whole scan: the list is made of the largest candidates of the lattice. -/
theorem C21_scan {K : Type} [Field K] [LinearOrder K] (n1 Lz shift : Nat) (folded : Bool) (thr : K)
    (D : Nat → K) (big : Nat → Bool) (cap : Nat) :
    ∃ l L, axitonfinder n1 Lz shift folded thr D big cap = some l ∧ l.size = L.length ∧
      (∀ i, i < L.length → l.a i = L[i]?) ∧
      TopOf cap (((List.range (n1 * n1 * Lz)).filter (candidate n1 Lz thr D big)).map
        fun idx => (D idx, fidx n1 shift folded idx)) L :=
  C21_top cap _

/-- Finding: the comparisons in x (and y) are the wrong way round. A site with a smaller neighbour
in x, such as every strict local maximum of the density, is never a candidate. -/
theorem C21_maximum_rejected {K : Type} [Field K] [LinearOrder K] [IsStrictOrderedRing K]
    (n1 Lz : Nat) (thr : K) (D : Nat → K) (big : Nat → Bool) (ix iy iz : Nat) (hx : ix < n1)
    (hy : iy < n1) (hmax : D ((ix + 1) % n1 + iy * n1 + iz * (n1 * n1)) < D (ix + iy * n1 + iz * (n1 * n1))) :
    candidate n1 Lz thr D big (ix + iy * n1 + iz * (n1 * n1)) = false := by
  have hn : 0 < n1 := by omega
  have hrow : ix + iy * n1 < n1 * n1 := by
    have : (iy + 1) * n1 ≤ n1 * n1 := Nat.mul_le_mul_right _ hy
    rw [Nat.add_mul, Nat.one_mul] at this
    omega
  have e1 : (ix + iy * n1 + iz * (n1 * n1)) / (n1 * n1) = iz := by
    rw [Nat.add_mul_div_right _ _ (by omega), Nat.div_eq_of_lt hrow, Nat.zero_add]
  have e2 : (ix + iy * n1 + iz * (n1 * n1)) % (n1 * n1) = ix + iy * n1 := by
    rw [Nat.add_mul_mod_self_right, Nat.mod_eq_of_lt hrow]
  have e3 : (ix + iy * n1) / n1 = iy := by
    rw [Nat.add_mul_div_right _ _ hn, Nat.div_eq_of_lt hx, Nat.zero_add]
  have e4 : (ix + iy * n1) % n1 = ix := by rw [Nat.add_mul_mod_self_right, Nat.mod_eq_of_lt hx]
  have : D ((ix + 1) % n1 + iy * n1 + iz * (n1 * n1)) - D (ix + iy * n1 + iz * (n1 * n1)) < 0 :=
    sub_neg.mpr hmax
  simp only [candidate, e1, e2, e3, e4, this, decide_true, Bool.not_true, Bool.and_false, Bool.false_and]

/-- A full list with ties: the hypotheses need nothing; here four candidates for three places. -/
example : (insertAll 3 (start 3) [((2 : ℚ), 10), (5, 11), (2, 12), (3, 13)]).map
    (fun l => (l.size, [l.a 0, l.a 1, l.a 2])) =
    some (3, [some (5, 11), some (3, 13), some (2, 10)]) := by decide +kernel

example : candidate 3 1 (0 : ℚ) (fun i => if i = 4 then 5 else 1) (fun _ => true) 4 = false ∧
    candidate 3 1 (0 : ℚ) (fun i => if i = 4 then 1 else 5) (fun _ => true) 4 = true := by
  decide +kernel

end Jaxions.Peaks
