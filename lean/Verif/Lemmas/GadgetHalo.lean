/-
Helper lemmas about the snapshot of the "halo" kind: one slab of one rank, one message.
-/
import Verif.Spec.GadgetHalo
import Verif.Lemmas.GadgetVoid
import Mathlib.Algebra.Order.BigOperators.Group.Finset
import Mathlib.Tactic.Ring
import Mathlib.Tactic.Linarith

namespace Jaxions
namespace Halo
open Gadget (Grid Part begin_ advance begin_val advance_begin)

theorem begin_idx (g : Grid) (rank i : ℕ) : (begin_ g rank i).idx = i := by rw [begin_val]

theorem sites_succ (g : Grid) (rank : ℕ) (n : ℕ → ℕ) (i k : ℕ) :
    sites g rank n i (k + 1) =
      List.replicate (n i) (begin_ g rank i) ++ sites g rank n (i + 1) k := by
  unfold sites
  rw [List.range'_succ, List.flatMap_cons]

theorem sites_congr (g : Grid) (rank : ℕ) (n n' : ℕ → ℕ) (i k : ℕ)
    (h : ∀ j, i ≤ j → j < i + k → n j = n' j) : sites g rank n i k = sites g rank n' i k := by
  induction k generalizing i with
  | zero => rfl
  | succ k ih =>
    rw [sites_succ, sites_succ, h i (le_refl _) (by omega), ih (i + 1)]
    intro j h1 h2
    exact h j (by omega) (by omega)

/-- One point. -/
theorem putSite_spec (S : ℕ) (c : Part) : ∀ (k r : ℕ) (buf : List Part), buf.length < S →
    putSite S c k r buf =
      if buf.length + k < S then (buf ++ List.replicate k c, r)
      else (buf ++ List.replicate (S - buf.length) c, k - (S - buf.length)) := by
  intro k
  induction k with
  | zero =>
    intro r buf h
    rw [if_pos (by omega)]
    simp [putSite]
  | succ k ih =>
    intro r buf h
    unfold putSite
    have hlen : (buf ++ [c]).length = buf.length + 1 := by simp
    by_cases h1 : (buf ++ [c]).length = S
    · rw [if_pos h1, if_neg (by omega)]
      have : S - buf.length = 1 := by omega
      rw [this]
      simp
    · rw [if_neg h1, ih r _ (by omega), hlen]
      by_cases h2 : buf.length + 1 + k < S
      · rw [if_pos h2, if_pos (by omega)]
        rw [List.append_assoc, List.replicate_succ]
        rfl
      · rw [if_neg h2, if_neg (by omega)]
        have e : S - buf.length = (S - (buf.length + 1)) + 1 := by omega
        rw [List.append_assoc, e, List.replicate_succ]
        congr 1
        omega

/-- A full buffer ends the loop. -/
theorem fillFrom_full (g : Grid) (n : ℕ → ℕ) (steps : ℕ) (c : Part) (r : ℕ) (buf : List Part)
    (h : g.S ≤ buf.length) : fillFrom g n steps c r buf = (c.idx, r, buf) := by
  cases steps with
  | zero => rfl
  | succ k =>
    unfold fillFrom
    rw [if_neg (by omega)]

/-- The loop over the points puts particles in order until the buffer is full. -/
theorem fillFrom_spec (g : Grid) (hL : 0 < g.L) (rank : ℕ) (n : ℕ → ℕ) :
    ∀ (steps i : ℕ) (buf : List Part), buf.length ≤ g.S → i + steps = g.n3 →
      ∃ l r b, fillFrom g n steps (begin_ g rank i) 0 buf = (l, r, b) ∧
        buf ++ sites g rank n i steps =
          b ++ (List.replicate r (begin_ g rank (l - 1)) ++ sites g rank n l (g.n3 - l)) ∧
        b.length = min g.S (buf.length + (sites g rank n i steps).length) ∧
        i ≤ l ∧ l ≤ g.n3 ∧ (r = 0 ∨ (i < l ∧ r < n (l - 1))) := by
  intro steps
  induction steps with
  | zero =>
    intro i buf hb hi
    refine ⟨i, 0, buf, by simp [fillFrom, begin_idx], ?_, ?_, le_refl _, by omega, Or.inl rfl⟩
    · have : g.n3 - i = 0 := by omega
      rw [this]
      simp [sites]
    · simp [sites]
      omega
  | succ k ih =>
    intro i buf hb hi
    by_cases hfull : buf.length < g.S
    · unfold fillFrom
      rw [if_pos hfull, putSite_spec _ _ _ _ _ hfull, begin_idx, advance_begin g hL]
      by_cases h1 : buf.length + n i < g.S
      · rw [if_pos h1]
        dsimp only
        obtain ⟨l, r, b, e1, e2, e3, e4, e5, e6⟩ := ih (i + 1)
          (buf ++ List.replicate (n i) (begin_ g rank i)) (by simp; omega) (by omega)
        refine ⟨l, r, b, e1, ?_, ?_, by omega, e5, ?_⟩
        · rw [← e2, sites_succ, List.append_assoc]
        · rw [e3, sites_succ]
          simp only [List.length_append, List.length_replicate]
          omega
        · rcases e6 with h | h
          · exact Or.inl h
          · exact Or.inr ⟨by omega, h.2⟩
      · rw [if_neg h1]
        dsimp only
        rw [fillFrom_full g n k _ _ _ (by simp; omega), begin_idx]
        refine ⟨i + 1, n i - (g.S - buf.length), _, rfl, ?_, ?_, by omega, by omega, ?_⟩
        · rw [sites_succ, Nat.add_sub_cancel, List.append_assoc]
          congr 1
          rw [← List.append_assoc, ← List.replicate_add]
          have e : g.S - buf.length + (n i - (g.S - buf.length)) = n i := by omega
          have e' : g.n3 - (i + 1) = k := by omega
          rw [e, e']
        · rw [sites_succ]
          simp only [List.length_append, List.length_replicate]
          omega
        · right
          rw [Nat.add_sub_cancel]
          omega
    · rw [fillFrom_full g n (k + 1) _ _ _ (by omega), begin_idx]
      refine ⟨i, 0, buf, rfl, ?_, ?_, le_refl _, by omega, Or.inl rfl⟩
      · have : g.n3 - i = k + 1 := by omega
        rw [this]
        simp
      · omega

/-- One slab: the buffer takes the first particles of those still to be placed. -/
theorem slabFill_spec (g : Grid) (hL : 0 < g.L) (rank : ℕ) (n : ℕ → ℕ) (lPos remain : ℕ)
    (hl : lPos ≤ g.n3) (hr : remain ≤ g.S) :
    ∃ l r b, slabFill g rank n lPos remain = (l, r, b) ∧
      pend g rank n lPos remain = b ++ pend g rank n l r ∧
      b.length = min g.S (pend g rank n lPos remain).length ∧
      lPos ≤ l ∧ l ≤ g.n3 ∧ (r = 0 ∨ (0 < l ∧ r < n (l - 1))) := by
  unfold slabFill
  have hbuf : (if remain ≠ 0 then List.replicate remain (begin_ g rank (lPos - 1)) else []) =
      List.replicate remain (begin_ g rank (lPos - 1)) := by
    by_cases h : remain = 0
    · simp [h]
    · simp [h]
  dsimp only
  rw [hbuf]
  obtain ⟨l, r, b, e1, e2, e3, e4, e5, e6⟩ := fillFrom_spec g hL rank n (g.n3 - lPos) lPos
    (List.replicate remain (begin_ g rank (lPos - 1))) (by simpa using hr) (by omega)
  refine ⟨l, r, b, e1, e2, ?_, e4, e5, ?_⟩
  · rw [e3]
    unfold pend
    simp
  · rcases e6 with h | h
    · exact Or.inl h
    · exact Or.inr ⟨by omega, h.2⟩

/-! ### Messages -/

theorem receive_eq (g : Grid) (hL : 0 < g.L) (rank : ℕ) : ∀ (ks : List ℕ) (i : ℕ)
    (buf : List Part), receive g (begin_ g rank i) ks buf = buf ++ flat g rank i ks := by
  intro ks
  induction ks with
  | nil => intro i buf; simp [receive, flat]
  | cons k ks ih =>
    intro i buf
    unfold receive flat
    rw [advance_begin g hL, ih, List.append_assoc]

theorem flat_length (g : Grid) (rank : ℕ) : ∀ (ks : List ℕ) (i : ℕ),
    (flat g rank i ks).length = ks.sum := by
  intro ks
  induction ks with
  | nil => intro i; rfl
  | cons k ks ih =>
    intro i
    unfold flat
    rw [List.length_append, List.length_replicate, ih, List.sum_cons]

/-- The loop of the sender. -/
theorem sendLoop_spec (g : Grid) (rank want : ℕ) : ∀ (room : ℕ) (n : ℕ → ℕ) (l s : ℕ)
    (acc : List ℕ), s < want → l ≤ g.n3 →
    want ≤ s + (sites g rank n l (g.n3 - l)).length →
    ∃ n' l' ks, sendLoop want room n l s acc = (n', l', s + ks.sum, l + ks.length, acc ++ ks) ∧
      sites g rank n l (g.n3 - l) = flat g rank l ks ++ sites g rank n' l' (g.n3 - l') ∧
      s + ks.sum ≤ want ∧ l ≤ l' ∧ l' ≤ g.n3 ∧
      (s + ks.sum = want ∨ l' = l + room) ∧ (∀ j, n' j ≤ n j) ∧ ks.length ≤ room := by
  intro room
  induction room with
  | zero =>
    intro n l s acc hs hl hw
    exact ⟨n, l, [], by simp [sendLoop], by simp [flat], by simpa using hs.le, le_refl _, hl,
      Or.inr rfl, fun _ => le_refl _, le_refl _⟩
  | succ room ih =>
    intro n l s acc hs hl hw
    have hlt : l < g.n3 := by
      rcases Nat.lt_or_ge l g.n3 with h | h
      · exact h
      · have : g.n3 - l = 0 := by omega
        rw [this] at hw
        simp [sites] at hw
        omega
    obtain ⟨k, hk⟩ : ∃ k, g.n3 - l = k + 1 := ⟨g.n3 - l - 1, by omega⟩
    have hk' : g.n3 - (l + 1) = k := by omega
    rw [hk, sites_succ, List.length_append, List.length_replicate] at hw
    unfold sendLoop
    dsimp only
    by_cases hc : s + min (n l) (want - s) < want
    · have hmin : min (n l) (want - s) = n l := by omega
      rw [if_pos hc, hmin]
      rw [hmin] at hc
      have hcg : sites g rank n (l + 1) k =
          sites g rank (fun j => if j = l then n l - n l else n j) (l + 1) k := by
        apply sites_congr
        intro j h1 _
        rw [if_neg (by omega)]
      obtain ⟨n', l', ks, e1, e2, e3, e4, e5, e6, e7, e8⟩ := ih
        (fun j => if j = l then n l - n l else n j) (l + 1) (s + n l) (acc ++ [n l]) hc
        (by omega) (by rw [hk', ← hcg]; omega)
      refine ⟨n', l', n l :: ks, ?_, ?_, ?_, by omega, e5, ?_, ?_, by simpa using e8⟩
      · rw [e1]
        simp only [List.sum_cons, List.length_cons, List.append_assoc, List.singleton_append,
          Prod.mk.injEq, true_and]
        refine ⟨by omega, by omega, trivial⟩
      · rw [hk, sites_succ, hcg, ← hk', e2]
        simp only [flat, List.append_assoc]
      · rw [List.sum_cons]; omega
      · rw [List.sum_cons]
        omega
      · intro j
        refine (e7 j).trans ?_
        split
        · omega
        · exact le_refl _
    · have hmin : min (n l) (want - s) = want - s := by omega
      rw [if_neg hc, hmin]
      have hle : want - s ≤ n l := by omega
      refine ⟨fun j => if j = l then n l - (want - s) else n j, l, [want - s], by simp, ?_,
        by simp; omega, le_refl _, hl, Or.inl (by simp; omega), ?_, by simp⟩
      · rw [hk, sites_succ, sites_succ, if_pos rfl]
        simp only [flat, List.append_nil]
        rw [← List.append_assoc, ← List.replicate_add]
        have e : want - s + (n l - (want - s)) = n l := by omega
        rw [e]
        congr 1
        apply sites_congr
        intro j h1 _
        rw [if_neg (by omega)]
      · intro j
        dsimp only
        split
        · next h => rw [h]; omega
        · exact le_refl _

/-- The sender. -/
theorem send_spec (g : Grid) (hS : 2 ≤ g.S) (rank : ℕ) (n : ℕ → ℕ) (lPos remain want : ℕ)
    (hl : lPos ≤ g.n3) (hrem : 0 < remain → 0 < lPos) (hw : 0 < want)
    (hen : want ≤ (pend g rank n lPos remain).length) :
    (send g.S n lPos remain want = none ↔ want ≤ remain) ∧
    ∀ m, send g.S n lPos remain want = some m →
      pend g rank n lPos remain = flat g rank m.iPos m.counts ++ pend g rank m.n m.lPos m.remain ∧
      m.sent = m.counts.sum ∧ m.sent ≤ want ∧ m.remain = 0 ∧
      m.ePos - m.iPos = m.counts.length ∧ (0 < m.sent ∨ lPos < m.lPos) ∧
      lPos ≤ m.lPos ∧ m.lPos ≤ g.n3 ∧ (∀ j, m.n j ≤ n j) ∧ m.counts.length ≤ g.S := by
  unfold send
  dsimp only
  by_cases h0 : remain = 0
  · subst h0
    simp only [ne_eq, not_true_eq_false, if_false]
    rw [if_neg (by omega)]
    refine ⟨by simp; omega, ?_⟩
    intro m hm
    have hp : pend g rank n lPos 0 = sites g rank n lPos (g.n3 - lPos) := by simp [pend]
    rw [hp] at hen
    obtain ⟨n', l', ks, e1, e2, e3, e4, e5, e6, e7, e8⟩ :=
      sendLoop_spec g rank want (g.S - 0) n lPos 0 [] hw hl (by omega)
    rw [e1] at hm
    simp only [Option.some.injEq] at hm
    subst hm
    simp only [Nat.zero_add, List.nil_append] at *
    refine ⟨?_, trivial, e3, trivial, by omega, by omega, e4, e5, e7, e8⟩
    rw [hp, e2]
    simp [pend]
  · simp only [ne_eq, h0, not_false_eq_true, if_true]
    by_cases h1 : min remain want = want
    · rw [if_pos h1]
      refine ⟨by simp; omega, ?_⟩
      intro m hm
      exact absurd hm (by simp)
    · rw [if_neg h1]
      refine ⟨by simp; omega, ?_⟩
      intro m hm
      have hmin : min remain want = remain := by omega
      rw [hmin] at hm
      have hlen : (pend g rank n lPos remain).length =
          remain + (sites g rank n lPos (g.n3 - lPos)).length := by simp [pend]
      obtain ⟨n', l', ks, e1, e2, e3, e4, e5, e6, e7, e8⟩ :=
        sendLoop_spec g rank want (g.S - 1) n lPos remain [remain] (by omega) hl (by omega)
      rw [e1] at hm
      simp only [Option.some.injEq] at hm
      subst hm
      dsimp only
      have hpos := hrem (by omega)
      refine ⟨?_, by simp, e3, by omega, ?_, by omega, e4, e5, e7, by simp; omega⟩
      · unfold pend
        rw [e2, Nat.sub_self]
        simp only [List.singleton_append, flat, List.replicate_zero, List.nil_append]
        have : lPos - 1 + 1 = lPos := by omega
        rw [this, List.append_assoc]
      · simp only [List.singleton_append, List.length_cons]
        omega

end Halo
end Jaxions
