/-
Helper lemmas about the snapshot of the "halo" kind: the exchange of particles between ranks.
-/
import Verif.Lemmas.GadgetHalo

namespace Jaxions
namespace Halo
open Gadget (Grid Part begin_ advance begin_val advance_begin)

theorem argMax_spec (f : ℕ → ℤ) : ∀ k, 0 < k →
    argMax f k < k ∧ ∀ r < k, f r ≤ f (argMax f k)
  | 0, h => absurd h (Nat.lt_irrefl 0)
  | 1, _ => by
    refine ⟨Nat.zero_lt_one, fun r hr => ?_⟩
    have : r = 0 := by omega
    subst this
    exact le_refl _
  | k + 2, _ => by
    obtain ⟨h1, h2⟩ := argMax_spec f (k + 1) (Nat.succ_pos k)
    unfold argMax
    by_cases h : f (k + 1) > f (argMax f (k + 1))
    · rw [if_pos h]
      refine ⟨by omega, fun r hr => ?_⟩
      rcases Nat.lt_or_ge r (k + 1) with h3 | h3
      · exact (h2 r h3).trans h.le
      · have : r = k + 1 := by omega
        rw [this]
    · rw [if_neg h]
      refine ⟨by omega, fun r hr => ?_⟩
      rcases Nat.lt_or_ge r (k + 1) with h3 | h3
      · exact h2 r h3
      · have : r = k + 1 := by omega
        rw [this]
        exact not_lt.1 h

theorem argMin_spec (f : ℕ → ℤ) : ∀ k, 0 < k →
    argMin f k < k ∧ ∀ r < k, f (argMin f k) ≤ f r
  | 0, h => absurd h (Nat.lt_irrefl 0)
  | 1, _ => by
    refine ⟨Nat.zero_lt_one, fun r hr => ?_⟩
    have : r = 0 := by omega
    subst this
    exact le_refl _
  | k + 2, _ => by
    obtain ⟨h1, h2⟩ := argMin_spec f (k + 1) (Nat.succ_pos k)
    unfold argMin
    by_cases h : f (k + 1) < f (argMin f (k + 1))
    · rw [if_pos h]
      refine ⟨by omega, fun r hr => ?_⟩
      rcases Nat.lt_or_ge r (k + 1) with h3 | h3
      · exact h.le.trans (h2 r h3)
      · have : r = k + 1 := by omega
        rw [this]
    · rw [if_neg h]
      refine ⟨by omega, fun r hr => ?_⟩
      rcases Nat.lt_or_ge r (k + 1) with h3 | h3
      · exact h2 r h3
      · have : r = k + 1 := by omega
        rw [this]
        exact not_lt.1 h

/-- A sum in which two terms change. -/
theorem sum_two (R s d : ℕ) (hs : s < R) (hd : d < R) (hne : s ≠ d) (f f' : ℕ → ℤ)
    (h : ∀ r < R, r ≠ s → r ≠ d → f' r = f r) :
    ∑ r ∈ Finset.range R, f' r =
      ∑ r ∈ Finset.range R, f r + (f' s - f s) + (f' d - f d) := by
  have h1 : ∑ r ∈ Finset.range R, (f' r - f r) = (f' s - f s) + (f' d - f d) := by
    rw [← Finset.sum_pair (f := fun r => f' r - f r) hne]
    symm
    apply Finset.sum_subset
    · intro x hx
      rw [Finset.mem_insert, Finset.mem_singleton] at hx
      rw [Finset.mem_range]
      omega
    · intro x hx hn
      rw [Finset.mem_insert, Finset.mem_singleton, not_or] at hn
      rw [h x (Finset.mem_range.1 hx) hn.1 hn.2, sub_self]
  rw [Finset.sum_sub_distrib] at h1
  linarith

theorem aMiss_eq (g : Grid) (st : ℕ → Rk) (h : 1 < g.ranks) :
    aMiss g st = ∑ r ∈ Finset.range g.ranks, (st r).missing := by
  unfold aMiss
  rw [if_pos h]
  rfl

/-- What the sender and the receiver are like while particles are missing. -/
theorem partners (g : Grid) (D : ℕ) (st : ℕ → Rk) (hI : Inv g D st) (hm : aMiss g st > 0) :
    let s := argMax (fun r => (st r).excess) g.ranks
    let d := argMin (fun r => (st r).excess) g.ranks
    s < g.ranks ∧ d < g.ranks ∧ s ≠ d ∧ 0 < (st d).missing ∧ 0 < (st s).excess ∧
      (st s).missing = 0 ∧
      ((wanted (st d).missing (st s).excess).toNat : ℤ) = min (st d).missing (st s).excess ∧
      0 < (wanted (st d).missing (st s).excess).toNat ∧
      (wanted (st d).missing (st s).excess).toNat ≤
        (pend g s (st s).n (st s).lPos (st s).remain).length := by
  intro s d
  have hR : 1 < g.ranks := by
    rcases Nat.lt_or_ge 1 g.ranks with h | h
    · exact h
    · unfold aMiss at hm
      rw [if_neg (by omega)] at hm
      exact absurd hm (lt_irrefl _)
  rw [aMiss_eq g st hR] at hm
  obtain ⟨hs, hsm⟩ := argMax_spec (fun r => (st r).excess) g.ranks (by omega)
  obtain ⟨hd, hdm⟩ := argMin_spec (fun r => (st r).excess) g.ranks (by omega)
  change s < g.ranks at hs
  change d < g.ranks at hd
  change ∀ r < g.ranks, (st r).excess ≤ (st s).excess at hsm
  change ∀ r < g.ranks, (st d).excess ≤ (st r).excess at hdm
  obtain ⟨r, hr, hrm⟩ : ∃ r < g.ranks, 0 < (st r).missing := by
    by_contra hcon
    push Not at hcon
    have : ∑ r ∈ Finset.range g.ranks, (st r).missing ≤ 0 :=
      Finset.sum_nonpos fun r hr => hcon r (Finset.mem_range.1 hr)
    linarith
  have hdmiss : 0 < (st d).missing := by
    have h1 := hI.bal d hd
    have h2 := hI.bal r hr
    rw [hI.empty r hr hrm, List.length_nil] at h2
    have h3 := hdm r hr
    push_cast at h2
    omega
  have hdneg : (st d).excess < 0 := by
    have h1 := hI.bal d hd
    rw [hI.empty d hd hdmiss, List.length_nil] at h1
    push_cast at h1
    omega
  have hspos : 0 < (st s).excess := by
    by_contra hcon
    have : ∑ r ∈ Finset.range g.ranks, (st r).excess < 0 :=
      Finset.sum_neg' (fun r hr => (hsm r (Finset.mem_range.1 hr)).trans (not_lt.1 hcon))
        ⟨d, Finset.mem_range.2 hd, hdneg⟩
    rw [hI.zero] at this
    exact absurd this (lt_irrefl _)
  have hsmiss : (st s).missing = 0 := by
    by_contra hcon
    have h0 : 0 < (st s).missing := lt_of_le_of_ne (hI.miss s hs) (Ne.symm hcon)
    have h1 := hI.bal s hs
    rw [hI.empty s hs h0, List.length_nil] at h1
    push_cast at h1
    omega
  have hne : s ≠ d := by
    intro h
    rw [h] at hsmiss
    omega
  have hw : wanted (st d).missing (st s).excess = min (st d).missing (st s).excess := by
    unfold wanted
    split <;> omega
  have hb := hI.bal s hs
  refine ⟨hs, hd, hne, hdmiss, hspos, hsmiss, ?_, ?_, ?_⟩
  · rw [hw]; omega
  · rw [hw]; omega
  · rw [hw]; omega

/-- What is left of the loop of exchanges: particles missing and points not yet visited. -/
def left_ (g : Grid) (st : ℕ → Rk) : ℤ :=
  ∑ r ∈ Finset.range g.ranks, ((st r).missing + (g.n3 - (st r).lPos))

/-- One exchange. -/
theorem exchange_spec (g : Grid) (hL : 2 ≤ g.L) (D : ℕ) (st : ℕ → Rk) (hI : Inv g D st)
    (hm : aMiss g st > 0) :
    (exchange g st = none ↔
      (wanted (st (argMin (fun r => (st r).excess) g.ranks)).missing
        (st (argMax (fun r => (st r).excess) g.ranks)).excess).toNat ≤
        (st (argMax (fun r => (st r).excess) g.ranks)).remain) ∧
    ∀ st', exchange g st = some st' →
      Inv g D st' ∧ (∀ P, tally g P true st' = tally g P true st) ∧ left_ g st' < left_ g st ∧
      (∀ r, (st' r).out = (st r).out) ∧ (∀ r j, (st' r).n j ≤ (st r).n j) ∧
      (∀ r, (st' r).remain ≤ (st r).remain) := by
  have hp := partners g D st hI hm
  dsimp only at hp
  unfold exchange
  dsimp only
  generalize argMax (fun r => (st r).excess) g.ranks = s at *
  generalize argMin (fun r => (st r).excess) g.ranks = d at *
  obtain ⟨hs, hd, hne, hdm, hse, hsm, hw1, hw2, hw3⟩ := hp
  generalize (wanted (st d).missing (st s).excess).toNat = want at *
  have hS : 2 ≤ g.S := by
    unfold Grid.S
    exact le_trans (by omega) (Nat.mul_le_mul hL hL)
  obtain ⟨h1, h2⟩ := send_spec g hS s (st s).n (st s).lPos (st s).remain want (hI.pos s hs)
    (hI.rem s hs) hw2 hw3
  rw [if_neg hne]
  cases hsend : send g.S (st s).n (st s).lPos (st s).remain want with
  | none =>
    dsimp only
    exact ⟨⟨fun _ => h1.1 hsend, fun _ => rfl⟩, fun st' h => absurd h (by simp)⟩
  | some m =>
    dsimp only
    refine ⟨⟨fun h => absurd h (by simp), fun h => ?_⟩, ?_⟩
    · rw [h1.2 h] at hsend
      exact absurd hsend (by simp)
    intro st' hst
    obtain ⟨e1, e2, e3, e4, e5, e6, e7, e8, e9, _⟩ := h2 m hsend
    simp only [Option.some.injEq] at hst
    rw [receive_eq g (by omega), e5, List.take_length] at hst
    have hflat : (flat g s m.iPos m.counts).length = m.sent := by rw [flat_length, e2]
    -- the two ranks that change
    have hss : st' s = { st s with n := m.n, lPos := m.lPos, remain := m.remain
                                   excess := (st s).excess - m.sent } := by
      rw [← hst]; simp
    have hdd : st' d = { st d with
        missing := (st d).missing - m.sent, excess := (st d).excess + m.sent
        buf := (st d).buf ++ flat g s m.iPos m.counts } := by
      rw [← hst]; simp [Ne.symm hne]
    have hoth : ∀ r, r ≠ s → r ≠ d → st' r = st r := by
      intro r h1 h2
      rw [← hst]; simp [h1, h2]
    have hlen : (pend g s (st s).n (st s).lPos (st s).remain).length =
        m.sent + (pend g s m.n m.lPos m.remain).length := by
      rw [e1, List.length_append, hflat]
    have hcase : ∀ r, r = s ∨ r = d ∨ (r ≠ s ∧ r ≠ d) := by intro r; omega
    have hpd : pend g d (st d).n (st d).lPos (st d).remain = [] := hI.empty d hd hdm
    refine ⟨?_, ?_, ?_, ?_, ?_, ?_⟩
    · constructor
      · intro r hr
        rcases hcase r with h | h | h
        · rw [h, hss]; exact e8
        · rw [h, hdd]; exact hI.pos d hd
        · rw [hoth r h.1 h.2]; exact hI.pos r hr
      · intro r hr
        rcases hcase r with h | h | h
        · rw [h, hss]; dsimp only; omega
        · rw [h, hdd]; exact hI.rem d hd
        · rw [hoth r h.1 h.2]; exact hI.rem r hr
      · intro r hr
        rcases hcase r with h | h | h
        · rw [h, hss]; dsimp only; omega
        · rw [h, hdd]; exact hI.small d hd
        · rw [hoth r h.1 h.2]; exact hI.small r hr
      · intro r hr j hj
        rcases hcase r with h | h | h
        · rw [h, hss]; exact (e9 j).trans (hI.counts s hs j hj)
        · rw [h, hdd]; exact hI.counts d hd j hj
        · rw [hoth r h.1 h.2]; exact hI.counts r hr j hj
      · intro r hr
        rcases hcase r with h | h | h
        · rw [h, hss]; exact hI.miss s hs
        · rw [h, hdd]; dsimp only; omega
        · rw [hoth r h.1 h.2]; exact hI.miss r hr
      · intro r hr
        rcases hcase r with h | h | h
        · rw [h, hss]; exact hI.full s hs
        · rw [h, hdd]
          dsimp only
          rw [List.length_append, hflat]
          have := hI.full d hd
          push_cast
          omega
        · rw [hoth r h.1 h.2]; exact hI.full r hr
      · intro r hr
        rcases hcase r with h | h | h
        · rw [h, hss]
          dsimp only
          have := hI.bal s hs
          omega
        · rw [h, hdd]
          dsimp only
          have := hI.bal d hd
          omega
        · rw [hoth r h.1 h.2]; exact hI.bal r hr
      · intro r hr
        rcases hcase r with h | h | h
        · rw [h, hss]
          dsimp only
          intro h0
          omega
        · rw [h, hdd]
          dsimp only
          intro _
          exact hpd
        · rw [hoth r h.1 h.2]; exact hI.empty r hr
      · rw [sum_two g.ranks s d hs hd hne (fun r => (st r).excess) _
          (fun r _ h1 h2 => by rw [hoth r h1 h2]), hI.zero, hss, hdd]
        dsimp only
        omega
    · intro P
      unfold tally
      have key := sum_two g.ranks s d hs hd hne
        (fun r => (((st r).out.countP P + (if true then (st r).buf.countP P else 0) +
          (pend g r (st r).n (st r).lPos (st r).remain).countP P : ℕ) : ℤ))
        (fun r => (((st' r).out.countP P + (if true then (st' r).buf.countP P else 0) +
          (pend g r (st' r).n (st' r).lPos (st' r).remain).countP P : ℕ) : ℤ))
        (fun r _ h1 h2 => by rw [hoth r h1 h2])
      rw [hss, hdd] at key
      dsimp only at key
      rw [e1, List.countP_append, List.countP_append] at key
      simp only [if_true] at key ⊢
      have : ((∑ r ∈ Finset.range g.ranks, ((st' r).out.countP P + (st' r).buf.countP P +
          (pend g r (st' r).n (st' r).lPos (st' r).remain).countP P) : ℕ) : ℤ) =
        ((∑ r ∈ Finset.range g.ranks, ((st r).out.countP P + (st r).buf.countP P +
          (pend g r (st r).n (st r).lPos (st r).remain).countP P) : ℕ) : ℤ) := by
        rw [Nat.cast_sum, Nat.cast_sum, key]
        push_cast
        ring
      exact_mod_cast this
    · unfold left_
      rw [sum_two g.ranks s d hs hd hne (fun r => (st r).missing + (g.n3 - (st r).lPos)) _
          (fun r _ h1 h2 => by rw [hoth r h1 h2]), hss, hdd]
      dsimp only
      omega
    · intro r
      rcases hcase r with h | h | h
      · rw [h, hss]
      · rw [h, hdd]
      · rw [hoth r h.1 h.2]
    · intro r j
      rcases hcase r with h | h | h
      · rw [h, hss]; exact e9 j
      · rw [h, hdd]
      · rw [hoth r h.1 h.2]
    · intro r
      rcases hcase r with h | h | h
      · rw [h, hss]; dsimp only; omega
      · rw [h, hdd]
      · rw [hoth r h.1 h.2]

theorem left_nonneg (g : Grid) (D : ℕ) (st : ℕ → Rk) (hI : Inv g D st) : 0 ≤ left_ g st := by
  apply Finset.sum_nonneg
  intro r hr
  have h1 := hI.miss r (Finset.mem_range.1 hr)
  have h2 := hI.pos r (Finset.mem_range.1 hr)
  omega

/-- The loop of exchanges comes to an end, or the ranks wait for ever. -/
theorem exchanges_end (g : Grid) (hL : 2 ≤ g.L) (D : ℕ) : ∀ (k : ℕ) (st : ℕ → Rk), Inv g D st →
    left_ g st < k → ∃ o, Exchanges g st o := by
  intro k
  induction k with
  | zero =>
    intro st hI hk
    have := left_nonneg g D st hI
    push_cast at hk
    omega
  | succ k ih =>
    intro st hI hk
    by_cases hm : aMiss g st > 0
    · cases he : exchange g st with
      | none => exact ⟨none, .stuck hm he⟩
      | some st' =>
        obtain ⟨h1, _, h3, _⟩ := (exchange_spec g hL D st hI hm).2 st' he
        obtain ⟨o, ho⟩ := ih st' h1 (by push_cast at hk; omega)
        exact ⟨o, .more hm he ho⟩
    · exact ⟨some st, .done hm⟩

/-- After the loop nothing is missing, and nothing was lost. -/
theorem exchanges_spec (g : Grid) (hL : 2 ≤ g.L) (D : ℕ) {st : ℕ → Rk} {o : Option (ℕ → Rk)}
    (h : Exchanges g st o) (hI : Inv g D st) : ∀ st', o = some st' →
    Inv g D st' ∧ ¬ aMiss g st' > 0 ∧ (∀ P, tally g P true st' = tally g P true st) ∧
      (∀ r, (st' r).out = (st r).out) ∧ (∀ r j, (st' r).n j ≤ (st r).n j) := by
  induction h with
  | done hm =>
    intro st' e
    simp only [Option.some.injEq] at e
    subst e
    exact ⟨hI, hm, fun _ => rfl, fun _ => rfl, fun _ _ => le_refl _⟩
  | stuck _ _ => intro st' e; exact absurd e (by simp)
  | more hm he _ ih =>
    intro st' e
    obtain ⟨h1, h2, _, h4, h5, _⟩ := (exchange_spec g hL D _ hI hm).2 _ he
    obtain ⟨i1, i2, i3, i4, i5⟩ := ih h1 st' e
    exact ⟨i1, i2, fun P => (i3 P).trans (h2 P), fun r => (i4 r).trans (h4 r),
      fun r j => (i5 r j).trans (h5 r j)⟩

/-- If no rank has particles left of the last point, the ranks do not wait for ever. -/
theorem exchanges_go (g : Grid) (hL : 2 ≤ g.L) (D : ℕ) {st : ℕ → Rk} {o : Option (ℕ → Rk)}
    (h : Exchanges g st o) (hI : Inv g D st) (h0 : ∀ r < g.ranks, (st r).remain = 0) :
    o ≠ none := by
  induction h with
  | done hm => simp
  | stuck hm he =>
    exfalso
    have hp := partners g D _ hI hm
    dsimp only at hp
    have := (exchange_spec g hL D _ hI hm).1.1 he
    rw [h0 _ hp.1] at this
    omega
  | more hm he _ ih =>
    obtain ⟨h1, _, _, _, _, h6⟩ := (exchange_spec g hL D _ hI hm).2 _ he
    refine ih h1 fun r hr => ?_
    have := h6 r
    rw [h0 r hr] at this
    omega

/-! ### Slabs -/

/-- What holds before a slab, with `N` slabs still to come. -/
structure Ready (g : Grid) (N : ℕ) (st : ℕ → Rk) : Prop where
  pos : ∀ r < g.ranks, (st r).lPos ≤ g.n3
  small : ∀ r < g.ranks, (st r).remain ≤ g.S
  counts : ∀ r < g.ranks, ∀ j, j < g.n3 → (st r).n j ≤ g.S
  bal : ∀ r < g.ranks, (st r).excess + ((N * g.S : ℕ) : ℤ) =
    ((pend g r (st r).n (st r).lPos (st r).remain).length : ℤ)
  zero : ∑ r ∈ Finset.range g.ranks, (st r).excess = 0

/-- Filling the slab of every rank. -/
theorem fill_ready (g : Grid) (hL : 2 ≤ g.L) (N : ℕ) (st : ℕ → Rk) (h : Ready g (N + 1) st) :
    Inv g (N * g.S) (fun r => fillRank g r (st r)) ∧
    (∀ P, tally g P true (fun r => fillRank g r (st r)) = tally g P false st) ∧
    (∀ r < g.ranks, (∀ j, (st r).n j ≤ 1) → (fillRank g r (st r)).remain = 0) := by
  have hfill : ∀ r < g.ranks, ∃ l k b,
      fillRank g r (st r) = { st r with
        lPos := l, remain := k, buf := b, missing := (g.S : ℤ) - b.length } ∧
      pend g r (st r).n (st r).lPos (st r).remain = b ++ pend g r (st r).n l k ∧
      b.length = min g.S (pend g r (st r).n (st r).lPos (st r).remain).length ∧
      l ≤ g.n3 ∧ (k = 0 ∨ (0 < l ∧ k < (st r).n (l - 1))) := by
    intro r hr
    obtain ⟨l, k, b, e1, e2, e3, e4, e5, e6⟩ := slabFill_spec g (by omega) r (st r).n (st r).lPos
      (st r).remain (h.pos r hr) (h.small r hr)
    refine ⟨l, k, b, ?_, e2, e3, e5, e6⟩
    unfold fillRank
    rw [e1]
  refine ⟨?_, ?_, ?_⟩
  · constructor
    · intro r hr
      obtain ⟨l, k, b, e1, e2, e3, e5, e6⟩ := hfill r hr
      rw [e1]
      exact e5
    · intro r hr
      obtain ⟨l, k, b, e1, e2, e3, e5, e6⟩ := hfill r hr
      rw [e1]
      dsimp only
      omega
    · intro r hr
      obtain ⟨l, k, b, e1, e2, e3, e5, e6⟩ := hfill r hr
      rw [e1]
      dsimp only
      rcases e6 with h0 | ⟨h1, h2⟩
      · omega
      · have := h.counts r hr (l - 1) (by omega)
        omega
    · intro r hr j hj
      obtain ⟨l, k, b, e1, e2, e3, e5, e6⟩ := hfill r hr
      rw [e1]
      exact h.counts r hr j hj
    · intro r hr
      obtain ⟨l, k, b, e1, e2, e3, e5, e6⟩ := hfill r hr
      rw [e1]
      dsimp only
      omega
    · intro r hr
      obtain ⟨l, k, b, e1, e2, e3, e5, e6⟩ := hfill r hr
      rw [e1]
      dsimp only
      omega
    · intro r hr
      obtain ⟨l, k, b, e1, e2, e3, e5, e6⟩ := hfill r hr
      rw [e1]
      dsimp only
      have h1 := h.bal r hr
      have h2 : (pend g r (st r).n (st r).lPos (st r).remain).length =
          b.length + (pend g r (st r).n l k).length := by rw [e2, List.length_append]
      rw [Nat.succ_mul] at h1
      push_cast at h1 ⊢
      omega
    · intro r hr
      obtain ⟨l, k, b, e1, e2, e3, e5, e6⟩ := hfill r hr
      rw [e1]
      dsimp only
      intro h0
      have h2 : (pend g r (st r).n (st r).lPos (st r).remain).length =
          b.length + (pend g r (st r).n l k).length := by rw [e2, List.length_append]
      exact List.eq_nil_of_length_eq_zero (by omega)
    · rw [← h.zero]
      apply Finset.sum_congr rfl
      intro r hr
      obtain ⟨l, k, b, e1, e2, e3, e5, e6⟩ := hfill r (Finset.mem_range.1 hr)
      rw [e1]
  · intro P
    unfold tally
    apply Finset.sum_congr rfl
    intro r hr
    obtain ⟨l, k, b, e1, e2, e3, e5, e6⟩ := hfill r (Finset.mem_range.1 hr)
    dsimp only
    rw [e1]
    dsimp only
    rw [e2, List.countP_append]
    simp
    omega
  · intro r hr h1
    obtain ⟨l, k, b, e1, e2, e3, e5, e6⟩ := hfill r hr
    rw [e1]
    dsimp only
    rcases e6 with h0 | ⟨h2, h3⟩
    · exact h0
    · have := h1 (l - 1)
      omega

/-- If the sum over the ranks is not positive, nothing is missing anywhere. -/
theorem none_missing (g : Grid) (D : ℕ) (st : ℕ → Rk) (hI : Inv g D st)
    (hm : ¬ aMiss g st > 0) : ∀ r < g.ranks, (st r).missing = 0 := by
  intro r hr
  rcases Nat.lt_or_ge 1 g.ranks with h | h
  · rw [aMiss_eq g st h] at hm
    have h1 : (st r).missing ≤ ∑ r ∈ Finset.range g.ranks, (st r).missing :=
      Finset.single_le_sum (f := fun r => (st r).missing)
        (fun i hi => hI.miss i (Finset.mem_range.1 hi)) (Finset.mem_range.2 hr)
    have h2 := hI.miss r hr
    omega
  · have hR : g.ranks = 1 := by omega
    have hr0 : r = 0 := by omega
    subst hr0
    have hz := hI.zero
    rw [hR, Finset.sum_range_one] at hz
    by_contra hne
    have h0 : 0 < (st 0).missing := lt_of_le_of_ne (hI.miss 0 hr) (Ne.symm hne)
    have hb := hI.bal 0 hr
    rw [hI.empty 0 hr h0, List.length_nil, hz] at hb
    push_cast at hb
    omega

/-- Writing the slab of every rank. -/
theorem write_ready (g : Grid) (N : ℕ) (st : ℕ → Rk) (hI : Inv g (N * g.S) st)
    (hm : ¬ aMiss g st > 0) :
    Ready g N (fun r => writeRank g (st r)) ∧
    (∀ P, tally g P false (fun r => writeRank g (st r)) = tally g P true st) ∧
    (∀ r < g.ranks, (writeRank g (st r)).out.length = (st r).out.length + g.S) := by
  have h0 := none_missing g _ st hI hm
  have hfull : ∀ r < g.ranks, (st r).buf.length = g.S := by
    intro r hr
    have := hI.full r hr
    rw [h0 r hr] at this
    omega
  refine ⟨⟨hI.pos, hI.small, hI.counts, ?_, hI.zero⟩, ?_, ?_⟩
  · intro r hr
    have := hI.bal r hr
    rw [h0 r hr, sub_zero] at this
    exact this
  · intro P
    unfold tally
    apply Finset.sum_congr rfl
    intro r hr
    unfold writeRank
    dsimp only
    rw [List.take_of_length_le (le_of_eq (hfull r (Finset.mem_range.1 hr))), List.countP_append]
    simp
  · intro r hr
    unfold writeRank
    rw [List.length_append, List.length_take, hfull r hr, Nat.min_self]

/-- All slabs. -/
theorem slabs_spec (g : Grid) (hL : 2 ≤ g.L) {N : ℕ} {st : ℕ → Rk} {o : Option (ℕ → Rk)}
    (h : Slabs g N st o) (hI : Ready g N st) : ∀ st', o = some st' →
    Ready g 0 st' ∧ (∀ P, tally g P false st' = tally g P false st) ∧
      (∀ r < g.ranks, (st' r).out.length = (st r).out.length + N * g.S) := by
  induction h with
  | zero st =>
    intro st' e
    simp only [Option.some.injEq] at e
    subst e
    exact ⟨hI, fun _ => rfl, fun _ _ => by omega⟩
  | stuck _ => intro st' e; exact absurd e (by simp)
  | succ he _ ih =>
    intro st' e
    obtain ⟨f1, f2, _⟩ := fill_ready g hL _ _ hI
    obtain ⟨x1, x2, x3, x4, x5⟩ := exchanges_spec g hL _ he f1 _ rfl
    obtain ⟨w1, w2, w3⟩ := write_ready g _ _ x1 x2
    obtain ⟨i1, i2, i3⟩ := ih w1 st' e
    refine ⟨i1, fun P => ?_, fun r hr => ?_⟩
    · rw [i2, w2, x3, f2]
    · rw [i3 r hr, w3 r hr, x4 r, Nat.succ_mul]
      show (fillRank g r _).out.length + _ + _ = _
      unfold fillRank
      dsimp only
      omega

/-- The run comes to an end, or the ranks wait for ever. -/
theorem slabs_end (g : Grid) (hL : 2 ≤ g.L) : ∀ (N : ℕ) (st : ℕ → Rk), Ready g N st →
    ∃ o, Slabs g N st o := by
  intro N
  induction N with
  | zero => intro st _; exact ⟨_, .zero st⟩
  | succ N ih =>
    intro st hI
    obtain ⟨f1, _⟩ := fill_ready g hL N st hI
    obtain ⟨o, ho⟩ := exchanges_end g hL _
      ((left_ g (fun r => fillRank g r (st r))).toNat + 1) _ f1
      (by have := left_nonneg g _ _ f1; push_cast; omega)
    cases o with
    | none => exact ⟨none, .stuck ho⟩
    | some st' =>
      obtain ⟨x1, x2, _⟩ := exchanges_spec g hL _ ho f1 _ rfl
      obtain ⟨o, hs⟩ := ih _ (write_ready g N _ x1 x2).1
      exact ⟨o, .succ ho hs⟩

/-- With no more than one particle per point the ranks do not wait for ever. -/
theorem slabs_go (g : Grid) (hL : 2 ≤ g.L) {N : ℕ} {st : ℕ → Rk} {o : Option (ℕ → Rk)}
    (h : Slabs g N st o) (hI : Ready g N st) (h1 : ∀ r < g.ranks, ∀ j, (st r).n j ≤ 1) :
    o ≠ none := by
  induction h with
  | zero st => simp
  | stuck he =>
    obtain ⟨f1, f2, f3⟩ := fill_ready g hL _ _ hI
    exact absurd rfl (exchanges_go g hL _ he f1 fun r hr => f3 r hr (h1 r hr))
  | succ he _ ih =>
    obtain ⟨f1, f2, f3⟩ := fill_ready g hL _ _ hI
    obtain ⟨x1, x2, x3, x4, x5⟩ := exchanges_spec g hL _ he f1 _ rfl
    exact ih (write_ready g _ _ x1 x2).1 fun r hr j => (x5 r j).trans (h1 r hr j)

theorem sites_length (g : Grid) (rank : ℕ) (n : ℕ → ℕ) (i k : ℕ) :
    (sites g rank n i k).length = ((List.range' i k).map n).sum := by
  unfold sites
  rw [List.length_flatMap]
  simp

/-- The start. -/
theorem begin0_ready (g : Grid) (hR : 0 < g.ranks) (N : ℕ) (n : ℕ → ℕ → ℕ)
    (hsmall : ∀ r < g.ranks, ∀ i < g.n3, n r i ≤ g.S)
    (hsum : ∑ r ∈ Finset.range g.ranks, ∑ i ∈ Finset.range g.n3, n r i = N * g.S * g.ranks) :
    Ready g N (begin0 g (N * g.S * g.ranks) n) := by
  have hdiv : N * g.S * g.ranks / g.ranks = N * g.S := Nat.mul_div_cancel _ hR
  refine ⟨fun _ _ => Nat.zero_le _, fun _ _ => Nat.zero_le _, hsmall, ?_, ?_⟩
  · intro r hr
    unfold begin0 pend
    dsimp only
    rw [hdiv, List.replicate_zero, List.nil_append, Nat.sub_zero, sites_length,
      ← List.range_eq_range']
    omega
  · unfold begin0
    dsimp only
    rw [hdiv, Finset.sum_sub_distrib, Finset.sum_const, Finset.card_range]
    have : ∑ r ∈ Finset.range g.ranks, (((List.range g.n3).map (n r)).sum : ℤ) =
        ((N * g.S * g.ranks : ℕ) : ℤ) := by
      rw [← hsum, Nat.cast_sum]
      rfl
    rw [this]
    push_cast
    rw [nsmul_eq_mul]
    ring

end Halo
end Jaxions
