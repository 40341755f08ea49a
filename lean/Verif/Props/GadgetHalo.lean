/-
**C71** The N-body snapshot of the "halo" kind: the slabs of particles and the exchange between
ranks.
-/
import Verif.Lemmas.GadgetRanks
import Verif.Basic.DivMod

namespace Jaxions
namespace Halo
open Gadget (Grid Part begin_ advance begin_val advance_begin)

/-! ### The file -/

theorem countP_sites (g : Grid) (r x y z rank : ℕ) (n : ℕ → ℕ) (hx : x < g.L) (hy : y < g.L)
    (hz : z < g.Lz) :
    (sites g rank n 0 g.n3).countP (fun c => decide (c.x = x ∧ c.y = y ∧ c.z = r * g.Lz + z)) =
      if rank = r then n (siteNo g.L x y z) else 0 := by
  have hL : 0 < g.L := by omega
  have hpt : ∀ j < g.n3,
      ((begin_ g rank j).x = x ∧ (begin_ g rank j).y = y ∧ (begin_ g rank j).z = r * g.Lz + z) ↔
        (rank = r ∧ j = siteNo g.L x y z) := by
    intro j hj
    rw [begin_val]
    dsimp only
    have hq : j / g.L / g.L < g.Lz := by
      rw [Nat.div_div_eq_div_mul]
      apply Nat.div_lt_of_lt_mul
      exact hj
    constructor
    · rintro ⟨h1, h2, h3⟩
      obtain ⟨h4, h5⟩ := pair_inj (b := g.Lz) (r := j / g.L / g.L) (q := rank) (r' := z) (q' := r)
        hq hz (by omega)
      refine ⟨by omega, ?_⟩
      unfold siteNo
      have e1 := Nat.div_add_mod j g.L
      have e2 := Nat.div_add_mod (j / g.L) g.L
      have h5' : j / g.L / g.L = z := by omega
      rw [h1] at e1
      rw [h2, h5'] at e2
      rw [← e1, ← e2, Nat.mul_comm g.L z, Nat.mul_comm g.L]
    · rintro ⟨h1, h2⟩
      subst h1
      unfold siteNo at h2
      have e1 : j % g.L = x ∧ j / g.L = z * g.L + y := by
        rw [h2]
        exact ⟨mod_of hx, div_of hx⟩
      have e2 : (z * g.L + y) % g.L = y ∧ (z * g.L + y) / g.L = z := by
        exact ⟨mod_of hy, div_of hy⟩
      rw [e1.1, e1.2, e2.1, e2.2]
      exact ⟨rfl, rfl, by omega⟩
  have hlt : siteNo g.L x y z < g.n3 := by
    unfold siteNo Grid.n3 Grid.S
    have h1 : z * g.L + y < g.L * g.Lz := by
      have : (z + 1) * g.L ≤ g.Lz * g.L := Nat.mul_le_mul_right _ hz
      rw [Nat.succ_mul] at this
      rw [Nat.mul_comm g.L]
      omega
    have h2 : (z * g.L + y + 1) * g.L ≤ (g.L * g.Lz) * g.L := Nat.mul_le_mul_right _ h1
    rw [Nat.succ_mul] at h2
    have e : g.L * g.L * g.Lz = (g.L * g.Lz) * g.L := by ring
    rw [e]
    omega
  unfold sites
  rw [List.countP_flatMap, ← List.range_eq_range']
  have hterm : ∀ j ∈ List.range g.n3,
      (List.countP (fun c : Part => decide (c.x = x ∧ c.y = y ∧ c.z = r * g.Lz + z)) ∘
        fun j => List.replicate (n j) (begin_ g rank j)) j =
        if rank = r ∧ j = siteNo g.L x y z then n j else 0 := by
    intro j hj
    rw [Function.comp_apply, List.countP_replicate]
    have := hpt j (List.mem_range.1 hj)
    by_cases h : rank = r ∧ j = siteNo g.L x y z
    · rw [if_pos h, if_pos (by simpa using this.2 h)]
    · rw [if_neg h, if_neg (by simpa using fun h1 h2 h3 => h (this.1 ⟨h1, h2, h3⟩))]
  rw [List.map_congr_left hterm]
  have hfin : ((List.range g.n3).map fun j =>
      if rank = r ∧ j = siteNo g.L x y z then n j else 0).sum =
      ∑ j ∈ Finset.range g.n3, if rank = r ∧ j = siteNo g.L x y z then n j else 0 := rfl
  rw [hfin]
  by_cases h : rank = r
  · rw [if_pos h]
    simp only [h, true_and]
    rw [Finset.sum_ite_eq' (Finset.range g.n3) (siteNo g.L x y z) n,
      if_pos (Finset.mem_range.2 hlt)]
  · rw [if_neg h]
    simp [h]

/-- **C71** Whatever the numbers of particles per point (as long as no point has more particles
than a slice has points), and on any number of ranks: if the run comes to its end, every rank has
written its slabs in full, and the files together hold, for every point, exactly the particles
that were decided for it. -/
theorem C71_file_partial (g : Grid) (hL : 2 ≤ g.L) (hR : 0 < g.ranks) (N : ℕ) (n : ℕ → ℕ → ℕ)
    (hsmall : ∀ r < g.ranks, ∀ i < g.n3, n r i ≤ g.S)
    (hsum : ∑ r ∈ Finset.range g.ranks, ∑ i ∈ Finset.range g.n3, n r i = N * g.S * g.ranks)
    (st : ℕ → Rk)
    (hrun : Slabs g (nSlabs g (N * g.S * g.ranks)) (begin0 g (N * g.S * g.ranks) n) (some st)) :
    (∀ r < g.ranks, (st r).out.length = N * g.S) ∧
    ∀ r < g.ranks, ∀ x < g.L, ∀ y < g.L, ∀ z < g.Lz,
      ∑ r' ∈ Finset.range g.ranks,
        (st r').out.countP (fun c => decide (c.x = x ∧ c.y = y ∧ c.z = r * g.Lz + z)) =
      n r (siteNo g.L x y z) := by
  have hS : 0 < g.S := Nat.mul_pos (by omega) (by omega)
  have hN : nSlabs g (N * g.S * g.ranks) = N := by
    unfold nSlabs
    have e : N * g.S * g.ranks = N * g.ranks * g.S := by ring
    rw [e, Nat.mul_div_cancel _ hS, Nat.mul_div_cancel _ hR]
  rw [hN] at hrun
  have h0 := begin0_ready g hR N n hsmall hsum
  obtain ⟨h1, h2, h3⟩ := slabs_spec g hL hrun h0 st rfl
  have hpend : ∀ r < g.ranks, pend g r (st r).n (st r).lPos (st r).remain = [] := by
    intro r hr
    have hle : (st r).excess ≤ ∑ r ∈ Finset.range g.ranks, (st r).excess :=
      Finset.single_le_sum (f := fun r => (st r).excess) (fun i hi => by
        have := h1.bal i (Finset.mem_range.1 hi)
        push_cast at this
        omega) (Finset.mem_range.2 hr)
    rw [h1.zero] at hle
    have := h1.bal r hr
    push_cast at this
    exact List.eq_nil_of_length_eq_zero (by omega)
  refine ⟨fun r hr => ?_, ?_⟩
  · rw [h3 r hr]
    simp [begin0]
  · intro r hr x hx y hy z hz
    have ht := h2 (fun c => decide (c.x = x ∧ c.y = y ∧ c.z = r * g.Lz + z))
    unfold tally at ht
    have e1 : ∀ r' ∈ Finset.range g.ranks,
        (List.countP (fun c : Part => decide (c.x = x ∧ c.y = y ∧ c.z = r * g.Lz + z)) (st r').out +
          (if false then List.countP
            (fun c : Part => decide (c.x = x ∧ c.y = y ∧ c.z = r * g.Lz + z)) (st r').buf else 0) +
          List.countP (fun c : Part => decide (c.x = x ∧ c.y = y ∧ c.z = r * g.Lz + z))
            (pend g r' (st r').n (st r').lPos (st r').remain)) =
        List.countP (fun c : Part => decide (c.x = x ∧ c.y = y ∧ c.z = r * g.Lz + z))
          (st r').out := by
      intro r' hr'
      rw [hpend r' (Finset.mem_range.1 hr')]
      simp
    rw [Finset.sum_congr rfl e1] at ht
    rw [ht]
    have e2 : ∀ r' ∈ Finset.range g.ranks,
        (List.countP (fun c : Part => decide (c.x = x ∧ c.y = y ∧ c.z = r * g.Lz + z))
            (begin0 g (N * g.S * g.ranks) n r').out +
          (if false then List.countP
            (fun c : Part => decide (c.x = x ∧ c.y = y ∧ c.z = r * g.Lz + z))
              (begin0 g (N * g.S * g.ranks) n r').buf else 0) +
          List.countP (fun c : Part => decide (c.x = x ∧ c.y = y ∧ c.z = r * g.Lz + z))
            (pend g r' (begin0 g (N * g.S * g.ranks) n r').n
              (begin0 g (N * g.S * g.ranks) n r').lPos
              (begin0 g (N * g.S * g.ranks) n r').remain)) =
        if r' = r then n r (siteNo g.L x y z) else 0 := by
      intro r' _
      unfold begin0 pend
      dsimp only
      rw [List.replicate_zero, List.nil_append, Nat.sub_zero, countP_sites g r x y z r' _ hx hy hz]
      simp only [List.countP_nil, Nat.zero_add, Bool.false_eq_true, if_false]
      split
      · next h => rw [h]
      · rfl
    rw [Finset.sum_congr rfl e2, Finset.sum_ite_eq' (Finset.range g.ranks) r
      (fun _ => n r (siteNo g.L x y z)), if_pos (Finset.mem_range.2 hr)]

/-- **C71** The run always comes to its end or to a state in which the ranks wait for each other
for ever: it does not go on exchanging without end. -/
theorem C71_exchanges_end (g : Grid) (hL : 2 ≤ g.L) (hR : 0 < g.ranks) (N : ℕ) (n : ℕ → ℕ → ℕ)
    (hsmall : ∀ r < g.ranks, ∀ i < g.n3, n r i ≤ g.S)
    (hsum : ∑ r ∈ Finset.range g.ranks, ∑ i ∈ Finset.range g.n3, n r i = N * g.S * g.ranks) :
    ∃ o, Slabs g N (begin0 g (N * g.S * g.ranks) n) o :=
  slabs_end g hL N _ (begin0_ready g hR N n hsmall hsum)

/-- **C71** With no more than one particle at any point the run comes to its end. -/
theorem C71_one_each (g : Grid) (hL : 2 ≤ g.L) (hR : 0 < g.ranks) (N : ℕ) (n : ℕ → ℕ → ℕ)
    (hone : ∀ r < g.ranks, ∀ i, n r i ≤ 1)
    (hsum : ∑ r ∈ Finset.range g.ranks, ∑ i ∈ Finset.range g.n3, n r i = N * g.S * g.ranks) :
    ∃ st, Slabs g N (begin0 g (N * g.S * g.ranks) n) (some st) := by
  have hS : 0 < g.S := Nat.mul_pos (by omega) (by omega)
  have h0 := begin0_ready g hR N n (fun r hr i _ => (hone r hr i).trans hS) hsum
  obtain ⟨o, ho⟩ := slabs_end g hL N _ h0
  cases o with
  | none => exact absurd rfl (slabs_go g hL ho h0 hone)
  | some st => exact ⟨st, ho⟩

/-- Two ranks, one of them with all eight particles of two slabs: the run ends, and the file
holds what it should. -/
example : ∃ st, Slabs ⟨2, 2, 1, 2⟩ 1 (begin0 ⟨2, 2, 1, 2⟩ 8 fun r _ => if r = 0 then 1 else 0)
      (some st) ∧
    ∑ r' ∈ Finset.range 2, (st r').out.countP (fun c => decide (c.x = 1 ∧ c.y = 0 ∧ c.z = 1)) = 1 := by
  have hs : ∑ r ∈ Finset.range 2, ∑ i ∈ Finset.range (Grid.n3 ⟨2, 2, 1, 2⟩),
      (if r = 0 then 1 else 0 : ℕ) = 1 * 4 * 2 := by decide
  obtain ⟨st, h⟩ := C71_one_each ⟨2, 2, 1, 2⟩ (by decide) (by decide) 1
    (fun r _ => if r = 0 then 1 else 0) (by intro r _ i; split <;> omega) hs
  refine ⟨st, h, ?_⟩
  exact (C71_file_partial ⟨2, 2, 1, 2⟩ (by decide) (by decide) 1
    (fun r _ => if r = 0 then 1 else 0)
    (by intro r _ i _; split <;> decide) hs st h).2 0 (by decide) 1 (by decide) 0
      (by decide) 1 (by decide)

/-! ### Waiting for ever -/

/-- **C71** While particles are missing, the ranks wait for ever exactly if the sender (the first
rank of largest excess) has at least as many particles left of its last point as it is to send;
otherwise the message goes out, the sum of all particles stays the same, and the receiver lacks
fewer particles or the sender has moved on. -/
theorem C71_waits_iff (g : Grid) (hL : 2 ≤ g.L) (D : ℕ) (st : ℕ → Rk) (hI : Inv g D st)
    (hm : aMiss g st > 0) :
    ∃ s d, s < g.ranks ∧ d < g.ranks ∧ s ≠ d ∧
      (∀ r < g.ranks, (st r).excess ≤ (st s).excess) ∧
      (∀ r < g.ranks, (st d).excess ≤ (st r).excess) ∧ 0 < (st d).missing ∧
      (exchange g st = none ↔ min (st d).missing (st s).excess ≤ (st s).remain) ∧
      ∀ st', exchange g st = some st' → Inv g D st' ∧
        (∀ P, tally g P true st' = tally g P true st) ∧
        ∑ r ∈ Finset.range g.ranks, ((st' r).missing + (g.n3 - (st' r).lPos)) <
          ∑ r ∈ Finset.range g.ranks, ((st r).missing + (g.n3 - (st r).lPos)) := by
  have hp := partners g D st hI hm
  dsimp only at hp
  obtain ⟨hs, hd, hne, hdm, hse, hsm, hw1, hw2, hw3⟩ := hp
  have hx := exchange_spec g hL D st hI hm
  have hR : 0 < g.ranks := by omega
  refine ⟨_, _, hs, hd, hne, (argMax_spec _ _ hR).2, (argMin_spec _ _ hR).2, hdm, ?_, ?_⟩
  · rw [hx.1, ← hw1]
    exact Int.ofNat_le.symm
  · intro st' h
    obtain ⟨h1, h2, h3, _⟩ := hx.2 st' h
    exact ⟨h1, h2, h3⟩

/-- Two ranks with two points per side; rank 0 has three and four particles at its second and
third point, rank 1 has one. -/
def waiting : ℕ → ℕ → ℕ := fun r i =>
  if r = 0 then (if i = 1 then 3 else if i = 2 then 4 else 0) else if i = 0 then 1 else 0

/-- **C71** (negative) A case within the limits of `C71_file_partial` in which the only possible
run ends with the ranks waiting for each other: nothing is written. -/
theorem C71_waits :
    (∀ r < 2, ∀ i < 4, waiting r i ≤ 4) ∧
    (∑ r ∈ Finset.range 2, ∑ i ∈ Finset.range 4, waiting r i = 1 * 4 * 2) ∧
    ∀ o, Slabs ⟨2, 1, 1, 2⟩ 1 (begin0 ⟨2, 1, 1, 2⟩ 8 waiting) o → o = none := by
  refine ⟨by decide, by decide, ?_⟩
  intro o h
  have hmiss : aMiss ⟨2, 1, 1, 2⟩ (fun r => fillRank ⟨2, 1, 1, 2⟩ r
      (begin0 ⟨2, 1, 1, 2⟩ 8 waiting r)) > 0 := by decide
  have hnone : exchange ⟨2, 1, 1, 2⟩ (fun r => fillRank ⟨2, 1, 1, 2⟩ r
      (begin0 ⟨2, 1, 1, 2⟩ 8 waiting r)) = none := by
    rw [← Option.isNone_iff_eq_none]
    decide
  cases h with
  | stuck _ => rfl
  | succ he _ =>
    cases he with
    | done h => exact absurd hmiss h
    | more _ h _ => rw [hnone] at h; exact absurd h (by simp)

/-! ### One rank -/

theorem one_rank_order (g : Grid) (hL : 2 ≤ g.L) (hR : g.ranks = 1) {N : ℕ} {st : ℕ → Rk}
    {o : Option (ℕ → Rk)} (h : Slabs g N st o) (hI : Ready g N st) :
    ∃ st', o = some st' ∧ Ready g 0 st' ∧
      (st' 0).out ++ pend g 0 (st' 0).n (st' 0).lPos (st' 0).remain =
        (st 0).out ++ pend g 0 (st 0).n (st 0).lPos (st 0).remain := by
  have hno : ∀ st : ℕ → Rk, ¬ aMiss g st > 0 := by
    intro st
    unfold aMiss
    rw [if_neg (by omega)]
    exact lt_irrefl _
  induction h with
  | zero st => exact ⟨st, rfl, hI, rfl⟩
  | stuck he =>
    cases he with
    | stuck h _ => exact absurd h (hno _)
    | more h _ _ => exact absurd h (hno _)
  | @succ N st st1 o he _ ih =>
    obtain ⟨f1, _⟩ := fill_ready g hL _ _ hI
    cases he with
    | done hm =>
      obtain ⟨st', e, r0, ho⟩ := ih (write_ready g _ _ f1 hm).1
      refine ⟨st', e, r0, ho.trans ?_⟩
      have h0 := none_missing g _ _ f1 hm 0 (by omega)
      have hf := f1.full 0 (by omega)
      dsimp only at h0 hf ⊢
      rw [h0] at hf
      unfold writeRank
      dsimp only
      rw [List.take_of_length_le (by omega), List.append_assoc]
      obtain ⟨l, k, b, e1, e2, _⟩ := slabFill_spec g (by omega) 0 (st 0).n (st 0).lPos
        (st 0).remain (hI.pos 0 (by omega)) (hI.small 0 (by omega))
      unfold fillRank
      rw [e1]
      dsimp only
      rw [e2]
    | more h _ _ => exact absurd h (hno _)

/-- **C71** On one rank the run always comes to its end, and the file holds the particles in the
order of the points: those of point 0, then those of point 1, and so on. -/
theorem C71_one_rank (g : Grid) (hL : 2 ≤ g.L) (hR : g.ranks = 1) (N : ℕ) (n : ℕ → ℕ)
    (hsmall : ∀ i < g.n3, n i ≤ g.S) (hsum : ∑ i ∈ Finset.range g.n3, n i = N * g.S) :
    (∃ o, Slabs g N (begin0 g (N * g.S) fun _ => n) o) ∧
    ∀ o, Slabs g N (begin0 g (N * g.S) fun _ => n) o →
      ∃ st, o = some st ∧
        (st 0).out = (List.range g.n3).flatMap fun i => List.replicate (n i) (begin_ g 0 i) := by
  have h0 := begin0_ready g (by omega) N (fun _ => n) (fun _ _ => hsmall)
    (by rw [hR, Finset.sum_range_one, Nat.mul_one]; exact hsum)
  rw [hR, Nat.mul_one] at h0
  refine ⟨slabs_end g hL N _ h0, ?_⟩
  intro o h
  obtain ⟨st, e, r0, ho⟩ := one_rank_order g hL hR h h0
  refine ⟨st, e, ?_⟩
  have hp : pend g 0 (st 0).n (st 0).lPos (st 0).remain = [] := by
    have hz := r0.zero
    rw [hR, Finset.sum_range_one] at hz
    have := r0.bal 0 (by omega)
    rw [hz] at this
    push_cast at this
    exact List.eq_nil_of_length_eq_zero (by omega)
  rw [hp, List.append_nil] at ho
  rw [ho]
  simp [begin0, pend, sites, List.range_eq_range']

/-- Eight points, of which one has three particles, one has two and three have one: two slabs. -/
example : ∀ o, Slabs ⟨2, 2, 1, 1⟩ 2 (begin0 ⟨2, 2, 1, 1⟩ 8 fun _ i =>
      if i = 1 then 3 else if i = 2 then 2 else if i < 5 then 0 else 1) o →
    ∃ st, o = some st ∧ (st 0).out.length = 8 := by
  intro o h
  obtain ⟨st, e, ho⟩ := (C71_one_rank ⟨2, 2, 1, 1⟩ (by decide) rfl 2
    (fun i => if i = 1 then 3 else if i = 2 then 2 else if i < 5 then 0 else 1)
    (by decide) (by decide)).2 o h
  exact ⟨st, e, by rw [ho]; decide⟩

/-- **C71** (negative) A point with more than two slices of particles.  After two slabs the rank
goes on to the next point, the file holds `2 S` particles of the point and the others are lost;
the second buffer was filled with more than the `S` particles that it can take. -/
theorem C71_site_lost (g : Grid) (hL : 2 ≤ g.L) (nPrt rank : ℕ) (n : ℕ → ℕ → ℕ)
    (hz : 0 < g.Lz) (hbig : 2 * g.S < n rank 0) :
    let a := writeRank g (fillRank g rank (begin0 g nPrt n rank))
    let b := fillRank g rank a
    b.lPos = 1 ∧ b.remain = 0 ∧ g.S < b.buf.length ∧
      (writeRank g b).out = List.replicate (2 * g.S) (begin_ g rank 0) ∧
      2 * g.S < n rank 0 := by
  intro a b
  have hS : 0 < g.S := Nat.mul_pos (by omega) (by omega)
  have hn3 : 0 < g.n3 := Nat.mul_pos hS hz
  obtain ⟨k, hk⟩ : ∃ k, g.n3 = k + 1 := ⟨g.n3 - 1, by omega⟩
  have h1 : slabFill g rank (n rank) 0 0 =
      (1, n rank 0 - g.S, List.replicate g.S (begin_ g rank 0)) := by
    unfold slabFill
    dsimp only
    rw [Nat.sub_zero, hk, if_neg (by simp)]
    unfold fillFrom
    rw [if_pos (by simpa using hS), begin_idx, advance_begin g (by omega),
      putSite_spec _ _ _ _ _ (by simpa using hS), List.length_nil, if_neg (by omega),
      Nat.sub_zero]
    dsimp only
    rw [fillFrom_full g _ _ _ _ _ (by simp), begin_idx]
    simp
  have ha : a = { begin0 g nPrt n rank with
      lPos := 1, remain := n rank 0 - g.S, buf := List.replicate g.S (begin_ g rank 0)
      missing := (g.S : ℤ) - (List.replicate g.S (begin_ g rank 0)).length
      out := List.replicate g.S (begin_ g rank 0) } := by
    show writeRank g (fillRank g rank (begin0 g nPrt n rank)) = _
    unfold fillRank
    have : slabFill g rank (begin0 g nPrt n rank).n (begin0 g nPrt n rank).lPos
        (begin0 g nPrt n rank).remain = slabFill g rank (n rank) 0 0 := rfl
    rw [this, h1]
    simp [writeRank, begin0]
  have h2 : slabFill g rank (n rank) 1 (n rank 0 - g.S) =
      (1, 0, List.replicate (n rank 0 - g.S) (begin_ g rank 0)) := by
    unfold slabFill
    dsimp only
    rw [if_pos (by omega), fillFrom_full g _ _ _ _ _ (by simp; omega), begin_idx]
  have hb : b = { a with
      lPos := 1, remain := 0, buf := List.replicate (n rank 0 - g.S) (begin_ g rank 0)
      missing := (g.S : ℤ) - (List.replicate (n rank 0 - g.S) (begin_ g rank 0)).length } := by
    show fillRank g rank a = _
    unfold fillRank
    have : slabFill g rank a.n a.lPos a.remain = slabFill g rank (n rank) 1 (n rank 0 - g.S) := by
      rw [ha]; rfl
    rw [this, h2]
  refine ⟨by rw [hb], by rw [hb], by rw [hb]; simp; omega, ?_, hbig⟩
  unfold writeRank
  rw [hb, ha]
  dsimp only
  rw [List.take_replicate, Nat.min_eq_left (by omega), ← List.replicate_add]
  congr 1
  omega

/-- Nine particles at the first point of a grid with four points per slice. -/
example : (writeRank ⟨2, 3, 1, 1⟩ (fillRank ⟨2, 3, 1, 1⟩ 0 (writeRank ⟨2, 3, 1, 1⟩
    (fillRank ⟨2, 3, 1, 1⟩ 0 (begin0 ⟨2, 3, 1, 1⟩ 12 (fun _ i => if i = 0 then 9 else
      if i < 4 then 1 else 0) 0))))).out.length = 8 := by
  have h := (C71_site_lost ⟨2, 3, 1, 1⟩ (by decide) 12 0
    (fun _ i => if i = 0 then 9 else if i < 4 then 1 else 0) (by decide) (by decide)).2.2.2.1
  rw [h]
  decide

/-! ### Messages and buffers -/

/-- **C71** The message of a sender that is asked for particles it has: the number of points
announced by `ePos - iPos` is the number of entries and fits the buffer of one slice, the entries
sum up to the number of particles announced, which is not more than was asked for, and what the
sender still has to place is what it had without those particles. -/
theorem C71_message (g : Grid) (hL : 2 ≤ g.L) (rank : ℕ) (n : ℕ → ℕ) (lPos remain want : ℕ)
    (hl : lPos ≤ g.n3) (hrem : 0 < remain → 0 < lPos) (hw : 0 < want)
    (hen : want ≤ (pend g rank n lPos remain).length) (m : Sent)
    (h : send g.S n lPos remain want = some m) :
    m.ePos - m.iPos = m.counts.length ∧ m.counts.length ≤ g.S ∧ m.counts.sum = m.sent ∧
      m.sent ≤ want ∧
      pend g rank n lPos remain =
        receive g (begin_ g rank m.iPos) m.counts [] ++ pend g rank m.n m.lPos m.remain := by
  have hS : 2 ≤ g.S := by
    unfold Grid.S
    exact le_trans (by omega) (Nat.mul_le_mul hL hL)
  obtain ⟨e1, e2, e3, e4, e5, e6, e7, e8, e9, e10⟩ :=
    (send_spec g hS rank n lPos remain want hl hrem hw hen).2 m h
  refine ⟨e5, e10, e2.symm, e3, ?_⟩
  rw [receive_eq g (by omega), List.nil_append]
  exact e1

/-- Three particles left of the first point and one at each of the others, five asked for. -/
example : ∃ m, send 4 (fun i => if i = 0 then 0 else 1) 1 3 5 = some m ∧ m.counts = [3, 1, 1] ∧
    m.ePos - m.iPos = 3 := ⟨_, rfl, by decide, by decide⟩

/-- **C71** The densities, the numbers per point, the message and the positions of one slab lie
one behind the other in the memory of `m2`, and fit in it. -/
theorem C71_buffers (g : Grid) (hNg : 1 ≤ g.Ng) (i j k t c : ℕ) (hi : i < g.n3) (hj : j < g.n3)
    (hk : k < g.S) (ht : t < g.S) (hc : c < 3) :
    dataCell i < countCell g j ∧ countCell g j < msgCell g k ∧
      msgCell g k < Gadget.posCell g t c ∧ Gadget.posCell g t c < Gadget.m2Room g := by
  have e1 : g.n3 = g.S * g.Lz := rfl
  have e2 : g.S * (g.Lz * 2 + 1) = g.S * g.Lz + g.S * g.Lz + g.S := by ring
  have e3 : Gadget.m2Room g = g.S * g.Lz + g.S * g.Lz + 4 * (g.S * g.Ng) := by
    unfold Gadget.m2Room Grid.v3 Grid.S
    ring
  have e4 : g.S ≤ g.S * g.Ng := Nat.le_mul_of_pos_right _ hNg
  refine ⟨?_, ?_, ?_, ?_⟩
  · unfold dataCell countCell; omega
  · unfold msgCell countCell; omega
  · unfold msgCell countCell Gadget.posCell; omega
  · unfold Gadget.posCell
    rw [e2, e3]
    omega

/-- **C71** (negative) With one ghost slice, a slab of more than `S` particles (see
`C71_site_lost`) is written beyond the end of `m2`. -/
theorem C71_buffer_overrun (g : Grid) (hNg : g.Ng = 1) (c : ℕ) :
    Gadget.m2Room g ≤ Gadget.posCell g g.S c := by
  unfold Gadget.m2Room Grid.v3 Gadget.posCell
  rw [hNg]
  have e : g.S * (g.Lz * 2 + 1) + (3 * g.S + c) = 2 * (g.S * g.Lz) + 4 * g.S + c := by ring
  have e' : 2 * (g.L * g.L * (g.Lz + 2 * 1)) = 2 * (g.S * g.Lz) + 4 * g.S := by
    unfold Grid.S; ring
  simp only [Grid.S] at *
  omega

/-- **C71** (negative) The cell behind the last point, which the balancing loop can draw: its
density is the number of particles of point 0, read as a floating point number, and its number of
particles is the first entry of the message buffer. -/
theorem C71_beyond (g : Grid) :
    dataCell g.n3 = countCell g 0 ∧ countCell g g.n3 = msgCell g 0 := ⟨rfl, rfl⟩

end Halo
end Jaxions
