import Verif.Lemmas.MendRow
import Mathlib.Data.Rat.Floor

/-!
# C25: mending gives whole turns, and joins the angle wherever that is possible
-/

namespace Jaxions
namespace Mend

open Stencil (cell)

variable {K : Type} [Field K] [LinearOrder K] [IsStrictOrderedRing K] [FloorRing K]

omit [IsStrictOrderedRing K] in
theorem exists_bound {P : Nat → Nat → Prop} (hmono : ∀ i N M, N ≤ M → P i N → P i M) (n : Nat)
    (h : ∀ i, i < n → ∃ N, P i N) : ∃ N, ∀ i, i < n → P i N := by
  induction n with
  | zero => exact ⟨0, by intros; omega⟩
  | succ n ih =>
    obtain ⟨N, hN⟩ := ih fun i hi => h i (by omega)
    obtain ⟨M, hM⟩ := h n (by omega)
    refine ⟨max N M, fun i hi => ?_⟩
    rcases Nat.lt_succ_iff_lt_or_eq.mp hi with h1 | rfl
    · exact hmono _ _ _ (le_max_left _ _) (hN i h1)
    · exact hmono _ _ _ (le_max_right _ _) hM

/-- Memory of all ranks holds the angles `g` and velocities `u` of an `L × L × n Lz` lattice; `m2` has
room for `T` threads. -/
structure HoldsAll (L S Lz NN n T : Nat) (s : Nat → St K) (g u : Nat → Nat → Nat → K) : Prop where
  m : ∀ r x y z, r < n → x < L → y < L → z < Lz →
    (s r).m (cell L S x y (z + NN)) = some (g x y (r * Lz + z))
  v : ∀ r x y z, r < n → x < L → y < L → z < Lz →
    (s r).v (cell L S x y z) = some (u x y (r * Lz + z))
  ghost : ∀ r, r < n → ((s r).m (L * L * (NN - 1))).isSome
  m2 : ∀ r a, r < n → a < T * (L * L) ∨ a < T * 4 * (L * S) → ((s r).m2 a).isSome
  str : ∀ r a, r < n → a < L * L * Lz → ((s r).str a).isSome

/-- **C25, full strength.**  The loops end, and every site gets a whole number of turns, the one
specified by `turns`, its velocity the same number of `w`: for every lattice, any number of ranks,
any number of threads, however the threads share the slices and the rows, and whatever `m2` held
before.  For the AVX-512 double precision build this needs that no step along x takes more than one
turn (see `C25_avx512_hangs`). -/
theorem C25_turns {zP : K} (h : 0 < zP) (w : K) (b : Build) {L S Lz NN n T : Nat} (hS : 0 < S)
    (hd : S ∣ L) (h4 : 4 ≤ L) (hN : 1 ≤ NN) (hLz : 0 < Lz) {s : Nat → St K}
    {g u : Nat → Nat → Nat → K} (hs : HoldsAll L S Lz NN n T s g u)
    (havx : b = .doubleAvx512 → ∀ y z, y < L → z < n * Lz →
      RowFuel (turnsV zP) (2 * zP) L 1 fun x => afterY zP L (n * Lz) g x y z) :
    ∃ N, ∀ fuel, N ≤ fuel → ∀ slices rows, (∀ r, r < n → SliceOrder Lz T (slices r)) →
      (∀ r, r < n → RowOrder ⟨L, S⟩ Lz T (rows r)) →
      ∃ t, mendTheta b fuel zP w ⟨L, S⟩ Lz NN n slices rows s = some t ∧
        ∀ r x y z, r < n → x < L → y < L → z < Lz →
          (t r).m (cell L S x y (z + NN)) =
            some (g x y (r * Lz + z) + turns zP L (n * Lz) g x y (r * Lz + z) * (2 * zP)) ∧
          (t r).v (cell L S x y z) =
            some (u x y (r * Lz + z) + turns zP L (n * Lz) g x y (r * Lz + z) * w) := by
  obtain ⟨Y, rfl⟩ := hd
  rw [Nat.mul_comm S Y] at *
  have hY : 0 < Y := by
    rcases Nat.eq_zero_or_pos Y with rfl | h
    · simp at h4
    · exact h
  have gS : (⟨Y * S, S⟩ : Geo).Sf = Y * S * (Y * S) := rfl
  obtain ⟨N1, hN1⟩ := exists_bound
    (P := fun z N => (turnsZ zP (n * Lz) g z).natAbs ≤ N) (fun _ _ _ h1 h2 => le_trans h2 h1)
    (n * Lz) (fun i _ => ⟨_, le_rfl⟩)
  have lineMono : ∀ (z N M : Nat), N ≤ M →
      LineFuel (turnsS zP) (2 * zP) (Y * S) N (fun y => afterZ zP (n * Lz) g 0 y z) →
      LineFuel (turnsS zP) (2 * zP) (Y * S) M (fun y => afterZ zP (n * Lz) g 0 y z) :=
    fun z N M h1 h2 j hj => ⟨(h2 j hj).1.trans h1, (h2 j hj).2.trans h1⟩
  obtain ⟨N2, hN2⟩ := exists_bound
    (P := fun z N => LineFuel (turnsS zP) (2 * zP) (Y * S) N (fun y => afterZ zP (n * Lz) g 0 y z))
    lineMono (n * Lz) (fun z _ => by
      obtain ⟨N, hN⟩ := exists_bound
        (P := fun j N => (scan (turnsS zP) (2 * zP) 0 (fun j => afterZ zP (n * Lz) g 0 (j % (Y * S)) z)
          j).natAbs ≤ N ∧
          (scan (turnsS zP) (2 * zP) 0 (back (Y * S) fun y => afterZ zP (n * Lz) g 0 y z) j).natAbs ≤ N)
        (fun _ _ _ h1 h2 => ⟨h2.1.trans h1, h2.2.trans h1⟩) (Y * S + 1)
        (fun j _ => ⟨_, le_max_left _ _, le_max_right _ _⟩)
      exact ⟨N, fun j hj => hN j (by omega)⟩)
  obtain ⟨N3, hN3⟩ := exists_bound
    (P := fun z N => ∀ y, y < Y * S →
      RowFuel (turnsV zP) (2 * zP) (Y * S) N fun x => afterY zP (Y * S) (n * Lz) g x y z)
    (fun _ _ _ h1 h2 y hy j hj => ⟨(h2 y hy j hj).1.trans h1, (h2 y hy j hj).2.trans h1⟩)
    (n * Lz) (fun z _ => exists_bound
      (P := fun y N => RowFuel (turnsV zP) (2 * zP) (Y * S) N
        fun x => afterY zP (Y * S) (n * Lz) g x y z)
      (fun _ _ _ h1 h2 j hj => ⟨(h2 j hj).1.trans h1, (h2 j hj).2.trans h1⟩) (Y * S)
      (fun y _ => by
        obtain ⟨N, hN⟩ := exists_bound
          (P := fun j N => (scan (turnsV zP) (2 * zP) 0
            (fun x => afterY zP (Y * S) (n * Lz) g x y z) j).natAbs ≤ N ∧
            (scan (turnsV zP) (2 * zP) 0 (back (Y * S)
              fun x => afterY zP (Y * S) (n * Lz) g x y z) j).natAbs ≤ N)
          (fun _ _ _ h1 h2 => ⟨h2.1.trans h1, h2.2.trans h1⟩) (Y * S)
          (fun j _ => ⟨_, le_max_left _ _, le_max_right _ _⟩)
        exact ⟨N, hN⟩))
  refine ⟨max (max N1 N2) (max N3 1), fun fuel hfuel slices rows hsl hrw => ?_⟩
  have c0 : ∀ z, cell (Y * S) S 0 0 z = Y * S * (Y * S) * z := by
    intro z; rw [cell_slot hS, slot_zero]; ring
  have hglob : ∀ {r z : Nat}, r < n → z < Lz → r * Lz + z < n * Lz := fun hr hz => pair_lt hr hz
  have hL0 : 0 < Y * S := by omega
  -- the line along z
  obtain ⟨l, e1, l1, l2, l3, l4⟩ := mendLine_eq h w (Sf := Y * S * (Y * S)) (NN := NN) (Lz := Lz) (n := n)
    (fuel := fuel) (Nat.mul_pos hL0 hL0) hN hLz (s := ⟨fun r => (s r).m, fun r => (s r).v⟩)
    (g := g 0 0) (u := u 0 0)
    (fun r i hr hi => by rw [Nat.add_comm NN i, ← c0]; exact hs.m r 0 0 i hr hL0 hL0 hi)
    (fun r hr => hs.ghost r hr)
    (fun r i hr hi => by rw [← c0]; exact hs.v r 0 0 i hr hL0 hL0 hi)
    (k := turnsZ zP (n * Lz) g) rfl
    (fun z hz => (hN1 z hz).trans (by omega))
  have z1 : ∀ r x y z, r < n → x < Y * S → y < Y * S → z < Lz → l.m r (cell (Y * S) S x y (z + NN)) =
      some (afterZ zP (n * Lz) g x y (r * Lz + z)) := by
    intro r x y z hr hx hy hz
    by_cases hxy : x = 0 ∧ y = 0
    · obtain ⟨rfl, rfl⟩ := hxy
      rw [c0, Nat.add_comm z NN, l1 r z hr hz, afterZ, if_pos ⟨rfl, rfl⟩]
    · rw [l3 r _ (fun i _ hc => hxy (by
        rw [← c0] at hc
        have := (cell_inj hS hY hx hL0 hy hL0).mp hc
        exact ⟨this.1, this.2.1⟩)), afterZ, if_neg hxy]
      show (s r).m _ = _
      rw [hs.m r x y z hr hx hy hz]; simp
  have z2 : ∀ r x y z, r < n → x < Y * S → y < Y * S → z < Lz → l.v r (cell (Y * S) S x y z) =
      some (u x y (r * Lz + z) +
        (if x = 0 ∧ y = 0 then turnsZ zP (n * Lz) g (r * Lz + z) else 0 : Int) * w) := by
    intro r x y z hr hx hy hz
    by_cases hxy : x = 0 ∧ y = 0
    · obtain ⟨rfl, rfl⟩ := hxy
      rw [c0, l2 r z hr hz, if_pos ⟨rfl, rfl⟩]
    · rw [l4 r _ (fun i _ hc => hxy (by
        rw [← c0] at hc
        have := (cell_inj hS hY hx hL0 hy hL0).mp hc
        exact ⟨this.1, this.2.1⟩)), if_neg hxy]
      show (s r).v _ = _
      rw [hs.v r x y z hr hx hy hz]; simp
  -- one rank
  have rank : ∀ r, r < n → ∃ q, mendRank b fuel zP w ⟨Y * S, S⟩ Lz NN (slices r) (rows r)
      { s r with m := l.m r, v := l.v r } = some q ∧
      ∀ x y z, x < Y * S → y < Y * S → z < Lz →
        q.m (cell (Y * S) S x y (z + NN)) = some (g x y (r * Lz + z) +
          turns zP (Y * S) (n * Lz) g x y (r * Lz + z) * (2 * zP)) ∧
        q.v (cell (Y * S) S x y z) =
          some (u x y (r * Lz + z) + turns zP (Y * S) (n * Lz) g x y (r * Lz + z) * w) := by
    intro r hr
    obtain ⟨q1, e2, a1, a2, a3, a4, a5, a6⟩ := mendSlice_eq h w (NN := NN) (Lz := Lz) (T := T)
      (fuel := fuel) hS hY h4 (s := { s r with m := l.m r, v := l.v r })
      (γ := fun z y => afterZ zP (n * Lz) g 0 y (r * Lz + z))
      (υ := fun z y => u 0 y (r * Lz + z) +
        (if (0 : Nat) = 0 ∧ y = 0 then turnsZ zP (n * Lz) g (r * Lz + z) else 0 : Int) * w)
      (fun z y hz hy => by rw [← cell_slot hS]; exact z1 r 0 y z hr hL0 hy hz)
      (fun z y hz hy => by rw [← cell_slot hS]; exact z2 r 0 y z hr hL0 hy hz)
      (fun z hz => lineMono _ _ _ (by omega) (hN2 (r * Lz + z) (hglob hr hz)))
      (fun a ha => hs.m2 r a hr (Or.inl ha)) (hsl r hr)
    have y1 : ∀ x y z, x < Y * S → y < Y * S → z < Lz → q1.m (cell (Y * S) S x y (z + NN)) =
        some (afterY zP (Y * S) (n * Lz) g x y (r * Lz + z)) := by
      intro x y z hx hy hz
      by_cases hx0 : x = 0
      · rw [hx0, cell_slot hS, a1 z y hz hy, afterY, if_pos rfl]; rfl
      · rw [a3 _ (fun z' y' hz' hy' hc => hx0 (by
          rw [← cell_slot hS] at hc
          exact ((cell_inj hS hY hx hL0 hy hy').mp hc).1)), afterY, if_neg hx0]
        show l.m r _ = _
        rw [z1 r x y z hr hx hy hz]; simp
    have y2 : ∀ x y z, x < Y * S → y < Y * S → z < Lz → q1.v (cell (Y * S) S x y z) =
        some (u x y (r * Lz + z) +
          (if x = 0 ∧ y = 0 then turnsZ zP (n * Lz) g (r * Lz + z) else 0 : Int) * w +
          (if x = 0 then turnsY zP (Y * S) (n * Lz) g y (r * Lz + z) else 0 : Int) * w) := by
      intro x y z hx hy hz
      by_cases hx0 : x = 0
      · rw [hx0, cell_slot hS, a2 z y hz hy, if_pos rfl]; rfl
      · rw [a4 _ (fun z' y' hz' hy' hc => hx0 (by
          rw [← cell_slot hS] at hc
          exact ((cell_inj hS hY hx hL0 hy hy').mp hc).1)), if_neg hx0]
        show l.v r _ = _
        rw [z2 r x y z hr hx hy hz]; simp
    obtain ⟨q2, e3, b1, b2, b3, b4, b5⟩ := mendKernel_eq h w (b := b) (fuel := fuel)
      (mo := NN * (Y * S * (Y * S))) (Lz := Lz) (T := T) hY (by omega) hS (s := q1)
      (γ := fun z y x => afterY zP (Y * S) (n * Lz) g x y (r * Lz + z))
      (υ := fun z y x => u x y (r * Lz + z) +
          (if x = 0 ∧ y = 0 then turnsZ zP (n * Lz) g (r * Lz + z) else 0 : Int) * w +
          (if x = 0 then turnsY zP (Y * S) (n * Lz) g y (r * Lz + z) else 0 : Int) * w)
      (fun x y z hx hy hz => by rw [← cell_add]; exact y1 x y z hx hy hz)
      (fun x y z hx hy hz => y2 x y z hx hy hz)
      (fun z y hz hy => by
        simp only [Build.limit]
        split
        · next hb =>
          intro j hj
          have := havx hb y (r * Lz + z) hy (hglob hr hz) j hj
          have hmin : min 1 fuel = 1 := by omega
          rw [hmin]; exact this
        · intro j hj
          have := hN3 (r * Lz + z) (hglob hr hz) y hy j hj
          exact ⟨this.1.trans (by omega), this.2.trans (by omega)⟩)
      (fun a ha => by rw [a5]; exact hs.m2 r a hr (Or.inr ha))
      (fun a ha => by rw [a6]; exact hs.str r a hr ha) (hrw r hr)
    refine ⟨q2, ?_, ?_⟩
    · rw [mendRank, e2, Option.bind_some, gS]; exact e3
    · intro x y z hx hy hz
      constructor
      · rw [cell_add, b1 x y z hx hy hz, turns, turnsX]
        simp only [afterY, afterZ]
        congr 1; push_cast; ring
      · rw [b2 x y z hx hy hz, turns, turnsX]
        congr 1; push_cast; ring
  -- all ranks
  obtain ⟨t, e4, ht⟩ := range_inv (s := s)
    (f := fun t r => do
      let q ← mendRank b fuel zP w ⟨Y * S, S⟩ Lz NN (slices r) (rows r)
        { s r with m := l.m r, v := l.v r }
      return fun i => if i = r then q else t i)
    (P := fun i t => ∀ r x y z, r < i → x < Y * S → y < Y * S → z < Lz →
      (t r).m (cell (Y * S) S x y (z + NN)) = some (g x y (r * Lz + z) +
        turns zP (Y * S) (n * Lz) g x y (r * Lz + z) * (2 * zP)) ∧
      (t r).v (cell (Y * S) S x y z) =
        some (u x y (r * Lz + z) + turns zP (Y * S) (n * Lz) g x y (r * Lz + z) * w)) n
    (by intros; omega)
    (by
      intro r hr t ht
      obtain ⟨q, eq, hq⟩ := rank r hr
      refine ⟨fun i => if i = r then q else t i, by rw [eq]; rfl, ?_⟩
      intro r' x y z hr' hx hy hz
      dsimp only
      by_cases hrr : r' = r
      · rw [if_pos hrr, hrr]; exact hq x y z hx hy hz
      · rw [if_neg hrr]; exact ht r' x y z (by omega) hx hy hz)
  refine ⟨t, ?_, ht⟩
  rw [mendTheta, gS, e1, Option.bind_eq_bind, Option.bind_some]
  exact e4

/-- **C25, the purpose.**  If the angle can be made smooth on the periodic lattice by whole turns `k`
(neighbours less than half a turn apart), the result is that smooth angle, up to one common number of
turns, chosen so that site `(0, 0, N-1)` keeps its value; the velocities get the same turns. -/
theorem C25_mends {zP : K} (h : 0 < zP) {L N : Nat} (hL : 0 < L) (hN : 0 < N)
    {g : Nat → Nat → Nat → K} (k : Nat → Nat → Nat → Int)
    (hk : Smooth zP L N fun x y z => g x y z + k x y z * (2 * zP)) :
    ∀ x y z, x < L → y < L → z < N → turns zP L N g x y z = k x y z - k 0 0 (N - 1) := by
  obtain ⟨hx, hy, hz⟩ := hk
  have sS := settlesS h
  have sV := settlesV h
  set j := -k 0 0 (N - 1) with hj
  have A0 : turnsS zP (g 0 0 0 - g 0 0 (N - 1)) = k 0 0 0 + j := by
    refine sS.1 _ _ ?_
    have := (hz 0 0 hL hL).2
    dsimp only at this
    rw [hj]; push_cast
    rwa [show g 0 0 0 - g 0 0 (N - 1) + ((k 0 0 0 : K) + -(k 0 0 (N - 1) : K)) * (2 * zP) =
      g 0 0 0 + (k 0 0 0 : K) * (2 * zP) - (g 0 0 (N - 1) + (k 0 0 (N - 1) : K) * (2 * zP)) by ring]
  have A : ∀ z, z < N → turnsZ zP N g z = k 0 0 z + j := by
    intro z hzN
    rw [turnsZ, A0]
    refine scan_smooth sS (k := fun z => k 0 0 z + j) (n := N) ?_ z hzN
    intro q hq
    have := (hz 0 0 hL hL).1 q hq
    dsimp only at this
    push_cast
    rwa [show g 0 0 (q + 1) + ((k 0 0 (q + 1) : K) + j) * (2 * zP) -
      (g 0 0 q + ((k 0 0 q : K) + j) * (2 * zP)) =
      g 0 0 (q + 1) + (k 0 0 (q + 1) : K) * (2 * zP) - (g 0 0 q + (k 0 0 q : K) * (2 * zP)) by ring]
  have B : ∀ y z, y < L → z < N → turnsY zP L N g y z = if y = 0 then 0 else k 0 y z + j := by
    intro y z hyL hzN
    rw [turnsY]
    refine mended_smooth sS (k := fun y => if y = 0 then 0 else k 0 y z + j) (by simp) ?_ hyL
    have e : (fun y => afterZ zP N g 0 y z +
        ((if y = 0 then 0 else k 0 y z + j : Int) : K) * (2 * zP)) =
        fun y => g 0 y z + (k 0 y z : K) * (2 * zP) + (j : K) * (2 * zP) := by
      funext y
      by_cases hy0 : y = 0
      · simp only [afterZ, hy0, and_self, if_true, A z hzN]; push_cast; ring
      · simp only [afterZ, hy0, and_false, if_false]; push_cast; ring
    rw [e]
    have := hy 0 z hL hzN
    constructor
    · intro q hq
      have := this.1 q hq
      dsimp only at this ⊢
      rwa [add_sub_add_right_eq_sub]
    · have := this.2
      dsimp only at this ⊢
      rwa [add_sub_add_right_eq_sub]
  have C : ∀ x y z, x < L → y < L → z < N →
      turnsX zP L N g x y z = if x = 0 then 0 else k x y z + j := by
    intro x y z hxL hyL hzN
    rw [turnsX]
    refine mended_smooth sV (k := fun x => if x = 0 then 0 else k x y z + j) (by simp) ?_ hxL
    have e : (fun x => afterY zP L N g x y z +
        ((if x = 0 then 0 else k x y z + j : Int) : K) * (2 * zP)) =
        fun x => g x y z + (k x y z : K) * (2 * zP) + (j : K) * (2 * zP) := by
      funext x
      by_cases hx0 : x = 0
      · by_cases hy0 : y = 0
        · simp only [afterY, afterZ, hx0, hy0, and_self, if_true, A z hzN, B 0 z hL hzN]
          push_cast; ring
        · simp only [afterY, afterZ, hx0, hy0, and_false, if_true, if_false, B y z hyL hzN]
          push_cast; ring
      · simp only [afterY, afterZ, hx0, false_and, if_false]; push_cast; ring
    rw [e]
    have := hx y z hyL hzN
    constructor
    · intro q hq
      have := this.1 q hq
      dsimp only at this ⊢
      rwa [add_sub_add_right_eq_sub]
    · have := this.2
      dsimp only at this ⊢
      rwa [add_sub_add_right_eq_sub]
  intro x y z hxL hyL hzN
  rw [sub_eq_add_neg, ← hj, turns, C x y z hxL hyL hzN, A z hzN, B y z hyL hzN]
  by_cases hx0 : x = 0
  · by_cases hy0 : y = 0
    · simp [hx0, hy0]
    · simp [hx0, hy0]
  · simp [hx0]

/-- **C25.**  An angle that is already smooth is left as it is. -/
theorem C25_smooth_unchanged {zP : K} (h : 0 < zP) {L N : Nat} (hL : 0 < L) (hN : 0 < N)
    {g : Nat → Nat → Nat → K} (hg : Smooth zP L N g) :
    ∀ x y z, x < L → y < L → z < N → turns zP L N g x y z = 0 := by
  intro x y z hx hy hz
  have := C25_mends h hL hN (g := g) (fun _ _ _ => 0) (by simpa using hg) x y z hx hy hz
  simpa using this

/-- **C25.**  Mending twice is mending once, wherever the angle can be mended. -/
theorem C25_idempotent {zP : K} (h : 0 < zP) {L N : Nat} (hL : 0 < L) (hN : 0 < N)
    {g : Nat → Nat → Nat → K} (k : Nat → Nat → Nat → Int)
    (hk : Smooth zP L N fun x y z => g x y z + k x y z * (2 * zP)) :
    ∀ x y z, x < L → y < L → z < N →
      turns zP L N (fun x y z => g x y z + turns zP L N g x y z * (2 * zP)) x y z = 0 := by
  have hm := C25_mends h hL hN k hk
  intro x y z hx hy hz
  have := C25_mends h hL hN (g := fun x y z => g x y z + turns zP L N g x y z * (2 * zP))
    (fun x y z => k x y z - turns zP L N g x y z) (by
      have e : (fun x y z => (fun x y z => g x y z + turns zP L N g x y z * (2 * zP)) x y z +
          ((k x y z - turns zP L N g x y z : Int) : K) * (2 * zP)) =
          fun x y z => g x y z + k x y z * (2 * zP) := by
        funext x y z; push_cast; ring
      rw [e]; exact hk) x y z hx hy hz
  rw [this, hm x y z hx hy hz, hm 0 0 (N - 1) hL hL (by omega)]
  ring

omit [IsStrictOrderedRing K] [FloorRing K] in
/-- **C25, one line.**  A closed line on which both directions agree everywhere ends up without
jumps, the step from the last site to the first included.  Otherwise some sites, those on which they
disagree, keep their value; this is how lines around which the angle winds are left alone. -/
theorem C25_line {zP : K} {σ : K → Int} (hσ : Settles zP σ) {g : Nat → K} {L : Nat} (hL : 2 ≤ L) :
    ((∀ x, x + 1 < L → |(g (x + 1) + mended σ (2 * zP) L g (x + 1) * (2 * zP)) -
      (g x + mended σ (2 * zP) L g x * (2 * zP))| ≤ zP) ∧
    |(g 0 + mended σ (2 * zP) L g 0 * (2 * zP)) -
      (g (L - 1) + mended σ (2 * zP) L g (L - 1) * (2 * zP))| ≤ zP) ∨
    ∃ x, 0 < x ∧ x < L ∧ scan σ (2 * zP) 0 g x ≠ scan σ (2 * zP) 0 (back L g) (L - x) ∧
      mended σ (2 * zP) L g x = 0 := by
  by_cases hall : ∀ x, 0 < x → x < L → scan σ (2 * zP) 0 g x = scan σ (2 * zP) 0 (back L g) (L - x)
  · exact Or.inl (mended_ring hσ hL hall)
  · push Not at hall
    obtain ⟨x, h0, hx, hne⟩ := hall
    exact Or.inr ⟨x, h0, hx, hne, by rw [mended, if_neg hne]⟩

/-! ## Findings -/

/-- **C25, finding.**  In the AVX-512 double precision build the masks of the loop body are declared
again inside it, and the lanes go on with the first ones.  Two lanes that need one turn and two turns
down never agree: the loop does not end, whatever the time given. -/
theorem C25_avx512_hangs {zP : K} (h : 0 < zP) (w : K) (n : Nat) (hn : 2 ≤ n) (ref v : Nat → K)
    (fuel : Nat) : whileB .doubleAvx512 zP w n fuel ref
      (fun k => (ref k + (if k = 0 then 5 / 2 * zP else if k = 1 then 9 / 2 * zP else 0), v k)) =
      none := by
  set a : Nat → K × K := fun k =>
    (ref k + (if k = 0 then 5 / 2 * zP else if k = 1 then 9 / 2 * zP else 0), v k) with ha
  have p0 : maskP zP ((a 0).1 - ref 0) = true ∧ maskM zP ((a 0).1 - ref 0) = false := by
    simp only [ha, maskP, maskM, decide_eq_true_eq, decide_eq_false_iff_not, if_true]
    constructor <;> linarith
  have p1 : maskP zP ((a 1).1 - ref 1) = true ∧ maskM zP ((a 1).1 - ref 1) = false := by
    simp only [ha, maskP, maskM, decide_eq_true_eq, decide_eq_false_iff_not, if_true, if_false,
      one_ne_zero]
    constructor <;> linarith
  have key : ∀ fuel (i : Nat) (c : Nat → K × K),
      (c 0).1 - ref 0 = 5 / 2 * zP - i * (2 * zP) → (c 1).1 - ref 1 = 9 / 2 * zP - i * (2 * zP) →
      whileStuck zP w n ref (fun k => maskP zP ((a k).1 - ref k))
        (fun k => maskM zP ((a k).1 - ref k)) fuel c = none := by
    intro fuel
    have hany : ∀ (i : Nat) (c : Nat → K × K),
        (c 0).1 - ref 0 = 5 / 2 * zP - i * (2 * zP) → (c 1).1 - ref 1 = 9 / 2 * zP - i * (2 * zP) →
        (anyLane n fun k => maskP zP ((c k).1 - ref k) || maskM zP ((c k).1 - ref k)) = true := by
      intro i c h0 h1
      rw [anyLane_iff]
      match i with
      | 0 =>
        refine ⟨0, by omega, ?_⟩
        rw [h0]; simp only [maskP, maskM, Bool.or_eq_true, decide_eq_true_eq]
        left; push_cast; linarith
      | 1 =>
        refine ⟨1, by omega, ?_⟩
        rw [h1]; simp only [maskP, maskM, Bool.or_eq_true, decide_eq_true_eq]
        left; push_cast; linarith
      | i + 2 =>
        refine ⟨0, by omega, ?_⟩
        rw [h0]; simp only [maskP, maskM, Bool.or_eq_true, decide_eq_true_eq]
        right
        push_cast
        have : (0 : K) ≤ i * (2 * zP) := by positivity
        nlinarith
    induction fuel with
    | zero => intro i c h0 h1; rw [whileStuck, if_pos (hany i c h0 h1)]
    | succ fuel ih =>
      intro i c h0 h1
      rw [whileStuck, if_pos (hany i c h0 h1)]
      refine ih (i + 1) _ ?_ ?_
      · simp only [p0.1, p0.2, bump, if_true]
        push_cast
        linarith
      · simp only [p1.1, p1.2, bump, if_true]
        push_cast
        linarith
  refine key fuel 0 a ?_ ?_
  · simp [ha]
  · simp [ha]

/-- The derivative of the angle in what `toTheta` leaves. -/
def angleRate (R F : K) (s : K × K) : K := (s.2 - F * (s.1 / R)) / R

omit [LinearOrder K] [IsStrictOrderedRing K] [FloorRing K] in
theorem angleRate_toTheta {R : K} (hR : R ≠ 0) (F a da : K) :
    angleRate R F (toTheta R F a da) = da := by
  simp only [angleRate, toTheta]; field_simp; ring

omit [FloorRing K] in
/-- **C25, velocity.**  The turns added to the angle and the `2π` added to the velocity keep the
derivative of the angle exactly when no turn is added or `F = frw R / z` is 1.  With the scale factor
`R = z` of the radiation era (`frw = 1`) it is; for other expansion laws a mended site gets a
different derivative of the angle. -/
theorem C25_velocity {R F π : K} (hR : R ≠ 0) (hπ : π ≠ 0) (a da : K) (k : Int) :
    angleRate R F ((toTheta R F a da).1 + k * (2 * (π * R)),
      (toTheta R F a da).2 + k * (2 * π)) = da ↔ k = 0 ∨ F = 1 := by
  have e : angleRate R F ((toTheta R F a da).1 + k * (2 * (π * R)),
      (toTheta R F a da).2 + k * (2 * π)) = da + k * (2 * π) * (1 - F) / R := by
    simp only [angleRate, toTheta]; field_simp; ring
  rw [e]
  constructor
  · intro h
    have h1 : (k : K) * (2 * π) * (1 - F) / R = 0 := by linear_combination h
    rw [div_eq_zero_iff, mul_eq_zero, mul_eq_zero] at h1
    rcases h1 with ((h1 | h1) | h1) | h1
    · exact Or.inl (by exact_mod_cast h1)
    · exact absurd (by simpa using h1) hπ
    · exact Or.inr (sub_eq_zero.mp h1).symm
    · exact absurd h1 hR
  · rintro (rfl | rfl) <;> simp

omit [LinearOrder K] [IsStrictOrderedRing K] [FloorRing K] in
/-- In the radiation era the slope is 1. -/
theorem C25_slope_radiation {z : K} (hz : z ≠ 0) : slope 1 z z = 1 := by
  simp [slope, hz]

/-- In a matter era (`frw = 2`, `R = z²`) at `z = 2` it is 4. -/
example : slope (2 : ℚ) 4 2 = 4 := by norm_num [slope]

/-! ## Memory as required exists -/

/-- Arrays holding a lattice. -/
def store (L S Lz NN : Nat) (g u : Nat → Nat → Nat → K) (r : Nat) : St K where
  m a := some (g (a / S % L) (a % S * (L / S) + a / S / L % (L / S))
    (r * Lz + (a / S / L / (L / S) - NN)))
  v a := some (u (a / S % L) (a % S * (L / S) + a / S / L % (L / S)) (r * Lz + a / S / L / (L / S)))
  m2 _ := some 0
  str _ := some 0

omit [LinearOrder K] [IsStrictOrderedRing K] [FloorRing K] in
theorem holdsAll_store {L S : Nat} (hS : 0 < S) (hd : S ∣ L) (hL : 0 < L) (Lz NN n T : Nat)
    (g u : Nat → Nat → Nat → K) : HoldsAll L S Lz NN n T (store L S Lz NN g u) g u := by
  obtain ⟨Y, rfl⟩ := hd
  have hY : 0 < Y := Nat.pos_of_mul_pos_left hL
  have e0 : S * Y / S = Y := Nat.mul_div_cancel_left Y hS
  have dec : ∀ x y z, x < S * Y → y < S * Y →
      cell (S * Y) S x y z / S % (S * Y) = x ∧
      cell (S * Y) S x y z % S * Y + cell (S * Y) S x y z / S / (S * Y) % Y = y ∧
      cell (S * Y) S x y z / S / (S * Y) / Y = z := by
    intro x y z hx hy
    have hl : y / Y < S := Nat.div_lt_of_lt_mul (by rw [Nat.mul_comm]; exact hy)
    have hm : y % Y < Y := Nat.mod_lt _ hY
    have e : cell (S * Y) S x y z = ((z * Y + y % Y) * (S * Y) + x) * S + y / Y := by
      rw [cell, e0]; ring
    rw [e, div_of hl, mod_of hl, mod_of hx, div_of hx, mod_of hm, div_of hm]
    exact ⟨rfl, div_mul_add_mod y Y, rfl⟩
  constructor
  · intro r x y z _ hx hy _
    obtain ⟨h1, h2, h3⟩ := dec x y (z + NN) hx hy
    simp only [store, e0, h1, h2, h3, Nat.add_sub_cancel]
  · intro r x y z _ hx hy _
    obtain ⟨h1, h2, h3⟩ := dec x y z hx hy
    simp only [store, e0, h1, h2, h3]
  · intros; rfl
  · intros; rfl
  · intros; rfl

/-- An angle with one site two turns off, in units in which a turn is 2. -/
def bumped : Nat → Nat → Nat → ℚ := fun x y z => if x = 1 ∧ y = 2 ∧ z = 3 then 4 else 0

/-- The smooth angle is zero. -/
example : Smooth (1 : ℚ) 8 4 fun x y z =>
    bumped x y z + (if x = 1 ∧ y = 2 ∧ z = 3 then -2 else 0 : Int) * (2 * 1) := by
  have e : (fun x y z : Nat => bumped x y z +
      ((if x = 1 ∧ y = 2 ∧ z = 3 then -2 else 0 : Int) : ℚ) * (2 * 1)) = fun _ _ _ => 0 := by
    funext x y z
    by_cases h : x = 1 ∧ y = 2 ∧ z = 3 <;> simp [bumped, h]; norm_num
  rw [e]
  refine ⟨?_, ?_, ?_⟩ <;> intros <;> constructor <;> simp

/-- Two ranks, vectors of four, two threads per rank: the loops end and the turns are as said. -/
example : ∃ N, ∀ fuel, N ≤ fuel → ∀ slices rows, (∀ r, r < 2 → SliceOrder 2 2 (slices r)) →
    (∀ r, r < 2 → RowOrder ⟨8, 4⟩ 2 2 (rows r)) →
    ∃ t, mendTheta .double fuel (1 : ℚ) 7 ⟨8, 4⟩ 2 1 2 slices rows
      (store 8 4 2 1 bumped fun _ _ _ => 0) = some t ∧
      ∀ r x y z, r < 2 → x < 8 → y < 8 → z < 2 →
        (t r).m (cell 8 4 x y (z + 1)) = some (bumped x y (r * 2 + z) +
          turns 1 8 (2 * 2) bumped x y (r * 2 + z) * (2 * 1)) ∧
        (t r).v (cell 8 4 x y z) = some ((0 : ℚ) + turns 1 8 (2 * 2) bumped x y (r * 2 + z) * 7) :=
  C25_turns (zP := (1 : ℚ)) (L := 8) (S := 4) (Lz := 2) (NN := 1) (n := 2) (T := 2) (g := bumped)
    (u := fun _ _ _ => 0) one_pos 7 .double (by norm_num) (by norm_num) (by norm_num) (by norm_num)
    (by norm_num) (holdsAll_store (by norm_num) (by norm_num) (by norm_num) 2 1 2 2 bumped _)
    (by intro h; cases h)

/-- Schedules exist: two threads that take the slices and rows in turn. -/
example : SliceOrder 2 2 [(1, 0), (0, 1)] ∧
    RowOrder ⟨8, 4⟩ 2 2 [((1, 0), 1), ((0, 0), 0), ((0, 1), 0), ((1, 1), 1)] := by
  refine ⟨⟨by decide, by decide⟩, ⟨by decide, by decide⟩⟩

end Mend
end Jaxions
