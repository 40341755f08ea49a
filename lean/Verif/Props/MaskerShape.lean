import Verif.Props.MaskerDiff
import Mathlib.Algebra.Order.Floor.Semiring

/-
C74: what the diffused mask looks like.
-/

namespace Jaxions.Masker

open AxSpec (Grid Site)

theorem circ_eq {L a b : ℕ} (ha : a < L) (hb : b < L) :
    circ L a b = if b ≤ a then min (a - b) (b + L - a) % L else min (a + L - b) (b - a) % L := by
  unfold circ
  have h1 : (a + (L - b)) % L = if b ≤ a then a - b else a + L - b := by
    split
    · rw [show a + (L - b) = (a - b) + L by omega, Nat.add_mod_right, Nat.mod_eq_of_lt (by omega)]
    · rw [show a + (L - b) = a + L - b by omega, Nat.mod_eq_of_lt (by omega)]
  have h2 : (b + (L - a)) % L = if a ≤ b then b - a else b + L - a := by
    split
    · rw [show b + (L - a) = (b - a) + L by omega, Nat.add_mod_right, Nat.mod_eq_of_lt (by omega)]
    · rw [show b + (L - a) = b + L - a by omega, Nat.mod_eq_of_lt (by omega)]
  rw [h1, h2]
  by_cases h : b ≤ a
  · rw [if_pos h, if_pos h]
    by_cases h' : a ≤ b
    · have : a = b := by omega
      subst this
      rw [if_pos h']; simp
    · rw [if_neg h', Nat.mod_eq_of_lt (by omega)]
  · rw [if_neg h, if_neg h, if_pos (by omega), Nat.mod_eq_of_lt (by omega)]

theorem circ_val {L a b : ℕ} (ha : a < L) (hb : b < L) :
    (b ≤ a ∧ circ L a b = min (a - b) (b + L - a)) ∨ (a < b ∧ circ L a b = min (a + L - b) (b - a)) := by
  rw [circ_eq ha hb]
  by_cases h : b ≤ a
  · left
    refine ⟨h, ?_⟩
    rw [if_pos h, Nat.mod_eq_of_lt (by omega)]
  · right
    refine ⟨by omega, ?_⟩
    rw [if_neg h, Nat.mod_eq_of_lt (by omega)]

theorem circ_self {L a : ℕ} (ha : a < L) : circ L a a = 0 := by
  rcases circ_val ha ha with ⟨_, h⟩ | ⟨_, h⟩ <;> omega

theorem circ_zero {L a b : ℕ} (ha : a < L) (hb : b < L) (h : circ L a b = 0) : a = b := by
  rcases circ_val ha hb with ⟨_, h'⟩ | ⟨_, h'⟩ <;> omega

theorem up_val {L a : ℕ} (ha : a < L) : (a + 1) % L < L ∧
    ((a + 1 = L ∧ (a + 1) % L = 0) ∨ (a + 1 < L ∧ (a + 1) % L = a + 1)) := by
  refine ⟨Nat.mod_lt _ (by omega), ?_⟩
  rcases Nat.lt_or_ge (a + 1) L with h | h
  · exact Or.inr ⟨h, Nat.mod_eq_of_lt h⟩
  · have : a + 1 = L := by omega
    exact Or.inl ⟨this, by rw [this, Nat.mod_self]⟩

theorem down_val {L a : ℕ} (ha : a < L) : (a + L - 1) % L < L ∧
    ((a = 0 ∧ (a + L - 1) % L = L - 1) ∨ (0 < a ∧ (a + L - 1) % L = a - 1)) := by
  refine ⟨Nat.mod_lt _ (by omega), ?_⟩
  rcases Nat.eq_zero_or_pos a with h | h
  · exact Or.inl ⟨h, by rw [h, zero_add, Nat.mod_eq_of_lt (by omega)]⟩
  · refine Or.inr ⟨h, ?_⟩
    rw [show a + L - 1 = (a - 1) + L by omega, Nat.add_mod_right, Nat.mod_eq_of_lt (by omega)]

theorem circ_up {L a b : ℕ} (ha : a < L) (hb : b < L) : circ L a b ≤ circ L ((a + 1) % L) b + 1 := by
  obtain ⟨hl, hu⟩ := up_val ha
  rcases circ_val ha hb with ⟨_, h1⟩ | ⟨_, h1⟩ <;> rcases circ_val hl hb with ⟨_, h2⟩ | ⟨_, h2⟩ <;> omega

theorem circ_down {L a b : ℕ} (ha : a < L) (hb : b < L) : circ L a b ≤ circ L ((a + L - 1) % L) b + 1 := by
  obtain ⟨hl, hu⟩ := down_val ha
  rcases circ_val ha hb with ⟨_, h1⟩ | ⟨_, h1⟩ <;> rcases circ_val hl hb with ⟨_, h2⟩ | ⟨_, h2⟩ <;> omega

theorem circ_near {L a b : ℕ} (ha : a < L) (hb : b < L) (h : 0 < circ L a b) :
    circ L ((a + 1) % L) b + 1 = circ L a b ∨ circ L ((a + L - 1) % L) b + 1 = circ L a b := by
  obtain ⟨hl, hu⟩ := up_val ha
  obtain ⟨hl', hd⟩ := down_val ha
  rcases circ_val ha hb with ⟨h0, h1⟩ | ⟨h0, h1⟩
  · rcases Nat.lt_or_ge (b + L - a) (a - b) with hh | hh
    · left
      rcases circ_val hl hb with ⟨_, h2⟩ | ⟨_, h2⟩ <;> omega
    · right
      rcases circ_val hl' hb with ⟨_, h2⟩ | ⟨_, h2⟩ <;> omega
  · rcases Nat.lt_or_ge (a + L - b) (b - a) with hh | hh
    · right
      rcases circ_val hl' hb with ⟨_, h2⟩ | ⟨_, h2⟩ <;> omega
    · left
      rcases circ_val hl hb with ⟨_, h2⟩ | ⟨_, h2⟩ <;> omega

/-- Some neighbour has the property. -/
def Beside (L T : ℕ) (P : ℕ → ℕ → ℕ → Prop) (x y z : ℕ) : Prop :=
  P ((x + 1) % L) y z ∨ P ((x + L - 1) % L) y z ∨ P x ((y + 1) % L) z ∨ P x ((y + L - 1) % L) z ∨
    P x y ((z + 1) % T) ∨ P x y ((z + T - 1) % T)

variable {L T : ℕ} {C : ℕ → ℕ → ℕ → Prop} {x y z : ℕ}

theorem within_zero (hx : x < L) (hy : y < L) (hz : z < T) : Within L T 0 C x y z ↔ C x y z := by
  constructor
  · rintro ⟨x', y', z', hx', hy', hz', h, hd⟩
    have h1 := circ_zero hx hx' (by omega)
    have h2 := circ_zero hy hy' (by omega)
    have h3 := circ_zero hz hz' (by omega)
    subst h1; subst h2; subst h3
    exact h
  · intro h
    exact ⟨x, y, z, hx, hy, hz, h, by rw [circ_self hx, circ_self hy, circ_self hz]⟩

theorem within_mono {n m : ℕ} (h : n ≤ m) (hw : Within L T n C x y z) : Within L T m C x y z := by
  obtain ⟨x', y', z', h1, h2, h3, h4, h5⟩ := hw
  exact ⟨x', y', z', h1, h2, h3, h4, by omega⟩

/-- A neighbour of a reached site is reached in one step more. -/
theorem within_of_beside {n : ℕ} (hx : x < L) (hy : y < L) (hz : z < T)
    (h : Beside L T (Within L T n C) x y z) : Within L T (n + 1) C x y z := by
  rcases h with h | h | h | h | h | h <;> obtain ⟨x', y', z', h1, h2, h3, h4, h5⟩ := h <;>
    refine ⟨x', y', z', h1, h2, h3, h4, ?_⟩
  · have := circ_up hx h1; omega
  · have := circ_down hx h1; omega
  · have := circ_up hy h2; omega
  · have := circ_down hy h2; omega
  · have := circ_up hz h3; omega
  · have := circ_down hz h3; omega

/-- A site that is not in `C` and is reached in `n + 1` steps has a neighbour reached in `n`. -/
theorem beside_of_within {n : ℕ} (hx : x < L) (hy : y < L) (hz : z < T) (h : Within L T (n + 1) C x y z)
    (hC : ¬ C x y z) : Beside L T (Within L T n C) x y z := by
  obtain ⟨x', y', z', h1, h2, h3, h4, h5⟩ := h
  rcases Nat.eq_zero_or_pos (circ L x x') with ex | ex
  · rcases Nat.eq_zero_or_pos (circ L y y') with ey | ey
    · rcases Nat.eq_zero_or_pos (circ T z z') with ez | ez
      · exfalso
        have e1 := circ_zero hx h1 ex
        have e2 := circ_zero hy h2 ey
        have e3 := circ_zero hz h3 ez
        subst e1; subst e2; subst e3
        exact hC h4
      · rcases circ_near hz h3 ez with e | e
        · exact Or.inr (Or.inr (Or.inr (Or.inr (Or.inl ⟨x', y', z', h1, h2, h3, h4, by omega⟩))))
        · exact Or.inr (Or.inr (Or.inr (Or.inr (Or.inr ⟨x', y', z', h1, h2, h3, h4, by omega⟩))))
    · rcases circ_near hy h2 ey with e | e
      · exact Or.inr (Or.inr (Or.inl ⟨x', y', z', h1, h2, h3, h4, by omega⟩))
      · exact Or.inr (Or.inr (Or.inr (Or.inl ⟨x', y', z', h1, h2, h3, h4, by omega⟩)))
  · rcases circ_near hx h1 ex with e | e
    · exact Or.inl ⟨x', y', z', h1, h2, h3, h4, by omega⟩
    · exact Or.inr (Or.inl ⟨x', y', z', h1, h2, h3, h4, by omega⟩)

theorem beside_congr {P Q : ℕ → ℕ → ℕ → Prop} (hx : x < L) (hy : y < L) (hz : z < T)
    (h : ∀ x y z, x < L → y < L → z < T → (P x y z ↔ Q x y z)) : Beside L T P x y z ↔ Beside L T Q x y z := by
  have hl : ∀ n, n % L < L := fun n => Nat.mod_lt _ (by omega)
  have ht : ∀ n, n % T < T := fun n => Nat.mod_lt _ (by omega)
  unfold Beside
  rw [h _ _ _ (hl _) hy hz, h _ _ _ (hl _) hy hz, h _ _ _ hx (hl _) hz, h _ _ _ hx (hl _) hz,
    h _ _ _ hx hy (ht _), h _ _ _ hx hy (ht _)]

theorem nb_pos (V : ℕ → ℕ → ℕ → ℝ) : (∃ v ∈ nb L T V x y z, 0 < v) ↔ Beside L T (fun x y z => 0 < V x y z) x y z := by
  unfold nb Beside
  simp only [List.mem_cons, List.not_mem_nil, or_false, exists_eq_or_imp, exists_eq_left]

/-- Start of the iterations: ones at the sites of `C`, which are those in the mask. -/
structure Start (L T : ℕ) (C : ℕ → ℕ → ℕ → Prop) (V : ℕ → ℕ → ℕ → ℝ) (B : ℕ → ℕ → ℕ → Byte) : Prop where
  one : ∀ x y z, x < L → y < L → z < T → C x y z → V x y z = 1
  zero : ∀ x y z, x < L → y < L → z < T → ¬ C x y z → V x y z = 0
  mask : ∀ x y z, x < L → y < L → z < T → ((B x y z).mask = true ↔ C x y z)

variable {V : ℕ → ℕ → ℕ → ℝ} {B : ℕ → ℕ → ℕ → Byte} {G : ℕ}

/-- The growing iterations. -/
theorem grow_spec (hs : Start L T C V B) : ∀ k, k ≤ G → ∀ x y z, x < L → y < L → z < T →
    ((Within L T k C x y z → (run L T G V B k).1 x y z = 1) ∧
      (¬ Within L T k C x y z → (run L T G V B k).1 x y z = 0) ∧
      (((run L T G V B k).2 x y z).mask = true ↔ Within L T k C x y z)) := by
  classical
  intro k
  induction k with
  | zero =>
    intro _ x y z hx hy hz
    rw [within_zero hx hy hz]
    exact ⟨hs.one x y z hx hy hz, hs.zero x y z hx hy hz, hs.mask x y z hx hy hz⟩
  | succ k ih =>
    intro hk x y z hx hy hz
    have ih' := ih (by omega)
    have hpos : ∀ x y z, x < L → y < L → z < T → (0 < (run L T G V B k).1 x y z ↔ Within L T k C x y z) := by
      intro x y z hx hy hz
      obtain ⟨h1, h2, _⟩ := ih' x y z hx hy hz
      constructor
      · intro h
        by_contra hc
        rw [h2 hc] at h
        exact lt_irrefl _ h
      · intro h
        rw [h1 h]; norm_num
    have hg : decide (k < G) = true := by simp; omega
    have hb : (∃ v ∈ nb L T (run L T G V B k).1 x y z, 0 < v) ↔ Beside L T (Within L T k C) x y z := by
      rw [nb_pos]; exact beside_congr hx hy hz hpos
    obtain ⟨i1, i2, i3⟩ := ih' x y z hx hy hz
    show (_ → newV L T (decide (k < G)) _ _ x y z = 1) ∧ (_ → newV L T (decide (k < G)) _ _ x y z = 0) ∧
      ((newB L T (decide (k < G)) _ _ x y z).mask = true ↔ _)
    unfold newV newB
    rw [hg]
    simp only [if_true, true_and]
    by_cases hm : ((run L T G V B k).2 x y z).mask = true
    · have hw := within_mono (m := k + 1) (by omega) (i3.1 hm)
      rw [if_pos hm]
      refine ⟨fun _ => rfl, fun h => absurd hw h, fun _ => hw, fun _ => ?_⟩
      split
      · rfl
      · exact hm
    · rw [if_neg hm]
      by_cases hbe : Beside L T (Within L T k C) x y z
      · have hw := within_of_beside hx hy hz hbe
        rw [if_pos (hb.2 hbe), if_pos (hb.2 hbe)]
        exact ⟨fun _ => rfl, fun h => absurd hw h, fun _ => hw, fun _ => rfl⟩
      · have hnw : ¬ Within L T (k + 1) C x y z := by
          intro h
          have hC : C x y z := by
            by_contra hC
            exact hbe (beside_of_within hx hy hz h hC)
          exact hm (i3.2 (within_mono (by omega) ((within_zero hx hy hz).2 hC)))
        rw [if_neg (fun h => hbe (hb.1 h)), if_neg (fun h => hbe (hb.1 h))]
        exact ⟨fun h => absurd h hnw, fun _ => rfl, fun h => absurd h hm, fun h => absurd h hnw⟩

/-- All the iterations. -/
theorem run_spec (hs : Start L T C V B) : ∀ j x y z, x < L → y < L → z < T →
    (0 ≤ (run L T G V B (G + j)).1 x y z ∧ (run L T G V B (G + j)).1 x y z ≤ 1 ∧
      (Within L T G C x y z → (run L T G V B (G + j)).1 x y z = 1) ∧
      (0 < (run L T G V B (G + j)).1 x y z ↔ Within L T (G + j) C x y z) ∧
      (((run L T G V B (G + j)).2 x y z).mask = true ↔ Within L T G C x y z)) := by
  classical
  intro j
  induction j with
  | zero =>
    intro x y z hx hy hz
    obtain ⟨h1, h2, h3⟩ := grow_spec (G := G) hs G le_rfl x y z hx hy hz
    rw [add_zero]
    by_cases h : Within L T G C x y z
    · rw [h1 h]
      exact ⟨by norm_num, le_rfl, fun _ => rfl, ⟨fun _ => h, fun _ => by norm_num⟩, h3⟩
    · rw [h2 h]
      exact ⟨le_rfl, by norm_num, fun h' => absurd h' h, ⟨fun h' => absurd h' (lt_irrefl _), fun h' => absurd h' h⟩, h3⟩
  | succ j ih =>
    intro x y z hx hy hz
    have hg : decide (G + j < G) = false := by simp
    obtain ⟨i1, i2, i3, i4, i5⟩ := ih x y z hx hy hz
    have e : run L T G V B (G + (j + 1)) =
        (newV L T (decide (G + j < G)) (run L T G V B (G + j)).1 (run L T G V B (G + j)).2,
         newB L T (decide (G + j < G)) (run L T G V B (G + j)).1 (run L T G V B (G + j)).2) := rfl
    rw [e]
    dsimp only
    unfold newV newB
    rw [hg]
    simp only [Bool.false_eq_true, if_false, false_and]
    have hl : ∀ n, n % L < L := fun n => Nat.mod_lt _ (by omega)
    have ht : ∀ n, n % T < T := fun n => Nat.mod_lt _ (by omega)
    generalize hU : (run L T G V B (G + j)).1 = U at *
    by_cases hm : ((run L T G V B (G + j)).2 x y z).mask = true
    · have hw := i5.1 hm
      rw [if_pos hm]
      exact ⟨by norm_num, le_rfl, fun _ => rfl, ⟨fun _ => within_mono (by omega) hw, fun _ => by norm_num⟩, i5⟩
    · rw [if_neg hm]
      have hnw : ¬ Within L T G C x y z := fun h => hm (i5.2 h)
      have a1 := ih _ y z (hl (x + 1)) hy hz
      have a2 := ih _ y z (hl (x + L - 1)) hy hz
      have a3 := ih x _ z hx (hl (y + 1)) hz
      have a4 := ih x _ z hx (hl (y + L - 1)) hz
      have a5 := ih x y _ hx hy (ht (z + 1))
      have a6 := ih x y _ hx hy (ht (z + T - 1))
      have hsum : (nb L T U x y z).sum / 6 = (U ((x + 1) % L) y z + U ((x + L - 1) % L) y z + U x ((y + 1) % L) z +
          U x ((y + L - 1) % L) z + U x y ((z + 1) % T) + U x y ((z + T - 1) % T)) / 6 := by
        unfold nb
        simp only [List.sum_cons, List.sum_nil]
        ring
      have hbe : Beside L T (fun x y z => 0 < U x y z) x y z ↔ Beside L T (Within L T (G + j) C) x y z :=
        beside_congr hx hy hz fun x y z hx hy hz => (ih x y z hx hy hz).2.2.2.1
      rw [hsum]
      refine ⟨by linarith [a1.1, a2.1, a3.1, a4.1, a5.1, a6.1],
        by linarith [a1.2.1, a2.2.1, a3.2.1, a4.2.1, a5.2.1, a6.2.1], fun h => absurd h hnw, ?_, i5⟩
      constructor
      · intro h
        refine within_of_beside hx hy hz (hbe.1 ?_)
        by_contra hc
        unfold Beside at hc
        push Not at hc
        obtain ⟨c1, c2, c3, c4, c5, c6⟩ := hc
        linarith
      · intro h
        have hC : ¬ C x y z := fun hC => hnw (within_mono (by omega) ((within_zero hx hy hz).2 hC))
        rcases hbe.2 (beside_of_within hx hy hz h hC) with p | p | p | p | p | p <;>
          linarith [a1.1, a2.1, a3.1, a4.1, a5.1, a6.1]

/-- The growing iterations are among those done. -/
theorem grows_le (radius : ℝ) (hr : 0 ≤ radius) : grows radius ≤ iters radius + 1 := by
  unfold grows iters
  rcases lt_or_ge radius 1 with h | h
  · rw [Nat.floor_eq_zero.2 h]; omega
  · have : ⌊radius⌋₊ ≤ ⌊radius * radius⌋₊ := Nat.floor_le_floor (by nlinarith)
    omega

/-- C74.  The diffused mask: for a radius the numbers are between zero and one; they are one, that is the
field is masked, at the sites that can be reached from a corner of a pierced plaquette in as many steps as
the radius; and they are positive exactly at those that can be reached in one more than the square of
it. -/
theorem C74_diff_shape (hs : Start L T C V B) (radius : ℝ) (hr : 0 ≤ radius) (hx : x < L) (hy : y < L) (hz : z < T) :
    let W := (run L T (grows radius) V B (iters radius + 1)).1 x y z
    0 ≤ W ∧ W ≤ 1 ∧ (Within L T ⌊radius⌋₊ C x y z → W = 1) ∧ (0 < W ↔ Within L T (⌊radius * radius⌋₊ + 1) C x y z) := by
  obtain ⟨j, hj⟩ : ∃ j, iters radius + 1 = grows radius + j :=
    ⟨iters radius + 1 - grows radius, by have := grows_le radius hr; omega⟩
  have := run_spec (G := grows radius) hs j x y z hx hy hz
  rw [← hj] at this
  exact ⟨this.1, this.2.1, this.2.2.1, this.2.2.2.1⟩

end Jaxions.Masker
