import Verif.Model.TimeLoop
import Mathlib.Tactic.Linarith
import Mathlib.Tactic.NormNum
import Mathlib.Tactic.Ring
import Mathlib.Algebra.BigOperators.Group.List.Basic

/-
The turns of the time loop.
-/

namespace Jaxions.TimeLoop

theorem sorted_lt {ct : List ℚ} (hs : ct.Pairwise (· < ·)) {i j : ℕ} {a b : ℚ}
    (ha : ct[i]? = some a) (hb : ct[j]? = some b) (hij : i < j) : a < b := by
  obtain ⟨hi, rfl⟩ := List.getElem?_eq_some_iff.1 ha
  obtain ⟨hj, rfl⟩ := List.getElem?_eq_some_iff.1 hb
  exact List.pairwise_iff_getElem.1 hs i j hi hj hij

/-- What is true between two turns, started with entry `i0` at the time `z0`. -/
structure Good (ct : List ℚ) (i0 : ℕ) (z0 : ℚ) (s : St) : Prop where
  le : i0 ≤ s.i
  next : ∃ t, ct[s.i]? = some t ∧ s.z < t
  past : ∀ k t, k < s.i → i0 ≤ k → ct[k]? = some t → t ≤ s.z
  done : s.done.map (fun m => (m.what, some m.time)) =
    (List.range' i0 (s.i - i0)).map (fun k => (some k, ct[k]?))
  sum : s.z = z0 + s.steps.sum

/-- The same when the loop has been left; the entry `s.i` was possibly reached in the
turn that left the loop, and was then not measured inside the loop. -/
structure Left (ct : List ℚ) (i0 : ℕ) (z0 zF : ℚ) (s : St) : Prop where
  le : i0 ≤ s.i
  next : ∃ t, ct[s.i]? = some t ∧ s.z ≤ t
  past : ∀ k t, k < s.i → i0 ≤ k → ct[k]? = some t → t ≤ s.z
  done : s.done.map (fun m => (m.what, some m.time)) =
    (List.range' i0 (s.i - i0)).map (fun k => (some k, ct[k]?))
  sum : s.z = z0 + s.steps.sum
  close : zF - 1 / 10 ^ 10 < s.z
  last : s.z = zF → s.what = some (ct.length - 1)

theorem over_iff {zF z : ℚ} (h : z ≤ zF) : over zF z = true ↔ zF - 1 / 10 ^ 10 < z := by
  unfold over
  rw [Bool.or_eq_true, decide_eq_true_iff, decide_eq_true_iff, abs_of_nonpos (by linarith)]
  constructor
  · rintro (h1 | h1)
    · have : z = zF := le_antisymm h h1
      rw [this]; linarith [show (0 : ℚ) < 1 / 10 ^ 10 by norm_num]
    · linarith
  · intro h1
    right; linarith

theorem last_index {ct : List ℚ} {zF : ℚ} (hF : ct.getLast? = some zF) :
    ct[ct.length - 1]? = some zF ∧ 0 < ct.length := by
  rw [List.getLast?_eq_getElem?] at hF
  refine ⟨hF, ?_⟩
  have := (List.getElem?_eq_some_iff.1 hF).1
  omega

theorem le_last {ct : List ℚ} (hs : ct.Pairwise (· < ·)) {zF : ℚ} (hF : ct.getLast? = some zF)
    {i : ℕ} {t : ℚ} (h : ct[i]? = some t) :
    t ≤ zF ∧ (t = zF → i = ct.length - 1) ∧ (i = ct.length - 1 → t = zF) := by
  obtain ⟨h1, h2⟩ := last_index hF
  have hi := (List.getElem?_eq_some_iff.1 h).1
  have e : i = ct.length - 1 → t = zF := by
    intro e
    rw [e, h1] at h
    exact (Option.some.inj h).symm
  rcases Nat.lt_or_ge i (ct.length - 1) with hlt | hge
  · have := sorted_lt hs h h1 hlt
    exact ⟨this.le, fun e => absurd e this.ne, e⟩
  · have : i = ct.length - 1 := by omega
    exact ⟨(e this).le, fun _ => this, e⟩

theorem skip_ready {ct : List ℚ} {z t : ℚ} {i : ℕ} (h : ct[i]? = some t) (hz : z < t) :
    skip ct z i = some i := by
  unfold skip
  rw [h]
  dsimp only
  rw [if_neg (not_lt.2 hz.le)]

/-- One turn from a good state. -/
theorem turn_spec {ct : List ℚ} (hs : ct.Pairwise (· < ·)) {zF : ℚ} (hF : ct.getLast? = some zF)
    {i0 : ℕ} {z0 : ℚ} {s : St} (h : Good ct i0 z0 s) {u : Turn} (hu : 0 < u.dz) :
    ∃ s' b d, turn ct zF s u = some (s', b) ∧ s'.steps = s.steps ++ [d] ∧ 0 < d ∧ d ≤ u.dz ∧
      s.i ≤ s'.i ∧
      (b = false → Good ct i0 z0 s' ∧ (s'.i = s.i → d = u.dz)) ∧
      (b = true → Left ct i0 z0 zF s') ∧
      ((∀ m ∈ s.done, m.maps = m.what) → s.maps = s.what → u.toTheta = false →
        (∀ m ∈ s'.done, m.maps = m.what) ∧ s'.maps = s'.what) := by
  obtain ⟨t, ht, hz⟩ := h.next
  obtain ⟨l1, l2, l3⟩ := le_last hs hF ht
  have hi := (List.getElem?_eq_some_iff.1 ht).1
  by_cases hit : t ≤ s.z + u.dz
  · -- the listed time is reached
    have ha : aim ct s.z u.dz s.i = some ⟨t - s.z, true, decide (s.i ≠ ct.length - 1)⟩ := by
      unfold aim
      rw [ht]
      dsimp only
      rw [if_pos ⟨hit, hz⟩]
    have hzt : s.z + (t - s.z) = t := by ring
    by_cases ho : over zF t = true
    · refine ⟨⟨t, s.i, some s.i, if u.toTheta then none else some s.i, s.done,
        s.steps ++ [t - s.z]⟩, true, t - s.z, ?_, rfl, by linarith, by linarith,
        Nat.le_refl _, fun hb => (by cases hb), fun _ => ?_, ?_⟩
      · unfold turn
        simp [skip_ready ht hz, ha, hzt, ho]
      · refine ⟨h.le, ⟨t, ht, le_refl _⟩, ?_, h.done, ?_, (over_iff l1).1 ho, ?_⟩
        · intro k t' hk hk0 ht'
          exact (sorted_lt hs ht' ht hk).le
        · dsimp only
          rw [List.sum_append, List.sum_singleton, ← add_assoc, ← h.sum, hzt]
        · intro e
          dsimp only at e ⊢
          rw [l2 e]
      · intro h1 h2 h3
        refine ⟨h1, ?_⟩
        dsimp only
        rw [h3]
        rfl
    · have hne : s.i ≠ ct.length - 1 := by
        intro e
        apply ho
        rw [l3 e, over_iff (le_refl _)]
        linarith [show (0 : ℚ) < 1 / 10 ^ 10 by norm_num]
      refine ⟨⟨t, s.i + 1, some s.i, if u.toTheta then none else some s.i,
        s.done ++ [⟨some s.i, if u.toTheta then none else some s.i, t⟩],
        s.steps ++ [t - s.z]⟩, false, t - s.z, ?_, rfl, by linarith, by linarith,
        Nat.le_succ _, fun _ => ⟨?_, fun e => ?_⟩, fun hb => (by cases hb), ?_⟩
      · unfold turn
        simp [skip_ready ht hz, ha, hzt, ho, hne]
      · refine ⟨Nat.le_succ_of_le h.le, ?_, ?_, ?_, ?_⟩
        · have hlt : s.i + 1 < ct.length := by omega
          exact ⟨_, List.getElem?_eq_getElem hlt,
            sorted_lt hs ht (List.getElem?_eq_getElem hlt) (Nat.lt_succ_self _)⟩
        · intro k t' hk hk0 ht'
          dsimp only at hk ⊢
          rcases Nat.lt_or_ge k s.i with hlt | hge
          · exact (sorted_lt hs ht' ht hlt).le
          · have : k = s.i := by omega
            rw [this, ht] at ht'
            exact (Option.some.inj ht').ge
        · dsimp only
          rw [List.map_append, h.done]
          have : s.i + 1 - i0 = s.i - i0 + 1 := by have := h.le; omega
          rw [this, List.range'_concat, List.map_append]
          congr 1
          have : i0 + 1 * (s.i - i0) = s.i := by have := h.le; omega
          rw [List.map_singleton, List.map_singleton, this, ht]
        · dsimp only
          rw [List.sum_append, List.sum_singleton, ← add_assoc, ← h.sum, hzt]
      · dsimp only at e
        omega
      · intro h1 h2 h3
        dsimp only
        rw [h3]
        refine ⟨fun m hm => ?_, rfl⟩
        rcases List.mem_append.1 hm with hm | hm
        · exact h1 m hm
        · rw [List.mem_singleton.1 hm]; rfl
  · have hit' : s.z + u.dz < t := not_le.1 hit
    have ha : aim ct s.z u.dz s.i = some ⟨u.dz, false, false⟩ := by
      unfold aim
      rw [ht]
      dsimp only
      rw [if_neg (fun hc => hit hc.1)]
    by_cases ho : over zF (s.z + u.dz) = true
    · refine ⟨⟨s.z + u.dz, s.i, s.what, if u.toTheta then none else s.maps, s.done,
        s.steps ++ [u.dz]⟩, true, u.dz, ?_, rfl, hu, le_refl _, Nat.le_refl _,
        fun hb => (by cases hb), fun _ => ?_, ?_⟩
      · unfold turn
        simp [skip_ready ht hz, ha, ho]
      · refine ⟨h.le, ⟨t, ht, hit'.le⟩, ?_, h.done, ?_, (over_iff (by linarith)).1 ho, ?_⟩
        · intro k t' hk hk0 ht'
          have := h.past k t' hk hk0 ht'
          dsimp only
          linarith
        · dsimp only
          rw [List.sum_append, List.sum_singleton, ← add_assoc, ← h.sum]
        · intro e
          dsimp only at e
          linarith
      · intro h1 h2 h3
        refine ⟨h1, ?_⟩
        dsimp only
        rw [h3]
        exact h2
    · refine ⟨⟨s.z + u.dz, s.i, s.what, if u.toTheta then none else s.maps, s.done,
        s.steps ++ [u.dz]⟩, false, u.dz, ?_, rfl, hu, le_refl _, Nat.le_refl _,
        fun _ => ⟨?_, fun _ => rfl⟩, fun hb => (by cases hb), ?_⟩
      · unfold turn
        simp [skip_ready ht hz, ha, ho]
      · refine ⟨h.le, ⟨t, ht, hit'⟩, ?_, h.done, ?_⟩
        · intro k t' hk hk0 ht'
          have := h.past k t' hk hk0 ht'
          dsimp only
          linarith
        · dsimp only
          rw [List.sum_append, List.sum_singleton, ← add_assoc, ← h.sum]
      · intro h1 h2 h3
        refine ⟨h1, ?_⟩
        dsimp only
        rw [h3]
        exact h2

/-- The loop from a good state. -/
theorem loop_spec {ct : List ℚ} (hs : ct.Pairwise (· < ·)) {zF : ℚ} (hF : ct.getLast? = some zF)
    {i0 : ℕ} {z0 : ℚ} : ∀ (us : List Turn) (s : St), Good ct i0 z0 s → (∀ u ∈ us, 0 < u.dz) →
    ∃ s' b ds, loop ct zF s us = some (s', b) ∧ s'.steps = s.steps ++ ds ∧
      ds.length ≤ us.length ∧
      (∀ (k : ℕ) (d : ℚ) (u : Turn), ds[k]? = some d → us[k]? = some u → 0 < d ∧ d ≤ u.dz) ∧
      (b = false → Good ct i0 z0 s' ∧ ds.length = us.length ∧
        ∀ δ : ℚ, (∀ u ∈ us, δ ≤ u.dz) → 0 ≤ δ → δ * (us.length + s.i - s'.i : ℚ) ≤ ds.sum) ∧
      (b = true → Left ct i0 z0 zF s') ∧
      ((∀ m ∈ s.done, m.maps = m.what) → s.maps = s.what → (∀ u ∈ us, u.toTheta = false) →
        (∀ m ∈ s'.done, m.maps = m.what) ∧ s'.maps = s'.what) := by
  intro us
  induction us with
  | nil =>
    intro s h _
    refine ⟨s, false, [], rfl, by simp, by simp, by simp, fun _ => ⟨h, rfl, fun δ _ _ => ?_⟩,
      fun hb => (by cases hb), fun h1 h2 _ => ⟨h1, h2⟩⟩
    simp
  | cons u us ih =>
    intro s h hu
    obtain ⟨s1, b1, d, e1, e2, e3, e4, e5, e6, e7, e8⟩ := turn_spec hs hF h (hu u (by simp))
    cases b1 with
    | true =>
      refine ⟨s1, true, [d], by unfold loop; rw [e1]; rfl, e2, by simp, ?_,
        fun hb => (by cases hb), e7, fun h1 h2 h3 => e8 h1 h2 (h3 u (by simp))⟩
      intro k d' u' hk hk'
      cases k with
      | zero => cases hk; cases hk'; exact ⟨e3, e4⟩
      | succ k => simp at hk
    | false =>
      obtain ⟨g1, g2⟩ := e6 rfl
      obtain ⟨s', b, ds, f1, f2, f3, f4, f5, f6, f7⟩ := ih s1 g1 (fun u hu' => hu u (by simp [hu']))
      refine ⟨s', b, d :: ds, by unfold loop; rw [e1]; exact f1, by rw [f2, e2]; simp,
        by simp; omega, ?_, fun hb => ?_, f6, fun h1 h2 h3 => ?_⟩
      · intro k d' u' hk hk'
        cases k with
        | zero => cases hk; cases hk'; exact ⟨e3, e4⟩
        | succ k => exact f4 k d' u' (by simpa using hk) (by simpa using hk')
      · obtain ⟨a1, a2, a3⟩ := f5 hb
        refine ⟨a1, by simp [a2], fun δ hδ h0 => ?_⟩
        have a4 := a3 δ (fun u hu' => hδ u (by simp [hu'])) h0
        have a5 := hδ u (by simp)
        rw [List.sum_cons, List.length_cons]
        push_cast
        rcases Nat.eq_or_lt_of_le e5 with e | e
        · rw [g2 e.symm]
          rw [← e] at a4
          have : δ * ((us.length : ℚ) + 1 + s.i - s'.i) =
            δ + δ * (us.length + s.i - s'.i) := by ring
          rw [this]
          linarith
        · have hcast : (s.i : ℚ) + 1 ≤ s1.i := by exact_mod_cast e
          have : δ * ((us.length : ℚ) + 1 + s.i - s'.i) ≤ δ * (us.length + s1.i - s'.i) :=
            mul_le_mul_of_nonneg_left (by linarith) h0
          linarith
      · obtain ⟨b1, b2⟩ := e8 h1 h2 (h3 u (by simp))
        exact f7 b1 b2 (fun u hu' => h3 u (by simp [hu']))

end Jaxions.TimeLoop
