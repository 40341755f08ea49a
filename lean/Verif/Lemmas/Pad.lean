import Verif.Spec.Pad
import Mathlib.Tactic.Ring
import Mathlib.Tactic.Linarith

/-!
# Lemmas about moving lines
-/

namespace Jaxions
namespace Pad

variable {α : Type}

/-- One line. -/
theorem moveLine_spec (o a d b w sl : Nat) (h : Heap Nat α)
    (hs : ∀ i < w, (h (o + sl * a + i)).isSome) (hd : ∀ i < w, (h (d + sl * b + i)).isSome) :
    ∃ h', moveLine o a d b w h sl = some h' ∧
      (∀ i < w, h' (d + sl * b + i) = h (o + sl * a + i)) ∧
      (∀ x, (∀ i < w, x ≠ d + sl * b + i) → h' x = h x) :=
  memmove_spec _ _ w h hs hd (fun i _ j _ e => by omega)

/-- Lines with a stride of at least their length do not meet. -/
theorem lines_ne {d b w t u i j : Nat} (hw : w ≤ b) (ht : t ≠ u) (hi : i < w) (hj : j < w) :
    d + t * b + i ≠ d + u * b + j := by
  intro e
  rcases Nat.lt_or_gt_of_ne ht with h | h
  · have : (t + 1) * b ≤ u * b := Nat.mul_le_mul_right b h
    rw [Nat.add_mul] at this
    omega
  · have : (u + 1) * b ≤ t * b := Nat.mul_le_mul_right b h
    rw [Nat.add_mul] at this
    omega

/-- Lines in any order: if no line is read after a line written before it hit it, every line
arrives and nothing else changes. -/
theorem moveLines_spec (o a d b w : Nat) (hw : w ≤ b) (order : List Nat) (h : Heap Nat α)
    (hnd : order.Nodup)
    (hs : ∀ t ∈ order, ∀ i < w, (h (o + t * a + i)).isSome)
    (hd : ∀ t ∈ order, ∀ i < w, (h (d + t * b + i)).isSome)
    (hok : order.Pairwise fun t u => ∀ i < w, ∀ j < w, d + t * b + i ≠ o + u * a + j) :
    ∃ h', moveLines o a d b w order h = some h' ∧
      (∀ t ∈ order, ∀ i < w, h' (d + t * b + i) = h (o + t * a + i)) ∧
      (∀ x, (∀ t ∈ order, ∀ i < w, x ≠ d + t * b + i) → h' x = h x) := by
  induction order generalizing h with
  | nil => exact ⟨h, by simp [moveLines], by simp, by simp⟩
  | cons s order ih =>
    rw [List.pairwise_cons] at hok
    rw [List.nodup_cons] at hnd
    obtain ⟨g, hg, hv, hu⟩ := moveLine_spec o a d b w s h (hs s (by simp)) (hd s (by simp))
    have hsome : ∀ x, (h x).isSome → (g x).isSome := by
      intro x hx
      by_cases hc : ∃ i < w, x = d + s * b + i
      · obtain ⟨i, hi, rfl⟩ := hc
        rw [hv i hi]; exact hs s (by simp) i hi
      · rw [hu x (fun i hi e => hc ⟨i, hi, e⟩)]; exact hx
    obtain ⟨h', he, hv', hu'⟩ := ih g hnd.2
      (fun t ht i hi => hsome _ (hs t (by simp [ht]) i hi))
      (fun t ht i hi => hsome _ (hd t (by simp [ht]) i hi)) hok.2
    refine ⟨h', ?_, ?_, ?_⟩
    · simp only [moveLines, List.foldlM_cons, hg]
      simpa [moveLines] using he
    · intro t ht i hi
      rcases List.mem_cons.1 ht with rfl | ht
      · rw [hu' _ (fun u hu i' hi' => lines_ne hw (by rintro rfl; exact hnd.1 hu) hi hi'), hv i hi]
      · rw [hv' t ht i hi, hu _ (fun i' hi' e => hok.1 t ht i' hi' i hi e.symm)]
    · intro x hx
      rw [hu' x (fun t ht => hx t (by simp [ht])), hu x (hx s (by simp))]

theorem down_pairwise (n : Nat) : (down n).Pairwise (· > ·) := by
  simp only [down, List.pairwise_reverse]
  exact List.pairwise_lt_range

theorem mem_down {n t : Nat} : t ∈ down n ↔ t < n := by simp [down]

theorem down_nodup (n : Nat) : (down n).Nodup :=
  (down_pairwise n).imp fun h => Nat.ne_of_gt h

/-- The result of `moveLines_spec` for the lines `0 … n-1`. -/
theorem moved_of (o a d b w n : Nat) (hw : w ≤ b) (order : List Nat) (h : Heap Nat α)
    (hnd : order.Nodup) (hmem : ∀ t, t ∈ order ↔ t < n)
    (hs : Room h o a w n) (hd : Room h d b w n)
    (hok : order.Pairwise fun t u => ∀ i < w, ∀ j < w, d + t * b + i ≠ o + u * a + j) :
    ∃ h', moveLines o a d b w order h = some h' ∧ Moved h h' o a d b w n ∧ Rest h h' d b w n := by
  obtain ⟨h', he, hv, hu⟩ := moveLines_spec o a d b w hw order h hnd
    (fun t ht => hs t ((hmem t).1 ht)) (fun t ht => hd t ((hmem t).1 ht)) hok
  exact ⟨h', he, fun t ht => hv t ((hmem t).2 ht),
    fun x hx => hu x fun t ht => hx t ((hmem t).1 ht)⟩

/-- Down with `o ≤ d` and a stride that does not shrink. -/
theorem down_ok (o a d b w n : Nat) (hod : o ≤ d) (hab : a ≤ b) (hw : w ≤ a) :
    (down n).Pairwise fun t u => ∀ i < w, ∀ j < w, d + t * b + i ≠ o + u * a + j := by
  refine (down_pairwise n).imp ?_
  intro t u htu i hi j hj
  have h1 : (u + 1) * a ≤ t * a := Nat.mul_le_mul_right a htu
  have h2 : t * a ≤ t * b := Nat.mul_le_mul_left t hab
  rw [Nat.add_mul] at h1
  omega

/-- Up with `d ≤ o` and a stride that does not grow. -/
theorem up_ok (o a d b w n : Nat) (hod : d ≤ o) (hab : b ≤ a) (hw : w ≤ b) :
    (up n).Pairwise fun t u => ∀ i < w, ∀ j < w, d + t * b + i ≠ o + u * a + j := by
  refine List.pairwise_lt_range.imp ?_
  intro t u htu i hi j hj
  have h1 : (t + 1) * b ≤ u * b := Nat.mul_le_mul_right b htu
  have h2 : u * b ≤ u * a := Nat.mul_le_mul_left u hab
  rw [Nat.add_mul] at h1
  omega

theorem apart_ok (o a d b w n : Nat) (h : Apart o a d b w n) (order : List Nat)
    (hmem : ∀ t ∈ order, t < n) :
    order.Pairwise fun t u => ∀ i < w, ∀ j < w, d + t * b + i ≠ o + u * a + j := by
  rw [List.pairwise_iff_forall_sublist]
  intro t u htu i hi j hj
  exact h t (hmem t (htu.subset (by simp))) i hi u (hmem u (htu.subset (by simp))) j hj

theorem sched_mem {n : Nat} {s : List Nat} (h : Sched n s) (t : Nat) : t ∈ s ↔ t < n := by
  rw [h.mem_iff]; simp

theorem sched_nodup {n : Nat} {s : List Nat} (h : Sched n s) : s.Nodup :=
  h.nodup_iff.2 List.nodup_range

/-- If a line is hit before it is read, the result is wrong for some content. -/
theorem lossy (o a d b w : Nat) (hw : w ≤ a) (pre mid post : List Nat) (s t i j : Nat)
    (hi : i < w) (hj : j < w) (hst : s ≠ t) (hpre : t ∉ pre)
    (hhit : d + s * b + i = o + t * a + j) :
    ∃ h g : Heap Nat Bool, (∀ x, (h x).isSome) ∧
      moveLines o a d b w (pre ++ s :: (mid ++ t :: post)) h = some g ∧
      g (d + t * b + j) ≠ h (o + t * a + j) := by
  set c := o + t * a + j with hc
  have ones : ∀ (l : List Nat) (k : Heap Nat Bool), (∀ x, k x = some true) →
      ∃ k', moveLines o a d b w l k = some k' ∧ ∀ x, k' x = some true := by
    intro l
    induction l with
    | nil => exact fun k hk => ⟨k, by simp [moveLines], hk⟩
    | cons u l ih =>
      intro k hk
      obtain ⟨k1, h1, hv, hu⟩ := moveLine_spec o a d b w u k (by simp [hk]) (by simp [hk])
      obtain ⟨k2, h2, hk2⟩ := ih k1 (by
        intro x
        by_cases hx : ∃ i < w, x = d + u * b + i
        · obtain ⟨i, hi, rfl⟩ := hx
          rw [hv i hi, hk]
        · rw [hu x (fun i hi e => hx ⟨i, hi, e⟩), hk])
      exact ⟨k2, by simp only [moveLines, List.foldlM_cons, h1]; simpa [moveLines] using h2, hk2⟩
  have step : ∀ (u : Nat) (k : Heap Nat Bool), u ≠ t → (k c).isSome → (∀ x, x ≠ c → k x = some true) →
      ∃ k', moveLine o a d b w k u = some k' ∧ (k' c).isSome ∧ (∀ x, x ≠ c → k' x = some true) ∧
        (∀ i < w, k' (d + u * b + i) = some true) := by
    intro u k hut hkc hk
    have hall : ∀ x, (k x).isSome := by
      intro x
      by_cases hx : x = c
      · rw [hx]; exact hkc
      · rw [hk x hx]; rfl
    obtain ⟨k1, h1, hv, hu⟩ := moveLine_spec o a d b w u k (fun _ _ => hall _) (fun _ _ => hall _)
    have hv' : ∀ i < w, k1 (d + u * b + i) = some true := by
      intro i hi
      rw [hv i hi, hk _ (lines_ne hw hut hi hj)]
    have key : ∀ x, (k x).isSome → (x ≠ c → k x = some true) →
        (k1 x).isSome ∧ (x ≠ c → k1 x = some true) := by
      intro x hx hx'
      by_cases hh : ∃ i < w, x = d + u * b + i
      · obtain ⟨i, hi, rfl⟩ := hh
        rw [hv' i hi]; simp
      · rw [hu x (fun i hi e => hh ⟨i, hi, e⟩)]; exact ⟨hx, hx'⟩
    exact ⟨k1, h1, (key c hkc (fun h => absurd rfl h)).1, fun x hx => (key x (hall x) (hk x)).2 hx, hv'⟩
  have stepl : ∀ (l : List Nat) (k : Heap Nat Bool), t ∉ l → (k c).isSome →
      (∀ x, x ≠ c → k x = some true) →
      ∃ k', moveLines o a d b w l k = some k' ∧ (k' c).isSome ∧ (∀ x, x ≠ c → k' x = some true) := by
    intro l
    induction l with
    | nil => exact fun k _ h1 h2 => ⟨k, by simp [moveLines], h1, h2⟩
    | cons u l ih =>
      intro k ht h1 h2
      simp only [List.mem_cons, not_or] at ht
      obtain ⟨k1, e1, h1', h2', _⟩ := step u k (fun e => ht.1 e.symm) h1 h2
      obtain ⟨k2, e2, h3⟩ := ih k1 ht.2 h1' h2'
      exact ⟨k2, by simp only [moveLines, List.foldlM_cons, e1]; simpa [moveLines] using e2, h3⟩
  obtain ⟨k1, e1, p1, q1⟩ := stepl pre (fun x => some (decide (x ≠ c))) hpre rfl
    (fun x hx => by simp [hx])
  obtain ⟨k2, e2, p2, q2, r2⟩ := step s k1 hst p1 q1
  obtain ⟨k3, e3, p3⟩ := ones (mid ++ t :: post) k2 (by
    intro x
    by_cases hx : x = c
    · rw [hx, ← hhit]; exact r2 i hi
    · exact q2 x hx)
  refine ⟨fun x => some (decide (x ≠ c)), k3, fun x => rfl, ?_, ?_⟩
  rotate_left
  · rw [p3]; simp
  · rw [moveLines, foldlM_append']
    simp only [moveLines] at e1 e3
    rw [e1]
    simp only [Option.bind_some, List.foldlM_cons, e2]
    exact e3

/-- The downward loop from `G` above its destination is right for every content exactly if the
padded lines end before the source begins. -/
theorem down_offset (d G w n : Nat) (hw : 2 ≤ w) (hG : w + 3 ≤ G) (hn : 0 < n) :
    (∀ h : Heap Nat Bool, Room h (d + G) w w n → Room h d (w + 2) w n →
      ∃ g, moveLines (d + G) w d (w + 2) w (down n) h = some g ∧
        Moved h g (d + G) w d (w + 2) w n) ↔ (n - 1) * (w + 2) + w ≤ G := by
  constructor
  · intro H
    by_contra hc
    obtain ⟨q, hq⟩ : ∃ q, q = (G - w) / (w + 2) := ⟨_, rfl⟩
    have q1 : q * (w + 2) ≤ G - w := by rw [hq]; exact Nat.div_mul_le_self _ _
    have q2 : G - w < (q + 1) * (w + 2) := by
      rw [hq, Nat.mul_comm]; exact Nat.lt_mul_div_succ _ (by omega)
    have q3 : q + 1 < n := by
      by_contra h
      have : (n - 1) * (w + 2) ≤ q * (w + 2) := Nat.mul_le_mul_right _ (by omega)
      omega
    have q4 : q * 4 ≤ q * (w + 2) := Nat.mul_le_mul_left _ (by omega)
    have q5 : (q + 1) * (w + 2) = (q + 1) * w + 2 * (q + 1) := by ring
    obtain ⟨p, hp⟩ : ∃ p, p = (q + 1) * (w + 2) + w - 1 - G := ⟨_, rfl⟩
    have hpw : p < (q + 1) * w := by omega
    have ht : p / w < q + 1 := (Nat.div_lt_iff_lt_mul (by omega)).2 hpw
    have hdm : p / w * w + p % w = p := Nat.div_add_mod' p w
    have hmod : p % w < w := Nat.mod_lt _ (by omega)
    have split : ∀ k, q + 1 < k →
        ∃ pre, down k = pre ++ (q + 1) :: down (q + 1) ∧ ∀ x ∈ pre, q + 1 < x := by
      intro k hk
      induction k with
      | zero => omega
      | succ k ih =>
        have hd : down (k + 1) = k :: down k := by simp [down, List.range_succ]
        by_cases h : q + 1 < k
        · obtain ⟨pre, e, hx⟩ := ih h
          exact ⟨k :: pre, by rw [hd, e]; rfl, by simpa using ⟨h, hx⟩⟩
        · have : k = q + 1 := by omega
          subst this
          exact ⟨[], hd, by simp⟩
    obtain ⟨pre, hsplit, hpre⟩ := split n q3
    obtain ⟨mid, post, hmp⟩ : ∃ mid post, down (q + 1) = mid ++ p / w :: post :=
      List.append_of_mem (mem_down.2 ht)
    obtain ⟨h, g, h1, h2, h3⟩ := lossy (d + G) w d (w + 2) w le_rfl
      pre mid post (q + 1) (p / w) (w - 1) (p % w)
      (by omega) hmod (by omega)
      (by
        intro hm
        have := hpre _ hm
        omega) (by omega)
    rw [← hmp, ← hsplit] at h2
    obtain ⟨g', e', hm⟩ := H h (fun _ _ _ _ => h1 _) (fun _ _ _ _ => h1 _)
    rw [h2] at e'
    obtain rfl : g = g' := by simpa using e'
    exact h3 (hm (p / w) (by omega) (p % w) hmod)
  · intro hle h h1 h2
    obtain ⟨g, e, hm, _⟩ := moved_of (d + G) w d (w + 2) w n (by omega) (down n) h (down_nodup n)
      (fun t => mem_down) h1 h2 (apart_ok _ _ _ _ _ n (by
        intro t ht i hi u hu j hj
        have : t * (w + 2) ≤ (n - 1) * (w + 2) := Nat.mul_le_mul_right _ (by omega)
        omega) _ (fun t ht => mem_down.1 ht))
    exact ⟨g, e, hm⟩

theorem writeAll_none (l : List (Nat × α)) (h : Heap Nat α) (p : Nat × α) (hp : p ∈ l)
    (hbad : h p.1 = none) : writeAll l h = none := by
  induction l generalizing h with
  | nil => simp at hp
  | cons q l ih =>
    simp only [writeAll, List.foldlM_cons]
    cases hq : h.write q.1 q.2 with
    | none => rfl
    | some h1 =>
      have hs : (h q.1).isSome := by
        by_contra hc
        simp [Heap.write, hc] at hq
      rw [write_eq h q.1 q.2 hs] at hq
      obtain rfl := Option.some.inj hq
      have hne : p.1 ≠ q.1 := by
        intro e
        rw [← e, hbad] at hs
        simp at hs
      have hp' : p ∈ l := by
        rcases List.mem_cons.1 hp with rfl | h
        · exact absurd rfl hne
        · exact h
      exact ih _ hp' (by simp [hne, hbad])

theorem readAll_length (as : List Nat) (h : Heap Nat α) (xs : List α) (hr : readAll as h = some xs) :
    xs.length = as.length := by
  induction as generalizing xs with
  | nil => simp [readAll] at hr; simp [← hr]
  | cons a as ih =>
    simp only [readAll, List.mapM_cons] at hr
    cases ha : h a with
    | none => simp [ha] at hr
    | some x =>
      cases hb : as.mapM h with
      | none => simp [ha, hb] at hr
      | some ys =>
        simp [ha, hb] at hr
        rw [← hr, List.length_cons, List.length_cons, ih ys hb]

/-- Writing outside of the allocation. -/
theorem moveLine_none (o a d b w sl i : Nat) (h : Heap Nat α) (hi : i < w)
    (hbad : h (d + sl * b + i) = none) : moveLine o a d b w h sl = none := by
  unfold moveLine memmove
  cases hr : readAll ((List.range w).map fun i => o + sl * a + i) h with
  | none => rfl
  | some xs =>
    have hlen : xs.length = w := by simpa using readAll_length _ h xs hr
    exact writeAll_none _ h (d + sl * b + i, xs[i]'(by omega)) (by
      rw [List.mem_iff_getElem]
      exact ⟨i, by simp [hlen, hi], by simp⟩) hbad

end Pad
end Jaxions
