import Verif.Spec.StringFile
import Verif.Basic.Fold

namespace Jaxions
namespace StrFile

theorem put_succ (src : ℕ → Option ℕ) (o n : ℕ) (h : Heap ℕ ℕ) :
    put src o (n + 1) h = (put src o n h).bind fun t => (src n).bind fun x => t.write (o + n) x := by
  unfold put
  rw [List.range_succ, foldlM_append']
  cases (List.range n).foldlM (fun h k => do h.write (o + k) (← src k)) h with
  | none => rfl
  | some t => simp [List.foldlM_cons, List.foldlM_nil]

theorem put_spec {src : ℕ → Option ℕ} {o n : ℕ} {h : Heap ℕ ℕ} {X : ℕ → ℕ}
    (hs : ∀ k, k < n → src k = some (X k)) (hr : ∀ k, k < n → (h (o + k)).isSome) :
    ∃ h', put src o n h = some h' ∧
      ∀ a, h' a = if o ≤ a ∧ a < o + n then some (X (a - o)) else h a := by
  induction n with
  | zero =>
    refine ⟨h, rfl, fun a => ?_⟩
    rw [if_neg (by omega)]
  | succ n ih =>
    obtain ⟨t, e, ht⟩ := ih (fun k hk => hs k (by omega)) (fun k hk => hr k (by omega))
    have ha : (t (o + n)).isSome := by
      rw [ht, if_neg (by omega)]
      exact hr n (by omega)
    refine ⟨fun b => if b = o + n then some (X n) else t b, ?_, ?_⟩
    · rw [put_succ, e, hs n (by omega)]
      simp only [Option.bind_some]
      exact write_eq _ _ _ ha
    · intro a
      by_cases h1 : a = o + n
      · simp [h1]
      · simp only [h1, if_false]
        rw [ht]
        by_cases h2 : o ≤ a ∧ a < o + n
        · rw [if_pos h2, if_pos (by omega)]
        · rw [if_neg h2, if_neg (by omega)]

theorem put_some {src : ℕ → Option ℕ} {o n : ℕ} {h h' : Heap ℕ ℕ} (e : put src o n h = some h') :
    ∀ k, k < n → (src k).isSome ∧ (h (o + k)).isSome := by
  induction n generalizing h' with
  | zero => intro k hk; omega
  | succ n ih =>
    rw [put_succ] at e
    cases e1 : put src o n h with
    | none => rw [e1] at e; cases e
    | some t =>
      rw [e1] at e
      simp only [Option.bind_some] at e
      cases e2 : src n with
      | none => rw [e2] at e; cases e
      | some x =>
        rw [e2] at e
        simp only [Option.bind_some] at e
        have i1 := ih e1
        intro k hk
        rcases Nat.lt_succ_iff_lt_or_eq.1 hk with hk | rfl
        · exact i1 k hk
        · refine ⟨by rw [e2]; rfl, ?_⟩
          have h2 : (t (o + k)).isSome := by
            unfold Heap.write at e
            by_contra hc
            rw [if_neg hc] at e
            cases e
          obtain ⟨t', e3, h3⟩ := put_spec (src := src) (o := o) (n := k) (h := h)
            (X := fun j => (src j).getD 0)
            (fun j hj => by
              obtain ⟨y, hy⟩ := Option.isSome_iff_exists.1 (i1 j hj).1
              simp [hy])
            (fun j hj => (i1 j hj).2)
          obtain rfl : t' = t := Option.some.inj (e3.symm.trans e1)
          rw [h3, if_neg (by omega)] at h2
          exact h2

theorem toti_zero (N : ℕ → ℕ) : toti N 0 = 0 := rfl

theorem toti_succ (N : ℕ → ℕ) (r : ℕ) : toti N (r + 1) = toti N r + N r := by
  unfold toti
  rw [List.range_succ, List.foldl_append]
  rfl

theorem toti_le (N : ℕ → ℕ) {r s : ℕ} (h : r ≤ s) : toti N r ≤ toti N s := by
  induction s with
  | zero => rw [Nat.le_zero.1 h]
  | succ s ih =>
    rcases Nat.le_succ_iff.1 h with h | rfl
    · rw [toti_succ]; exact le_trans (ih h) (Nat.le_add_right _ _)
    · exact le_rfl

/-- Every entry of the whole list belongs to one rank. -/
theorem toti_find (N : ℕ → ℕ) (n a : ℕ) (h : a < toti N n) :
    ∃ r k, r < n ∧ k < N r ∧ a = toti N r + k := by
  induction n with
  | zero => simp [toti_zero] at h
  | succ n ih =>
    by_cases h1 : a < toti N n
    · obtain ⟨r, k, h2, h3, h4⟩ := ih h1
      exact ⟨r, k, by omega, h3, h4⟩
    · rw [toti_succ] at h
      exact ⟨n, a - toti N n, by omega, by omega, by omega⟩

theorem toti_inj (N : ℕ → ℕ) {r s k l : ℕ} (hk : k < N r) (hl : l < N s)
    (h : toti N r + k = toti N s + l) : r = s ∧ k = l := by
  have : r = s := by
    rcases Nat.lt_trichotomy r s with h1 | h1 | h1
    · have := toti_le N (show r + 1 ≤ s by omega)
      rw [toti_succ] at this; omega
    · exact h1
    · have := toti_le N (show s + 1 ≤ r by omega)
      rw [toti_succ] at this; omega
  subst this
  exact ⟨rfl, by omega⟩

/-- The loop of `writeStringCo`. -/
theorem loop_spec (buf : ℕ → Heap ℕ ℕ) (N : ℕ → ℕ) (X : ℕ → ℕ → ℕ) (n : ℕ)
    (hb : ∀ r, r < n → ∀ k, k < 6 * N r → buf r k = some (X r k))
    (hroom : ∀ r, r < n → Room (buf 0) (6 * N r)) (hint : ∀ r, r < n → r ≠ 0 → 6 * N r < 2 ^ 31) :
    ∃ w, (List.range n).foldlM (turn buf N) ⟨buf 0, fresh (3 * toti N n * 2)⟩ = some w ∧
      (∀ r, r < n → ∀ k, k < 6 * N r → w.file (6 * toti N r + k) = some (X r k)) ∧
      (∀ a, 6 * toti N n ≤ a → w.file a = none) ∧
      (∀ r, n = r + 1 → ∀ k, k < 6 * N r → w.buf k = some (X r k)) := by
  obtain ⟨w, e, h1, h2, h3, h4, -⟩ := range_inv (f := turn buf N) (s := ⟨buf 0, fresh (3 * toti N n * 2)⟩)
    (P := fun i (w : W) =>
      (∀ r, r < i → ∀ k, k < 6 * N r → w.file (6 * toti N r + k) = some (X r k)) ∧
      (∀ a, 6 * toti N n ≤ a → w.file a = none) ∧
      (∀ r, i = r + 1 → ∀ k, k < 6 * N r → w.buf k = some (X r k)) ∧
      (∀ a, a < 6 * toti N n → (w.file a).isSome) ∧
      (∀ r, r < n → Room w.buf (6 * N r)) ∧ (i = 0 → w.buf = buf 0)) n
    ⟨by omega, by
      intro a ha
      show fresh _ a = none
      rw [fresh, if_neg (by omega)], by omega, by
      intro a ha
      show (fresh _ a).isSome
      rw [fresh, if_pos (by omega)]; rfl, hroom, fun _ => rfl⟩ (by
    rintro i hi ⟨b, f⟩ ⟨p1, p2, p3, p4, p5, p6⟩
    dsimp only at p1 p2 p3 p4 p5 p6
    have hle : toti N i + N i ≤ toti N n := by rw [← toti_succ]; exact toti_le N hi
    have hb' : ∃ b', arrive (buf i) i (3 * N i * 2) b = some b' ∧ (∀ k, k < 6 * N i → b' k = some (X i k)) ∧
        ∀ a, (b a).isSome → (b' a).isSome := by
      by_cases h0 : i = 0
      · refine ⟨b, by rw [arrive, if_pos h0], ?_, fun _ h => h⟩
        rw [p6 h0]
        subst h0
        exact hb 0 hi
      · obtain ⟨b', e1, e2⟩ := put_spec (src := buf i) (o := 0) (n := 3 * N i * 2) (h := b) (X := X i)
          (fun k hk => hb i hi k (by omega)) (fun k hk => p5 i hi _ (by omega))
        refine ⟨b', ?_, ?_, ?_⟩
        · rw [arrive, if_neg h0, if_pos (by have := hint i hi h0; omega), e1]
        · intro k hk
          rw [e2, if_pos (by omega)]; simp
        · intro a ha
          rw [e2]
          split
          · rfl
          · exact ha
    obtain ⟨b', e1, e2, e3⟩ := hb'
    obtain ⟨f', e4, e5⟩ := put_spec (src := b') (o := 3 * toti N i * 2) (n := 3 * N i * 2) (h := f)
      (X := X i) (fun k hk => e2 k (by omega)) (fun k hk => p4 _ (by omega))
    refine ⟨⟨b', f'⟩, ?_, ?_, ?_, ?_, ?_, ?_, by omega⟩
    · unfold turn
      simp only [e1, Option.bind_eq_bind, Option.bind_some, e4]
      rfl
    · intro r hr k hk
      show f' _ = _
      rw [e5]
      rcases Nat.lt_succ_iff_lt_or_eq.1 hr with hr | rfl
      · have := toti_le N (show r + 1 ≤ i by omega)
        rw [toti_succ] at this
        rw [if_neg (by omega)]
        exact p1 r hr k hk
      · rw [if_pos (by omega)]
        congr 2; omega
    · intro a ha
      show f' _ = _
      rw [e5, if_neg (by omega)]
      exact p2 a ha
    · intro r hr k hk
      obtain rfl : i = r := by omega
      exact e2 k hk
    · intro a ha
      show (f' _).isSome
      rw [e5]
      split
      · rfl
      · exact p4 a ha
    · intro r hr a ha
      exact e3 a (p5 r hr a ha))
  exact ⟨w, e, h1, h2, h3⟩

theorem word_eq {file : Heap ℕ ℕ} {j w : ℕ} (hw : w < 65536) (h1 : file (2 * j) = some (w % 256))
    (h2 : file (2 * j + 1) = some (w / 256 % 256)) : word file j = some w := by
  unfold word
  rw [h1, h2]
  show some _ = _
  congr 1
  omega

theorem triple_eq {file : Heap ℕ ℕ} {a : ℕ} {t : ℕ × ℕ × ℕ} (ht : Short t)
    (h : ∀ k, k < 6 → file (6 * a + k) = some (byte t k)) : triple file a = some t := by
  obtain ⟨x, y, z⟩ := t
  obtain ⟨h1, h2, h3⟩ := ht
  unfold triple
  rw [word_eq (j := 3 * a) (w := x) h1 (by have := h 0 (by omega); rw [show 2 * (3 * a) = 6 * a by omega]; simpa [byte] using this)
      (by have := h 1 (by omega); rw [show 2 * (3 * a) = 6 * a by omega]; simpa [byte] using this),
    word_eq (j := 3 * a + 1) (w := y) h2
      (by have := h 2 (by omega); rw [show 2 * (3 * a + 1) = 6 * a + 2 by omega]; simpa [byte] using this)
      (by have := h 3 (by omega); rw [show 2 * (3 * a + 1) + 1 = 6 * a + 3 by omega]; simpa [byte] using this),
    word_eq (j := 3 * a + 2) (w := z) h3
      (by have := h 4 (by omega); rw [show 2 * (3 * a + 2) = 6 * a + 4 by omega]; simpa [byte] using this)
      (by have := h 5 (by omega); rw [show 2 * (3 * a + 2) + 1 = 6 * a + 5 by omega]; simpa [byte] using this)]
  rfl

end StrFile
end Jaxions
