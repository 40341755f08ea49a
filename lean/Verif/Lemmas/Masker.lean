import Verif.Spec.Masker
import Verif.Lemmas.AxionSpectrum

namespace Jaxions.Masker

open AxSpec (Grid Site pad_inj bare_inj pad_lt bare_lt)

variable {g : Grid}

/-- The cell is there. -/
def Rank.has (s : Rank) : Cell → Prop
  | .inl a => (s.m2 a).isSome
  | .inr a => (s.out a).isSome

open Classical in
/-- Marking a list of cells. -/
theorem puts_spec (l : List Cell) (s : Rank) (h : ∀ c ∈ l, s.has c) :
    ∃ s', l.foldlM Rank.put s = some s' ∧ s'.sd = s.sd ∧
      (∀ a, s'.m2 a = if .inl a ∈ l then some 1 else s.m2 a) ∧
      ∀ a, s'.out a = if .inr a ∈ l then some true else s.out a := by
  induction l generalizing s with
  | nil => exact ⟨s, rfl, rfl, by simp, by simp⟩
  | cons c l ih =>
    have hc := h c (by simp)
    cases c with
    | inl a =>
      have e : s.put (.inl a) = some { s with m2 := fun b => if b = a then some 1 else s.m2 b } := by
        unfold Rank.put
        dsimp only
        rw [write_eq _ _ _ hc]; rfl
      obtain ⟨s', e1, e2, e3, e4⟩ := ih { s with m2 := fun b => if b = a then some 1 else s.m2 b } (by
        intro c hcl
        have := h c (by simp [hcl])
        cases c with
        | inl b =>
          show (if b = a then some (1 : ℝ) else s.m2 b).isSome
          split
          · rfl
          · exact this
        | inr b => exact this)
      refine ⟨s', by rw [List.foldlM_cons, e]; exact e1, e2, ?_, ?_⟩
      · intro b
        rw [e3]
        by_cases h1 : (.inl b : Cell) ∈ l
        · simp [h1]
        · by_cases h2 : b = a <;> simp [h1, h2]
      · intro b
        rw [e4]
        simp
    | inr a =>
      have e : s.put (.inr a) = some { s with out := fun b => if b = a then some true else s.out b } := by
        unfold Rank.put
        dsimp only
        rw [write_eq _ _ _ hc]; rfl
      obtain ⟨s', e1, e2, e3, e4⟩ := ih { s with out := fun b => if b = a then some true else s.out b } (by
        intro c hcl
        have := h c (by simp [hcl])
        cases c with
        | inr b =>
          show (if b = a then some true else s.out b).isSome
          split
          · rfl
          · exact this
        | inl b => exact this)
      refine ⟨s', by rw [List.foldlM_cons, e]; exact e1, e2, ?_, ?_⟩
      · intro b
        rw [e3]
        simp
      · intro b
        rw [e4]
        by_cases h1 : (.inr b : Cell) ∈ l
        · simp [h1]
        · by_cases h2 : b = a <;> simp [h1, h2]

theorem has_of {s s' : Rank} {c : Cell} (h : s.has c)
    (h1 : ∀ a, (s.m2 a).isSome → (s'.m2 a).isSome) (h2 : ∀ a, (s.out a).isSome → (s'.out a).isSome) :
    s'.has c := by
  cases c with
  | inl a => exact h1 a h
  | inr a => exact h2 a h

open Classical in
/-- A sweep of marks. -/
theorem marks_spec (up : Site → ℕ → ℕ → Cell) (order : List Site) (hnd : order.Nodup)
    (hin : ∀ p ∈ order, g.In p) (b : Site → Byte) (s : Rank)
    (hb : ∀ p ∈ order, s.sd (g.bare p) = some (b p))
    (hc : ∀ p ∈ order, ∀ c ∈ corners g (up p) p (b p), s.has c) :
    ∃ s', order.foldlM (fun s p => mark g (up p) s p) s = some s' ∧
      (∀ p ∈ order, s'.sd (g.bare p) = some (b p).defect) ∧
      (∀ a, (∀ p ∈ order, a ≠ g.bare p) → s'.sd a = s.sd a) ∧
      (∀ a, s'.m2 a = if ∃ p ∈ order, .inl a ∈ corners g (up p) p (b p) then some 1 else s.m2 a) ∧
      ∀ a, s'.out a = if ∃ p ∈ order, .inr a ∈ corners g (up p) p (b p) then some true else s.out a := by
  refine foldlM_inv (P := fun pre (s' : Rank) => (∀ p ∈ pre, s'.sd (g.bare p) = some (b p).defect) ∧
      (∀ a, (∀ p ∈ pre, a ≠ g.bare p) → s'.sd a = s.sd a) ∧
      (∀ a, s'.m2 a = if ∃ p ∈ pre, .inl a ∈ corners g (up p) p (b p) then some 1 else s.m2 a) ∧
      ∀ a, s'.out a = if ∃ p ∈ pre, .inr a ∈ corners g (up p) p (b p) then some true else s.out a)
    order ⟨by simp, by simp, by simp, by simp⟩ ?_
  intro pre p post hL t ⟨h1, h2, h3, h4⟩
  have hp : p ∈ order := by rw [hL]; simp
  have hpre : ∀ q ∈ pre, q ∈ order ∧ q ≠ p := by
    intro q hq
    refine ⟨by rw [hL]; simp [hq], ?_⟩
    rintro rfl
    rw [hL, List.nodup_append] at hnd
    exact hnd.2.2 q hq q (by simp) rfl
  have hne : ∀ q ∈ pre, g.bare p ≠ g.bare q := fun q hq hc =>
    (hpre q hq).2 (bare_inj q p (hin q (hpre q hq).1) (hin p hp) hc.symm)
  have e0 : t.sd (g.bare p) = some (b p) := by rw [h2 _ hne]; exact hb p hp
  have hw : t.sd.write (g.bare p) (b p).defect =
      some fun a => if a = g.bare p then some (b p).defect else t.sd a :=
    write_eq _ _ _ (by rw [e0]; rfl)
  obtain ⟨t', f1, f2, f3, f4⟩ := puts_spec (corners g (up p) p (b p))
    { t with sd := fun a => if a = g.bare p then some (b p).defect else t.sd a } (by
      intro c hcl
      refine has_of (hc p hp c hcl) ?_ ?_
      · intro a ha
        show (t.m2 a).isSome
        rw [h3]
        split
        · rfl
        · exact ha
      · intro a ha
        show (t.out a).isSome
        rw [h4]
        split
        · rfl
        · exact ha)
  refine ⟨t', ?_, ?_, ?_, ?_, ?_⟩
  · unfold mark
    rw [e0]
    simp only [Option.bind_eq_bind, Option.bind_some]
    rw [hw]
    exact f1
  · intro q hq
    rw [f2]
    rcases List.mem_append.1 hq with hq | hq
    · show (if g.bare q = g.bare p then _ else _) = _
      rw [if_neg (hne q hq).symm]
      exact h1 q hq
    · rw [List.mem_singleton.1 hq]
      exact if_pos rfl
  · intro a ha
    rw [f2]
    show (if a = g.bare p then _ else _) = _
    rw [if_neg (ha p (by simp))]
    exact h2 a fun q hq => ha q (by simp [hq])
  · intro a
    rw [f3]
    show (if _ then _ else t.m2 a) = _
    rw [h3]
    simp only [List.mem_append, List.mem_singleton, or_and_right, exists_or, exists_eq_left]
    by_cases hx : Sum.inl a ∈ corners g (up p) p (b p) <;>
      by_cases hy : ∃ q ∈ pre, Sum.inl a ∈ corners g (up q) q (b q) <;> simp [hx, hy]
  · intro a
    rw [f4]
    show (if _ then _ else t.out a) = _
    rw [h4]
    simp only [List.mem_append, List.mem_singleton, or_and_right, exists_or, exists_eq_left]
    by_cases hx : Sum.inr a ∈ corners g (up p) p (b p) <;>
      by_cases hy : ∃ q ∈ pre, Sum.inr a ∈ corners g (up q) q (b q) <;> simp [hx, hy]

/-- The corners of the pierced plaquettes of one site; `u` tells those above. -/
def Touch (L : ℕ) (b : Byte) (a a' x y : ℕ) (u : Bool) : Prop :=
  (b.xy = true ∧ Adj L a x ∧ Adj L a' y ∧ u = false) ∨ (b.yz = true ∧ x = a ∧ Adj L a' y) ∨
    (b.zx = true ∧ Adj L a x ∧ y = a')

theorem mem_corners (up : ℕ → ℕ → Cell) (p : Site) (b : Byte) (c : Cell) :
    c ∈ corners g up p b ↔ ∃ x y u, Touch g.L b p.1 p.2.1 x y u ∧
      c = if u then up x y else .inl (g.pad (x, y, p.2.2)) := by
  obtain ⟨a, a', z⟩ := p
  constructor
  · intro h
    unfold corners at h
    dsimp only at h
    split at h
    · next ho =>
      simp only [List.mem_append, List.mem_singleton] at h
      rcases h with ((h | h) | h) | h
      · refine ⟨a, a', false, ?_, h⟩
        unfold Byte.only at ho
        simp only [Bool.or_eq_true] at ho
        rcases ho with (ho | ho) | ho
        · exact Or.inl ⟨ho, Or.inl rfl, Or.inl rfl, rfl⟩
        · exact Or.inr (Or.inl ⟨ho, rfl, Or.inl rfl⟩)
        · exact Or.inr (Or.inr ⟨ho, Or.inl rfl, rfl⟩)
      · split at h
        · next hb =>
          simp only [List.mem_cons, List.not_mem_nil, or_false] at h
          rcases h with h | h | h
          · exact ⟨_, _, false, Or.inl ⟨hb, Or.inr rfl, Or.inl rfl, rfl⟩, h⟩
          · exact ⟨_, _, false, Or.inl ⟨hb, Or.inl rfl, Or.inr rfl, rfl⟩, h⟩
          · exact ⟨_, _, false, Or.inl ⟨hb, Or.inr rfl, Or.inr rfl, rfl⟩, h⟩
        · simp at h
      · split at h
        · next hb =>
          simp only [List.mem_cons, List.not_mem_nil, or_false] at h
          rcases h with h | h | h
          · exact ⟨_, _, false, Or.inr (Or.inl ⟨hb, rfl, Or.inr rfl⟩), h⟩
          · exact ⟨_, _, true, Or.inr (Or.inl ⟨hb, rfl, Or.inl rfl⟩), h⟩
          · exact ⟨_, _, true, Or.inr (Or.inl ⟨hb, rfl, Or.inr rfl⟩), h⟩
        · simp at h
      · split at h
        · next hb =>
          simp only [List.mem_cons, List.not_mem_nil, or_false] at h
          rcases h with h | h | h
          · exact ⟨_, _, false, Or.inr (Or.inr ⟨hb, Or.inr rfl, rfl⟩), h⟩
          · exact ⟨_, _, true, Or.inr (Or.inr ⟨hb, Or.inl rfl, rfl⟩), h⟩
          · exact ⟨_, _, true, Or.inr (Or.inr ⟨hb, Or.inr rfl, rfl⟩), h⟩
        · simp at h
    · simp at h
  · rintro ⟨x, y, u, h, rfl⟩
    unfold corners
    rcases h with ⟨hb, hx, hy, rfl⟩ | ⟨hb, rfl, hy⟩ | ⟨hb, hx, rfl⟩
    · have ho : b.only = true := by unfold Byte.only; simp [hb]
      rw [if_pos ho, if_pos hb]
      rcases hx with rfl | rfl <;> rcases hy with rfl | rfl <;> simp
    · have ho : b.only = true := by unfold Byte.only; simp [hb]
      rw [if_pos ho, if_pos hb]
      rcases hy with rfl | rfl <;> cases u <;> simp
    · have ho : b.only = true := by unfold Byte.only; simp [hb]
      rw [if_pos ho, if_pos hb]
      rcases hx with rfl | rfl <;> cases u <;> simp

/-- `Corner` in terms of `Touch`. -/
theorem corner_iff (L T : ℕ) (f : ℕ → ℕ → ℕ → Byte) (x y z : ℕ) :
    Corner L T f x y z ↔ ∃ a b c u, a < L ∧ b < L ∧ c < T ∧ Touch L (f a b c) a b x y u ∧
      z = if u then (c + 1) % T else c := by
  unfold Corner Touch
  constructor
  · rintro ⟨a, b, c, ha, hb, hc, ⟨h, hx, hy, rfl⟩ | ⟨h, rfl, hy, hz⟩ | ⟨h, hx, rfl, hz⟩⟩
    · exact ⟨a, b, z, false, ha, hb, hc, Or.inl ⟨h, hx, hy, rfl⟩, rfl⟩
    · rcases hz with rfl | rfl
      · exact ⟨x, b, z, false, ha, hb, hc, Or.inr (Or.inl ⟨h, rfl, hy⟩), rfl⟩
      · exact ⟨x, b, c, true, ha, hb, hc, Or.inr (Or.inl ⟨h, rfl, hy⟩), rfl⟩
    · rcases hz with rfl | rfl
      · exact ⟨a, y, z, false, ha, hb, hc, Or.inr (Or.inr ⟨h, hx, rfl⟩), rfl⟩
      · exact ⟨a, y, c, true, ha, hb, hc, Or.inr (Or.inr ⟨h, hx, rfl⟩), rfl⟩
  · rintro ⟨a, b, c, u, ha, hb, hc, h, hz⟩
    refine ⟨a, b, c, ha, hb, hc, ?_⟩
    have hz' : Adj T c z := by
      cases u
      · exact Or.inl hz
      · exact Or.inr hz
    rcases h with ⟨h, hx, hy, rfl⟩ | ⟨h, rfl, hy⟩ | ⟨h, hx, rfl⟩
    · exact Or.inl ⟨h, hx, hy, hz⟩
    · exact Or.inr (Or.inl ⟨h, rfl, hy, hz'⟩)
    · exact Or.inr (Or.inr ⟨h, hx, rfl, hz'⟩)

theorem touch_lt {L : ℕ} {b : Byte} {a a' x y : ℕ} {u : Bool} (h : Touch L b a a' x y u) (ha : a < L)
    (ha' : a' < L) : x < L ∧ y < L := by
  have hm : ∀ n, n % L < L := fun n => Nat.mod_lt _ (by omega)
  have hadj : ∀ a x, a < L → Adj L a x → x < L := by
    rintro a x ha (rfl | rfl)
    · exact ha
    · exact hm _
  rcases h with ⟨_, hx, hy, _⟩ | ⟨_, rfl, hy⟩ | ⟨_, hx, rfl⟩
  · exact ⟨hadj _ _ ha hx, hadj _ _ ha' hy⟩
  · exact ⟨ha, hadj _ _ ha' hy⟩
  · exact ⟨hadj _ _ ha hx, ha'⟩

end Jaxions.Masker
