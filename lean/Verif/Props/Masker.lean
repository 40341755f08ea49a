import Verif.Lemmas.Masker

/-
C74: the masks of strings start from the corners of the pierced plaquettes of the whole lattice.
-/

namespace Jaxions.Masker

open AxSpec (Grid Site pad_inj bare_inj pad_lt bare_lt)

variable {g : Grid}

theorem slice_pad (x y : ℕ) : slice g x y = g.pad (x, y, 0) := by
  unfold slice Grid.pad; simp

theorem slice_lt {x y : ℕ} (hx : x < g.L) (hy : y < g.L) : slice g x y < g.L * (g.L + 2) := by
  have := pair_lt (a := g.L) (b := g.L + 2) (q := y) (r := x) hy (by omega)
  unfold slice
  calc x + (g.L + 2) * y = y * (g.L + 2) + x := by ring
    _ < _ := this

theorem slice_inj {x y x' y' : ℕ} (hx : x < g.L) (hx' : x' < g.L) (h : slice g x y = slice g x' y') :
    x = x' ∧ y = y' := by
  unfold slice at h
  have h' : y * (g.L + 2) + x = y' * (g.L + 2) + x' := by linarith [mul_comm y (g.L + 2), mul_comm y' (g.L + 2)]
  have := pair_inj (by omega) (by omega) h'
  exact ⟨this.2, this.1⟩

open Classical in
/-- Both sweeps of marks on one rank. -/
theorem rank_marks (hg : g.Ok) {r : ℕ} {f : ℕ → ℕ → ℕ → Byte} {s : Rank} (hm : HasMap g r f s)
    (hc : Clear g s) {last rest : List Site} (hl : Sites g (· = g.Lz - 1) last)
    (hr : Sites g (· < g.Lz - 1) rest) :
    ∃ s', marks g last rest s = some s' ∧
      (∀ x y z, x < g.L → y < g.L → z < g.Lz →
        s'.sd (g.bare (x, y, z)) = some (f x y (r * g.Lz + z)).defect) ∧
      (∀ x y z, x < g.L → y < g.L → z < g.Lz → s'.m2 (g.pad (x, y, z)) = some (if ∃ a b c u, a < g.L ∧
        b < g.L ∧ c < g.Lz ∧ Touch g.L (f a b (r * g.Lz + c)) a b x y u ∧ z = if u then c + 1 else c then 1 else 0)) ∧
      (∀ a, a < 2 * g.v3 → (∀ p, g.In p → a ≠ g.pad p) → s'.m2 a = some 0) ∧
      (∀ x y, x < g.L → y < g.L → s'.out (slice g x y) = some (decide (∃ a b, a < g.L ∧ b < g.L ∧
        Touch g.L (f a b (r * g.Lz + (g.Lz - 1))) a b x y true))) := by
  have hLz := hg.Lz
  let b : Site → Byte := fun p => f p.1 p.2.1 (r * g.Lz + p.2.2)
  have hv : ∀ p, g.In p → g.pad p < 2 * g.v3 := fun p hp => by have := pad_lt hg p hp; omega
  -- last slice
  obtain ⟨s1, e1, d1, o1, m1, t1⟩ := marks_spec (g := g) (fun _ x y => .inr (slice g x y)) last hl.nodup
    (fun p hp => ((hl.mem p).1 hp).1) b s
    (fun p hp => by
      obtain ⟨⟨h1, h2, h3⟩, _⟩ := (hl.mem p).1 hp
      exact hm _ _ _ h1 h2 h3)
    (fun p hp c hcc => by
      obtain ⟨⟨h1, h2, h3⟩, _⟩ := (hl.mem p).1 hp
      obtain ⟨x, y, u, ht, rfl⟩ := (mem_corners _ _ _ _).1 hcc
      obtain ⟨hx, hy⟩ := touch_lt ht h1 h2
      cases u
      · show (s.m2 _).isSome
        rw [hc.m2 _ (hv (x, y, p.2.2) ⟨hx, hy, h3⟩)]; rfl
      · show (s.out _).isSome
        rw [hc.out _ (slice_lt hx hy)]; rfl)
  -- the others
  obtain ⟨s2, e2, d2, o2, m2, t2⟩ := marks_spec (g := g) (fun p x y => .inl (g.pad (x, y, p.2.2 + 1))) rest
    hr.nodup (fun p hp => ((hr.mem p).1 hp).1) b s1
    (fun p hp => by
      obtain ⟨⟨h1, h2, h3⟩, h4⟩ := (hr.mem p).1 hp
      rw [o1]
      · exact hm _ _ _ h1 h2 h3
      · intro q hq h
        obtain ⟨hq1, hq2⟩ := (hl.mem q).1 hq
        have := bare_inj p q ⟨h1, h2, h3⟩ hq1 h
        subst this
        omega)
    (fun p hp c hcc => by
      obtain ⟨⟨h1, h2, h3⟩, h4⟩ := (hr.mem p).1 hp
      obtain ⟨x, y, u, ht, rfl⟩ := (mem_corners _ _ _ _).1 hcc
      obtain ⟨hx, hy⟩ := touch_lt ht h1 h2
      have key : ∀ z, z < g.Lz → (s1.m2 (g.pad (x, y, z))).isSome := by
        intro z hz
        rw [m1]
        split
        · rfl
        · rw [hc.m2 _ (hv _ ⟨hx, hy, hz⟩)]; rfl
      cases u
      · exact key _ h3
      · exact key _ (by omega))
  have hM : ∀ a, a < 2 * g.v3 → s2.m2 a = some (if (∃ p, g.In p ∧ ∃ x y u, x < g.L ∧ y < g.L ∧
      Touch g.L (b p) p.1 p.2.1 x y u ∧ (if u then p.2.2 + 1 else p.2.2) < g.Lz ∧
      a = g.pad (x, y, if u then p.2.2 + 1 else p.2.2)) then 1 else 0) := by
    intro a ha
    rw [m2, m1, hc.m2 a ha]
    by_cases h2 : ∃ p ∈ rest, Sum.inl a ∈ corners g (fun x y => .inl (g.pad (x, y, p.2.2 + 1))) p (b p)
    · rw [if_pos h2, if_pos]
      obtain ⟨p, hp, hcc⟩ := h2
      obtain ⟨h1, h4⟩ := (hr.mem p).1 hp
      obtain ⟨x, y, u, ht, hh⟩ := (mem_corners _ _ _ _).1 hcc
      obtain ⟨hx, hy⟩ := touch_lt ht h1.1 h1.2.1
      refine ⟨p, h1, x, y, u, hx, hy, ht, ?_, ?_⟩
      · split <;> omega
      · cases u
        · exact Sum.inl.inj hh
        · exact Sum.inl.inj hh
    · rw [if_neg h2]
      by_cases h1 : ∃ p ∈ last, Sum.inl a ∈ corners g (fun x y => .inr (slice g x y)) p (b p)
      · rw [if_pos h1, if_pos]
        obtain ⟨p, hp, hcc⟩ := h1
        obtain ⟨h1, h4⟩ := (hl.mem p).1 hp
        obtain ⟨x, y, u, ht, hh⟩ := (mem_corners _ _ _ _).1 hcc
        obtain ⟨hx, hy⟩ := touch_lt ht h1.1 h1.2.1
        cases u
        · exact ⟨p, h1, x, y, false, hx, hy, ht, h1.2.2, Sum.inl.inj hh⟩
        · exact (nomatch hh)
      · rw [if_neg h1, if_neg]
        rintro ⟨p, hp, x, y, u, hx, hy, ht, hz, rfl⟩
        by_cases hz' : p.2.2 = g.Lz - 1
        · refine h1 ⟨p, (hl.mem p).2 ⟨hp, hz'⟩, (mem_corners _ _ _ _).2 ⟨x, y, u, ht, ?_⟩⟩
          cases u
          · rfl
          · exfalso
            simp only [if_true] at hz
            omega
        · have := hp.2.2
          refine h2 ⟨p, (hr.mem p).2 ⟨hp, by omega⟩, (mem_corners _ _ _ _).2 ⟨x, y, u, ht, ?_⟩⟩
          cases u <;> rfl
  refine ⟨s2, ?_, ?_, ?_, ?_, ?_⟩
  · show (last.foldlM (markLast g) s >>= fun s => rest.foldlM (markRest g) s) = _
    have : last.foldlM (markLast g) s = some s1 := e1
    rw [this]
    exact e2
  · intro x y z hx hy hz
    by_cases h : z = g.Lz - 1
    · rw [o2]
      · exact d1 (x, y, z) ((hl.mem _).2 ⟨⟨hx, hy, hz⟩, h⟩)
      · intro q hq hh
        obtain ⟨hq1, hq2⟩ := (hr.mem q).1 hq
        have := bare_inj _ q ⟨hx, hy, hz⟩ hq1 hh
        subst this
        dsimp only at hq2
        omega
    · exact d2 (x, y, z) ((hr.mem _).2 ⟨⟨hx, hy, hz⟩, by dsimp only; omega⟩)
  · intro x y z hx hy hz
    rw [hM _ (hv _ ⟨hx, hy, hz⟩)]
    refine congrArg some (if_congr ?_ rfl rfl)
    constructor
    · rintro ⟨p, hp, x', y', u, hx', hy', ht, hz', hh⟩
      have := pad_inj _ _ ⟨hx, hy, hz⟩ ⟨hx', hy', hz'⟩ hh
      simp only [Prod.mk.injEq] at this
      obtain ⟨rfl, rfl, h3⟩ := this
      exact ⟨p.1, p.2.1, p.2.2, u, hp.1, hp.2.1, hp.2.2, ht, h3⟩
    · rintro ⟨a, b', c, u, ha, hb, hcz, ht, rfl⟩
      exact ⟨(a, b', c), ⟨ha, hb, hcz⟩, x, y, u, hx, hy, ht, hz, rfl⟩
  · intro a ha hne
    rw [hM a ha, if_neg]
    rintro ⟨p, hp, x, y, u, hx, hy, ht, hz, rfl⟩
    exact hne _ ⟨hx, hy, hz⟩ rfl
  · intro x y hx hy
    rw [t2, if_neg, t1, hc.out _ (slice_lt hx hy)]
    · have e : (∃ p ∈ last, Sum.inr (slice g x y) ∈ corners g (fun x y => .inr (slice g x y)) p (b p)) ↔
          ∃ a b, a < g.L ∧ b < g.L ∧ Touch g.L (f a b (r * g.Lz + (g.Lz - 1))) a b x y true := by
        constructor
        · rintro ⟨p, hp, hcc⟩
          obtain ⟨h1, h4⟩ := (hl.mem p).1 hp
          obtain ⟨x', y', u, ht, hh⟩ := (mem_corners _ _ _ _).1 hcc
          obtain ⟨hx', hy'⟩ := touch_lt ht h1.1 h1.2.1
          cases u
          · exact (nomatch hh)
          · obtain ⟨rfl, rfl⟩ := slice_inj hx hx' (Sum.inr.inj hh)
            refine ⟨p.1, p.2.1, h1.1, h1.2.1, ?_⟩
            rw [← h4]
            exact ht
        · rintro ⟨a, b', ha, hb, ht⟩
          refine ⟨(a, b', g.Lz - 1), (hl.mem _).2 ⟨⟨ha, hb, by dsimp only; omega⟩, rfl⟩, (mem_corners _ _ _ _).2
            ⟨x, y, true, ht, rfl⟩⟩
      by_cases h : ∃ a b, a < g.L ∧ b < g.L ∧ Touch g.L (f a b (r * g.Lz + (g.Lz - 1))) a b x y true
      · rw [if_pos (e.2 h), decide_eq_true h]
      · rw [if_neg (fun hh => h (e.1 hh)), decide_eq_false h]
    · rintro ⟨p, hp, hcc⟩
      obtain ⟨x', y', u, ht, hh⟩ := (mem_corners _ _ _ _).1 hcc
      cases u <;> exact (nomatch hh)

/-- Each pair of coordinates of a slice, in some order, maybe more than once. -/
def Pairs (g : Grid) (order : List (ℕ × ℕ)) : Prop := ∀ p, p ∈ order ↔ p.1 < g.L ∧ p.2 < g.L

theorem fuse_spec (hg : g.Ok) {recv : Heap ℕ Bool} (h : ℕ → ℕ → Bool)
    (hrecv : ∀ x y, x < g.L → y < g.L → recv (slice g x y) = some (h x y)) {order : List (ℕ × ℕ)}
    (ho : Pairs g order) (s : Rank) (hs : ∀ a, a < 2 * g.v3 → (s.m2 a).isSome) :
    ∃ s', fuse g recv order s = some s' ∧ s'.sd = s.sd ∧
      (∀ x y, x < g.L → y < g.L → s'.m2 (slice g x y) = if h x y then some 1 else s.m2 (slice g x y)) ∧
      ∀ a, (∀ x y, x < g.L → y < g.L → a ≠ slice g x y) → s'.m2 a = s.m2 a := by
  classical
  have hr : ∃ s', fuse g recv order s = some s' ∧ s'.sd = s.sd ∧
      (∀ a, s'.m2 a = if ∃ p ∈ order, h p.1 p.2 = true ∧ a = slice g p.1 p.2 then some 1 else s.m2 a) := by
    refine foldlM_inv (P := fun pre (s' : Rank) => s'.sd = s.sd ∧
      (∀ a, s'.m2 a = if ∃ p ∈ pre, h p.1 p.2 = true ∧ a = slice g p.1 p.2 then some 1 else s.m2 a))
      order ⟨rfl, by simp⟩ ?_
    intro pre p post hL t ⟨h1, h2⟩
    obtain ⟨hx, hy⟩ := (ho p).1 (by rw [hL]; simp)
    unfold fuseSite
    rw [hrecv _ _ hx hy]
    simp only [Option.bind_eq_bind, Option.bind_some]
    by_cases hh : h p.1 p.2 = true
    · rw [if_pos hh]
      have hlt : slice g p.1 p.2 < 2 * g.v3 := by
        rw [slice_pad]
        have := pad_lt hg (p.1, p.2, 0) ⟨hx, hy, hg.Lz⟩
        omega
      have hw : t.m2.write (slice g p.1 p.2) 1 = some fun b => if b = slice g p.1 p.2 then some 1 else t.m2 b := by
        refine write_eq _ _ _ ?_
        rw [h2]
        split
        · rfl
        · exact hs _ hlt
      refine ⟨{ t with m2 := fun b => if b = slice g p.1 p.2 then some 1 else t.m2 b }, ?_, h1, ?_⟩
      · unfold Rank.put
        dsimp only
        rw [hw]; rfl
      · intro a
        show (if a = slice g p.1 p.2 then _ else t.m2 a) = _
        rw [h2]
        simp only [List.mem_append, List.mem_singleton, or_and_right, exists_or, exists_eq_left]
        by_cases ha : a = slice g p.1 p.2
        · rw [if_pos ha, if_pos (Or.inr ⟨hh, ha⟩)]
        · rw [if_neg ha]
          refine if_congr ?_ rfl rfl
          constructor
          · exact Or.inl
          · rintro (hq | ⟨_, hq⟩)
            · exact hq
            · exact absurd hq ha
    · rw [if_neg hh]
      refine ⟨t, rfl, h1, ?_⟩
      intro a
      rw [h2]
      simp only [List.mem_append, List.mem_singleton, or_and_right, exists_or, exists_eq_left]
      refine if_congr ?_ rfl rfl
      constructor
      · exact Or.inl
      · rintro (hq | ⟨hq, _⟩)
        · exact hq
        · exact absurd hq hh
  obtain ⟨s', e, e1, e2⟩ := hr
  refine ⟨s', e, e1, ?_, ?_⟩
  · intro x y hx hy
    rw [e2]
    refine if_congr ?_ rfl rfl
    constructor
    · rintro ⟨p, hp, hh, he⟩
      obtain ⟨hx', hy'⟩ := (ho p).1 hp
      obtain ⟨rfl, rfl⟩ := slice_inj hx hx' he
      exact hh
    · intro hh
      exact ⟨(x, y), (ho _).2 ⟨hx, hy⟩, hh, rfl⟩
  · intro a ha
    rw [e2, if_neg]
    rintro ⟨p, hp, hh, he⟩
    obtain ⟨hx', hy'⟩ := (ho p).1 hp
    exact ha _ _ hx' hy' he

/-- Corners of the whole lattice seen from one rank. -/
theorem corner_rank {L Lz R r : ℕ} (hL : 0 < Lz) (hr : r < R) (f : ℕ → ℕ → ℕ → Byte) {x y z : ℕ} (hz : z < Lz) :
    Corner L (R * Lz) f x y (r * Lz + z) ↔
      (∃ a b c u, a < L ∧ b < L ∧ c < Lz ∧ Touch L (f a b (r * Lz + c)) a b x y u ∧ z = if u then c + 1 else c) ∨
      (z = 0 ∧ ∃ a b, a < L ∧ b < L ∧ Touch L (f a b ((r + R - 1) % R * Lz + (Lz - 1))) a b x y true) := by
  rw [corner_iff]
  constructor
  · rintro ⟨a, b, c, u, ha, hb, hc, ht, he⟩
    have hq : c / Lz < R := Nat.div_lt_of_lt_mul (by rw [mul_comm]; exact hc)
    have hm : c % Lz < Lz := Nat.mod_lt _ hL
    have hcc : c = c / Lz * Lz + c % Lz := (div_mul_add_mod c Lz).symm
    generalize c / Lz = q at *
    generalize c % Lz = m at *
    subst hcc
    cases u
    · simp only [Bool.false_eq_true, if_false] at he
      obtain ⟨rfl, rfl⟩ := pair_inj hz hm he
      exact Or.inl ⟨a, b, z, false, ha, hb, hz, ht, rfl⟩
    · simp only [if_true] at he
      by_cases hl : m + 1 < Lz
      · have : (q * Lz + m + 1) % (R * Lz) = q * Lz + (m + 1) :=
          Nat.mod_eq_of_lt (by rw [add_assoc]; exact pair_lt hq hl)
        rw [this] at he
        obtain ⟨rfl, rfl⟩ := pair_inj hz hl he
        exact Or.inl ⟨a, b, m, true, ha, hb, hm, ht, rfl⟩
      · have hmm : m = Lz - 1 := by omega
        have e1 : q * Lz + m + 1 = (q + 1) * Lz := by rw [add_mul]; omega
        rw [e1, Nat.mul_mod_mul_right] at he
        have e2 : r * Lz + z = (q + 1) % R * Lz + 0 := by omega
        obtain ⟨h1, h2⟩ := pair_inj hz hL e2
        refine Or.inr ⟨h2, a, b, ha, hb, ?_⟩
        have : (r + R - 1) % R = q := by
          rcases Nat.lt_or_ge (q + 1) R with h | h
          · rw [Nat.mod_eq_of_lt h] at h1
            rw [show r + R - 1 = q + R by omega, Nat.add_mod_right, Nat.mod_eq_of_lt hq]
          · have : q + 1 = R := by omega
            rw [this, Nat.mod_self] at h1
            rw [show r + R - 1 = q by omega, Nat.mod_eq_of_lt hq]
        rw [this, ← hmm]
        exact ht
  · rintro (⟨a, b, c, u, ha, hb, hc, ht, he⟩ | ⟨rfl, a, b, ha, hb, ht⟩)
    · refine ⟨a, b, r * Lz + c, u, ha, hb, pair_lt hr hc, ht, ?_⟩
      cases u
      · simp only [Bool.false_eq_true, if_false] at he ⊢
        rw [he]
      · simp only [if_true] at he ⊢
        rw [add_assoc, Nat.mod_eq_of_lt (pair_lt hr (by omega)), he]
    · have hq : (r + R - 1) % R < R := Nat.mod_lt _ (by omega)
      refine ⟨a, b, _, true, ha, hb, pair_lt hq (by omega), ht, ?_⟩
      simp only [if_true]
      rw [show (r + R - 1) % R * Lz + (Lz - 1) + 1 = ((r + R - 1) % R + 1) * Lz by rw [add_mul]; omega,
        Nat.mul_mod_mul_right]
      have : ((r + R - 1) % R + 1) % R = r := by
        rw [Nat.mod_add_mod, show r + R - 1 + 1 = r + R by omega, Nat.add_mod_right, Nat.mod_eq_of_lt hr]
      rw [this, add_zero]

/-- **C74** A plaquette counts as pierced with either sign of the winding, and the mask and the walls do
not count. -/
theorem C74_corner {L T : ℕ} (f : ℕ → ℕ → ℕ → Byte) (x y z : ℕ) :
    Corner L T f x y z ↔ ∃ a b c, a < L ∧ b < L ∧ c < T ∧
      ((((f a b c).xyp = true ∨ (f a b c).xyn = true) ∧ (x = a ∨ x = (a + 1) % L) ∧
          (y = b ∨ y = (b + 1) % L) ∧ z = c) ∨
        (((f a b c).yzp = true ∨ (f a b c).yzn = true) ∧ x = a ∧
          (y = b ∨ y = (b + 1) % L) ∧ (z = c ∨ z = (c + 1) % T)) ∨
        (((f a b c).zxp = true ∨ (f a b c).zxn = true) ∧ (x = a ∨ x = (a + 1) % L) ∧ y = b ∧
          (z = c ∨ z = (c + 1) % T))) := by
  simp only [Corner, Adj, Byte.xy, Byte.yz, Byte.zx, Bool.or_eq_true]

open Classical in
/-- C74.  Each rank marks what it sees of its part of the string map, sends the marks above its last
slice to the next rank and adds those it gets to its first slice.  Whatever the orders of the
threads, afterwards the array is one at the corners of the pierced plaquettes of the whole periodic
lattice and zero elsewhere, and the string map has lost its mask and nothing else. -/
theorem C74_premask (hg : g.Ok) {R : ℕ} (f : ℕ → ℕ → ℕ → Byte) (st : ℕ → Rank)
    (hmap : ∀ r, r < R → HasMap g r f (st r)) (hclear : ∀ r, r < R → Clear g (st r))
    (last rest : ℕ → List Site) (order : ℕ → List (ℕ × ℕ))
    (hl : ∀ r, r < R → Sites g (· = g.Lz - 1) (last r)) (hr : ∀ r, r < R → Sites g (· < g.Lz - 1) (rest r))
    (ho : ∀ r, r < R → Pairs g (order r)) :
    ∃ s1 s2 : ℕ → Rank,
      (∀ r, r < R → marks g (last r) (rest r) (st r) = some (s1 r)) ∧
      (∀ r, r < R → fuse g (s1 ((r + R - 1) % R)).out (order r) (s1 r) = some (s2 r)) ∧
      ∀ r, r < R →
        HasMap g r (fun x y z => { f x y z with mask := false }) (s2 r) ∧
        (∀ x y z, x < g.L → y < g.L → z < g.Lz → (s2 r).m2 (g.pad (x, y, z)) =
          some (if Corner g.L (R * g.Lz) f x y (r * g.Lz + z) then 1 else 0)) ∧
        ∀ a, a < 2 * g.v3 → (∀ p, g.In p → a ≠ g.pad p) → (s2 r).m2 a = some 0 := by
  have h1 : ∀ r, ∃ s', r < R → (marks g (last r) (rest r) (st r) = some s' ∧
      (∀ x y z, x < g.L → y < g.L → z < g.Lz →
        s'.sd (g.bare (x, y, z)) = some (f x y (r * g.Lz + z)).defect) ∧
      (∀ x y z, x < g.L → y < g.L → z < g.Lz → s'.m2 (g.pad (x, y, z)) = some (if ∃ a b c u, a < g.L ∧
        b < g.L ∧ c < g.Lz ∧ Touch g.L (f a b (r * g.Lz + c)) a b x y u ∧ z = if u then c + 1 else c then 1 else 0)) ∧
      (∀ a, a < 2 * g.v3 → (∀ p, g.In p → a ≠ g.pad p) → s'.m2 a = some 0) ∧
      (∀ x y, x < g.L → y < g.L → s'.out (slice g x y) = some (decide (∃ a b, a < g.L ∧ b < g.L ∧
        Touch g.L (f a b (r * g.Lz + (g.Lz - 1))) a b x y true)))) := by
    intro r
    by_cases h : r < R
    · obtain ⟨s', hs⟩ := rank_marks hg (hmap r h) (hclear r h) (hl r h) (hr r h)
      exact ⟨s', fun _ => hs⟩
    · exact ⟨st r, fun h' => absurd h' h⟩
  choose s1 hs1 using h1
  have h2 : ∀ r, ∃ s', r < R → (fuse g (s1 ((r + R - 1) % R)).out (order r) (s1 r) = some s' ∧
      s'.sd = (s1 r).sd ∧
      (∀ x y, x < g.L → y < g.L → s'.m2 (slice g x y) =
        if decide (∃ a b, a < g.L ∧ b < g.L ∧ Touch g.L (f a b ((r + R - 1) % R * g.Lz + (g.Lz - 1))) a b x y true)
          then some 1 else (s1 r).m2 (slice g x y)) ∧
      ∀ a, (∀ x y, x < g.L → y < g.L → a ≠ slice g x y) → s'.m2 a = (s1 r).m2 a) := by
    intro r
    by_cases h : r < R
    · obtain ⟨s', hs⟩ := fuse_spec hg (h := fun x y => decide (∃ a b, a < g.L ∧ b < g.L ∧
        Touch g.L (f a b ((r + R - 1) % R * g.Lz + (g.Lz - 1))) a b x y true))
        (hs1 ((r + R - 1) % R) (Nat.mod_lt _ (by omega))).2.2.2.2 (ho r h) (s1 r) (by
          intro a ha
          by_cases hp : ∃ p, g.In p ∧ a = g.pad p
          · obtain ⟨⟨x, y, z⟩, hp, rfl⟩ := hp
            rw [(hs1 r h).2.2.1 x y z hp.1 hp.2.1 hp.2.2]; rfl
          · push Not at hp
            rw [(hs1 r h).2.2.2.1 a ha hp]; rfl)
      exact ⟨s', fun _ => hs⟩
    · exact ⟨st r, fun h' => absurd h' h⟩
  choose s2 hs2 using h2
  refine ⟨s1, s2, fun r h => (hs1 r h).1, fun r h => (hs2 r h).1, fun r h => ⟨?_, ?_, ?_⟩⟩
  · intro x y z hx hy hz
    rw [(hs2 r h).2.1]
    exact (hs1 r h).2.1 x y z hx hy hz
  · intro x y z hx hy hz
    by_cases hz0 : z = 0
    · subst hz0
      rw [← slice_pad, (hs2 r h).2.2.1 x y hx hy, slice_pad, (hs1 r h).2.2.1 x y 0 hx hy hz]
      simp only [corner_rank hg.Lz h f hz, decide_eq_true_eq, true_and]
      by_cases hA : ∃ a b, a < g.L ∧ b < g.L ∧
          Touch g.L (f a b ((r + R - 1) % R * g.Lz + (g.Lz - 1))) a b x y true
      · rw [if_pos hA, if_pos (Or.inr hA)]
      · rw [if_neg hA]
        refine congrArg some (if_congr ?_ rfl rfl)
        exact ⟨Or.inl, fun hh => hh.resolve_right hA⟩
    · rw [(hs2 r h).2.2.2, (hs1 r h).2.2.1 x y z hx hy hz]
      · simp only [corner_rank hg.Lz h f hz, hz0, false_and, or_false]
      · intro x' y' hx' hy' he
        rw [slice_pad] at he
        have := pad_inj _ _ ⟨hx, hy, hz⟩ ⟨hx', hy', hg.Lz⟩ he
        simp only [Prod.mk.injEq] at this
        exact hz0 this.2.2
  · intro a ha hne
    rw [(hs2 r h).2.2.2]
    · exact (hs1 r h).2.2.2.1 a ha hne
    · intro x y hx hy
      rw [slice_pad]
      exact hne _ ⟨hx, hy, hg.Lz⟩

/-! ### Balls -/

/-- What one sweep of `ball` does to a byte. -/
def grown (C : Prop) [Decidable C] (b : Byte) : Byte := if C ∧ ¬ b.only = true then b.addOnly else b

/-- Each padded cell of the slab once, in some order. -/
structure Cells (g : Grid) (order : List ℕ) : Prop where
  nodup : order.Nodup
  mem : ∀ a, a ∈ order ↔ a < g.L * (g.L + 2) * g.Lz

/-- A padded cell is that of a site or in the padding. -/
theorem cell_cases (hg : g.Ok) {a : ℕ} (ha : a < g.L * (g.L + 2) * g.Lz) :
    (∃ x y z, x < g.L ∧ y < g.L ∧ z < g.Lz ∧ a = g.pad (x, y, z) ∧ a / (g.L + 2) / g.L = z ∧
      a / (g.L + 2) - z * g.L = y ∧ a - a / (g.L + 2) * (g.L + 2) = x) ∨
    ¬ a - a / (g.L + 2) * (g.L + 2) < g.L := by
  by_cases h : a - a / (g.L + 2) * (g.L + 2) < g.L
  · left
    have h1 : a = a / (g.L + 2) * (g.L + 2) + (a - a / (g.L + 2) * (g.L + 2)) := by
      have := Nat.div_mul_le_self a (g.L + 2); omega
    have h2 : a / (g.L + 2) < g.L * g.Lz := Nat.div_lt_of_lt_mul (by
      calc a < _ := ha
        _ = _ := by ring)
    generalize a - a / (g.L + 2) * (g.L + 2) = x at *
    generalize a / (g.L + 2) = t at *
    have h3 : t / g.L < g.Lz := Nat.div_lt_of_lt_mul h2
    have h4 : t % g.L < g.L := Nat.mod_lt _ hg.L
    have h5 := div_mul_add_mod t g.L
    generalize t / g.L = z at *
    refine ⟨x, t % g.L, z, h, h4, h3, ?_, rfl, by omega, rfl⟩
    generalize t % g.L = y at *
    rw [h1, ← h5]
    unfold Grid.pad
    ring
  · exact Or.inr h

open Classical in
/-- C74.  For balls the corners that the string map does not have are added to it, whatever the order
of the threads. -/
theorem C74_ball (hg : g.Ok) {C : ℕ → ℕ → ℕ → Prop} {b : ℕ → ℕ → ℕ → Byte} {s : Rank}
    (hm : ∀ x y z, x < g.L → y < g.L → z < g.Lz →
      s.m2 (g.pad (x, y, z)) = some (if C x y z then 1 else 0))
    (h0 : ∀ a, a < 2 * g.v3 → (∀ p, g.In p → a ≠ g.pad p) → s.m2 a = some 0)
    (hb : ∀ x y z, x < g.L → y < g.L → z < g.Lz → s.sd (g.bare (x, y, z)) = some (b x y z))
    {order : List ℕ} (ho : Cells g order) :
    ∃ s', ball g order s = some s' ∧ s'.m2 = s.m2 ∧
      ∀ x y z, x < g.L → y < g.L → z < g.Lz →
        s'.sd (g.bare (x, y, z)) = some (grown (C x y z) (b x y z)) := by
  have key : ∃ s', ball g order s = some s' ∧ s'.m2 = s.m2 ∧ ∀ x y z, x < g.L → y < g.L → z < g.Lz →
      s'.sd (g.bare (x, y, z)) = some (if g.pad (x, y, z) ∈ order then grown (C x y z) (b x y z)
        else b x y z) := by
    refine foldlM_inv (P := fun pre (s' : Rank) => s'.m2 = s.m2 ∧ ∀ x y z, x < g.L → y < g.L → z < g.Lz →
      s'.sd (g.bare (x, y, z)) = some (if g.pad (x, y, z) ∈ pre then grown (C x y z) (b x y z)
        else b x y z)) order ⟨rfl, ?_⟩ ?_
    · intro x y z hx hy hz
      simpa using hb x y z hx hy hz
    · intro pre a post hL t ⟨e1, e2⟩
      have ha : a < g.L * (g.L + 2) * g.Lz := (ho.mem a).1 (by rw [hL]; simp)
      have hnot : a ∉ pre := by
        intro hp
        have := ho.nodup
        rw [hL, List.nodup_append] at this
        exact this.2.2 a hp a (by simp) rfl
      -- nothing changes
      have idle : (∀ x y z, x < g.L → y < g.L → z < g.Lz → a = g.pad (x, y, z) →
          grown (C x y z) (b x y z) = b x y z) → t.m2 = s.m2 ∧ ∀ x y z, x < g.L → y < g.L → z < g.Lz →
          t.sd (g.bare (x, y, z)) = some (if g.pad (x, y, z) ∈ pre ++ [a] then grown (C x y z) (b x y z)
            else b x y z) := by
        intro hi
        refine ⟨e1, fun x y z hx hy hz => ?_⟩
        rw [e2 x y z hx hy hz]
        by_cases hp : g.pad (x, y, z) ∈ pre
        · rw [if_pos hp, if_pos (by simp [hp])]
        · rw [if_neg hp]
          by_cases hq : g.pad (x, y, z) = a
          · rw [if_pos (by simp [hq]), hi x y z hx hy hz hq.symm]
          · rw [if_neg (by simp [hp, hq])]
      rcases cell_cases hg ha with ⟨x, y, z, hx, hy, hz, hax, hz', hy', hx'⟩ | hbad
      · have ev : t.m2 a = some (if C x y z then 1 else 0) := by
          rw [e1, hax]; exact hm x y z hx hy hz
        have eb : t.sd (g.bare (x, y, z)) = some (b x y z) := by
          rw [e2 x y z hx hy hz, if_neg (by rw [← hax]; exact hnot)]
        have hidx : x + g.L * (y + g.L * z) = g.bare (x, y, z) := by
          unfold Grid.bare Grid.S; ring
        have huniq : ∀ x' y' z', x' < g.L → y' < g.L → z' < g.Lz → a = g.pad (x', y', z') →
            x' = x ∧ y' = y ∧ z' = z := by
          intro x' y' z' hx' hy' hz' h
          have := pad_inj (x', y', z') (x, y, z) ⟨hx', hy', hz'⟩ ⟨hx, hy, hz⟩ (by rw [← h, hax])
          simpa using this
        unfold ballCell
        rw [ev]
        simp only [Option.bind_eq_bind, Option.bind_some, hz', hy', hx', hx, if_true, hidx]
        by_cases hC : C x y z
        · rw [if_pos hC, if_pos one_pos, eb]
          simp only [Option.bind_some]
          by_cases hon : (b x y z).only = true
          · rw [if_pos hon]
            refine ⟨t, rfl, idle ?_⟩
            intro x' y' z' h1 h2 h3 h4
            obtain ⟨rfl, rfl, rfl⟩ := huniq x' y' z' h1 h2 h3 h4
            unfold grown
            rw [if_neg (fun h => h.2 hon)]
          · rw [if_neg hon, write_eq _ _ _ (by rw [eb]; rfl)]
            refine ⟨_, rfl, e1, ?_⟩
            intro x' y' z' h1 h2 h3
            show (if g.bare (x', y', z') = g.bare (x, y, z) then _ else t.sd _) = _
            by_cases hq : g.bare (x', y', z') = g.bare (x, y, z)
            · have := bare_inj (x', y', z') (x, y, z) ⟨h1, h2, h3⟩ ⟨hx, hy, hz⟩ hq
              simp only [Prod.mk.injEq] at this
              obtain ⟨rfl, rfl, rfl⟩ := this
              rw [if_pos rfl, if_pos (by simp [hax])]
              unfold grown
              rw [if_pos ⟨hC, hon⟩]
            · rw [if_neg hq, e2 x' y' z' h1 h2 h3]
              have hne : g.pad (x', y', z') ≠ a := by
                intro h
                obtain ⟨rfl, rfl, rfl⟩ := huniq x' y' z' h1 h2 h3 h.symm
                exact hq rfl
              refine congrArg some (if_congr ?_ rfl rfl)
              simp [hne]
        · rw [if_neg hC, if_neg (lt_irrefl _)]
          refine ⟨t, rfl, idle ?_⟩
          intro x' y' z' h1 h2 h3 h4
          obtain ⟨rfl, rfl, rfl⟩ := huniq x' y' z' h1 h2 h3 h4
          unfold grown
          rw [if_neg (fun h => hC h.1)]
      · have hsome : ∃ v, t.m2 a = some v := by
          rw [e1]
          by_cases hp : ∃ p, g.In p ∧ a = g.pad p
          · obtain ⟨⟨x, y, z⟩, hp, rfl⟩ := hp
            exact ⟨_, hm x y z hp.1 hp.2.1 hp.2.2⟩
          · push Not at hp
            refine ⟨0, h0 a ?_ hp⟩
            have h2 : g.Lz * g.L ≤ g.Ng * g.L * g.L := Nat.mul_le_mul_right _ hg.fits
            have h3 : g.Lz * g.L * (g.L + 2) ≤ g.L * g.L * (g.Lz + 2 * g.Ng) := by nlinarith
            have h4 : g.L * (g.L + 2) * g.Lz = g.Lz * g.L * (g.L + 2) := by ring
            have h5 : g.v3 = g.L * g.L * (g.Lz + 2 * g.Ng) := rfl
            omega
        obtain ⟨v, hv⟩ := hsome
        refine ⟨t, ?_, idle ?_⟩
        · unfold ballCell
          rw [hv]
          simp only [Option.bind_eq_bind, Option.bind_some, hbad, if_false]
          split <;> rfl
        · intro x y z hx hy hz h
          exfalso
          apply hbad
          have hd : a / (g.L + 2) = z * g.L + y := by
            rw [h]
            unfold Grid.pad
            dsimp only
            rw [show x + (g.L + 2) * y + g.L * (g.L + 2) * z = (z * g.L + y) * (g.L + 2) + x by ring]
            exact div_of (by omega)
          rw [hd, h]
          unfold Grid.pad
          dsimp only
          rw [show x + (g.L + 2) * y + g.L * (g.L + 2) * z = (z * g.L + y) * (g.L + 2) + x by ring]
          omega
  obtain ⟨s', e, e1, e2⟩ := key
  refine ⟨s', e, e1, fun x y z hx hy hz => ?_⟩
  rw [e2 x y z hx hy hz, if_pos]
  rw [ho.mem]
  unfold Grid.pad
  dsimp only
  have := pair_lt (a := g.Lz * g.L) (b := g.L + 2) (q := z * g.L + y) (r := x) (pair_lt hz hy) (by omega)
  calc _ = (z * g.L + y) * (g.L + 2) + x := by ring
    _ < _ := this
    _ = _ := by ring

theorem defect_only (b : Byte) : b.defect.only = b.only := rfl

/-- A site with a pierced plaquette is a corner of it. -/
theorem corner_self {L T : ℕ} {f : ℕ → ℕ → ℕ → Byte} {x y z : ℕ} (hx : x < L) (hy : y < L) (hz : z < T)
    (h : (f x y z).only = true) : Corner L T f x y z := by
  unfold Byte.only at h
  simp only [Bool.or_eq_true] at h
  refine ⟨x, y, z, hx, hy, hz, ?_⟩
  rcases h with (h | h) | h
  · exact Or.inl ⟨h, Or.inl rfl, Or.inl rfl, rfl⟩
  · exact Or.inr (Or.inl ⟨h, rfl, Or.inl rfl, Or.inl rfl⟩)
  · exact Or.inr (Or.inr ⟨h, Or.inl rfl, rfl, Or.inl rfl⟩)

open Classical in
/-- The string map of the lattice after a call for balls, before the balls. -/
noncomputable def next (L T : ℕ) (f : ℕ → ℕ → ℕ → Byte) : ℕ → ℕ → ℕ → Byte := fun x y z =>
  grown (Corner L T f x y z) (f x y z).defect

/-- C74.  The map that the balls are then drawn around has exactly the corners of the pierced
plaquettes. -/
theorem C74_ball_corners {L T : ℕ} (f : ℕ → ℕ → ℕ → Byte) {x y z : ℕ} (hx : x < L) (hy : y < L) (hz : z < T) :
    (next L T f x y z).only = true ↔ Corner L T f x y z := by
  classical
  unfold next grown
  by_cases hC : Corner L T f x y z
  · by_cases ho : (f x y z).defect.only = true
    · rw [if_neg (fun h => h.2 ho)]
      exact ⟨fun _ => hC, fun _ => ho⟩
    · rw [if_pos ⟨hC, ho⟩]
      exact ⟨fun _ => hC, fun _ => rfl⟩
  · rw [if_neg (fun h => hC h.1)]
    refine ⟨fun h => ?_, fun h => absurd h hC⟩
    exact corner_self hx hy hz (by rw [← defect_only]; exact h)

/-- A map with one pierced plaquette. -/
def single : ℕ → ℕ → ℕ → Byte := fun x y z => if x = 0 ∧ y = 0 ∧ z = 0 then { xyp := true } else {}

/-- C74: the code's fault.  The corners stay in the string map, and the next mask takes them for pierced
plaquettes: with a single pierced plaquette, each further call reaches one site further along the
axis, so that the string has crossed the whole lattice after `L` calls. -/
theorem C74_ball_grows {L T n : ℕ} (hn : n < L) (hT : 0 < T) :
    ((next L T)^[n] single n 0 0).xy = true := by
  classical
  induction n with
  | zero => rfl
  | succ n ih =>
    have hi := ih (by omega)
    rw [Function.iterate_succ_apply']
    have hC : Corner L T ((next L T)^[n] single) (n + 1) 0 0 :=
      ⟨n, 0, 0, by omega, by omega, hT, Or.inl ⟨hi, Or.inr (Nat.mod_eq_of_lt hn).symm, Or.inl rfl, rfl⟩⟩
    unfold next
    unfold grown
    by_cases ho : (((next L T)^[n] single) (n + 1) 0 0).defect.only = true
    · -- a site with some of its plaquettes pierced here has them all, or is the first one
      rw [if_neg (fun h => h.2 ho)]
      have hall : ∀ m x y z, x ≠ 0 → (((next L T)^[m] single) x y z).only = true →
          (((next L T)^[m] single) x y z).xy = true := by
        intro m
        induction m with
        | zero =>
          intro x y z hx h
          have : single x y z = {} := if_neg (fun hh => hx hh.1)
          rw [Function.iterate_zero, id, this] at h
          cases h
        | succ m ihm =>
          intro x y z hx h
          rw [Function.iterate_succ_apply'] at h ⊢
          unfold next at h ⊢
          unfold grown at h ⊢
          split at h
          · next hh => rw [if_pos hh]; rfl
          · next hh => rw [if_neg hh]; exact ihm x y z hx h
      exact hall n (n + 1) 0 0 (by omega) ho
    · rw [if_pos ⟨hC, ho⟩]; rfl

/-- The right map has four corners and no more. -/
theorem single_corners {L T x y z : ℕ} (hL : 2 ≤ L) (hT : 0 < T) :
    Corner L T single x y z ↔ x ≤ 1 ∧ y ≤ 1 ∧ z = 0 := by
  have h1 : (0 + 1) % L = 1 := Nat.mod_eq_of_lt (by omega)
  constructor
  · rintro ⟨a, b, c, ha, hb, hc, h⟩
    unfold single at h
    by_cases h0 : a = 0 ∧ b = 0 ∧ c = 0
    · rw [if_pos h0] at h
      obtain ⟨rfl, rfl, rfl⟩ := h0
      rcases h with ⟨_, hx, hy, hz⟩ | ⟨h, _⟩ | ⟨h, _⟩
      · unfold Adj at hx hy
        rw [h1] at hx hy
        omega
      · cases h
      · cases h
    · rw [if_neg h0] at h
      rcases h with ⟨h, _⟩ | ⟨h, _⟩ | ⟨h, _⟩ <;> cases h
  · rintro ⟨hx, hy, rfl⟩
    refine ⟨0, 0, 0, by omega, by omega, hT, Or.inl ⟨rfl, ?_, ?_, rfl⟩⟩ <;> unfold Adj <;> rw [h1] <;> omega

example : ((next 8 8)^[7] single 7 0 0).xy = true ∧ ¬ Corner 8 8 single 7 0 0 :=
  ⟨C74_ball_grows (by norm_num) (by norm_num), fun h => by
    have := (single_corners (by norm_num) (by norm_num)).1 h
    omega⟩

end Jaxions.Masker
