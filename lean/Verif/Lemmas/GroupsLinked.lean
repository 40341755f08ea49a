import Verif.Lemmas.GroupsSites

/-
The groups made in the order of the sites are the linked sets.
-/

namespace Jaxions.Groups

variable {g : Geo}

theorem touch_symm {a b : Site} (h : Touch g a b) : Touch g b a := by
  rcases h with ⟨h1, h2, h3⟩ | ⟨h1, h2, h3⟩ | ⟨h1, h2, h3⟩
  · exact Or.inl ⟨h1.symm, h2.symm, h3.symm⟩
  · exact Or.inr (Or.inl ⟨h1.symm, h2.symm, h3.symm⟩)
  · exact Or.inr (Or.inr ⟨h1.symm, h2.symm, h3.symm⟩)

theorem linked_symm {dense : Site → Bool} {a b : Site} (h : Linked g dense a b)
    (hd : dense a = true) : Linked g dense b a := by
  suffices dense b = true ∧ Linked g dense b a from this.2
  induction h with
  | refl => exact ⟨hd, .refl⟩
  | tail _ h ih =>
    obtain ⟨h1, h2, h3, h4⟩ := h
    exact ⟨h3, Relation.ReflTransGen.head ⟨h2, h1, ih.1, touch_symm h4⟩ ih.2⟩

/-- What the search leaves when the sites are done in order. -/
structure Ordered (g : Geo) (dense : Site → Bool) (m2h : ℕ → ℕ) (d : List ℕ) : Prop where
  mem : ∀ n, n ∈ d ↔ ∃ a : Site, a.In g ∧ dense a = true ∧ n = a.no g
  pos : ∀ a : Site, a.In g → 0 < m2h (a.no g) → dense a = true
  zero : ∀ a : Site, a.In g → dense a = true → m2h (a.no g) = 0 → d.head? = some (a.no g)
  origin : 0 ∈ d → d.head? = some 0

theorem split_of_mem {A : Type} {x : A} {l : List A} (h : x ∈ l) : ∃ a b, l = a ++ x :: b :=
  List.append_of_mem h

theorem comp_spec (hn : 2 ≤ g.n1) {dense : Site → Bool} {m2h : ℕ → ℕ} {d : List ℕ}
    {h0 new : List Group} {s : Grp} (h : Inv g m2h d h0 new s) (ho : Ordered g dense m2h d) :
    ∀ (n : ℕ) (a : List Group) (G : Group) (b : List Group), a.length = n → new = a ++ G :: b →
      ∃ p : Site, p.In g ∧ dense p = true ∧ G.pts.head? = some (p.no g) ∧
        ∀ i, i ∈ G.pts ↔ ∃ q : Site, q.In g ∧ i = q.no g ∧ Linked g dense p q := by
  intro n
  induction n using Nat.strong_induction_on with
  | _ n ih =>
    intro a G b hlen e
    obtain ⟨p', l, hp1, ⟨d1, d2, hd, hd1⟩, hpa, hpts⟩ := h.shape a G b e
    obtain ⟨p, hp, hpd, hpe⟩ := (ho.mem p').1 (by rw [hd]; simp)
    subst hpe
    refine ⟨p, hp, hpd, by rw [hp1]; rfl, ?_⟩
    -- no linked site is in an earlier group
    have hfar : ∀ q : Site, q.In g → Linked g dense p q → q.no g ∉ flat a := by
      intro q hq hl hc
      obtain ⟨G', hG', hqG⟩ := List.mem_flatMap.1 hc
      obtain ⟨a1, a2, ea⟩ := split_of_mem hG'
      obtain ⟨P, hP, hPd, -, hiff⟩ := ih a1.length (by rw [← hlen, ea]; simp) a1 G' (a2 ++ G :: b) rfl
        (by rw [e, ea]; simp)
      obtain ⟨q', hq', e1, hl'⟩ := (hiff _).1 hqG
      have e2 := no_inj hq hq' e1
      subst e2
      exact hpa (List.mem_flatMap.2 ⟨G', hG', (hiff _).2 ⟨p, hp, rfl, hl'.trans (linked_symm hl hpd)⟩⟩)
    -- the first candidate is the seed or in an earlier group
    have hfirst : ∀ c, d.head? = some c → c = p.no g ∨ c ∈ flat a := by
      intro c hc
      rw [hd] at hc
      cases d1 with
      | nil => left; simpa using hc.symm
      | cons x xs =>
        right
        have : x = c := by simpa using hc
        subst this
        exact hd1 _ (by simp)
    have hstep : ∀ q : Site, q.In g → dense q = true → Linked g dense p q → q ≠ p →
        d.head? ≠ some (q.no g) := by
      intro q hq hqd hl hqp hc
      rcases hfirst _ hc with h1 | h1
      · exact hqp (no_inj hq hp h1)
      · exact hfar q hq hl h1
    have hreach : ∀ q : Site, (Reached g m2h a p q ↔ Linked g dense p q) := by
      intro q
      constructor
      · intro hr
        induction hr with
        | refl => exact .refl
        | @tail x y _ hs ihx =>
          obtain ⟨h1, h2, h3, -, h5⟩ := hs
          exact ihx.tail ⟨h1, h2, ho.pos y h2 h3, h5.1⟩
      · intro hr
        induction hr with
        | refl => exact .refl
        | @tail x y hxy hs ihx =>
          obtain ⟨h1, h2, h3, h4⟩ := hs
          by_cases hyp : y = p
          · rw [hyp]; exact .refl
          · have hly : Linked g dense p y := hxy.tail ⟨h1, h2, h3, h4⟩
            have hne := hstep y h2 h3 hly hyp
            refine Relation.ReflTransGen.tail ihx ⟨h1, h2, ?_, ?_, h4, ?_⟩
            · rcases Nat.eq_zero_or_pos (m2h (y.no g)) with h0 | h0
              · exact absurd (ho.zero y h2 h3 h0) hne
              · exact h0
            · intro G' hG' hc
              exact hfar y h2 hly (List.mem_flatMap.2 ⟨G', hG', hc⟩)
            · rintro ⟨-, rfl⟩
              have e0 : (⟨0, 0, 0⟩ : Site).no g = 0 := by simp [Site.no]
              rw [e0] at hne
              exact hne (ho.origin ((ho.mem 0).2 ⟨_, h2, h3, e0.symm⟩))
    intro i
    rw [hpts i, reach_iff hn m2h a hp]
    constructor
    · rintro ⟨q, hq, e1, hr⟩; exact ⟨q, hq, e1, (hreach q).1 hr⟩
    · rintro ⟨q, hq, e1, hr⟩; exact ⟨q, hq, e1, (hreach q).2 hr⟩

theorem right_of (hn : 2 ≤ g.n1) {dense : Site → Bool} {m2h : ℕ → ℕ} {d : List ℕ}
    {new : List Group} {s : Grp} (h : Inv g m2h d [] new s) (ho : Ordered g dense m2h d) :
    Right g dense s.halo := by
  have hh : s.halo = new := by rw [h.halo]; rfl
  rw [hh]
  have hcomp : ∀ G ∈ new, ∃ p : Site, p.In g ∧ dense p = true ∧ G.pts.head? = some (p.no g) ∧
      ∀ i, i ∈ G.pts ↔ ∃ q : Site, q.In g ∧ i = q.no g ∧ Linked g dense p q := by
    intro G hG
    obtain ⟨a, b, e⟩ := split_of_mem hG
    exact comp_spec hn h ho _ a G b rfl e
  have hdense : ∀ p q : Site, dense p = true → Linked g dense p q → dense q = true := by
    intro p q hp hl
    rcases Relation.ReflTransGen.cases_tail hl with e | ⟨_, -, e⟩
    · rw [e]; exact hp
    · exact e.2.2.1
  refine ⟨h.gids, h.nodup, ?_, ?_⟩
  · intro n
    constructor
    · intro hn'
      obtain ⟨G, hG, hm⟩ := List.mem_flatMap.1 hn'
      obtain ⟨p, hp, hpd, -, hiff⟩ := hcomp G hG
      obtain ⟨q, hq, e, hl⟩ := (hiff n).1 hm
      exact ⟨q, hq, hdense p q hpd hl, e⟩
    · intro hx
      exact h.seeds n ((ho.mem n).2 hx)
  · intro G hG
    obtain ⟨p, hp, hpd, hhd, hiff⟩ := hcomp G hG
    refine ⟨by rintro e; rw [e] at hhd; simp at hhd, ?_⟩
    intro a ha haG b hb
    obtain ⟨a', ha', e, hl⟩ := (hiff _).1 haG
    have e2 := no_inj ha ha' e
    subst e2
    rw [hiff]
    constructor
    · rintro ⟨b', hb', e, hl'⟩
      have e2 := no_inj hb hb' e
      subst e2
      exact (linked_symm hl hpd).trans hl'
    · intro hl'
      exact ⟨b, hb, rfl, hl.trans hl'⟩

/-- The labels of one thread. -/
theorem accept_other (hit : ℕ → Bool) : ∀ (l : List ℕ) (a : ℕ) (h : ℕ → ℕ) (i : ℕ),
    (i ∉ l ∨ hit i = false) → accept hit l a h i = h i := by
  intro l
  induction l with
  | nil => intro a h i _; rfl
  | cons k l ih =>
    intro a h i hi
    unfold accept
    have hi' : i ∉ l ∨ hit i = false := by
      rcases hi with hi | hi
      · left; intro hc; exact hi (by simp [hc])
      · exact Or.inr hi
    by_cases hk : hit k = true
    · rw [if_pos hk, ih _ _ i hi']
      unfold set
      rw [if_neg]
      rintro rfl
      rcases hi with hi | hi
      · exact hi (by simp)
      · rw [hk] at hi; exact absurd hi (by decide)
    · rw [if_neg hk]; exact ih _ _ i hi'

theorem accept_at (hit : ℕ → Bool) (l2 : List ℕ) (i : ℕ) (hi : hit i = true) (h2 : i ∉ l2) :
    ∀ (l1 : List ℕ) (a : ℕ) (h : ℕ → ℕ),
      accept hit (l1 ++ i :: l2) a h i = a + l1.countP hit := by
  intro l1
  induction l1 with
  | nil =>
    intro a h
    rw [List.nil_append]
    unfold accept
    rw [if_pos hi, accept_other hit l2 _ _ i (Or.inl h2)]
    simp [set]
  | cons k l ih =>
    intro a h
    rw [List.cons_append]
    unfold accept
    by_cases hk : hit k = true
    · rw [if_pos hk, ih, List.countP_cons_of_pos hk]; omega
    · rw [if_neg hk, ih, List.countP_cons_of_neg hk]

theorem threads_other (hit : ℕ → Bool) : ∀ (T : List (List ℕ)) (h : ℕ → ℕ) (i : ℕ),
    (i ∉ T.flatten ∨ hit i = false) → T.foldl (fun h l => accept hit l 0 h) h i = h i := by
  intro T
  induction T with
  | nil => intro h i _; rfl
  | cons l T ih =>
    intro h i hi
    rw [List.foldl_cons, ih, accept_other]
    · rcases hi with hi | hi
      · left; intro hc; exact hi (by simp [hc])
      · exact Or.inr hi
    · rcases hi with hi | hi
      · left; intro hc; exact hi (by rw [List.flatten_cons]; exact List.mem_append_right _ hc)
      · exact Or.inr hi

theorem threads_at (hit : ℕ → Bool) (A B : List (List ℕ)) (l1 l2 : List ℕ) (i : ℕ) (h : ℕ → ℕ)
    (hi : hit i = true) (h2 : i ∉ l2) (hB : i ∉ B.flatten) :
    (A ++ (l1 ++ i :: l2) :: B).foldl (fun h l => accept hit l 0 h) h i = l1.countP hit := by
  rw [List.foldl_append, List.foldl_cons, threads_other hit B _ i (Or.inl hB), accept_at hit l2 i hi h2]
  omega

/-- One thread, in order. -/
theorem ordered_one {dense : Site → Bool} {hit : ℕ → Bool} (hs : Shows g dense hit) (mem : Mem) :
    Ordered g dense
      (search g false hit [List.range g.n3] (List.range g.n3) (start mem)).mem.m2h
      (search g false hit [List.range g.n3] (List.range g.n3) (start mem)).cidx := by
  have hc : (search g false hit [List.range g.n3] (List.range g.n3) (start mem)).cidx =
      (List.range g.n3).filter hit := by
    show [] ++ ((List.range g.n3).filter hit).map (fun i => if false = true then _ else i) = _
    simp
  have hm : ∀ i, (search g false hit [List.range g.n3] (List.range g.n3) (start mem)).mem.m2h i =
      [List.range g.n3].foldl (fun h l => accept hit l 0 h) (fun _ => 0) i := fun _ => rfl
  have hsplit : ∀ i, i < g.n3 → List.range g.n3 = List.range i ++ i :: List.range' (i + 1) (g.n3 - i - 1) := by
    intro i hi
    have h1 : List.range g.n3 = List.range' 0 g.n3 := List.range_eq_range'
    have h2 : List.range i = List.range' 0 i := List.range_eq_range'
    rw [h1, h2]
    have h3 : i :: List.range' (i + 1) (g.n3 - i - 1) = List.range' i (g.n3 - i) := by
      have : g.n3 - i = (g.n3 - i - 1) + 1 := by omega
      rw [this, List.range'_succ]
      congr 1
    rw [h3]
    have h4 := List.range'_append_1 (s := 0) (m := i) (n := g.n3 - i)
    rw [Nat.zero_add] at h4
    rw [h4]; congr 1; omega
  have hval : ∀ i, i < g.n3 → hit i = true →
      (search g false hit [List.range g.n3] (List.range g.n3) (start mem)).mem.m2h i =
        (List.range i).countP hit := by
    intro i hi hh
    rw [hm, hsplit i hi]
    exact threads_at hit [] [] (List.range i) _ i _ hh (by simp [List.mem_range']; omega) (by simp)
  have hhead : ∀ i, i < g.n3 → hit i = true → (List.range i).countP hit = 0 →
      ((List.range g.n3).filter hit).head? = some i := by
    intro i hi hh h0
    rw [hsplit i hi, List.filter_append, List.filter_cons_of_pos hh]
    have : (List.range i).filter hit = [] := by
      rw [← List.length_eq_zero_iff, ← List.countP_eq_length_filter]; exact h0
    rw [this]; rfl
  rw [hc]
  refine ⟨?_, ?_, ?_, ?_⟩
  · intro n
    rw [List.mem_filter, List.mem_range]
    constructor
    · rintro ⟨h1, h2⟩
      obtain ⟨a, ha, rfl⟩ := site_of h1
      exact ⟨a, ha, by rw [← hs a ha]; exact h2, rfl⟩
    · rintro ⟨a, ha, h1, rfl⟩
      exact ⟨no_lt ha, by rw [hs a ha]; exact h1⟩
  · intro a ha h0
    by_contra hc'
    rw [hm, threads_other hit _ _ _ (Or.inr (by rw [hs a ha]; simpa using hc'))] at h0
    exact absurd h0 (by decide)
  · intro a ha hd h0
    have hh : hit (a.no g) = true := by rw [hs a ha]; exact hd
    rw [hval _ (no_lt ha) hh] at h0
    exact hhead _ (no_lt ha) hh h0
  · intro h0
    obtain ⟨h1, h2⟩ := List.mem_filter.1 h0
    exact hhead 0 (List.mem_range.1 h1) h2 rfl

end Jaxions.Groups
