import Verif.Lemmas.GroupsRun

/-
The loop over the candidates, unfolded fields.
-/

namespace Jaxions.Groups

variable {g : Geo}

/-- All points of a list of groups. -/
abbrev flat (l : List Group) : List ℕ := l.flatMap Group.pts

/-- One step of a group, when the groups of `a` are there already. -/
def Hop (g : Geo) (m2h : ℕ → ℕ) (a : List Group) (x y : ℕ) : Prop :=
  (y : ℤ) ∈ nebo g x ∧ 0 < m2h y ∧ y ∉ flat a

/-- The groups made so far. -/
structure Inv (g : Geo) (m2h : ℕ → ℕ) (d : List ℕ) (h0 : List Group) (new : List Group) (s : Grp) :
    Prop where
  halo : s.halo = h0 ++ new
  gid : s.gid = new.length + 1
  gids : new.map Group.gid = (List.range new.length).map (· + 1)
  nodup : (flat new).Nodup
  lt : ∀ i ∈ flat new, i < g.n3
  xy : ∀ i < g.n3, s.mem.xy i = true ↔ i ∈ flat new
  wall : ∀ i < g.n3, s.mem.wall i = true ↔ i ∈ flat new
  rest : ∀ i < g.n3, i ∉ flat new → s.mem.m2h i = m2h i
  label : ∀ G ∈ new, ∃ p l, G.pts = p :: l ∧ s.mem.m2h p = m2h p ∧ ∀ i ∈ l, s.mem.m2h i = G.gid
  seeds : ∀ i ∈ d, i ∈ flat new
  shape : ∀ a G b, new = a ++ G :: b → ∃ p l, G.pts = p :: l ∧
    (∃ d1 d2, d = d1 ++ p :: d2 ∧ ∀ i ∈ d1, i ∈ flat a) ∧ p ∉ flat a ∧
    ∀ i, i ∈ G.pts ↔ Relation.ReflTransGen (Hop g m2h a) p i

theorem pos_false (i : ℕ) : pos g false i = i := rfl

theorem append_eq_snoc {A : Type} {n a b : List A} {x y : A} (h : n ++ [x] = a ++ y :: b) :
    (b = [] ∧ n = a ∧ x = y) ∨ ∃ b', b = b' ++ [x] ∧ n = a ++ y :: b' := by
  rcases List.eq_nil_or_concat b with rfl | ⟨b', z, hb⟩
  · left
    have := List.append_inj' h rfl
    refine ⟨rfl, this.1, ?_⟩
    simpa using this.2
  · right
    subst hb
    rw [List.concat_eq_append, ← List.cons_append, ← List.append_assoc] at h
    have := List.append_inj' h rfl
    refine ⟨b', ?_, this.1⟩
    have h2 : x = z := by simpa using this.2
    rw [h2, List.concat_eq_append]

theorem seed_spec (hf : Fine g false) {m2h : ℕ → ℕ} {d : List ℕ} {h0 new : List Group} {s : Grp}
    (h : Inv g m2h d h0 new s) {c : ℕ} (hc : c < g.n3) :
    ∃ s' new', seed g false s c = some s' ∧ Inv g m2h (d ++ [c]) h0 new' s' := by
  unfold seed
  rw [if_pos hc]
  by_cases hw : s.mem.wall c = true
  · rw [if_pos hw]
    refine ⟨s, new, rfl, ⟨h.halo, h.gid, h.gids, h.nodup, h.lt, h.xy, h.wall, h.rest, h.label, ?_, ?_⟩⟩
    · intro i hi
      rcases List.mem_append.1 hi with hi | hi
      · exact h.seeds i hi
      · rw [List.mem_singleton.1 hi]; exact (h.wall c hc).1 hw
    · intro a G b e
      obtain ⟨p, l, h1, ⟨d1, d2, e1, e2⟩, h3⟩ := h.shape a G b e
      exact ⟨p, l, h1, ⟨d1, d2 ++ [c], by rw [e1]; simp, e2⟩, h3⟩
  · rw [if_neg hw]
    have hcn : c ∉ flat new := fun hx => hw ((h.wall c hc).2 hx)
    obtain ⟨r, e, hd, l, hl⟩ := group_spec (fo := false) hf (m0 := s.mem) (s := c) s.gid hc
      (fun i hi h1 => (h.xy i hi).2 ((h.wall i hi).1 h1))
      (by
        rw [pos_false]
        by_contra hx
        exact hcn ((h.xy c hc).1 (by simpa using hx)))
    have hopen : ∀ i < g.n3, Open g false s.mem i ↔ (0 < m2h i ∧ i ∉ flat new) := by
      intro i hi
      unfold Open
      rw [pos_false]
      by_cases hi' : i ∈ flat new
      · have := (h.xy i hi).2 hi'
        simp [this, hi']
      · have : s.mem.xy i = false := by
          by_contra hx
          exact hi' ((h.xy i hi).1 (by simpa using hx))
        rw [h.rest i hi hi']
        simp [this, hi']
    have hnext : ∀ a b, a < g.n3 → (Next g false s.mem a b ↔ Hop g m2h new a b) := by
      intro a b ha
      unfold Next Hop
      constructor
      · rintro ⟨h1, h2⟩
        have hb : b < g.n3 := by have := (hf.nb a ha b h1).2; omega
        exact ⟨h1, (hopen b hb).1 h2⟩
      · rintro ⟨h1, h2⟩
        have hb : b < g.n3 := by have := (hf.nb a ha b h1).2; omega
        exact ⟨h1, (hopen b hb).2 h2⟩
    have hreach : ∀ i, i ∈ r.pts ↔ Relation.ReflTransGen (Hop g m2h new) c i := by
      intro i
      rw [hd.pts i]
      constructor
      · intro hr
        suffices i < g.n3 ∧ Relation.ReflTransGen (Hop g m2h new) c i from this.2
        induction hr with
        | refl => exact ⟨hc, .refl⟩
        | tail _ hn ih =>
          refine ⟨by have := (hf.nb _ ih.1 _ hn.1).2; omega, ih.2.tail ((hnext _ _ ih.1).1 hn)⟩
      · intro hr
        suffices i < g.n3 ∧ Relation.ReflTransGen (Next g false s.mem) c i from this.2
        induction hr with
        | refl => exact ⟨hc, .refl⟩
        | tail _ hn ih =>
          refine ⟨by have := (hf.nb _ ih.1 _ hn.1).2; omega, ih.2.tail ((hnext _ _ ih.1).2 hn)⟩
    have hout : ∀ i ∈ r.pts, i ∉ flat new := by
      intro i hi
      rcases Relation.ReflTransGen.cases_tail ((hreach i).1 hi) with e1 | ⟨_, -, e1⟩
      · rw [e1]; exact hcn
      · exact e1.2.2
    have hcl : c ∉ l := by
      have := hd.nodup
      rw [hl] at this
      exact (List.nodup_cons.1 this).1
    have hflat : flat (new ++ [⟨s.gid, r.pts⟩]) = flat new ++ r.pts := by simp [flat]
    refine ⟨⟨r.mem, s.halo ++ [⟨s.gid, r.pts⟩], s.gid + 1⟩, new ++ [⟨s.gid, r.pts⟩], ?_, ?_⟩
    · rw [e]; rfl
    · constructor
      · simp [h.halo]
      · simp [h.gid]
      · simp [h.gids, h.gid, List.range_succ]
      · rw [hflat]
        exact List.Nodup.append h.nodup hd.nodup (fun i h1 h2 => hout i h2 h1)
      · intro i hi
        rw [hflat] at hi
        rcases List.mem_append.1 hi with hi | hi
        · exact h.lt i hi
        · exact hd.lt i hi
      · intro i hi
        rw [hflat, List.mem_append, ← h.xy i hi]
        exact hd.xy i hi
      · intro i hi
        rw [hflat, List.mem_append, ← h.wall i hi]
        exact hd.wall i hi
      · intro i hi hn
        rw [hflat, List.mem_append, not_or] at hn
        have := hd.m2h i hi
        rw [if_neg (fun hx => hn.2 hx.1)] at this
        exact this.trans (h.rest i hi hn.1)
      · intro G hG
        have hm : ∀ i < g.n3, r.mem.m2h i = if i ∈ r.pts ∧ i ≠ c then s.gid else s.mem.m2h i := hd.m2h
        rcases List.mem_append.1 hG with hG | hG
        · obtain ⟨p, l', h1, h2, h3⟩ := h.label G hG
          have hin : ∀ i ∈ G.pts, i ∈ flat new := fun i hi => List.mem_flatMap.2 ⟨G, hG, hi⟩
          refine ⟨p, l', h1, ?_, ?_⟩
          · have hp := hin p (by rw [h1]; simp)
            rw [hm p (h.lt p hp), if_neg (fun hx => hout p hx.1 hp)]; exact h2
          · intro i hi
            have hp := hin i (by rw [h1]; simp [hi])
            rw [hm i (h.lt i hp), if_neg (fun hx => hout i hx.1 hp)]; exact h3 i hi
        · rw [List.mem_singleton.1 hG]
          refine ⟨c, l, hl, ?_, ?_⟩
          · rw [hm c hc, if_neg (fun hx => hx.2 rfl)]; exact h.rest c hc hcn
          · intro i hi
            have hi' : i ∈ r.pts := by rw [hl]; simp [hi]
            rw [hm i (hd.lt i hi'), if_pos ⟨hi', fun e => hcl (e ▸ hi)⟩]
      · intro i hi
        rw [hflat]
        rcases List.mem_append.1 hi with hi | hi
        · exact List.mem_append_left _ (h.seeds i hi)
        · rw [List.mem_singleton.1 hi]
          exact List.mem_append_right _ (by rw [hl]; simp)
      · intro a G b e1
        rcases append_eq_snoc e1 with ⟨-, rfl, rfl⟩ | ⟨b', -, e2⟩
        · exact ⟨c, l, hl, ⟨d, [], rfl, h.seeds⟩, hcn, hreach⟩
        · obtain ⟨p, l', h1, ⟨d1, d2, e3, e4⟩, h3⟩ := h.shape a G b' e2
          exact ⟨p, l', h1, ⟨d1, d2 ++ [c], by rw [e3]; simp, e4⟩, h3⟩

theorem seeds_spec (hf : Fine g false) {m2h : ℕ → ℕ} {h0 : List Group} :
    ∀ (c : List ℕ) {d : List ℕ} {new : List Group} {s : Grp}, Inv g m2h d h0 new s →
      (∀ i ∈ c, i < g.n3) →
      ∃ s' new', c.foldlM (seed g false) s = some s' ∧ Inv g m2h (d ++ c) h0 new' s' := by
  intro c
  induction c with
  | nil => intro d new s h _; exact ⟨s, new, rfl, by simpa using h⟩
  | cons c cs ih =>
    intro d new s h hc
    obtain ⟨s1, n1, e1, h1⟩ := seed_spec hf h (hc c (by simp))
    obtain ⟨s2, n2, e2, h2⟩ := ih h1 (fun i hi => hc i (by simp [hi]))
    refine ⟨s2, n2, ?_, ?_⟩
    · rw [List.foldlM_cons, e1]; exact e2
    · rw [List.append_assoc] at h2; exact h2

/-- `GroupTags` after a search, unfolded. -/
theorem groupTags_spec (hf : Fine g false) (t : St) (hx : ∀ i, t.mem.xy i = false)
    (hw : ∀ i, t.mem.wall i = false) (hc : ∀ i ∈ t.cidx, i < g.n3) :
    ∃ s new, groupTags g false t = some ({ t with mem := s.mem, halo := s.halo }, s.gid) ∧
      Inv g t.mem.m2h t.cidx t.halo new s := by
  have h : Inv g t.mem.m2h [] t.halo [] ⟨t.mem, t.halo, 1⟩ := by
    refine ⟨by simp, rfl, rfl, by simp, by simp, ?_, ?_, fun _ _ _ => rfl, by simp, by simp, ?_⟩
    · intro i _; simp [hx]
    · intro i _; simp [hw]
    · intro a G b e; simp at e
  obtain ⟨s, new, e, h⟩ := seeds_spec hf t.cidx h hc
  refine ⟨s, new, ?_, by simpa using h⟩
  unfold groupTags
  rw [e]; rfl

end Jaxions.Groups
