import Verif.Lemmas.GroupsLinked

/-
C81: the groups of dense points (miniclusters) of a rank.

With one thread and an unfolded field the groups listed after a search on a new tracker are
exactly the linked sets of dense points of the slab (C81_groups), for every size and every set
of dense points.  For any number of threads, any order and any history of the tracker, each
group is what can be reached from its first point through points of positive label outside the
earlier groups; the search of neighbours always ends and stays in the slab (C81_reach).  The
first point found by each thread has label 0 (C81_numbers), so it is never taken in by a
neighbour (C81_alone) and can cut a group in two (C81_not_threads).  The labels of the map are
those of the group except for its first point (C81_labels), so they do not tell groups apart
(C81_not_labels).  Groups stop at the faces of the slab (C81_not_around), are listed twice for
folded fields (C81_not_folded), and old points are listed again after a second search
(C81_not_again).
-/

namespace Jaxions.Groups

variable {g : Geo}

/-- The search by one thread. -/
def search1 (g : Geo) (hit : ℕ → Bool) (t : St) : St :=
  search g false hit [List.range g.n3] (List.range g.n3) t

/-- **C81** With one thread, an unfolded field and a new tracker, the groups are the linked sets
of dense points of the slab. -/
theorem C81_groups (hn : 2 ≤ g.n1) (dense : Site → Bool) (hit : ℕ → Bool) (hs : Shows g dense hit)
    (mem : Mem) :
    ∃ t k, groupTags g false (search1 g hit (start mem)) = some (t, k) ∧
      Right g dense t.halo ∧ k = t.halo.length + 1 := by
  have ho := ordered_one hs mem
  obtain ⟨s, new, e, h⟩ := groupTags_spec (fine hn) (search1 g hit (start mem)) (fun _ => rfl)
    (fun _ => rfl) (by
      intro i hi
      obtain ⟨a, ha, -, rfl⟩ := (ho.mem i).1 hi
      exact no_lt ha)
  have h' : Inv g _ _ [] new s := h
  refine ⟨_, _, e, right_of hn h' ho, ?_⟩
  show s.gid = s.halo.length + 1
  have : s.halo = new := by rw [h'.halo]; rfl
  rw [this, h'.gid]

/-- **C81** Any number of threads, any order, any earlier use of the tracker, unfolded: the
grouping ends and stays in the slab; the new groups are numbered from 1, share no point and
contain all candidates; each is what is reached from its first point, a candidate outside the
earlier new groups. -/
theorem C81_reach (hn : 2 ≤ g.n1) (hit : ℕ → Bool) (threads : List (List ℕ)) (order : List ℕ)
    (t0 : St) (h0 : ∀ i ∈ t0.cidx, i < g.n3) (ho : ∀ i ∈ order, i < g.n3) :
    ∃ t k new, groupTags g false (search g false hit threads order t0) = some (t, k) ∧
      t.halo = t0.halo ++ new ∧ k = new.length + 1 ∧
      new.map Group.gid = (List.range new.length).map (· + 1) ∧
      (new.flatMap Group.pts).Nodup ∧
      (∀ i, (i ∈ t0.cidx ∨ (i ∈ order ∧ hit i = true)) → i ∈ new.flatMap Group.pts) ∧
      ∀ a G b, new = a ++ G :: b → ∃ p : Site, p.In g ∧ G.pts.head? = some (p.no g) ∧
        (p.no g ∈ t0.cidx ∨ (p.no g ∈ order ∧ hit (p.no g) = true)) ∧
        (∀ G' ∈ a, p.no g ∉ G'.pts) ∧
        ∀ n, n ∈ G.pts ↔ ∃ q : Site, q.In g ∧ n = q.no g ∧
          Reached g (search g false hit threads order t0).mem.m2h a p q := by
  have hc : ∀ i, i ∈ (search g false hit threads order t0).cidx ↔
      (i ∈ t0.cidx ∨ (i ∈ order ∧ hit i = true)) := by
    intro i
    show i ∈ t0.cidx ++ (order.filter hit).map (fun i => if false = true then _ else i) ↔ _
    simp
  have hlt : ∀ i ∈ (search g false hit threads order t0).cidx, i < g.n3 := by
    intro i hi
    rcases (hc i).1 hi with h | h
    · exact h0 i h
    · exact ho i h.1
  obtain ⟨s, new, e, h⟩ := groupTags_spec (fine hn) (search g false hit threads order t0)
    (fun _ => rfl) (fun _ => rfl) hlt
  refine ⟨_, _, new, e, h.halo, h.gid, h.gids, h.nodup, fun i hi => h.seeds i ((hc i).2 hi), ?_⟩
  intro a G b ee
  obtain ⟨p', l, h1, ⟨d1, d2, hd, -⟩, h3, h4⟩ := h.shape a G b ee
  have hm : p' ∈ (search g false hit threads order t0).cidx := by rw [hd]; simp
  obtain ⟨p, hp, rfl⟩ := site_of (hlt p' hm)
  refine ⟨p, hp, by rw [h1]; rfl, (hc _).1 hm, ?_, ?_⟩
  · intro G' hG' hx
    exact h3 (List.mem_flatMap.2 ⟨G', hG', hx⟩)
  · intro n
    rw [h4 n, reach_iff hn _ a hp]

/-- **C81** The labels given by the search: a dense point gets the number of dense points its
thread found before, the others 0. -/
theorem C81_numbers (folded : Bool) (hit : ℕ → Bool) (threads : List (List ℕ)) (order : List ℕ)
    (t0 : St) (hd : threads.flatten.Nodup) :
    (∀ A B l1 i l2, threads = A ++ (l1 ++ i :: l2) :: B → hit i = true →
      (search g folded hit threads order t0).mem.m2h i = l1.countP hit) ∧
    (∀ i, (i ∉ threads.flatten ∨ hit i = false) →
      (search g folded hit threads order t0).mem.m2h i = 0) := by
  constructor
  · intro A B l1 i l2 e hi
    subst e
    have h1 : i ∉ l2 ∧ i ∉ B.flatten := by
      rw [List.flatten_append, List.flatten_cons] at hd
      have h2 := List.Nodup.of_append_right hd
      rw [List.append_assoc, List.cons_append] at h2
      have h3 := (List.nodup_cons.1 (List.Nodup.of_append_right h2)).1
      rw [List.mem_append, not_or] at h3
      exact h3
    exact threads_at hit A B l1 l2 i _ hi h1.1 h1.2
  · intro i hi
    exact threads_other hit threads _ i hi

/-- **C81** A point of label 0, as the first one found by each thread, is never taken in by a
neighbour: it is the first point of its group. -/
theorem C81_alone (hn : 2 ≤ g.n1) (hit : ℕ → Bool) (threads : List (List ℕ)) (order : List ℕ)
    (t0 : St) (h0 : ∀ i ∈ t0.cidx, i < g.n3) (ho : ∀ i ∈ order, i < g.n3) (hh : t0.halo = [])
    {t : St} {k : ℕ} (ht : groupTags g false (search g false hit threads order t0) = some (t, k))
    {i : ℕ} (hi : (search g false hit threads order t0).mem.m2h i = 0) :
    ∀ G ∈ t.halo, i ∈ G.pts → G.pts.head? = some i := by
  obtain ⟨t', k', new, e, h1, -, -, -, -, h2⟩ := C81_reach hn hit threads order t0 h0 ho
  rw [ht, Option.some.injEq, Prod.mk.injEq] at e
  obtain ⟨rfl, rfl⟩ := e
  intro G hG hiG
  rw [h1, hh, List.nil_append] at hG
  obtain ⟨a, b, ee⟩ := List.append_of_mem hG
  obtain ⟨p, -, h3, -, -, h4⟩ := h2 a G b ee
  obtain ⟨q, -, rfl, hr⟩ := (h4 i).1 hiG
  rcases Relation.ReflTransGen.cases_tail hr with e1 | ⟨_, -, e1⟩
  · rw [e1]; exact h3
  · have := e1.2.2.1
    rw [hi] at this
    exact absurd this (by decide)

/-- **C81** The labels after the grouping: the number of the group, except that its first point
keeps the label of the search, and so do the points of no group. -/
theorem C81_labels (hn : 2 ≤ g.n1) (hit : ℕ → Bool) (threads : List (List ℕ)) (order : List ℕ)
    (t0 : St) (h0 : ∀ i ∈ t0.cidx, i < g.n3) (ho : ∀ i ∈ order, i < g.n3) (hh : t0.halo = []) :
    ∃ t k, groupTags g false (search g false hit threads order t0) = some (t, k) ∧
      (∀ G ∈ t.halo, ∃ p l, G.pts = p :: l ∧
        t.mem.m2h p = (search g false hit threads order t0).mem.m2h p ∧
        ∀ i ∈ l, t.mem.m2h i = G.gid) ∧
      ∀ i < g.n3, i ∉ t.halo.flatMap Group.pts →
        t.mem.m2h i = (search g false hit threads order t0).mem.m2h i := by
  have hlt : ∀ i ∈ (search g false hit threads order t0).cidx, i < g.n3 := by
    intro i hi
    have hi' : i ∈ t0.cidx ++ (order.filter hit).map (fun i => if false = true then _ else i) := hi
    simp only [Bool.false_eq_true, if_false, List.map_id', List.mem_append, List.mem_filter] at hi'
    rcases hi' with h | h
    · exact h0 i h
    · exact ho i h.1
  obtain ⟨s, new, e, h⟩ := groupTags_spec (fine hn) (search g false hit threads order t0)
    (fun _ => rfl) (fun _ => rfl) hlt
  have hs : s.halo = new := by
    have := h.halo
    rw [this]
    show t0.halo ++ new = new
    rw [hh, List.nil_append]
  refine ⟨_, _, e, ?_, ?_⟩
  · intro G hG
    have hG' : G ∈ s.halo := hG
    rw [hs] at hG'
    exact h.label G hG'
  · intro i hi hn'
    have hn2 : i ∉ s.halo.flatMap Group.pts := hn'
    rw [hs] at hn2
    exact h.rest i hi hn2

/-! Concrete cases. -/

/-- A slab of 4 x 4 x 1 and one of 2 x 2 x 3. -/
def geo4 : Geo := ⟨4, 1, 1, 2, true⟩
def geo2 : Geo := ⟨2, 3, 1, 2, true⟩

def noMem : Mem := ⟨fun _ => false, fun _ => false, fun _ => 0⟩

/-- The groups listed and the labels of the slab. -/
def result (g : Geo) (folded : Bool) (t : St) : Option (List (List ℕ) × List ℕ) :=
  (groupTags g folded t).map fun r => (r.1.halo.map Group.pts, (List.range g.n3).map r.1.mem.m2h)

/-- Dense sites given by their numbers. -/
def denseOf (g : Geo) (l : List ℕ) (a : Site) : Bool := decide (a.no g ∈ l)

theorem shows_of (l : List ℕ) : Shows g (denseOf g l) (fun i => decide (i ∈ l)) := fun _ _ => rfl

/-- The hypotheses of C81_groups, C81_reach and C81_alone are met by this slab. -/
example : 2 ≤ geo4.n1 ∧ Shows geo4 (denseOf geo4 [0, 3, 10, 15]) (fun i => decide (i ∈ [0, 3, 10, 15])) ∧
    (∀ i ∈ (start noMem).cidx, i < geo4.n3) ∧ (∀ i ∈ List.range 16, i < geo4.n3) ∧
    (search1 geo4 (fun i => decide (i ∈ [0, 3, 10, 15])) (start noMem)).mem.m2h 0 = 0 ∧
    ([List.range 8, List.range' 8 8].flatten).Nodup :=
  ⟨by decide, shows_of _, by decide, by decide, by decide, by decide⟩

/-- An L of three points around the corner of the box, and a lone one. -/
example : result geo4 false (search1 geo4 (fun i => decide (i ∈ [0, 3, 10, 15])) (start noMem)) =
    some ([[0, 3, 15], [10]], [0, 0, 0, 1, 0, 0, 0, 0, 0, 0, 2, 0, 0, 0, 0, 1]) := by decide

theorem halo_of {t : St} {L : List (List ℕ)} {M : List ℕ} {fo : Bool} (h : result g fo t = some (L, M)) :
    ∃ t' k, groupTags g fo t = some (t', k) ∧ t'.halo.map Group.pts = L ∧
      (List.range g.n3).map t'.mem.m2h = M := by
  unfold result at h
  rw [Option.map_eq_some_iff] at h
  obtain ⟨⟨t', k⟩, h1, h2⟩ := h
  rw [Prod.mk.injEq] at h2
  exact ⟨t', k, h1, h2.1, h2.2⟩

/-- Two touching dense sites in separate groups are not right. -/
theorem not_right {dense : Site → Bool} {halo : List Group} {a b : Site} (ha : a.In g) (hb : b.In g)
    (hd : dense b = true) (ht : Touch g a b) {p : List ℕ} (hp : p ∈ halo.map Group.pts)
    (h1 : a.no g ∈ p) (h2 : b.no g ∉ p) : ¬ Right g dense halo := by
  intro hr
  obtain ⟨G, hG, rfl⟩ := List.mem_map.1 hp
  exact h2 (((hr.linked G hG).2 a ha h1 b hb).2 (.single ⟨ha, hb, hd, ht⟩))

/-- **C81** is false with two threads: two neighbours, each the first found by its thread, are
two groups. -/
theorem C81_not_threads : ∃ t k, groupTags geo4 false
      (search geo4 false (fun i => decide (i ∈ [4, 8])) [List.range 8, List.range' 8 8] (List.range 16)
        (start noMem)) = some (t, k) ∧
    t.halo.map Group.pts = [[4], [8]] ∧ ¬ Right geo4 (denseOf geo4 [4, 8]) t.halo := by
  obtain ⟨t, k, h1, h2, -⟩ := halo_of (g := geo4) (fo := false)
    (t := search geo4 false (fun i => decide (i ∈ [4, 8])) [List.range 8, List.range' 8 8]
      (List.range 16) (start noMem)) (L := [[4], [8]])
    (M := [0, 0, 0, 0, 0, 0, 0, 0, 0, 0, 0, 0, 0, 0, 0, 0]) (by decide)
  refine ⟨t, k, h1, h2, ?_⟩
  refine not_right (a := ⟨0, 1, 0⟩) (b := ⟨0, 2, 0⟩) (p := [4]) (by unfold Site.In geo4; decide)
    (by unfold Site.In geo4; decide) rfl ?_ (by rw [h2]; simp) (by decide) (by decide)
  exact Or.inr (Or.inl ⟨rfl, rfl, Or.inl rfl⟩)

/-- **C81** The labels do not tell the groups: with one thread, points 0 and 4 of the first group
get labels 0 and 1, and the only point of the second group gets label 1. -/
theorem C81_not_labels : ∃ t k, groupTags geo4 false
      (search1 geo4 (fun i => decide (i ∈ [0, 2, 4])) (start noMem)) = some (t, k) ∧
    t.halo.map Group.pts = [[0, 4], [2]] ∧ t.mem.m2h 0 = 0 ∧ t.mem.m2h 4 = 1 ∧ t.mem.m2h 2 = 1 := by
  obtain ⟨t, k, h1, h2, h3⟩ := halo_of (g := geo4) (fo := false)
    (t := search1 geo4 (fun i => decide (i ∈ [0, 2, 4])) (start noMem)) (L := [[0, 4], [2]])
    (M := [0, 0, 1, 0, 1, 0, 0, 0, 0, 0, 0, 0, 0, 0, 0, 0]) (by decide)
  have e : ∀ i, i < 16 → ((List.range geo4.n3).map t.mem.m2h)[i]? = some (t.mem.m2h i) := by
    intro i hi
    have : geo4.n3 = 16 := rfl
    rw [this]
    simp [hi]
  rw [h3] at e
  refine ⟨t, k, h1, h2, ?_, ?_, ?_⟩
  · simpa using (e 0 (by decide)).symm
  · simpa using (e 4 (by decide)).symm
  · simpa using (e 2 (by decide)).symm

/-- **C81** A group through the lower and upper face of the box is two groups. -/
theorem C81_not_around : ∃ t k, groupTags geo2 false
      (search1 geo2 (fun i => decide (i ∈ [0, 8])) (start noMem)) = some (t, k) ∧
    t.halo.map Group.pts = [[0], [8]] ∧
    (⟨0, 0, 0⟩ : Site).no geo2 = 0 ∧ (⟨0, 0, 2⟩ : Site).no geo2 = 8 ∧ Around geo2.Lz 2 0 := by
  obtain ⟨t, k, h1, h2, -⟩ := halo_of (g := geo2) (fo := false)
    (t := search1 geo2 (fun i => decide (i ∈ [0, 8])) (start noMem)) (L := [[0], [8]])
    (M := [0, 0, 0, 0, 0, 0, 0, 0, 1, 0, 0, 0]) (by decide)
  exact ⟨t, k, h1, h2, rfl, rfl, Or.inl rfl⟩

/-- **C81** is false for folded fields: the second point of the only group is listed again. -/
theorem C81_not_folded : ∃ t k, groupTags geo4 true
      (search geo4 true (fun i => decide (i ∈ [0, 2])) [List.range 16] (List.range 16)
        (start noMem)) = some (t, k) ∧
    (search geo4 true (fun i => decide (i ∈ [0, 2])) [List.range 16] (List.range 16)
        (start noMem)).cidx = [0, 1] ∧
    t.halo.map Group.pts = [[0, 1], [1]] ∧ ¬ Right geo4 (denseOf geo4 [0, 1]) t.halo := by
  obtain ⟨t, k, h1, h2, -⟩ := halo_of (g := geo4) (fo := true)
    (t := search geo4 true (fun i => decide (i ∈ [0, 2])) [List.range 16] (List.range 16)
        (start noMem)) (L := [[0, 1], [1]])
    (M := [0, 0, 1, 0, 0, 0, 0, 0, 0, 0, 0, 0, 0, 0, 0, 0]) (by decide)
  refine ⟨t, k, h1, by decide, h2, ?_⟩
  intro hr
  have e : t.halo.flatMap Group.pts = (t.halo.map Group.pts).flatten := by
    rw [List.flatMap_def]
  have h := hr.once
  rw [e, h2] at h
  exact absurd h (by decide)

/-- **C81** After a second search on the same tracker the points of the first are grouped again,
dense or not. -/
theorem C81_not_again : ∃ t1 k1 t k, groupTags geo4 false
      (search1 geo4 (fun i => decide (i ∈ [5])) (start noMem)) = some (t1, k1) ∧
    groupTags geo4 false (search1 geo4 (fun i => decide (i ∈ [10])) t1) = some (t, k) ∧
    t.halo.map Group.pts = [[5], [5], [10]] ∧ t.halo.map Group.gid = [1, 1, 2] := by
  have h : ((groupTags geo4 false (search1 geo4 (fun i => decide (i ∈ [5])) (start noMem))).bind
      fun r => (groupTags geo4 false (search1 geo4 (fun i => decide (i ∈ [10])) r.1)).map
        fun r => (r.1.halo.map Group.pts, r.1.halo.map Group.gid)) =
      some ([[5], [5], [10]], [1, 1, 2]) := by decide
  rw [Option.bind_eq_some_iff] at h
  obtain ⟨⟨t1, k1⟩, h1, h2⟩ := h
  rw [Option.map_eq_some_iff] at h2
  obtain ⟨⟨t, k⟩, h3, h4⟩ := h2
  rw [Prod.mk.injEq] at h4
  exact ⟨t1, k1, t, k, h1, h3, h4.1, h4.2⟩

end Jaxions.Groups
