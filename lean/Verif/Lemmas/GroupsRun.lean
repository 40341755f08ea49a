import Verif.Spec.Groups
import Mathlib.Data.List.Basic
import Mathlib.Data.List.Nodup
import Mathlib.Data.Finset.Card
import Mathlib.Data.Finset.Range

/-
One group: what the `while` loop collects from a first point.
-/

namespace Jaxions.Groups

variable {g : Geo} {fo : Bool}

/-- Ready to be taken into a group. -/
def Open (g : Geo) (fo : Bool) (m0 : Mem) (b : ℕ) : Prop :=
  m0.xy (pos g fo b) = false ∧ 0 < m0.m2h (pos g fo b)

def Next (g : Geo) (fo : Bool) (m0 : Mem) (a b : ℕ) : Prop :=
  (b : ℤ) ∈ nebo g a ∧ Open g fo m0 b

/-- Sites are stored apart and the neighbours are sites. -/
structure Fine (g : Geo) (fo : Bool) : Prop where
  inj : ∀ i j, i < g.n3 → j < g.n3 → pos g fo i = pos g fo j → i = j
  nb : ∀ i, i < g.n3 → ∀ n ∈ nebo g i, 0 ≤ n ∧ n < g.n3

structure Mid (g : Geo) (fo : Bool) (m0 : Mem) (s gid : ℕ) (base : List ℕ) (r : Run) : Prop where
  lt : ∀ i ∈ r.pts, i < g.n3
  nodup : r.pts.Nodup
  reach : ∀ i ∈ r.pts, Relation.ReflTransGen (Next g fo m0) s i
  xy : ∀ i < g.n3, r.mem.xy (pos g fo i) = true ↔ m0.xy (pos g fo i) = true ∨ i ∈ r.pts
  m2h : ∀ i < g.n3, r.mem.m2h (pos g fo i) = if i ∈ r.pts ∧ i ≠ s then gid else m0.m2h (pos g fo i)
  inc : r.pts.length = base.length + r.inc
  sub : ∃ l, r.pts = base ++ l

theorem set_pos {A : Type} (hf : Fine g fo) (f : ℕ → A) {n i : ℕ} (hn : n < g.n3) (hi : i < g.n3)
    (a : A) : set f (pos g fo n) a (pos g fo i) = if i = n then a else f (pos g fo i) := by
  unfold set
  by_cases h : i = n
  · subst h; rw [if_pos rfl, if_pos rfl]
  · rw [if_neg h, if_neg (fun e => h (hf.inj _ _ hi hn e))]

theorem join_spec (hf : Fine g fo) {m0 : Mem} {s gid : ℕ} {base : List ℕ} {r : Run}
    (h : Mid g fo m0 s gid base r) (hs : s ∈ r.pts) {n a : ℕ} (hn : n < g.n3) (ha : a ∈ r.pts)
    (hna : (n : ℤ) ∈ nebo g a) :
    Mid g fo m0 s gid base (join g fo gid r n) ∧ (join g fo gid r n).mem.wall = r.mem.wall ∧
      (∀ i ∈ r.pts, i ∈ (join g fo gid r n).pts) ∧
      (Open g fo m0 n → n ∈ (join g fo gid r n).pts) := by
  unfold join
  dsimp only
  by_cases hx : r.mem.xy (pos g fo n) = true
  · rw [if_pos hx]
    refine ⟨h, rfl, fun i hi => hi, fun ho => ?_⟩
    rcases (h.xy n hn).1 hx with h1 | h1
    · rw [ho.1] at h1; exact absurd h1 (by decide)
    · exact h1
  · rw [if_neg hx]
    have hno : n ∉ r.pts := fun hc => hx ((h.xy n hn).2 (Or.inr hc))
    have hx0 : m0.xy (pos g fo n) = false := by
      by_contra hc
      exact hx ((h.xy n hn).2 (Or.inl (by simpa using hc)))
    have hm := h.m2h n hn
    rw [if_neg (fun hc => hno hc.1)] at hm
    by_cases hp : 0 < r.mem.m2h (pos g fo n)
    · rw [if_pos hp]
      have hopen : Open g fo m0 n := ⟨hx0, hm ▸ hp⟩
      rw [if_neg hno, if_neg hno]
      refine ⟨⟨?_, ?_, ?_, ?_, ?_, ?_, ?_⟩, rfl, fun i hi => List.mem_append_left _ hi,
        fun _ => by simp⟩
      · intro i hi
        rcases List.mem_append.1 hi with hi | hi
        · exact h.lt i hi
        · rw [List.mem_singleton.1 hi]; exact hn
      · refine List.Nodup.append h.nodup (List.nodup_singleton n) ?_
        intro i hi hi'
        rw [List.mem_singleton.1 hi'] at hi
        exact hno hi
      · intro i hi
        rcases List.mem_append.1 hi with hi | hi
        · exact h.reach i hi
        · rw [List.mem_singleton.1 hi]
          exact (h.reach a ha).tail ⟨hna, hopen⟩
      · intro i hi
        show set r.mem.xy (pos g fo n) true (pos g fo i) = true ↔ _
        rw [set_pos hf _ hn hi]
        by_cases e : i = n
        · subst e; simp
        · rw [if_neg e, h.xy i hi]; simp [e]
      · intro i hi
        show set r.mem.m2h (pos g fo n) gid (pos g fo i) = _
        rw [set_pos hf _ hn hi]
        by_cases e : i = n
        · subst e
          have : i ≠ s := fun e => hno (e ▸ hs)
          simp [this]
        · rw [if_neg e, h.m2h i hi]; simp [e]
      · simp only [List.length_append, List.length_singleton]
        have := h.inc
        omega
      · obtain ⟨l, hl⟩ := h.sub
        exact ⟨l ++ [n], by dsimp only; rw [hl, List.append_assoc]⟩
    · rw [if_neg hp]
      refine ⟨h, rfl, fun i hi => hi, fun ho => ?_⟩
      rw [hm] at hp
      exact absurd ho.2 hp

theorem joins_spec (hf : Fine g fo) {m0 : Mem} {s gid : ℕ} {base : List ℕ} {a : ℕ} :
    ∀ (ns : List ℕ) {r : Run}, Mid g fo m0 s gid base r → s ∈ r.pts → a ∈ r.pts →
      (∀ n ∈ ns, n < g.n3 ∧ (n : ℤ) ∈ nebo g a) →
      Mid g fo m0 s gid base (ns.foldl (join g fo gid) r) ∧
      (ns.foldl (join g fo gid) r).mem.wall = r.mem.wall ∧
      (∀ i ∈ r.pts, i ∈ (ns.foldl (join g fo gid) r).pts) ∧
      (∀ n ∈ ns, Open g fo m0 n → n ∈ (ns.foldl (join g fo gid) r).pts) := by
  intro ns
  induction ns with
  | nil => intro r h _ _ _; exact ⟨h, rfl, fun i hi => hi, by simp⟩
  | cons n ns ih =>
    intro r h hs ha hns
    obtain ⟨h1, h2, h3, h4⟩ := join_spec hf h hs (hns n (by simp)).1 ha (hns n (by simp)).2
    obtain ⟨i1, i2, i3, i4⟩ := ih h1 (h3 _ hs) (h3 _ ha) (fun k hk => hns k (by simp [hk]))
    rw [List.foldl_cons]
    refine ⟨i1, i2.trans h2, fun i hi => i3 i (h3 i hi), ?_⟩
    intro k hk ho
    rcases List.mem_cons.1 hk with rfl | hk
    · exact i3 _ (h4 ho)
    · exact i4 k hk ho

theorem visit_spec (hf : Fine g fo) {m0 : Mem} {s gid : ℕ} {base : List ℕ} {a : ℕ} {r : Run}
    (h : Mid g fo m0 s gid base r) (hs : s ∈ r.pts) (ha : a ∈ r.pts) :
    ∃ r', visit g fo gid r a = some r' ∧ Mid g fo m0 s gid base r' ∧
      r'.mem.wall = set r.mem.wall (pos g fo a) true ∧ (∀ i ∈ r.pts, i ∈ r'.pts) ∧
      ∀ n, Next g fo m0 a n → n ∈ r'.pts := by
  have hnb := hf.nb a (h.lt a ha)
  have hc : ((nebo g a).all fun n => decide (0 ≤ n) && decide (n < g.n3)) = true := by
    rw [List.all_eq_true]
    intro n hn
    simpa using hnb n hn
  obtain ⟨i1, i2, i3, i4⟩ := joins_spec hf ((nebo g a).map Int.toNat) h hs ha (by
    intro n hn
    obtain ⟨k, hk, rfl⟩ := List.mem_map.1 hn
    obtain ⟨k0, k1⟩ := hnb k hk
    refine ⟨by omega, ?_⟩
    rw [Int.toNat_of_nonneg k0]; exact hk)
  unfold visit
  rw [if_pos hc]
  refine ⟨_, rfl, ⟨i1.lt, i1.nodup, i1.reach, i1.xy, i1.m2h, i1.inc, i1.sub⟩, ?_, i3, ?_⟩
  · dsimp only; rw [i2]
  · rintro n ⟨hn, ho⟩
    exact i4 n (List.mem_map.2 ⟨n, hn, by simp⟩) ho

theorem visits_spec (hf : Fine g fo) {m0 : Mem} {s gid : ℕ} {base : List ℕ} :
    ∀ (l : List ℕ) {r : Run}, Mid g fo m0 s gid base r → s ∈ r.pts → (∀ a ∈ l, a ∈ r.pts) →
      ∃ r', l.foldlM (visit g fo gid) r = some r' ∧ Mid g fo m0 s gid base r' ∧
        (∀ i < g.n3, r'.mem.wall (pos g fo i) = true ↔ r.mem.wall (pos g fo i) = true ∨ i ∈ l) ∧
        (∀ i ∈ r.pts, i ∈ r'.pts) ∧ ∀ a ∈ l, ∀ n, Next g fo m0 a n → n ∈ r'.pts := by
  intro l
  induction l with
  | nil => intro r h _ _; exact ⟨r, rfl, h, by simp, fun i hi => hi, by simp⟩
  | cons a l ih =>
    intro r h hs hl
    obtain ⟨r1, e1, h1, h2, h3, h4⟩ := visit_spec hf h hs (hl a (by simp))
    obtain ⟨r2, e2, i1, i2, i3, i4⟩ := ih h1 (h3 _ hs) (fun k hk => h3 _ (hl k (by simp [hk])))
    refine ⟨r2, ?_, i1, ?_, fun i hi => i3 i (h3 i hi), ?_⟩
    · rw [List.foldlM_cons, e1]; exact e2
    · intro i hi
      rw [i2 i hi, h2, set_pos hf _ (h.lt a (hl a (by simp))) hi]
      by_cases e : i = a
      · simp [e]
      · simp [e]
    · intro b hb n hn
      rcases List.mem_cons.1 hb with rfl | hb
      · exact i3 _ (h4 n hn)
      · exact i4 b hb n hn

/-- Before a turn: as `Mid`, except that the first point need not be tagged yet. -/
structure Pre (g : Geo) (fo : Bool) (m0 : Mem) (s gid : ℕ) (r : Run) : Prop where
  first : s ∈ r.pts
  lt : ∀ i ∈ r.pts, i < g.n3
  nodup : r.pts.Nodup
  reach : ∀ i ∈ r.pts, Relation.ReflTransGen (Next g fo m0) s i
  xy : ∀ i < g.n3, (r.mem.xy (pos g fo i) = true ∨ i = s) ↔ (m0.xy (pos g fo i) = true ∨ i ∈ r.pts)
  m2h : ∀ i < g.n3, r.mem.m2h (pos g fo i) = if i ∈ r.pts ∧ i ≠ s then gid else m0.m2h (pos g fo i)
  walled : ∀ i < g.n3, r.mem.wall (pos g fo i) = true → r.mem.xy (pos g fo i) = true
  old : ∀ i < g.n3, i ∉ r.pts → r.mem.wall (pos g fo i) = m0.wall (pos g fo i)
  closed : ∀ i ∈ r.pts, r.mem.wall (pos g fo i) = true → ∀ n, Next g fo m0 i n → n ∈ r.pts

theorem tags_eq (hf : Fine g fo) : ∀ (l : List ℕ) (f : ℕ → Bool), (∀ a ∈ l, a < g.n3) →
    ∀ i < g.n3, l.foldl (fun f i => set f (pos g fo i) true) f (pos g fo i) = true ↔
      f (pos g fo i) = true ∨ i ∈ l := by
  intro l
  induction l with
  | nil => intro f _ i _; simp
  | cons a l ih =>
    intro f hl i hi
    rw [List.foldl_cons, ih _ (fun k hk => hl k (by simp [hk])) i hi, set_pos hf _ (hl a (by simp)) hi]
    by_cases e : i = a
    · simp [e]
    · simp [e]

theorem turn_spec (hf : Fine g fo) {m0 : Mem} {s gid : ℕ} {r : Run} (h : Pre g fo m0 s gid r) :
    ∃ r', turn g fo gid r = some r' ∧ Pre g fo m0 s gid r' ∧
      r'.pts.length = r.pts.length + r'.inc ∧ (∃ l, r'.pts = r.pts ++ l) ∧
      (r'.inc = 0 → ∀ i ∈ r'.pts, r'.mem.wall (pos g fo i) = true ∧ r'.mem.xy (pos g fo i) = true) := by
  have hcl : ∀ a ∈ copied g fo r, a ∈ r.pts ∧ r.mem.wall (pos g fo a) = false := by
    intro a ha
    have := List.mem_filter.1 ha
    exact ⟨this.1, by simpa using this.2⟩
  have hmid : Mid g fo m0 s gid r.pts ⟨tagged g fo r, r.pts, 0⟩ := by
    refine ⟨h.lt, h.nodup, h.reach, ?_, h.m2h, rfl, ⟨[], by simp⟩⟩
    intro i hi
    show (tagged g fo r).xy (pos g fo i) = true ↔ _
    unfold tagged
    dsimp only
    rw [tags_eq hf _ _ (fun a ha => h.lt a (hcl a ha).1) i hi]
    constructor
    · rintro (h1 | h1)
      · exact (h.xy i hi).1 (Or.inl h1)
      · exact Or.inr (hcl i h1).1
    · intro h1
      by_cases hw : r.mem.wall (pos g fo i) = true
      · exact Or.inl (h.walled i hi hw)
      · rcases h1 with h1 | h1
        · rcases (h.xy i hi).2 (Or.inl h1) with h2 | h2
          · exact Or.inl h2
          · subst h2
            exact Or.inr (List.mem_filter.2 ⟨h.first, by simpa using hw⟩)
        · exact Or.inr (List.mem_filter.2 ⟨h1, by simpa using hw⟩)
  obtain ⟨r', e1, h1, h2, h3, h4⟩ := visits_spec hf (copied g fo r) hmid h.first
    (fun a ha => (hcl a ha).1)
  have hold : ∀ i ∈ r.pts, r'.mem.wall (pos g fo i) = true := by
    intro i hi
    rw [h2 i (h.lt i hi)]
    by_cases hw : r.mem.wall (pos g fo i) = true
    · exact Or.inl hw
    · exact Or.inr (List.mem_filter.2 ⟨hi, by simpa using hw⟩)
  refine ⟨r', e1, ⟨h3 _ h.first, h1.lt, h1.nodup, h1.reach, ?_, h1.m2h, ?_, ?_, ?_⟩, h1.inc, h1.sub, ?_⟩
  · intro i hi
    rw [h1.xy i hi]
    constructor
    · rintro (h5 | rfl)
      · exact h5
      · exact Or.inr (h3 _ h.first)
    · exact Or.inl
  · intro i hi hw
    rw [h1.xy i hi]
    rcases (h2 i hi).1 hw with h5 | h5
    · rcases (h.xy i hi).1 (Or.inl (h.walled i hi h5)) with h6 | h6
      · exact Or.inl h6
      · exact Or.inr (h3 _ h6)
    · exact Or.inr (h3 _ (hcl i h5).1)
  · intro i hi hn
    have hn' : i ∉ r.pts := fun hc => hn (h3 i hc)
    rw [← h.old i hi hn']
    have := h2 i hi
    have hnc : i ∉ copied g fo r := fun hc => hn' (hcl i hc).1
    rw [Bool.eq_iff_iff, this]
    simp only [hnc, or_false]
    rfl
  · intro i hi hw n hn
    rcases (h2 i (h1.lt i hi)).1 hw with h5 | h5
    · by_cases hip : i ∈ r.pts
      · exact h3 _ (h.closed i hip h5 n hn)
      · have hx := h.walled i (h1.lt i hi) h5
        rcases (h.xy i (h1.lt i hi)).1 (Or.inl hx) with h6 | h6
        · have hr := h1.reach i hi
          rcases Relation.ReflTransGen.cases_tail hr with h7 | ⟨c, -, h7⟩
          · subst h7; exact absurd h.first hip
          · have := h7.2.1
            rw [this] at h6; exact absurd h6 (by decide)
        · exact absurd h6 hip
    · exact h4 i h5 n hn
  · intro h0 i hi
    obtain ⟨l, hl⟩ := h1.sub
    have hlen := h1.inc
    rw [h0] at hlen
    have : l = [] := by
      rw [hl, List.length_append] at hlen
      exact List.length_eq_zero_iff.1 (by omega)
    rw [hl, this, List.append_nil] at hi
    exact ⟨hold i hi, (h1.xy i (h.lt i hi)).2 (Or.inr (h3 i hi))⟩

theorem length_le {l : List ℕ} {n : ℕ} (hl : l.Nodup) (h : ∀ i ∈ l, i < n) : l.length ≤ n := by
  have h1 : l.toFinset ⊆ Finset.range n := by
    intro i hi
    rw [List.mem_toFinset] at hi
    exact Finset.mem_range.2 (h i hi)
  have h2 := Finset.card_le_card h1
  rw [List.toFinset_card_of_nodup hl, Finset.card_range] at h2
  exact h2

/-- What a finished group is. -/
structure Done (g : Geo) (fo : Bool) (m0 : Mem) (s gid : ℕ) (r : Run) : Prop where
  nodup : r.pts.Nodup
  lt : ∀ i ∈ r.pts, i < g.n3
  pts : ∀ i, i ∈ r.pts ↔ Relation.ReflTransGen (Next g fo m0) s i
  xy : ∀ i < g.n3, r.mem.xy (pos g fo i) = true ↔ m0.xy (pos g fo i) = true ∨ i ∈ r.pts
  wall : ∀ i < g.n3, r.mem.wall (pos g fo i) = true ↔ m0.wall (pos g fo i) = true ∨ i ∈ r.pts
  m2h : ∀ i < g.n3, r.mem.m2h (pos g fo i) = if i ∈ r.pts ∧ i ≠ s then gid else m0.m2h (pos g fo i)

theorem loop_spec (hf : Fine g fo) {m0 : Mem} {s gid : ℕ} :
    ∀ (k : ℕ) {r : Run}, Pre g fo m0 s gid r →
      (r.inc = 0 → ∀ i ∈ r.pts, r.mem.wall (pos g fo i) = true ∧ r.mem.xy (pos g fo i) = true) →
      (g.n3 + 2 ≤ k + r.pts.length ∨ (r.inc = 0 ∧ 1 ≤ k)) →
      ∃ r', loop g fo gid k r = some r' ∧ Done g fo m0 s gid r' ∧ ∃ l, r'.pts = r.pts ++ l := by
  intro k
  induction k with
  | zero =>
    intro r h _ hk
    have := length_le h.nodup h.lt
    omega
  | succ k ih =>
    intro r h hz hk
    unfold loop
    by_cases h0 : r.inc = 0
    · rw [if_pos h0]
      have hz := hz h0
      refine ⟨r, rfl, ⟨h.nodup, h.lt, ?_, ?_, ?_, h.m2h⟩, [], by simp⟩
      · intro i
        refine ⟨h.reach i, fun hr => ?_⟩
        induction hr with
        | refl => exact h.first
        | tail _ hn hi => exact h.closed _ hi (hz _ hi).1 _ hn
      · intro i hi
        refine ⟨fun hx => (h.xy i hi).1 (Or.inl hx), fun hx => ?_⟩
        rcases (h.xy i hi).2 hx with h1 | rfl
        · exact h1
        · exact (hz _ h.first).2
      · intro i hi
        by_cases hp : i ∈ r.pts
        · simp [hp, (hz i hp).1]
        · rw [h.old i hi hp]; simp [hp]
    · rw [if_neg h0]
      obtain ⟨r1, e1, h1, h2, ⟨l1, hl1⟩, h3⟩ := turn_spec hf h
      have hle := length_le h.nodup h.lt
      obtain ⟨r2, e2, i1, l2, hl2⟩ := ih h1 h3 (by
        by_cases hi : r1.inc = 0
        · right; exact ⟨hi, by omega⟩
        · left; omega)
      refine ⟨r2, ?_, i1, l1 ++ l2, ?_⟩
      · rw [e1]; exact e2
      · rw [hl2, hl1, List.append_assoc]

/-- A whole group. -/
theorem group_spec (hf : Fine g fo) {m0 : Mem} {s : ℕ} (gid : ℕ) (hs : s < g.n3)
    (hw : ∀ i < g.n3, m0.wall (pos g fo i) = true → m0.xy (pos g fo i) = true)
    (hx : m0.xy (pos g fo s) = false) :
    ∃ r', loop g fo gid (g.n3 + 2) ⟨m0, [s], 1⟩ = some r' ∧ Done g fo m0 s gid r' ∧
      ∃ l, r'.pts = s :: l := by
  have hpre : Pre g fo m0 s gid ⟨m0, [s], 1⟩ := by
    refine ⟨by simp, ?_, by simp, ?_, ?_, ?_, hw, fun _ _ _ => rfl, ?_⟩
    · intro i hi; rw [List.mem_singleton.1 hi]; exact hs
    · intro i hi; rw [List.mem_singleton.1 hi]
    · intro i _; simp
    · intro i _
      rw [if_neg]
      rintro ⟨h1, h2⟩
      exact h2 (List.mem_singleton.1 h1)
    · intro i hi h1
      rw [List.mem_singleton.1 hi] at h1
      have := hw s hs h1
      rw [hx] at this
      exact absurd this (by decide)
  obtain ⟨r', e, h, l, hl⟩ := loop_spec hf (g.n3 + 2) hpre (by intro h; simp at h)
    (by left; simp)
  exact ⟨r', e, h, l, by simpa using hl⟩

end Jaxions.Groups
