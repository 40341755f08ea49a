import Verif.Basic.DivMod
import Verif.Model.Folder
import Verif.Spec.Layout
/-
Helper lemmas for the folder: each slice pass is a gather along an injective index map.
-/
namespace Jaxions

variable {α : Type _}

/-- Index of loop triple (iy, ix, sy) in plain order. -/
def plainIx (g : Geo) (iy ix sy : Nat) : Nat := (iy + sy * (g.n1 / g.shift)) * g.n1 + ix
/-- Index of loop triple (iy, ix, sy) in folded order. -/
def foldedIx (g : Geo) (iy ix sy : Nat) : Nat := iy * g.n1 * g.shift + ix * g.shift + sy

theorem foldedIx_eq (g : Geo) (iy ix sy : Nat) :
    foldedIx g iy ix sy = (iy * g.n1 + ix) * g.shift + sy := by
  simp [foldedIx, Nat.add_mul]

theorem div_mul_le' (n s : Nat) : n / s * s ≤ n := Nat.div_mul_le_self n s

theorem row_lt (g : Geo) {iy sy : Nat} (hy : iy < g.n1 / g.shift) (hs : sy < g.shift) :
    iy + sy * (g.n1 / g.shift) < g.n1 := by
  have h1 : sy * (g.n1 / g.shift) + iy < g.shift * (g.n1 / g.shift) := pair_lt hs hy
  have h2 : g.shift * (g.n1 / g.shift) ≤ g.n1 := Nat.mul_div_le _ _
  omega

theorem plainIx_lt (g : Geo) {iy ix sy : Nat} (hy : iy < g.n1 / g.shift) (hx : ix < g.n1)
    (hs : sy < g.shift) : plainIx g iy ix sy < g.n2 := pair_lt (row_lt g hy hs) hx

theorem foldedIx_lt (g : Geo) {iy ix sy : Nat} (hy : iy < g.n1 / g.shift) (hx : ix < g.n1)
    (hs : sy < g.shift) : foldedIx g iy ix sy < g.n2 := by
  rw [foldedIx_eq]
  have h1 : iy * g.n1 + ix < (g.n1 / g.shift) * g.n1 := pair_lt hy hx
  have h2 := pair_lt h1 hs
  have h3 : (g.n1 / g.shift) * g.n1 * g.shift ≤ g.n2 := by
    rw [Nat.mul_right_comm]
    exact Nat.mul_le_mul_right _ (div_mul_le' _ _)
  omega

theorem plainIx_inj (g : Geo) {iy ix sy iy' ix' sy' : Nat} (hy : iy < g.n1 / g.shift)
    (hx : ix < g.n1) (hy' : iy' < g.n1 / g.shift) (hx' : ix' < g.n1)
    (h : plainIx g iy ix sy = plainIx g iy' ix' sy') : iy = iy' ∧ ix = ix' ∧ sy = sy' := by
  obtain ⟨h1, h2⟩ := pair_inj hx hx' h
  rw [Nat.add_comm iy, Nat.add_comm iy'] at h1
  obtain ⟨h3, h4⟩ := pair_inj hy hy' h1
  exact ⟨h4, h2, h3⟩

theorem foldedIx_inj (g : Geo) {iy ix sy iy' ix' sy' : Nat}
    (hx : ix < g.n1) (hs : sy < g.shift) (hx' : ix' < g.n1) (hs' : sy' < g.shift)
    (h : foldedIx g iy ix sy = foldedIx g iy' ix' sy') : iy = iy' ∧ ix = ix' ∧ sy = sy' := by
  rw [foldedIx_eq, foldedIx_eq] at h
  obtain ⟨h1, h2⟩ := pair_inj hs hs' h
  obtain ⟨h3, h4⟩ := pair_inj hx hx' h1
  exact ⟨h3, h4, h2⟩

/-- The box of loop triples. -/
def InBox (g : Geo) (t : Nat × Nat × Nat) : Prop :=
  t.1 < g.n1 / g.shift ∧ t.2.1 < g.n1 ∧ t.2.2 < g.shift

theorem mem_foldOps (g : Geo) (iz : Nat) (p : Loc × Loc) :
    p ∈ foldOps g iz ↔ ∃ t, InBox g t ∧
      (p = (g.mStart (iz * g.n2 + foldedIx g t.1 t.2.1 t.2.2), g.mFrontGhost (plainIx g t.1 t.2.1 t.2.2)) ∨
       p = (g.vStart (iz * g.n2 + foldedIx g t.1 t.2.1 t.2.2), g.mBackGhost (plainIx g t.1 t.2.1 t.2.2))) := by
  simp only [foldOps, List.mem_flatMap, List.mem_range, InBox, plainIx, foldedIx]
  constructor
  · rintro ⟨iy, hy, ix, hx, sy, hs, hp⟩
    exact ⟨(iy, ix, sy), ⟨hy, hx, hs⟩, by simpa using hp⟩
  · rintro ⟨⟨iy, ix, sy⟩, ⟨hy, hx, hs⟩, hp⟩
    exact ⟨iy, hy, ix, hx, sy, hs, by simpa using hp⟩

theorem mem_unfoldOps (g : Geo) (iz : Nat) (p : Loc × Loc) :
    p ∈ unfoldOps g iz ↔ ∃ t, InBox g t ∧
      (p = (g.mStart (iz * g.n2 + plainIx g t.1 t.2.1 t.2.2), g.mFrontGhost (foldedIx g t.1 t.2.1 t.2.2)) ∨
       p = (g.vStart (iz * g.n2 + plainIx g t.1 t.2.1 t.2.2), g.mBackGhost (foldedIx g t.1 t.2.1 t.2.2))) := by
  simp only [unfoldOps, List.mem_flatMap, List.mem_range, InBox, plainIx, foldedIx]
  constructor
  · rintro ⟨iy, hy, ix, hx, sy, hs, hp⟩
    exact ⟨(iy, ix, sy), ⟨hy, hx, hs⟩, by simpa using hp⟩
  · rintro ⟨⟨iy, ix, sy⟩, ⟨hy, hx, hs⟩, hp⟩
    exact ⟨iy, hy, ix, hx, sy, hs, by simpa using hp⟩

/-- A gather description of an op list: for triples in the box, slice position `d t` of `m`/`v`
is taken from position `s t` of the front/back ghost slice. -/
structure Gather (g : Geo) (d s : Nat × Nat × Nat → Nat) (ops : Nat → List (Loc × Loc)) : Prop where
  mem : ∀ iz p, p ∈ ops iz ↔ ∃ t, InBox g t ∧
      (p = (g.mStart (iz * g.n2 + d t), g.mFrontGhost (s t)) ∨
       p = (g.vStart (iz * g.n2 + d t), g.mBackGhost (s t)))
  dlt : ∀ t, InBox g t → d t < g.n2
  slt : ∀ t, InBox g t → s t < g.n2
  inj : ∀ t t', InBox g t → InBox g t' → d t = d t' → s t = s t'

theorem gather_fold (g : Geo) : Gather g (fun t => foldedIx g t.1 t.2.1 t.2.2)
    (fun t => plainIx g t.1 t.2.1 t.2.2) (foldOps g) where
  mem := mem_foldOps g
  dlt := fun t ht => foldedIx_lt g ht.1 ht.2.1 ht.2.2
  slt := fun t ht => plainIx_lt g ht.1 ht.2.1 ht.2.2
  inj := by
    intro t t' ht ht' h
    obtain ⟨h1, h2, h3⟩ := foldedIx_inj g ht.2.1 ht.2.2 ht'.2.1 ht'.2.2 h
    rw [h1, h2, h3]

theorem gather_unfold (g : Geo) : Gather g (fun t => plainIx g t.1 t.2.1 t.2.2)
    (fun t => foldedIx g t.1 t.2.1 t.2.2) (unfoldOps g) where
  mem := mem_unfoldOps g
  dlt := fun t ht => plainIx_lt g ht.1 ht.2.1 ht.2.2
  slt := fun t ht => foldedIx_lt g ht.1 ht.2.1 ht.2.2
  inj := by
    intro t t' ht ht' h
    obtain ⟨h1, h2, h3⟩ := plainIx_inj g ht.1 ht.2.1 ht'.1 ht'.2.1 h
    rw [h1, h2, h3]

/-- A schedule only reorders. -/
def Sched.Ok (sched : Sched) : Prop := ∀ iz l, (sched iz l).Perm l

theorem v3_eq (g : Geo) : g.v3 = g.Ng * g.n2 + g.n3 + g.Ng * g.n2 := by
  simp only [Geo.v3, Geo.n3, Nat.add_mul, Nat.two_mul]
  omega

theorem slice_lt (g : Geo) {iz j : Nat} (hz : iz < g.Lz) (hj : j < g.n2) : iz * g.n2 + j < g.n3 :=
  pair_lt hz hj

theorem ghost_le (g : Geo) (hNg : 1 ≤ g.Ng) : g.n2 ≤ g.Ng * g.n2 := Nat.le_mul_of_pos_left _ hNg

theorem vsize_ge (g : Geo) : (if g.pax then g.Ng * g.n2 else 0) + g.n3 ≤ g.size .v := by
  simp only [Geo.size]
  split
  · rw [v3_eq]; omega
  · simp only [Geo.n3, Nat.add_mul]; omega

/-- What a pass over one slice does, as a relation between heaps. -/
structure SliceMoved (g : Geo) (d s : Nat × Nat × Nat → Nat) (iz : Nat) (h h' : Heap Loc α) : Prop where
  mval : ∀ t, InBox g t → h' (g.mStart (iz * g.n2 + d t)) = h (g.mStart (iz * g.n2 + s t))
  vval : ∀ t, InBox g t → h' (g.vStart (iz * g.n2 + d t)) = h (g.vStart (iz * g.n2 + s t))
  mkeep : ∀ j, j < g.n2 → (∀ t, InBox g t → j ≠ d t) →
    h' (g.mStart (iz * g.n2 + j)) = h (g.mStart (iz * g.n2 + j))
  vkeep : ∀ j, j < g.n2 → (∀ t, InBox g t → j ≠ d t) →
    h' (g.vStart (iz * g.n2 + j)) = h (g.vStart (iz * g.n2 + j))
  mother : ∀ iz' j, iz' ≠ iz → iz' < g.Lz → j < g.n2 →
    h' (g.mStart (iz' * g.n2 + j)) = h (g.mStart (iz' * g.n2 + j))
  vother : ∀ iz' j, iz' ≠ iz → iz' < g.Lz → j < g.n2 →
    h' (g.vStart (iz' * g.n2 + j)) = h (g.vStart (iz' * g.n2 + j))
  m2same : ∀ i, h' ⟨.m2, i⟩ = h ⟨.m2, i⟩
  alloc : ∀ a, (h' a).isSome = (h a).isSome

theorem Loc.eta' (a : Loc) : a = ⟨a.reg, a.idx⟩ := rfl

theorem memcpy_isSome {dst src : Nat → Loc} {n : Nat} {h h' : Heap Loc α}
    (he : memcpy dst src n h = some h') (a : Loc) : (h' a).isSome = (h a).isSome := by
  unfold memcpy at he
  split at he
  · exact copyCells_isSome he a
  · simp at he

theorem moveSlice_spec (g : Geo) (hNg : 1 ≤ g.Ng) (sched : Sched) (hsch : sched.Ok)
    {d s : Nat × Nat × Nat → Nat} {ops : Nat → List (Loc × Loc)} (G : Gather g d s ops)
    (iz : Nat) (hz : iz < g.Lz) (h : Heap Loc α) (ha : Alloc g h) :
    ∃ h', moveSlice g sched ops iz h = some h' ∧ SliceMoved g d s iz h h' := by
  have hv3 := v3_eq g
  have hgl := ghost_le g hNg
  have hvs := vsize_ge g
  have hcomm : g.n2 * iz = iz * g.n2 := Nat.mul_comm _ _
  have msome : ∀ i, i < g.v3 → (h ⟨.m, i⟩).isSome := fun i hi => (ha ⟨.m, i⟩).2 hi
  have vsome : ∀ j, j < g.n2 → (h (g.vStart (iz * g.n2 + j))).isSome := by
    intro j hj
    refine (ha _).2 ?_
    have := slice_lt g hz hj
    simp only [Geo.vStart]
    omega
  -- first memcpy
  obtain ⟨h1, e1, c1, k1⟩ := memcpy_spec g.mFrontGhost (fun i => g.mStart (g.n2 * iz + i)) g.n2 h
    (by
      intro i hi
      have := slice_lt g hz hi
      exact msome _ (by omega))
    (by intro i hi; exact msome _ (by omega))
    (by intro i hi j hj he; simpa [Geo.mFrontGhost] using he)
    (by
      intro i hi j hj he
      simp only [Geo.mFrontGhost, Geo.mStart, Loc.mk.injEq, true_and] at he
      omega)
  have s1 := memcpy_isSome e1
  -- second memcpy
  obtain ⟨h2, e2, c2, k2⟩ := memcpy_spec g.mBackGhost (fun i => g.vStart (g.n2 * iz + i)) g.n2 h1
    (by
      intro i hi
      rw [s1, hcomm]
      exact vsome i hi)
    (by
      intro i hi
      rw [s1]
      exact msome _ (by omega))
    (by
      intro i hi j hj he
      simp only [Geo.mBackGhost, Loc.mk.injEq, true_and] at he
      omega)
    (by
      intro i hi j hj he
      simp [Geo.mBackGhost, Geo.vStart] at he)
  have s2 := memcpy_isSome e2
  have hs2 : ∀ a, (h2 a).isSome = (h a).isSome := fun a => by rw [s2, s1]
  -- facts about h2
  have f2 : ∀ j, j < g.n2 → h2 (g.mFrontGhost j) = h (g.mStart (iz * g.n2 + j)) := by
    intro j hj
    rw [k2, c1 j hj, hcomm]
    intro i hi he
    simp only [Geo.mFrontGhost, Geo.mBackGhost, Loc.mk.injEq, true_and] at he
    omega
  have b2 : ∀ j, j < g.n2 → h2 (g.mBackGhost j) = h (g.vStart (iz * g.n2 + j)) := by
    intro j hj
    rw [c2 j hj, k1, hcomm]
    intro i hi he
    simp [Geo.mFrontGhost, Geo.vStart] at he
  have m2 : ∀ i, i < g.n3 → h2 (g.mStart i) = h (g.mStart i) := by
    intro i hi
    rw [k2, k1]
    · intro j hj he
      simp only [Geo.mStart, Geo.mFrontGhost, Loc.mk.injEq, true_and] at he
      omega
    · intro j hj he
      simp only [Geo.mStart, Geo.mBackGhost, Loc.mk.injEq, true_and] at he
      omega
  have v2 : ∀ i, h2 (g.vStart i) = h (g.vStart i) := by
    intro i
    rw [k2, k1]
    · intro j hj he; simp [Geo.vStart, Geo.mFrontGhost] at he
    · intro j hj he; simp [Geo.vStart, Geo.mBackGhost] at he
  have mm2 : ∀ i, h2 ⟨.m2, i⟩ = h ⟨.m2, i⟩ := by
    intro i
    rw [k2, k1]
    · intro j hj he; simp [Geo.mFrontGhost] at he
    · intro j hj he; simp [Geo.mBackGhost] at he
  -- the scatter
  have hmem : ∀ p, p ∈ sched iz (ops iz) ↔ ∃ t, InBox g t ∧
      (p = (g.mStart (iz * g.n2 + d t), g.mFrontGhost (s t)) ∨
       p = (g.vStart (iz * g.n2 + d t), g.mBackGhost (s t))) := by
    intro p
    rw [(hsch iz (ops iz)).mem_iff, G.mem]
  obtain ⟨h3, e3, c3, k3⟩ := copyCells_spec (sched iz (ops iz)) h2
    (by
      intro p hp
      obtain ⟨t, ht, rfl | rfl⟩ := (hmem p).1 hp
      · have h1 := slice_lt g hz (G.dlt t ht)
        have h2' := G.slt t ht
        exact ⟨by rw [hs2]; exact msome _ (by omega), by rw [hs2]; exact msome _ (by omega)⟩
      · have h2' := G.slt t ht
        exact ⟨by rw [hs2]; exact vsome _ (G.dlt t ht), by rw [hs2]; exact msome _ (by omega)⟩)
    (by
      intro p hp q hq he
      obtain ⟨t, ht, rfl | rfl⟩ := (hmem p).1 hp <;> obtain ⟨t', ht', rfl | rfl⟩ := (hmem q).1 hq
      · have := G.slt t' ht'
        simp only [Geo.mStart, Geo.mFrontGhost, Loc.mk.injEq, true_and] at he
        omega
      · have := slice_lt g hz (G.dlt t ht)
        simp only [Geo.mStart, Geo.mBackGhost, Loc.mk.injEq, true_and] at he
        omega
      · simp [Geo.vStart, Geo.mFrontGhost] at he
      · simp [Geo.vStart, Geo.mBackGhost] at he)
    (by
      intro p hp q hq he
      obtain ⟨t, ht, rfl | rfl⟩ := (hmem p).1 hp <;> obtain ⟨t', ht', rfl | rfl⟩ := (hmem q).1 hq
      · simp only [Geo.mStart, Loc.mk.injEq, true_and] at he
        simp only [G.inj t t' ht ht' (by omega)]
      · simp [Geo.mStart, Geo.vStart] at he
      · simp [Geo.mStart, Geo.vStart] at he
      · simp only [Geo.vStart, Loc.mk.injEq, true_and] at he
        simp only [G.inj t t' ht ht' (by omega)])
  have s3 := copyCells_isSome e3
  refine ⟨h3, by simp [moveSlice, e1, e2, e3], ?_⟩
  constructor
  · intro t ht
    have := c3 _ ((hmem _).2 ⟨t, ht, Or.inl rfl⟩)
    simpa [f2 _ (G.slt t ht)] using this
  · intro t ht
    have := c3 _ ((hmem _).2 ⟨t, ht, Or.inr rfl⟩)
    simpa [b2 _ (G.slt t ht)] using this
  · intro j hj hne
    rw [k3, m2 _ (slice_lt g hz hj)]
    intro p hp he
    obtain ⟨t, ht, rfl | rfl⟩ := (hmem p).1 hp
    · simp only [Geo.mStart, Loc.mk.injEq, true_and] at he
      exact hne t ht (by omega)
    · simp [Geo.mStart, Geo.vStart] at he
  · intro j hj hne
    rw [k3, v2]
    intro p hp he
    obtain ⟨t, ht, rfl | rfl⟩ := (hmem p).1 hp
    · simp [Geo.mStart, Geo.vStart] at he
    · simp only [Geo.vStart, Loc.mk.injEq, true_and] at he
      exact hne t ht (by omega)
  · intro iz' j hne hz' hj
    rw [k3, m2 _ (slice_lt g hz' hj)]
    intro p hp he
    obtain ⟨t, ht, rfl | rfl⟩ := (hmem p).1 hp
    · simp only [Geo.mStart, Loc.mk.injEq, true_and] at he
      exact hne (pair_inj hj (G.dlt t ht) (by omega)).1
    · simp [Geo.mStart, Geo.vStart] at he
  · intro iz' j hne hz' hj
    rw [k3, v2]
    intro p hp he
    obtain ⟨t, ht, rfl | rfl⟩ := (hmem p).1 hp
    · simp [Geo.mStart, Geo.vStart] at he
    · simp only [Geo.vStart, Loc.mk.injEq, true_and] at he
      exact hne (pair_inj hj (G.dlt t ht) (by omega)).1
  · intro i
    rw [k3, mm2]
    intro p hp he
    obtain ⟨t, ht, rfl | rfl⟩ := (hmem p).1 hp
    · simp [Geo.mStart] at he
    · simp [Geo.vStart] at he
  · intro a
    rw [s3, hs2]

/-- What the whole pass over all slices does. -/
structure AllMoved (g : Geo) (d s : Nat × Nat × Nat → Nat) (h h' : Heap Loc α) : Prop where
  mval : ∀ iz, iz < g.Lz → ∀ t, InBox g t →
    h' (g.mStart (iz * g.n2 + d t)) = h (g.mStart (iz * g.n2 + s t))
  vval : ∀ iz, iz < g.Lz → ∀ t, InBox g t →
    h' (g.vStart (iz * g.n2 + d t)) = h (g.vStart (iz * g.n2 + s t))
  mkeep : ∀ iz, iz < g.Lz → ∀ j, j < g.n2 → (∀ t, InBox g t → j ≠ d t) →
    h' (g.mStart (iz * g.n2 + j)) = h (g.mStart (iz * g.n2 + j))
  vkeep : ∀ iz, iz < g.Lz → ∀ j, j < g.n2 → (∀ t, InBox g t → j ≠ d t) →
    h' (g.vStart (iz * g.n2 + j)) = h (g.vStart (iz * g.n2 + j))
  m2same : ∀ i, h' ⟨.m2, i⟩ = h ⟨.m2, i⟩
  alloc : ∀ a, (h' a).isSome = (h a).isSome

theorem moveAll_spec (g : Geo) (hNg : 1 ≤ g.Ng) (sched : Sched) (hsch : sched.Ok)
    {d s : Nat × Nat × Nat → Nat} {ops : Nat → List (Loc × Loc)} (G : Gather g d s ops)
    (h : Heap Loc α) (ha : Alloc g h) :
    ∃ h', loop g.Lz (moveSlice g sched ops) h = some h' ∧ AllMoved g d s h h' := by
  let P : Nat → Heap Loc α → Prop := fun k h' =>
    (∀ iz, iz < k → ∀ t, InBox g t →
      h' (g.mStart (iz * g.n2 + d t)) = h (g.mStart (iz * g.n2 + s t))) ∧
    (∀ iz, iz < k → ∀ t, InBox g t →
      h' (g.vStart (iz * g.n2 + d t)) = h (g.vStart (iz * g.n2 + s t))) ∧
    (∀ iz, iz < k → ∀ j, j < g.n2 → (∀ t, InBox g t → j ≠ d t) →
      h' (g.mStart (iz * g.n2 + j)) = h (g.mStart (iz * g.n2 + j))) ∧
    (∀ iz, iz < k → ∀ j, j < g.n2 → (∀ t, InBox g t → j ≠ d t) →
      h' (g.vStart (iz * g.n2 + j)) = h (g.vStart (iz * g.n2 + j))) ∧
    (∀ iz, k ≤ iz → iz < g.Lz → ∀ j, j < g.n2 →
      h' (g.mStart (iz * g.n2 + j)) = h (g.mStart (iz * g.n2 + j)) ∧
      h' (g.vStart (iz * g.n2 + j)) = h (g.vStart (iz * g.n2 + j))) ∧
    (∀ i, h' ⟨.m2, i⟩ = h ⟨.m2, i⟩) ∧ (∀ a, (h' a).isSome = (h a).isSome)
  obtain ⟨h', he, p1, p2, p3, p4, _, p6, p7⟩ := loop_inv (P := P) (n := g.Lz)
    (body := moveSlice g sched ops) (s := h)
    (by refine ⟨?_, ?_, ?_, ?_, ?_, ?_, ?_⟩ <;> simp)
    (by
      rintro i hi h1 ⟨q1, q2, q3, q4, q5, q6, q7⟩
      have ha1 : Alloc g h1 := fun a => by rw [q7]; exact ha a
      obtain ⟨h2, e2, M⟩ := moveSlice_spec g hNg sched hsch G i hi h1 ha1
      refine ⟨h2, e2, ?_, ?_, ?_, ?_, ?_, ?_, ?_⟩
      · intro iz hiz t ht
        rcases Nat.lt_or_ge iz i with hlt | hge
        · rw [M.mother iz _ (by omega) (by omega) (G.dlt t ht), q1 iz hlt t ht]
        · have : iz = i := by omega
          subst this
          rw [M.mval t ht, (q5 iz (Nat.le_refl _) hi _ (G.slt t ht)).1]
      · intro iz hiz t ht
        rcases Nat.lt_or_ge iz i with hlt | hge
        · rw [M.vother iz _ (by omega) (by omega) (G.dlt t ht), q2 iz hlt t ht]
        · have : iz = i := by omega
          subst this
          rw [M.vval t ht, (q5 iz (Nat.le_refl _) hi _ (G.slt t ht)).2]
      · intro iz hiz j hj hne
        rcases Nat.lt_or_ge iz i with hlt | hge
        · rw [M.mother iz _ (by omega) (by omega) hj, q3 iz hlt j hj hne]
        · have : iz = i := by omega
          subst this
          rw [M.mkeep j hj hne, (q5 iz (Nat.le_refl _) hi _ hj).1]
      · intro iz hiz j hj hne
        rcases Nat.lt_or_ge iz i with hlt | hge
        · rw [M.vother iz _ (by omega) (by omega) hj, q4 iz hlt j hj hne]
        · have : iz = i := by omega
          subst this
          rw [M.vkeep j hj hne, (q5 iz (Nat.le_refl _) hi _ hj).2]
      · intro iz hiz hz j hj
        rw [M.mother iz j (by omega) hz hj, M.vother iz j (by omega) hz hj]
        exact q5 iz (by omega) hz j hj
      · intro j; rw [M.m2same, q6]
      · intro a; rw [M.alloc, q7])
  exact ⟨h', he, ⟨p1, p2, p3, p4, p6, p7⟩⟩

end Jaxions

namespace Jaxions

variable {α : Type _}

theorem image_folded (g : Geo) (j : Nat) :
    (∃ t, InBox g t ∧ j = foldedIx g t.1 t.2.1 t.2.2) ↔ j < g.n1 / g.shift * g.n1 * g.shift := by
  constructor
  · rintro ⟨t, ht, rfl⟩
    rw [foldedIx_eq]
    exact pair_lt (pair_lt ht.1 ht.2.1) ht.2.2
  · intro hj
    have h1 := lt_of_mul_div hj
    have h2 := lt_of_mul_div h1
    have hs : 0 < g.shift := by
      rcases Nat.eq_zero_or_pos g.shift with h | h
      · rw [h] at hj; omega
      · exact h
    have hn : 0 < g.n1 := by
      rcases Nat.eq_zero_or_pos g.n1 with h | h
      · rw [h] at hj; simp at hj
      · exact h
    refine ⟨(j / g.shift / g.n1, j / g.shift % g.n1, j % g.shift),
      ⟨h2, Nat.mod_lt _ hn, Nat.mod_lt _ hs⟩, ?_⟩
    rw [foldedIx_eq, div_mul_add_mod, div_mul_add_mod]

theorem image_plain (g : Geo) (j : Nat) :
    (∃ t, InBox g t ∧ j = plainIx g t.1 t.2.1 t.2.2) ↔ j < g.n1 / g.shift * g.n1 * g.shift := by
  have hcomm : g.n1 / g.shift * g.n1 * g.shift = g.shift * (g.n1 / g.shift) * g.n1 := by
    rw [Nat.mul_right_comm, Nat.mul_comm g.shift]
  rw [hcomm]
  constructor
  · rintro ⟨t, ht, rfl⟩
    unfold plainIx
    rw [Nat.add_comm t.1]
    exact pair_lt (pair_lt ht.2.2 ht.1) ht.2.1
  · intro hj
    have h1 := lt_of_mul_div hj
    have h2 := lt_of_mul_div h1
    have hn : 0 < g.n1 := by
      rcases Nat.eq_zero_or_pos g.n1 with h | h
      · rw [h] at hj; simp at hj
      · exact h
    have hq : 0 < g.n1 / g.shift := by
      rcases Nat.eq_zero_or_pos (g.n1 / g.shift) with h | h
      · rw [h] at hj; simp at hj
      · exact h
    refine ⟨(j / g.n1 % (g.n1 / g.shift), j % g.n1, j / g.n1 / (g.n1 / g.shift)),
      ⟨Nat.mod_lt _ hq, Nat.mod_lt _ hn, h2⟩, ?_⟩
    unfold plainIx
    rw [Nat.add_comm (j / g.n1 % (g.n1 / g.shift)), div_mul_add_mod, div_mul_add_mod]

theorem site_box (g : Geo) (hdvd : g.shift ∣ g.n1) {x y : Nat} (hx : x < g.n1) (hy : y < g.n1) :
    InBox g (y % (g.n1 / g.shift), x, y / (g.n1 / g.shift)) := by
  obtain ⟨q, hq⟩ := hdvd
  have hs : 0 < g.shift := by
    rcases Nat.eq_zero_or_pos g.shift with h | h
    · rw [h] at hq; omega
    · exact h
  have hqq : g.n1 / g.shift = q := by rw [hq, Nat.mul_div_cancel_left _ hs]
  have hq0 : 0 < q := by
    rcases Nat.eq_zero_or_pos q with h | h
    · rw [h] at hq; omega
    · exact h
  refine ⟨?_, hx, ?_⟩
  · simp only [hqq]; exact Nat.mod_lt _ hq0
  · simp only [hqq]; exact lt_of_mul_div (by rw [← hq]; exact hy)

theorem site_plain (g : Geo) (x y : Nat) :
    plainIx g (y % (g.n1 / g.shift)) x (y / (g.n1 / g.shift)) = y * g.n1 + x := by
  unfold plainIx
  rw [Nat.add_comm (y % _), div_mul_add_mod]

theorem sitePos_plain (g : Geo) (x y z : Nat) :
    sitePos g false x y z = z * g.n2 + plainIx g (y % (g.n1 / g.shift)) x (y / (g.n1 / g.shift)) := by
  rw [site_plain]
  simp [sitePos, Nat.add_assoc]

theorem sitePos_folded (g : Geo) (x y z : Nat) :
    sitePos g true x y z = z * g.n2 + foldedIx g (y % (g.n1 / g.shift)) x (y / (g.n1 / g.shift)) := by
  simp [sitePos, foldedIx_eq, Nat.add_assoc]

end Jaxions
