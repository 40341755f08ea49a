import Verif.Props.Folder
/-
C02: extraction of two dimensional slices.
-/
namespace Jaxions

variable {α : Type _}

theorem mem_unfold2DOps (g : Geo) (sZ : Nat) (p : Loc × Loc) :
    p ∈ unfold2DOps g sZ ↔ ∃ t, InBox g t ∧
      (p = (g.mFrontGhost (plainIx g t.1 t.2.1 t.2.2), g.mStart (sZ * g.n2 + foldedIx g t.1 t.2.1 t.2.2)) ∨
       p = (g.mBackGhost (plainIx g t.1 t.2.1 t.2.2), g.vStart (sZ * g.n2 + foldedIx g t.1 t.2.1 t.2.2))) := by
  simp only [unfold2DOps, List.mem_flatMap, List.mem_range, InBox, plainIx, foldedIx]
  constructor
  · rintro ⟨iy, hy, ix, hx, sy, hs, hp⟩
    exact ⟨(iy, ix, sy), ⟨hy, hx, hs⟩, by simpa [Nat.add_assoc] using hp⟩
  · rintro ⟨⟨iy, ix, sy⟩, ⟨hy, hx, hs⟩, hp⟩
    exact ⟨iy, hy, ix, hx, sy, hs, by simpa [Nat.add_assoc] using hp⟩

/-- The physical part of the field (all sites, both arrays, both flags) is the same. -/
def PhysicalUnchanged (g : Geo) (f f' : Fld α) : Prop :=
  f'.folded = f.folded ∧ (∀ i, i < g.n3 → f'.heap (g.mStart i) = f.heap (g.mStart i)) ∧
    (∀ i, f'.heap ⟨.v, i⟩ = f.heap ⟨.v, i⟩) ∧ (∀ i, f'.heap ⟨.m2, i⟩ = f.heap ⟨.m2, i⟩)

/-- **C02** For every z slice of the local grid the call fills the first ghost slice with the
field values and the first back ghost slice with the velocities of exactly that slice, in plain
row order, whatever the layout, and leaves the physical field alone. -/
theorem C02_z_slice (g : Geo) (hNg : 1 ≤ g.Ng) (hdvd : g.shift ∣ g.n1) (sched : Sched)
    (hsch : sched.Ok) (f : Fld α) (ha : Alloc g f.heap) (sZ : Nat) (hz : sZ < g.Lz) :
    ∃ f', unfoldField2D g sched sZ f = some (.done f') ∧ PhysicalUnchanged g f f' ∧
      ∀ x y, x < g.n1 → y < g.n1 →
        f'.heap (g.mFrontGhost (y * g.n1 + x)) = f.mAt g x y sZ ∧
        f'.heap (g.mBackGhost (y * g.n1 + x)) = f.vAt g x y sZ := by
  have hv3 := v3_eq g
  have hgl := ghost_le g hNg
  have hvs := vsize_ge g
  have hcomm : g.n2 * sZ = sZ * g.n2 := Nat.mul_comm _ _
  have msome : ∀ i, i < g.v3 → (f.heap ⟨.m, i⟩).isSome := fun i hi => (ha ⟨.m, i⟩).2 hi
  have vsome : ∀ j, j < g.n2 → (f.heap (g.vStart (sZ * g.n2 + j))).isSome := by
    intro j hj
    refine (ha _).2 ?_
    have := slice_lt g hz hj
    simp only [Geo.vStart]
    omega
  cases hf : f.folded with
  | false =>
    obtain ⟨h1, e1, c1, k1⟩ := memcpy_spec g.mFrontGhost (fun i => g.mStart (g.n2 * sZ + i)) g.n2 f.heap
      (by intro i hi; have := slice_lt g hz hi; exact msome _ (by omega))
      (by intro i hi; exact msome _ (by omega))
      (by intro i hi j hj he; simpa [Geo.mFrontGhost] using he)
      (by
        intro i hi j hj he
        simp only [Geo.mFrontGhost, Geo.mStart, Loc.mk.injEq, true_and] at he
        omega)
    have s1 := memcpy_isSome e1
    obtain ⟨h2, e2, c2, k2⟩ := memcpy_spec g.mBackGhost (fun i => g.vStart (g.n2 * sZ + i)) g.n2 h1
      (by intro i hi; rw [s1, hcomm]; exact vsome i hi)
      (by intro i hi; rw [s1]; exact msome _ (by omega))
      (by
        intro i hi j hj he
        simp only [Geo.mBackGhost, Loc.mk.injEq, true_and] at he
        omega)
      (by intro i hi j hj he; simp [Geo.mBackGhost, Geo.vStart] at he)
    have hv : ∀ i, h2 ⟨.v, i⟩ = f.heap ⟨.v, i⟩ := by
      intro i
      rw [k2, k1]
      · intro j _ he; simp [Geo.mFrontGhost] at he
      · intro j _ he; simp [Geo.mBackGhost] at he
    refine ⟨{ f with heap := h2 }, ?_, ⟨rfl, ?_, hv, ?_⟩, ?_⟩
    · simp [unfoldField2D, Nat.not_lt.2 (Nat.le_of_lt hz), hf, e1, e2]
    · intro i hi
      show h2 _ = _
      rw [k2, k1]
      · intro j hj he
        simp only [Geo.mStart, Geo.mFrontGhost, Loc.mk.injEq, true_and] at he
        omega
      · intro j hj he
        simp only [Geo.mStart, Geo.mBackGhost, Loc.mk.injEq, true_and] at he
        omega
    · intro i
      show h2 _ = _
      rw [k2, k1]
      · intro j _ he; simp [Geo.mFrontGhost] at he
      · intro j _ he; simp [Geo.mBackGhost] at he
    · intro x y hx hy
      have hlt : y * g.n1 + x < g.n2 := pair_lt hy hx
      simp only [Fld.mAt, Fld.vAt, hf]
      have hpos : sitePos g false x y sZ = g.n2 * sZ + (y * g.n1 + x) := by
        simp [sitePos, Nat.add_assoc, hcomm]
      rw [hpos]
      constructor
      · rw [k2, c1 _ hlt]
        intro j hj he
        simp only [Geo.mFrontGhost, Geo.mBackGhost, Loc.mk.injEq, true_and] at he
        omega
      · rw [c2 _ hlt, k1]
        intro j _ he
        simp [Geo.mFrontGhost, Geo.vStart] at he
  | true =>
    have hmem : ∀ p, p ∈ sched 0 (unfold2DOps g sZ) ↔ p ∈ unfold2DOps g sZ :=
      fun p => (hsch 0 _).mem_iff
    have D := fun t (ht : InBox g t) => plainIx_lt g ht.1 ht.2.1 ht.2.2
    have S := fun t (ht : InBox g t) => foldedIx_lt g ht.1 ht.2.1 ht.2.2
    obtain ⟨h1, e1, c1, k1⟩ := copyCells_spec (sched 0 (unfold2DOps g sZ)) f.heap
      (by
        intro p hp
        obtain ⟨t, ht, rfl | rfl⟩ := (mem_unfold2DOps g sZ p).1 ((hmem p).1 hp)
        · have h1 := slice_lt g hz (S t ht)
          have h2 := D t ht
          exact ⟨msome _ (by omega), msome _ (by omega)⟩
        · have h2 := D t ht
          exact ⟨msome _ (by omega), vsome _ (S t ht)⟩)
      (by
        intro p hp q hq he
        obtain ⟨t, ht, rfl | rfl⟩ := (mem_unfold2DOps g sZ p).1 ((hmem p).1 hp) <;>
          obtain ⟨t', ht', rfl | rfl⟩ := (mem_unfold2DOps g sZ q).1 ((hmem q).1 hq)
        · have h1 := D t ht
          simp only [Geo.mFrontGhost, Geo.mStart, Loc.mk.injEq, true_and] at he
          omega
        · simp [Geo.mFrontGhost, Geo.vStart] at he
        · have h1 := slice_lt g hz (S t' ht')
          simp only [Geo.mBackGhost, Geo.mStart, Loc.mk.injEq, true_and] at he
          omega
        · simp [Geo.mBackGhost, Geo.vStart] at he)
      (by
        intro p hp q hq he
        obtain ⟨t, ht, rfl | rfl⟩ := (mem_unfold2DOps g sZ p).1 ((hmem p).1 hp) <;>
          obtain ⟨t', ht', rfl | rfl⟩ := (mem_unfold2DOps g sZ q).1 ((hmem q).1 hq)
        · simp only [Geo.mFrontGhost, Loc.mk.injEq, true_and] at he
          obtain ⟨h1, h2, h3⟩ := plainIx_inj g ht.1 ht.2.1 ht'.1 ht'.2.1 he
          simp only [h1, h2, h3]
        · have h1 := D t ht
          simp only [Geo.mFrontGhost, Geo.mBackGhost, Loc.mk.injEq, true_and] at he
          omega
        · have h1 := D t' ht'
          simp only [Geo.mFrontGhost, Geo.mBackGhost, Loc.mk.injEq, true_and] at he
          omega
        · simp only [Geo.mBackGhost, Loc.mk.injEq, true_and] at he
          obtain ⟨h1, h2, h3⟩ := plainIx_inj g ht.1 ht.2.1 ht'.1 ht'.2.1 (Nat.add_left_cancel he)
          simp only [h1, h2, h3])
    have hkeep : ∀ a : Loc, (a.reg ≠ .m ∨ (g.Ng * g.n2 ≤ a.idx ∧ a.idx < g.Ng * g.n2 + g.n3)) →
        h1 a = f.heap a := by
      intro a hreg
      apply k1
      intro p hp he
      obtain ⟨t, ht, rfl | rfl⟩ := (mem_unfold2DOps g sZ p).1 ((hmem p).1 hp) <;> subst he
      · have h1 := D t ht
        rcases hreg with h | h
        · exact h rfl
        · simp only [Geo.mFrontGhost] at h; omega
      · rcases hreg with h | h
        · exact h rfl
        · simp only [Geo.mBackGhost] at h; omega
    refine ⟨{ f with heap := h1 }, ?_, ⟨rfl, ?_, ?_, ?_⟩, ?_⟩
    · simp [unfoldField2D, Nat.not_lt.2 (Nat.le_of_lt hz), hf, e1]
    · intro i hi
      refine hkeep _ (Or.inr ?_)
      simp only [Geo.mStart]; omega
    · intro i; exact hkeep _ (Or.inl (by simp))
    · intro i; exact hkeep _ (Or.inl (by simp))
    · intro x y hx hy
      have hb := site_box g hdvd hx hy
      simp only [Fld.mAt, Fld.vAt, hf, sitePos_folded]
      have c := fun p hp => c1 p ((hmem p).2 ((mem_unfold2DOps g sZ p).2 hp))
      have h1 := c _ ⟨_, hb, Or.inl rfl⟩
      have h2 := c _ ⟨_, hb, Or.inr rfl⟩
      simp only [site_plain] at h1 h2
      exact ⟨h1, h2⟩

/-- **C02** Requests beyond the guard are refused without touching anything. -/
theorem C02_refused (g : Geo) (sched : Sched) (f : Fld α) (s : Nat) :
    (g.Lz < s → unfoldField2D g sched s f = some .refused) ∧
    (g.n1 < s → unfoldField2DYZ g sched s f = some .refused) := by
  constructor <;> intro h
  · simp [unfoldField2D, h]
  · simp [unfoldField2DYZ, h]

/-- Finding: the index equal to the depth (one past the last slice) is not refused; the ghost
slice is delivered instead. -/
theorem C02_depth_index_not_refused (g : Geo) (sched : Sched) (f : Fld α) :
    unfoldField2D g sched g.Lz f ≠ some .refused := by
  simp only [unfoldField2D, Nat.lt_irrefl, if_false]
  split
  · cases memcpy g.mFrontGhost (fun i => g.mStart (g.n2 * g.Lz + i)) g.n2 f.heap with
    | none => simp
    | some h =>
      simp only [Option.bind_eq_bind, Option.bind_some]
      cases memcpy g.mBackGhost (fun i => g.vStart (g.n2 * g.Lz + i)) g.n2 h <;> simp
  · cases copyCells (sched 0 (unfold2DOps g g.Lz)) f.heap <;> simp

/-- Operations of the x slice extraction in either layout, by (y, z). -/
theorem mem_sliceYZ (g : Geo) (hdvd : g.shift ∣ g.n1) (folded : Bool) (sX : Nat) (hX : sX < g.n1)
    (p : Loc × Loc) :
    p ∈ (if folded then sliceYZOpsFolded g sX else sliceYZOpsPlain g sX) ↔
      ∃ y z, y < g.n1 ∧ z < g.Lz ∧
       (p = (g.mFrontGhost (z * g.n1 + y), g.mStart (sitePos g folded sX y z)) ∨
        p = (g.mBackGhost (z * g.n1 + y), g.vStart (sitePos g folded sX y z))) := by
  cases folded with
  | false =>
    simp only [sliceYZOpsPlain, List.mem_flatMap, List.mem_range, sitePos, Bool.false_eq_true,
      if_false]
    constructor
    · rintro ⟨y, hy, z, hz, hp⟩; exact ⟨y, z, hy, hz, by simpa using hp⟩
    · rintro ⟨y, z, hy, hz, hp⟩; exact ⟨y, hy, z, hz, by simpa using hp⟩
  | true =>
    simp only [sliceYZOpsFolded, List.mem_flatMap, List.mem_range, if_true]
    constructor
    · rintro ⟨iy, hy, sy, hs, z, hz, hp⟩
      have hcomm : iy + sy * (g.n1 / g.shift) = sy * (g.n1 / g.shift) + iy := Nat.add_comm _ _
      have hd : (iy + sy * (g.n1 / g.shift)) / (g.n1 / g.shift) = sy := by rw [hcomm]; exact div_of hy
      have hm : (iy + sy * (g.n1 / g.shift)) % (g.n1 / g.shift) = iy := by rw [hcomm]; exact mod_of hy
      refine ⟨iy + sy * (g.n1 / g.shift), z, row_lt g hy hs, hz, ?_⟩
      rw [sitePos_folded, hd, hm]
      simpa [foldedIx, Nat.add_assoc] using hp
    · rintro ⟨y, z, hy, hz, hp⟩
      have hb := site_box g hdvd hX hy
      refine ⟨y % (g.n1 / g.shift), hb.1, y / (g.n1 / g.shift), hb.2.2, z, hz, ?_⟩
      rw [sitePos_folded] at hp
      have hrow : y % (g.n1 / g.shift) + y / (g.n1 / g.shift) * (g.n1 / g.shift) = y := by
        rw [Nat.add_comm]; exact div_mul_add_mod _ _
      rw [hrow]
      simpa [foldedIx, Nat.add_assoc] using hp

theorem sitePos_lt (g : Geo) (hdvd : g.shift ∣ g.n1) (folded : Bool) {x y z : Nat} (hx : x < g.n1)
    (hy : y < g.n1) (hz : z < g.Lz) : sitePos g folded x y z < g.n3 := by
  cases folded with
  | false =>
    have : y * g.n1 + x < g.n2 := pair_lt hy hx
    have h2 := slice_lt g hz this
    simp only [sitePos, Bool.false_eq_true, if_false]
    omega
  | true =>
    have hb := site_box g hdvd hx hy
    rw [sitePos_folded]
    exact slice_lt g hz (foldedIx_lt g hb.1 hb.2.1 hb.2.2)

/-- **C02** x slices: if the local depth does not exceed `Ng` times the length, the call delivers
the field values and velocities of the requested x slice (y fastest) and leaves the physical
field alone, in either layout. -/
theorem C02_x_slice_partial (g : Geo) (hdvd : g.shift ∣ g.n1) (hfit : g.Lz ≤ g.Ng * g.n1)
    (sched : Sched) (hsch : sched.Ok) (f : Fld α) (ha : Alloc g f.heap) (sX : Nat) (hX : sX < g.n1) :
    ∃ f', unfoldField2DYZ g sched sX f = some (.done f') ∧ PhysicalUnchanged g f f' ∧
      ∀ y z, y < g.n1 → z < g.Lz →
        f'.heap (g.mFrontGhost (z * g.n1 + y)) = f.mAt g sX y z ∧
        f'.heap (g.mBackGhost (z * g.n1 + y)) = f.vAt g sX y z := by
  have hv3 := v3_eq g
  have hvs := vsize_ge g
  have hn2 : g.Lz * g.n1 ≤ g.Ng * g.n2 := by
    have := Nat.mul_le_mul_right g.n1 hfit
    simpa [Geo.n2, Nat.mul_assoc] using this
  have D : ∀ y z, y < g.n1 → z < g.Lz → z * g.n1 + y < g.Ng * g.n2 :=
    fun y z hy hz => Nat.lt_of_lt_of_le (pair_lt hz hy) hn2
  have S : ∀ y z, y < g.n1 → z < g.Lz → sitePos g f.folded sX y z < g.n3 :=
    fun y z hy hz => sitePos_lt g hdvd _ hX hy hz
  have msome : ∀ i, i < g.v3 → (f.heap ⟨.m, i⟩).isSome := fun i hi => (ha ⟨.m, i⟩).2 hi
  let ops := if f.folded then sliceYZOpsFolded g sX else sliceYZOpsPlain g sX
  have hmem : ∀ p, p ∈ sched 0 ops ↔ ∃ y z, y < g.n1 ∧ z < g.Lz ∧
       (p = (g.mFrontGhost (z * g.n1 + y), g.mStart (sitePos g f.folded sX y z)) ∨
        p = (g.mBackGhost (z * g.n1 + y), g.vStart (sitePos g f.folded sX y z))) := by
    intro p
    rw [(hsch 0 ops).mem_iff]
    exact mem_sliceYZ g hdvd f.folded sX hX p
  obtain ⟨h1, e1, c1, k1⟩ := copyCells_spec (sched 0 ops) f.heap
    (by
      intro p hp
      obtain ⟨y, z, hy, hz, rfl | rfl⟩ := (hmem p).1 hp
      · have h1 := S y z hy hz
        have h2 := D y z hy hz
        exact ⟨msome _ (by omega), msome _ (by omega)⟩
      · have h1 := S y z hy hz
        have h2 := D y z hy hz
        refine ⟨msome _ (by omega), (ha _).2 ?_⟩
        simp only [Geo.vStart]
        omega)
    (by
      intro p hp q hq he
      obtain ⟨y, z, hy, hz, rfl | rfl⟩ := (hmem p).1 hp <;>
        obtain ⟨y', z', hy', hz', rfl | rfl⟩ := (hmem q).1 hq
      · have h2 := D y z hy hz
        simp only [Geo.mFrontGhost, Geo.mStart, Loc.mk.injEq, true_and] at he
        omega
      · simp [Geo.mFrontGhost, Geo.vStart] at he
      · have h2 := S y' z' hy' hz'
        simp only [Geo.mBackGhost, Geo.mStart, Loc.mk.injEq, true_and] at he
        omega
      · simp [Geo.mBackGhost, Geo.vStart] at he)
    (by
      intro p hp q hq he
      obtain ⟨y, z, hy, hz, rfl | rfl⟩ := (hmem p).1 hp <;>
        obtain ⟨y', z', hy', hz', rfl | rfl⟩ := (hmem q).1 hq
      · simp only [Geo.mFrontGhost, Loc.mk.injEq, true_and] at he
        obtain ⟨h1, h2⟩ := pair_inj hy hy' he
        subst h1; subst h2; rfl
      · have h2 := D y z hy hz
        simp only [Geo.mFrontGhost, Geo.mBackGhost, Loc.mk.injEq, true_and] at he
        omega
      · have h2 := D y' z' hy' hz'
        simp only [Geo.mFrontGhost, Geo.mBackGhost, Loc.mk.injEq, true_and] at he
        omega
      · simp only [Geo.mBackGhost, Loc.mk.injEq, true_and] at he
        obtain ⟨h1, h2⟩ := pair_inj hy hy' (by omega : z * g.n1 + y = z' * g.n1 + y')
        subst h1; subst h2; rfl)
  have hkeep : ∀ a : Loc, (a.reg ≠ .m ∨ (g.Ng * g.n2 ≤ a.idx ∧ a.idx < g.Ng * g.n2 + g.n3)) →
      h1 a = f.heap a := by
    intro a hreg
    apply k1
    intro p hp he
    obtain ⟨y, z, hy, hz, rfl | rfl⟩ := (hmem p).1 hp <;> subst he
    · have h1 := D y z hy hz
      rcases hreg with h | h
      · exact h rfl
      · simp only [Geo.mFrontGhost] at h; omega
    · rcases hreg with h | h
      · exact h rfl
      · simp only [Geo.mBackGhost] at h; omega
  refine ⟨{ f with heap := h1 }, ?_, ⟨rfl, ?_, ?_, ?_⟩, ?_⟩
  · have : ¬ sX > g.n1 := by omega
    simp only [unfoldField2DYZ, this, if_false]
    show (copyCells (sched 0 ops) f.heap).bind _ = _
    rw [e1]; rfl
  · intro i hi
    refine hkeep _ (Or.inr ?_)
    simp only [Geo.mStart]; omega
  · intro i; exact hkeep _ (Or.inl (by simp))
  · intro i; exact hkeep _ (Or.inl (by simp))
  · intro y z hy hz
    exact ⟨c1 _ ((hmem _).2 ⟨y, z, hy, hz, Or.inl rfl⟩), c1 _ ((hmem _).2 ⟨y, z, hy, hz, Or.inr rfl⟩)⟩

/-- Finding: if the local grid is deeper than `Ng` times its length, extracting any x slice
writes behind the allocation of the field. -/
theorem C02_x_slice_deep_overflow (g : Geo) (hdvd : g.shift ∣ g.n1) (hdeep : g.Ng * g.n1 < g.Lz)
    (sched : Sched) (hsch : sched.Ok) (f : Fld α) (ha : Alloc g f.heap) (sX : Nat) (hX : sX < g.n1) :
    unfoldField2DYZ g sched sX f = none := by
  have hgt : ¬ sX > g.n1 := by omega
  have hmem := mem_sliceYZ g hdvd f.folded sX hX
  have hn1 : 0 < g.n1 := by omega
  let a : Loc := g.mBackGhost ((g.Lz - 1) * g.n1 + (g.n1 - 1))
  have hbad : f.heap a = none := by
    have h := ha a
    cases hx : f.heap a with
    | none => rfl
    | some x =>
      rw [hx] at h
      have h3 := h.1 rfl
      exfalso
      simp only [a, Geo.mBackGhost, Geo.size, v3_eq] at h3
      have h4 : (g.Ng * g.n1 + 1) * g.n1 ≤ g.Lz * g.n1 := Nat.mul_le_mul_right _ hdeep
      have h5 : (g.Lz - 1) * g.n1 + g.n1 = g.Lz * g.n1 := by
        rw [← Nat.succ_mul]; congr 1; omega
      have h6 : g.Ng * g.n2 = g.Ng * g.n1 * g.n1 := by simp [Geo.n2, Nat.mul_assoc]
      rw [Nat.add_mul] at h4
      omega
  simp only [unfoldField2DYZ, hgt, if_false]
  show (copyCells (sched 0 _) f.heap).bind _ = none
  rw [copyCells_none _ f.heap (a, g.vStart (sitePos g f.folded sX (g.n1 - 1) (g.Lz - 1)))
    ((hsch 0 _).mem_iff.2 ((hmem _).2 ⟨g.n1 - 1, g.Lz - 1, by omega, by omega, Or.inr rfl⟩))
    (Or.inl hbad)]
  rfl

/-- Finding: the x index equal to the length is accepted. -/
theorem C02_length_index_not_refused (g : Geo) (sched : Sched) (f : Fld α) :
    unfoldField2DYZ g sched g.n1 f ≠ some .refused := by
  simp only [unfoldField2DYZ, gt_iff_lt, Nat.lt_irrefl, if_false]
  show (copyCells (sched 0 _) f.heap).bind _ ≠ _
  cases copyCells (sched 0 (if f.folded = true then sliceYZOpsFolded g g.n1 else sliceYZOpsPlain g g.n1)) f.heap <;> simp

-- non-vacuity: a 4x4x2 grid fits, a 4x4x5 grid with one ghost slice overflows
example : exGeo.Lz ≤ exGeo.Ng * exGeo.n1 ∧ (1 : Nat) < exGeo.Lz := by decide
example : (⟨4, 5, 1, 2, false⟩ : Geo).Ng * 4 < (⟨4, 5, 1, 2, false⟩ : Geo).Lz := by decide

end Jaxions
