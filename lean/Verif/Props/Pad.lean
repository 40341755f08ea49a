import Verif.Lemmas.Pad

/-!
# C27: padding and unpadding
-/

namespace Jaxions
namespace Pad

variable {α : Type}

/-- C27.  Padding in place, or from the beginning of an array to its physical part: every line
arrives, nothing outside of the padded lines changes, whatever the content, the number of lines and
the ghosts. -/
theorem C27_pad (l : Lay) (origin dest : Area) (sched : List Nat) (h : Heap Nat α)
    (hod : origin.code - dest.code = 0 ∨ origin.code - dest.code = -1)
    (hs : Room h (l.base origin) l.Ly l.Ly l.lines)
    (hd : Room h (l.base dest) (l.Ly + 2) l.Ly l.lines) :
    ∃ g, pad l origin dest sched h = some g ∧
      Moved h g (l.base origin) l.Ly (l.base dest) (l.Ly + 2) l.Ly l.lines ∧
      Rest h g (l.base dest) (l.Ly + 2) l.Ly l.lines := by
  have hle : l.base origin ≤ l.base dest := by
    cases origin <;> cases dest <;> simp [Area.code] at hod <;> simp only [Lay.base] <;>
      first | exact Nat.le_refl _ | exact Nat.le_add_right _ _ |
        (split <;> first | exact Nat.le_refl _ | exact Nat.le_add_right _ _)
  unfold pad
  dsimp only
  rw [if_pos (by omega)]
  exact moved_of _ _ _ _ _ _ (by omega) _ h (down_nodup _) (fun _ => mem_down) hs hd
    (down_ok _ _ _ _ _ _ hle (by omega) le_rfl)

/-- C27.  Padding between areas that have no number in common, in every order of the threads. -/
theorem C27_pad_apart (l : Lay) (origin dest : Area) (sched : List Nat) (hsch : Sched l.lines sched)
    (h : Heap Nat α) (hap : Apart (l.base origin) l.Ly (l.base dest) (l.Ly + 2) l.Ly l.lines)
    (hs : Room h (l.base origin) l.Ly l.Ly l.lines)
    (hd : Room h (l.base dest) (l.Ly + 2) l.Ly l.lines) :
    ∃ g, pad l origin dest sched h = some g ∧
      Moved h g (l.base origin) l.Ly (l.base dest) (l.Ly + 2) l.Ly l.lines ∧
      Rest h g (l.base dest) (l.Ly + 2) l.Ly l.lines := by
  unfold pad
  dsimp only
  split
  · exact moved_of _ _ _ _ _ _ (by omega) _ h (down_nodup _) (fun _ => mem_down) hs hd
      (apart_ok _ _ _ _ _ _ hap _ fun _ => mem_down.1)
  · exact moved_of _ _ _ _ _ _ (by omega) _ h (sched_nodup hsch) (sched_mem hsch) hs hd
      (apart_ok _ _ _ _ _ _ hap _ fun t => (sched_mem hsch t).1)

/-- C27.  Unpadding in place or from the physical part to the beginning: every line arrives, nothing
else changes. -/
theorem C27_unpad (l : Lay) (origin dest : Area) (sched : List Nat) (h : Heap Nat α)
    (hod : origin.code - dest.code = 0 ∨ origin.code - dest.code = 1)
    (hs : Room h (l.base origin) (l.Ly + 2) l.Ly l.lines)
    (hd : Room h (l.base dest) l.Ly l.Ly l.lines) :
    ∃ g, unpad l origin dest sched h = some g ∧
      Moved h g (l.base origin) (l.Ly + 2) (l.base dest) l.Ly l.Ly l.lines ∧
      Rest h g (l.base dest) l.Ly l.Ly l.lines := by
  have hle : l.base dest ≤ l.base origin := by
    cases origin <;> cases dest <;> simp [Area.code] at hod <;> simp only [Lay.base] <;>
      first | exact Nat.le_refl _ | exact Nat.le_add_right _ _ |
        (split <;> first | exact Nat.le_refl _ | exact Nat.le_add_right _ _)
  unfold unpad
  dsimp only
  rw [if_pos hod]
  exact moved_of _ _ _ _ _ _ le_rfl _ h List.nodup_range (fun _ => by simp [up]) hs hd
    (up_ok _ _ _ _ _ _ hle (by omega) le_rfl)

/-- C27.  Unpadding from the beginning of an array to its physical part, done in place and then
moved as one block. -/
theorem C27_unpad_forward (l : Lay) (origin dest : Area) (sched : List Nat) (h : Heap Nat α)
    (hod : origin.code - dest.code = -1)
    (hs : Room h (l.base origin) (l.Ly + 2) l.Ly l.lines)
    (ho : Room h (l.base origin) l.Ly l.Ly l.lines)
    (hd : Room h (l.base dest) l.Ly l.Ly l.lines) :
    ∃ g, unpad l origin dest sched h = some g ∧
      Moved h g (l.base origin) (l.Ly + 2) (l.base dest) l.Ly l.Ly l.lines := by
  have mem : ∀ t, t ∈ (up (l.lines - 1)).map (· + 1) ↔ 1 ≤ t ∧ t < l.lines := by
    intro t
    simp only [up, List.mem_map, List.mem_range]
    constructor
    · rintro ⟨k, hk, rfl⟩; omega
    · rintro ⟨h1, h2⟩; exact ⟨t - 1, by omega, by omega⟩
  have hpw : ((up (l.lines - 1)).map (· + 1)).Pairwise (· < ·) := by
    rw [List.pairwise_map]
    exact List.pairwise_lt_range.imp fun h => by omega
  obtain ⟨k, e1, v1, u1⟩ := moveLines_spec (l.base origin) (l.Ly + 2) (l.base origin) l.Ly l.Ly
    le_rfl ((up (l.lines - 1)).map (· + 1)) h (hpw.imp fun h => by omega)
    (fun t ht => hs t ((mem t).1 ht).2) (fun t ht => ho t ((mem t).1 ht).2)
    (hpw.imp fun {t u} htu i hi j hj => by
      have h1 : (t + 1) * l.Ly ≤ u * l.Ly := Nat.mul_le_mul_right _ htu
      have h2 : u * l.Ly ≤ u * (l.Ly + 2) := Nat.mul_le_mul_left u (by omega)
      rw [Nat.add_mul] at h1
      omega)
  have flat : ∀ a, Room h a l.Ly l.Ly l.lines → ∀ x < l.lines * l.Ly, (h (a + x)).isSome := by
    intro a ha x hx
    have hL : 0 < l.Ly := Nat.pos_of_ne_zero fun e => by simp [e] at hx
    have := ha (x / l.Ly) ((Nat.div_lt_iff_lt_mul hL).2 hx) (x % l.Ly) (Nat.mod_lt _ hL)
    rwa [Nat.add_assoc, Nat.div_add_mod'] at this
  have hsome : ∀ x, (h x).isSome → (k x).isSome := by
    intro x hx
    by_cases hc : ∃ t, t ∈ (up (l.lines - 1)).map (· + 1) ∧ ∃ i < l.Ly, x = l.base origin + t * l.Ly + i
    · obtain ⟨t, ht, i, hi, rfl⟩ := hc
      rw [v1 t ht i hi]; exact hs t ((mem t).1 ht).2 i hi
    · rw [u1 x (fun t ht i hi e => hc ⟨t, ht, i, hi, e⟩)]; exact hx
  obtain ⟨g, e2, v2, _⟩ := memmove_spec (fun i => l.base dest + i) (fun i => l.base origin + i)
    (l.lines * l.Ly) k (fun i hi => hsome _ (flat _ ho i hi)) (fun i hi => hsome _ (flat _ hd i hi))
    (fun i _ j _ e => by omega)
  refine ⟨g, ?_, ?_⟩
  · unfold unpad
    dsimp only
    rw [if_neg (by omega), if_pos hod, e1]
    exact e2
  · intro t ht i hi
    have hlt : t * l.Ly + i < l.lines * l.Ly := by
      have : (t + 1) * l.Ly ≤ l.lines * l.Ly := Nat.mul_le_mul_right _ ht
      rw [Nat.add_mul] at this
      omega
    have := v2 (t * l.Ly + i) hlt
    simp only [← Nat.add_assoc] at this
    rw [this]
    rcases Nat.eq_zero_or_pos t with rfl | hpos
    · have hz : k (l.base origin + 0 * l.Ly + i) = h (l.base origin + 0 * l.Ly + i) := by
        apply u1
        intro u hu j hj e
        have h1 := ((mem u).1 hu).1
        have : 1 * l.Ly ≤ u * l.Ly := Nat.mul_le_mul_right _ h1
        omega
      rw [hz]; simp
    · exact v1 t ((mem t).2 ⟨hpos, ht⟩) i hi

/-- C27.  Unpadding between areas that have no number in common, in every order of the threads. -/
theorem C27_unpad_apart (l : Lay) (origin dest : Area) (sched : List Nat)
    (hsch : Sched l.lines sched) (h : Heap Nat α)
    (hfar : 1 < (origin.code - dest.code).natAbs)
    (hap : Apart (l.base origin) (l.Ly + 2) (l.base dest) l.Ly l.Ly l.lines)
    (hs : Room h (l.base origin) (l.Ly + 2) l.Ly l.lines)
    (hd : Room h (l.base dest) l.Ly l.Ly l.lines) :
    ∃ g, unpad l origin dest sched h = some g ∧
      Moved h g (l.base origin) (l.Ly + 2) (l.base dest) l.Ly l.Ly l.lines ∧
      Rest h g (l.base dest) l.Ly l.Ly l.lines := by
  unfold unpad
  dsimp only
  rw [if_neg (by omega), if_neg (by omega)]
  exact moved_of _ _ _ _ _ _ le_rfl _ h (sched_nodup hsch) (sched_mem hsch) hs hd
    (apart_ok _ _ _ _ _ _ hap _ fun t => (sched_mem hsch t).1)

/-- C27.  Padding an area in place (or into the physical part) and removing the padding gives the
data back, number by number. -/
theorem C27_round_trip (l : Lay) (a b : Area) (s s' : List Nat) (h : Heap Nat α)
    (hab : a.code - b.code = 0 ∨ a.code - b.code = -1)
    (hs : Room h (l.base a) l.Ly l.Ly l.lines) (hd : Room h (l.base b) (l.Ly + 2) l.Ly l.lines) :
    ∃ g h', pad l a b s h = some g ∧ unpad l b a s' g = some h' ∧
      ∀ x < l.lines * l.Ly, h' (l.base a + x) = h (l.base a + x) := by
  obtain ⟨g, e1, m1, r1⟩ := C27_pad l a b s h hab hs hd
  have hsome : ∀ x, (h x).isSome → (g x).isSome := by
    intro x hx
    by_cases hc : ∃ t < l.lines, ∃ i < l.Ly, x = l.base b + t * (l.Ly + 2) + i
    · obtain ⟨t, ht, i, hi, rfl⟩ := hc
      rw [m1 t ht i hi]; exact hs t ht i hi
    · rw [r1 x (fun t ht i hi e => hc ⟨t, ht, i, hi, e⟩)]; exact hx
  obtain ⟨h', e2, m2, _⟩ := C27_unpad l b a s' g (by omega)
    (fun t ht i hi => hsome _ (hd t ht i hi)) (fun t ht i hi => hsome _ (hs t ht i hi))
  refine ⟨g, h', e1, e2, ?_⟩
  intro x hx
  have hL : 0 < l.Ly := Nat.pos_of_ne_zero fun e => by simp [e] at hx
  have ht : x / l.Ly < l.lines := (Nat.div_lt_iff_lt_mul hL).2 hx
  have hi : x % l.Ly < l.Ly := Nat.mod_lt _ hL
  have h2 := m2 _ ht _ hi
  rw [m1 _ ht _ hi] at h2
  rwa [Nat.add_assoc, Nat.div_add_mod'] at h2

/-- The end of the padded lines against `v3`. -/
theorem end_le_iff (l : Lay) (hL : 2 ≤ l.Ly) (hz : 0 < l.Lz) :
    (l.lines - 1) * (l.Ly + 2) + l.Ly ≤ l.v3 ↔ l.Lz ≤ l.Ng * l.Ly := by
  have hpos : 0 < l.lines := Nat.mul_pos (by omega) hz
  obtain ⟨n, hn⟩ : ∃ n, l.lines = n + 1 := ⟨l.lines - 1, by omega⟩
  have e1 : (l.lines - 1) * (l.Ly + 2) + l.Ly + 2 = l.Ly * (l.Ly * l.Lz) + 2 * (l.Ly * l.Lz) := by
    have : l.Ly * l.Lz = n + 1 := hn
    rw [this, hn, Nat.add_sub_cancel]
    ring
  have e2 : l.v3 = l.Ly * (l.Ly * l.Lz) + 2 * (l.Ly * (l.Ng * l.Ly)) := by
    unfold Lay.v3; ring
  constructor
  · intro h
    by_contra hc
    have : l.Ly * (l.Ng * l.Ly + 1) ≤ l.Ly * l.Lz := Nat.mul_le_mul_left _ (by omega)
    rw [Nat.mul_add] at this
    omega
  · intro h
    have : l.Ly * l.Lz ≤ l.Ly * (l.Ng * l.Ly) := Nat.mul_le_mul_left _ h
    omega

theorem v3_ge (l : Lay) (hL : 2 ≤ l.Ly) (hz : 0 < l.Lz) (hg : 0 < l.Ng) : l.Ly + 3 ≤ l.v3 := by
  unfold Lay.v3
  have h1 : l.Ly * 2 ≤ l.Ly * l.Ly := Nat.mul_le_mul_left _ hL
  have h2 : l.Ly * l.Ly * 3 ≤ l.Ly * l.Ly * (l.Lz + 2 * l.Ng) := Nat.mul_le_mul_left _ (by omega)
  omega

/-- C27.  Padding the second half of `m2` into `m2` (used by `smoothFourier`,
`spectrum.cpp:2113`) is right for every content and every order of the threads exactly if a rank is
not deeper than `Ng·Ly`. -/
theorem C27_half (l : Lay) (hL : 2 ≤ l.Ly) (hz : 0 < l.Lz) (hg : 0 < l.Ng) :
    (∀ sched, Sched l.lines sched → ∀ h : Heap Nat Bool,
      Room h (l.base .M2H) l.Ly l.Ly l.lines → Room h (l.base .M2) (l.Ly + 2) l.Ly l.lines →
      ∃ g, pad l .M2H .M2 sched h = some g ∧
        Moved h g (l.base .M2H) l.Ly (l.base .M2) (l.Ly + 2) l.Ly l.lines) ↔
      l.Lz ≤ l.Ng * l.Ly := by
  have hpos : 0 < l.lines := Nat.mul_pos (by omega) hz
  rw [← end_le_iff l hL hz]
  constructor
  · intro H
    refine (down_offset l.m2 l.v3 l.Ly l.lines hL (v3_ge l hL hz hg) hpos).1 ?_
    intro h h1 h2
    exact H (down l.lines) (List.reverse_perm _) h h1 h2
  · intro hle sched hsch h h1 h2
    obtain ⟨g, e, m, _⟩ := C27_pad_apart l .M2H .M2 sched hsch h (by
      intro t ht i hi u hu j hj
      have : t * (l.Ly + 2) ≤ (l.lines - 1) * (l.Ly + 2) := Nat.mul_le_mul_right _ (by omega)
      simp only [Lay.base]
      omega) h1 h2
    exact ⟨g, e, m⟩

/-- C27.  The loop of `pRun` from `m2half`: the same condition. -/
theorem C27_prun (l : Lay) (hL : 2 ≤ l.Ly) (hz : 0 < l.Lz) (hg : 0 < l.Ng) :
    (∀ h : Heap Nat Bool,
      Room h (l.base .M2H) l.Ly l.Ly l.lines → Room h (l.base .M2) (l.Ly + 2) l.Ly l.lines →
      ∃ g, pRunPad l true h = some g ∧
        Moved h g (l.base .M2H) l.Ly (l.base .M2) (l.Ly + 2) l.Ly l.lines) ↔
      l.Lz ≤ l.Ng * l.Ly := by
  rw [← end_le_iff l hL hz]
  exact down_offset l.m2 l.v3 l.Ly l.lines hL (v3_ge l hL hz hg) (Nat.mul_pos (by omega) hz)

/-- C27.  Padding from the physical part to the beginning of an array, which the code marks as safe
(`spectrum.cpp:2278-2286`): right for every content exactly if the padded lines end inside the
ghost slices. -/
theorem C27_start (l : Lay) (origin dest : Area) (sched : List Nat)
    (hod : origin = .MS ∧ dest = .M ∨ origin = .M2S ∧ dest = .M2 ∨ origin = .M2HS ∧ dest = .M2H)
    (hL : 3 ≤ l.Ly) (hz : 0 < l.Lz) (hg : 0 < l.Ng) (hc : 0 < l.comps) :
    (∀ h : Heap Nat Bool,
      Room h (l.base origin) l.Ly l.Ly l.lines → Room h (l.base dest) (l.Ly + 2) l.Ly l.lines →
      ∃ g, pad l origin dest sched h = some g ∧
        Moved h g (l.base origin) l.Ly (l.base dest) (l.Ly + 2) l.Ly l.lines) ↔
      (l.lines - 1) * (l.Ly + 2) + l.Ly ≤ l.ghost := by
  have hgh : l.Ly + 3 ≤ l.ghost := by
    have h1 : l.Ly * 3 ≤ l.Ly * l.Ly := Nat.mul_le_mul_left _ hL
    have h2 : 1 * (l.Ly * l.Ly) * 1 ≤ l.comps * (l.Ly * l.Ly) * l.Ng :=
      Nat.mul_le_mul (Nat.mul_le_mul_right _ hc) hg
    unfold Lay.ghost
    omega
  have := down_offset (l.base dest) l.ghost l.Ly l.lines (by omega) hgh (Nat.mul_pos (by omega) hz)
  rcases hod with ⟨rfl, rfl⟩ | ⟨rfl, rfl⟩ | ⟨rfl, rfl⟩ <;>
    · unfold pad
      simpa [Area.code, Lay.base] using this

/-- C27.  So with one number per site and no fewer slices than ghosts that padding loses data. -/
theorem C27_start_loses (l : Lay) (sched : List Nat) (hL : 3 ≤ l.Ly) (hg : 0 < l.Ng)
    (hz : l.Ng ≤ l.Lz) (hc : l.comps = 1) :
    ∃ h : Heap Nat Bool, Room h (l.base .MS) l.Ly l.Ly l.lines ∧
      Room h (l.base .M) (l.Ly + 2) l.Ly l.lines ∧
      ∀ g, pad l .MS .M sched h = some g →
        ¬ Moved h g (l.base .MS) l.Ly (l.base .M) (l.Ly + 2) l.Ly l.lines := by
  have hiff := C27_start l .MS .M sched (Or.inl ⟨rfl, rfl⟩) hL (by omega) hg (by omega)
  have hno : ¬ (l.lines - 1) * (l.Ly + 2) + l.Ly ≤ l.ghost := by
    have hpos : 0 < l.lines := Nat.mul_pos (by omega) (by omega)
    obtain ⟨n, hn⟩ : ∃ n, l.lines = n + 1 := ⟨l.lines - 1, by omega⟩
    have e1 : (l.lines - 1) * (l.Ly + 2) + l.Ly + 2 = l.Ly * (l.Ly * l.Lz) + 2 * (l.Ly * l.Lz) := by
      have : l.Ly * l.Lz = n + 1 := hn
      rw [this, hn, Nat.add_sub_cancel]
      ring
    have e2 : l.ghost = l.Ly * (l.Ly * l.Ng) := by unfold Lay.ghost; rw [hc]; ring
    have e3 : l.Ly * (l.Ly * l.Ng) ≤ l.Ly * (l.Ly * l.Lz) :=
      Nat.mul_le_mul_left _ (Nat.mul_le_mul_left _ hz)
    have e4 : 3 * 1 ≤ l.Ly * l.Lz := Nat.mul_le_mul hL (by omega)
    omega
  rw [← hiff] at hno
  by_contra hcon
  apply hno
  intro h h1 h2
  by_contra hcon2
  apply hcon
  refine ⟨h, h1, h2, ?_⟩
  intro g hg hm
  exact hcon2 ⟨g, hg, hm⟩

/-- C27.  Room: `m2` has two numbers per site of the extended volume (`scalarField.cpp:277-301`), so
the padded lines fit at its beginning. -/
theorem C27_room_m2 (l : Lay) (h : Heap Nat α) (hL : 2 ≤ l.Ly)
    (halloc : ∀ x < 2 * l.v3, (h (l.m2 + x)).isSome) :
    Room h (l.base .M2) (l.Ly + 2) l.Ly l.lines := by
  intro t ht i hi
  have h1 : (t + 1) * (l.Ly + 2) ≤ l.lines * (l.Ly + 2) := Nat.mul_le_mul_right _ ht
  have h2 : l.lines * (l.Ly + 2) ≤ l.lines * (2 * l.Ly) := Nat.mul_le_mul_left _ (by omega)
  have h3 : l.lines * (2 * l.Ly) + 4 * (l.Ly * l.Ly * l.Ng) = 2 * l.v3 := by
    unfold Lay.lines Lay.v3; ring
  rw [Nat.add_mul] at h1
  simp only [Lay.base]
  rw [Nat.add_assoc]
  exact halloc _ (by omega)

/-- C27.  Padding `m` in place, with one number per site of the extended volume: inside of the array
exactly if a rank is not deeper than `Ng·Ly`. -/
theorem C27_room_m (l : Lay) (sched : List Nat) (h : Heap Nat α) (hL : 2 ≤ l.Ly) (hz : 0 < l.Lz)
    (halloc : ∀ x, (h x).isSome ↔ l.m ≤ x ∧ x < l.m + l.v3) :
    (pad l .M .M sched h).isSome ↔ l.Lz ≤ l.Ng * l.Ly := by
  have hpos : 0 < l.lines := Nat.mul_pos (by omega) hz
  rw [← end_le_iff l hL hz]
  constructor
  · intro hs
    by_contra hc
    have hbad : h (l.m + (l.lines - 1) * (l.Ly + 2) + (l.Ly - 1)) = none := by
      by_contra hne
      have := (halloc _).1 (Option.isSome_iff_ne_none.2 hne)
      omega
    obtain ⟨n, hn⟩ : ∃ n, l.lines = n + 1 := ⟨l.lines - 1, by omega⟩
    rw [hn, Nat.add_sub_cancel] at hbad
    have hno := moveLine_none l.m l.Ly l.m (l.Ly + 2) l.Ly n (l.Ly - 1) h (by omega) hbad
    have hd : down l.lines = n :: down n := by rw [hn]; simp [down, List.range_succ]
    simp [pad, moveLines, hd, Lay.base, hno] at hs
  · intro hle
    obtain ⟨g, e, _⟩ := C27_pad l .M .M sched h (Or.inl (by rfl)) (by
      intro t ht i hi
      have h1 : (t + 1) * l.Ly ≤ l.lines * l.Ly := Nat.mul_le_mul_right _ ht
      have h2 : l.lines * l.Ly + 2 * (l.Ly * l.Ly * l.Ng) = l.v3 := by
        unfold Lay.lines Lay.v3; ring
      rw [Nat.add_mul] at h1
      simp only [Lay.base]
      exact (halloc _).2 (by omega)) (by
      intro t ht i hi
      have : t * (l.Ly + 2) ≤ (l.lines - 1) * (l.Ly + 2) := Nat.mul_le_mul_right _ (by omega)
      simp only [Lay.base]
      exact (halloc _).2 (by omega))
    rw [e]; rfl

/-! ### Cases -/

/-- A rank of 4 × 4 × 2 sites of an angle with one ghost slice: `m` has 64 numbers, `m2` 128. -/
def small : Lay := ⟨4, 2, 1, 1, false, 0, 64, 200⟩

/-- `m2` of `small`, counting. -/
def counting : Heap Nat Nat := fun x => if 200 ≤ x ∧ x < 200 + 2 * small.v3 then some x else none

/-- Lines of `counting` are padded and come back. -/
example : ∃ g h', pad small .M2 .M2 [] counting = some g ∧ unpad small .M2 .M2 [] g = some h' ∧
    ∀ x < 32, h' (200 + x) = counting (200 + x) :=
  C27_round_trip small .M2 .M2 [] [] counting (Or.inl (by decide))
    (by
      intro t ht i hi
      have : t < 8 := ht
      have : i < 4 := hi
      simp [counting, small, Lay.base, Lay.v3]
      omega)
    (C27_room_m2 small counting (by decide) (by
      intro x hx
      have hx : x < 2 * small.v3 := hx
      simp [counting, show small.m2 = 200 from rfl]
      exact hx))

example : (pad small .M2 .M2 [] counting).map (fun g => [g 200, g 206, g 209]) =
    some [some 200, some 204, some 207] := by decide +kernel

/-- The second half of `m2` of `small` may be padded into `m2` in any order. -/
example : ∀ sched, Sched small.lines sched → ∀ h : Heap Nat Bool,
    Room h (small.base .M2H) 4 4 small.lines → Room h (small.base .M2) 6 4 small.lines →
    ∃ g, pad small .M2H .M2 sched h = some g ∧
      Moved h g (small.base .M2H) 4 (small.base .M2) 6 4 small.lines :=
  (C27_half small (by decide) (by decide) (by decide)).2 (by decide)

/-- Padding the physical part to the beginning loses data already there. -/
example : ∃ h : Heap Nat Bool, Room h (small.base .MS) 4 4 small.lines ∧
    Room h (small.base .M) 6 4 small.lines ∧
    ∀ g, pad small .MS .M [] h = some g →
      ¬ Moved h g (small.base .MS) 4 (small.base .M) 6 4 small.lines :=
  C27_start_loses small [] (by decide) (by decide) (by decide) rfl

end Pad
end Jaxions
