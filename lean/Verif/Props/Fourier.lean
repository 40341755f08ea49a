import Verif.Lemmas.Fourier
import Mathlib.Algebra.Field.Rat
import Mathlib.Tactic.NormNum
import Mathlib.Tactic.FieldSimp

/-
C48: a field taken to momentum space and back is the field it was.

The claim holds for a Saxion, and for an Axion that was created as a Saxion and converted,
with at most one ghost slice (C48_round_trip_partial).  With more ghost slices the transform
of the velocity leaves its array (C48_ghosts_out_of_bounds).  An Axion created as such
leaves its array in every transform of its velocity (C48_axion_out_of_bounds), and the
transform of its field alone rescales its velocities (C48_axion_velocity_scaled).
-/

namespace Jaxions.Fourier

variable {K : Type} [Mul K] {y : Lay}

/-- C48: round trip of field and velocity, on any number of ranks, for every content. -/
theorem C48_round_trip_partial (T : Plans K) (c : K) (hk : y.kind ≠ .axion) (hNg : y.Ng ≤ 1)
    (hL : 2 ≤ y.L) (hm : Undoes c (posSize y) (momSize y) T.fm T.bm)
    (hv : Undoes c (posSize y) (momSize y) T.fv T.bv) (M W : ℕ → ℕ → K) (h : Heap Addr K)
    (ha : Alloc y h) (hh : Holds y M W h) :
    ∃ h1 h2, ft y T c true true ⟨h, false, false⟩ = some ⟨h1, true, true⟩ ∧
      ift y T true true ⟨h1, true, true⟩ = some ⟨h2, false, false⟩ ∧
      Holds y M W h2 ∧ Alloc y h2 := by
  obtain ⟨kd, P, L, Lz, Ng⟩ := y
  set y : Lay := ⟨kd, P, L, Lz, Ng⟩ with hy
  have hv3 : y.v3 = y.n3 + 2 * (y.n2 * y.Ng) := by
    unfold Lay.v3 Lay.n3; ring
  have hvs : 2 * y.v3 ≤ 2 * (y.n2 * (y.Lz + 2)) := by
    rw [hv3]; unfold Lay.n3
    have : y.n2 * y.Ng ≤ y.n2 * 1 := Nat.mul_le_mul_left _ hNg
    have e : y.n2 * (y.Lz + 2) = y.Lz * y.n2 + 2 * y.n2 := by ring
    omega
  have hpad : y.nPad ≤ 2 * y.v3 := by
    have h1 : y.nPad ≤ y.Lz * y.L * (2 * y.L) := Nat.mul_le_mul_left _ (by omega)
    have e : y.Lz * y.L * (2 * y.L) = 2 * y.n3 := by unfold Lay.n3 Lay.n2; ring
    omega
  cases kd with
  | axion => exact absurd rfl hk
  | saxion =>
    have hm : Undoes c (y.P * (2 * y.n3)) (y.P * (2 * y.n3)) T.fm T.bm := hm
    have hv : Undoes c (y.P * (2 * y.n3)) (y.P * (2 * y.n3)) T.fv T.bv := hv
    have hX : ∀ k < y.P * (2 * y.n3), h (allRanks (2 * y.n3) y.mStart k) =
        some (M (k / (2 * y.n3)) (k % (2 * y.n3))) := fun k hk =>
      hh.m _ (rank_lt hk) _ (idx_lt hk)
    obtain ⟨a1, p1, p2, p3, p4⟩ := fwd_sax T.fm c ha .m (2 * (y.n2 * y.Ng)) (by omega)
      (Nat.le_refl _) (f := y.mStart) (g := mCpu) (fun _ _ => rfl) (fun _ _ => rfl) _ hX
    have hV : ∀ k < y.P * (2 * y.n3), a1 (allRanks (2 * y.n3) y.vCpu k) =
        some (W (k / (2 * y.n3)) (k % (2 * y.n3))) := fun k hk => by
      rw [p3 _ (by show Blk.v ≠ Blk.m; decide)]
      exact hh.v _ (rank_lt hk) _ (idx_lt hk)
    obtain ⟨a2, q1, q2, q3, q4⟩ := fwd_sax T.fv c p4 .v 0 (by omega) hvs (f := y.vCpu)
      (g := y.vCpu) (fun r i => by rw [Nat.zero_add]; rfl) (fun _ _ => rfl) _ hV
    have hZ := fun k hk => (q3 (allRanks (2 * y.n3) y.mStart k)
      (by show Blk.m ≠ Blk.v; decide)).trans (p2 k hk)
    obtain ⟨b1, r1, r2, r3, r4⟩ := bck_sax T.bm q4 .m (2 * (y.n2 * y.Ng)) (f := y.mStart)
      (fun _ _ => rfl) _ hZ
    have hU := fun k hk => (r3 (allRanks (2 * y.n3) y.vCpu k)
      (by show Blk.v ≠ Blk.m; decide)).trans (q2 k hk)
    obtain ⟨b2, s1, s2, s3, s4⟩ := bck_sax T.bv r4 .v 0 (f := y.vCpu)
      (fun r i => by rw [Nat.zero_add]; rfl) _ hU
    refine ⟨a2, b2, ?_, ?_, ⟨?_, ?_⟩, s4⟩
    · show (fwdM y T c h).bind _ = _
      rw [show fwdM y T c h = some a1 from p1]
      show (fwdV y T c a1).bind _ = _
      rw [show fwdV y T c a1 = some a2 from q1]
      rfl
    · show (bckM y T a2).bind _ = _
      rw [show bckM y T a2 = some b1 from r1]
      show (bckV y T b1).bind _ = _
      rw [show bckV y T b1 = some b2 from s1]
      rfl
    · intro r hr i hi
      have hi : i < 2 * y.n3 := hi
      have e := r2 (r * (2 * y.n3) + i) (glob_lt hr hi)
      rw [hm (fun k => M (k / (2 * y.n3)) (k % (2 * y.n3))) _ (glob_lt hr hi), allRanks_glob _ hi,
        glob_div hi, glob_mod hi] at e
      rw [← e]
      exact s3 _ (by show Blk.m ≠ Blk.v; decide)
    · intro r hr i hi
      have hi : i < 2 * y.n3 := hi
      have e := s2 (r * (2 * y.n3) + i) (glob_lt hr hi)
      rw [hv (fun k => W (k / (2 * y.n3)) (k % (2 * y.n3))) _ (glob_lt hr hi), allRanks_glob _ hi,
        glob_div hi, glob_mod hi] at e
      exact e
  | converted =>
    have hone : y.kind.comps * y.n3 = y.n3 := Nat.one_mul _
    have hX : ∀ k < y.P * y.n3, h (allRanks y.n3 y.mStart k) =
        some (M (k / y.n3) (k % y.n3)) := fun k hk => by
      have := hh.m _ (rank_lt hk) _ (by rw [hone]; exact idx_lt hk)
      rw [show y.kind.comps * (y.n2 * y.Ng) = y.n2 * y.Ng from Nat.one_mul _] at this
      exact this
    obtain ⟨a1, p1, p2, p3, p4⟩ := fwd_pad T.fm c (by omega) hpad ha .m (by decide) (y.n2 * y.Ng)
      (Nat.le_refl _) (f := y.mStart) (g := mCpu) (fun _ _ => rfl) (fun _ _ => rfl) _ hX
    have hV : ∀ k < y.P * y.n3, a1 (allRanks y.n3 y.vCpu k) =
        some (W (k / y.n3) (k % y.n3)) := fun k hk => by
      rw [p3 _ (by show Blk.v ≠ Blk.m; decide) (by show Blk.v ≠ Blk.m2; decide)]
      exact hh.v _ (rank_lt hk) _ (by rw [hone]; exact idx_lt hk)
    obtain ⟨a2, q1, q2, q3, q4⟩ := fwd_pad T.fv c (by omega) hpad p4 .v (by decide) 0 hvs
      (f := y.vCpu) (g := y.vCpu) (fun r i => by rw [Nat.zero_add]; rfl) (fun _ _ => rfl) _ hV
    have hZ := fun k hk => (q3 (allRanks y.nPad mCpu k)
      (by show Blk.m ≠ Blk.v; decide) (by show Blk.m ≠ Blk.m2; decide)).trans (p2 k hk)
    obtain ⟨b1, r1, r2, r3, r4⟩ := bck_pad T.bm (by omega) hpad q4 .m (by decide) (y.n2 * y.Ng)
      (by show _ ≤ 2 * y.v3; omega) (f := y.mStart) (fun _ _ => rfl) _ hZ
    have hU := fun k hk => (r3 (allRanks y.nPad y.vCpu k)
      (by show Blk.v ≠ Blk.m; decide) (by show Blk.v ≠ Blk.m2; decide)).trans (q2 k hk)
    obtain ⟨b2, s1, s2, s3, s4⟩ := bck_pad T.bv (by omega) hpad r4 .v (by decide) 0
      (by show _ ≤ 2 * (y.n2 * (y.Lz + 2)); omega) (f := y.vCpu)
      (fun r i => by rw [Nat.zero_add]; rfl) _ hU
    have hpos : posSize y = y.P * y.n3 := by unfold posSize; rw [hone]
    refine ⟨a2, b2, ?_, ?_, ⟨?_, ?_⟩, s4⟩
    · show (fwdM y T c h).bind _ = _
      rw [show fwdM y T c h = some a1 from p1]
      show (fwdV y T c a1).bind _ = _
      rw [show fwdV y T c a1 = some a2 from q1]
      rfl
    · show (bckM y T a2).bind _ = _
      rw [show bckM y T a2 = some b1 from r1]
      show (bckV y T b1).bind _ = _
      rw [show bckV y T b1 = some b2 from s1]
      rfl
    · intro r hr i hi
      rw [hone] at hi
      have e := r2 (r * y.n3 + i) (glob_lt hr hi)
      have u := hm (fun k => M (k / y.n3) (k % y.n3)) (r * y.n3 + i)
        (by rw [hpos]; exact glob_lt hr hi)
      rw [hpos] at u
      rw [show (T.bm ((List.range (y.P * y.nPad)).map fun k => c * T.fm ((List.range (y.P * y.n3)).map
        fun k => M (k / y.n3) (k % y.n3)) k) (r * y.n3 + i)) = _ from u, allRanks_glob _ hi,
        glob_div hi, glob_mod hi] at e
      rw [show y.kind.comps * (y.n2 * y.Ng) = y.n2 * y.Ng from Nat.one_mul _, ← e]
      exact s3 _ (by show Blk.m ≠ Blk.v; decide) (by show Blk.m ≠ Blk.m2; decide)
    · intro r hr i hi
      rw [hone] at hi
      have e := s2 (r * y.n3 + i) (glob_lt hr hi)
      have u := hv (fun k => W (k / y.n3) (k % y.n3)) (r * y.n3 + i)
        (by rw [hpos]; exact glob_lt hr hi)
      rw [hpos] at u
      rw [show (T.bv ((List.range (y.P * y.nPad)).map fun k => c * T.fv ((List.range (y.P * y.n3)).map
        fun k => W (k / y.n3) (k % y.n3)) k) (r * y.n3 + i)) = _ from u, allRanks_glob _ hi,
        glob_div hi, glob_mod hi] at e
      exact e

/-- A library that keeps its promise: reverse and multiply by four, reverse back. -/
def exPlans : Plans ℚ where
  fm := fun xs k => 4 * xs.reverse.getD k 0
  bm := fun xs k => xs.reverse.getD k 0
  fv := fun xs k => 4 * xs.reverse.getD k 0
  bv := fun xs k => xs.reverse.getD k 0

/-- A field of one rank, four sites, one ghost slice. -/
def exHeap (y : Lay) : Heap Addr ℚ := fun a =>
  if a.rank < y.P ∧ a.idx < y.size a.blk then some (a.idx : ℚ) else none

theorem exUndoes (n : ℕ) : Undoes (1 / 4 : ℚ) n n exPlans.fm exPlans.bm := by
  intro X i hi
  have h1 : ∀ (Y : ℕ → ℚ) j, j < n → ((List.range n).map Y).reverse.getD j 0 = Y (n - 1 - j) := by
    intro Y j hj
    rw [List.getD_eq_getElem?_getD, List.getElem?_eq_getElem (by simpa using hj),
      List.getElem_reverse]
    simp
  show ((List.range n).map _).reverse.getD i 0 = X i
  rw [h1 _ i hi]
  show 1 / 4 * (4 * ((List.range n).map X).reverse.getD (n - 1 - i) 0) = X i
  rw [h1 X _ (by omega), show n - 1 - (n - 1 - i) = i by omega]
  ring

/-- The hypotheses of the round trip are met by a Saxion of four sites on three ranks. -/
example : ∃ M W : ℕ → ℕ → ℚ,
    Alloc ⟨.saxion, 3, 2, 1, 1⟩ (exHeap ⟨.saxion, 3, 2, 1, 1⟩) ∧
    Holds ⟨.saxion, 3, 2, 1, 1⟩ M W (exHeap ⟨.saxion, 3, 2, 1, 1⟩) ∧
    Undoes (1 / 4 : ℚ) (posSize ⟨.saxion, 3, 2, 1, 1⟩) (momSize ⟨.saxion, 3, 2, 1, 1⟩)
      exPlans.fm exPlans.bm := by
  refine ⟨fun _ i => (8 + i : ℕ), fun _ i => i, ?_, ⟨?_, ?_⟩, exUndoes _⟩
  · intro a
    unfold exHeap
    split
    · exact ⟨fun _ => by assumption, fun _ => rfl⟩
    · exact ⟨fun h => absurd h (by simp), fun h => absurd h (by assumption)⟩
  · intro r hr i hi
    have hr : r < 3 := hr
    have hi : i < 8 := hi
    exact if_pos ⟨hr, by show 8 + i < 24; omega⟩
  · intro r hr i hi
    have hr : r < 3 := hr
    have hi : i < 8 := hi
    exact if_pos ⟨hr, by show i < 24; omega⟩

/-- And by an Axion created as such, for the theorems about it. -/
example : ∃ M W : ℕ → ℕ → ℚ,
    Alloc ⟨.axion, 3, 2, 2, 1⟩ (exHeap ⟨.axion, 3, 2, 2, 1⟩) ∧
    Holds ⟨.axion, 3, 2, 2, 1⟩ M W (exHeap ⟨.axion, 3, 2, 2, 1⟩) := by
  refine ⟨fun _ i => (4 + i : ℕ), fun _ i => (16 + i : ℕ), ?_, ⟨?_, ?_⟩⟩
  · intro a
    unfold exHeap
    split
    · exact ⟨fun _ => by assumption, fun _ => rfl⟩
    · exact ⟨fun h => absurd h (by simp), fun h => absurd h (by assumption)⟩
  · intro r hr i hi
    have hr : r < 3 := hr
    have hi : i < 8 := by
      have : i < 1 * 8 := hi
      omega
    exact if_pos ⟨hr, by show 4 + i < 32; omega⟩
  · intro r hr i hi
    have hr : r < 3 := hr
    have hi : i < 8 := by
      have : i < 1 * 8 := hi
      omega
    exact if_pos ⟨hr, by show 16 + i < 32; omega⟩

/-- C48 is false with more than one ghost slice: the transform of the velocity of a Saxion
leaves its array, whatever else is requested. -/
theorem C48_ghosts_out_of_bounds (T : Plans K) (c : K) (hk : y.kind ≠ .axion) (hNg : 2 ≤ y.Ng)
    (hP : 0 < y.P) (hL : 0 < y.L) (h : Heap Addr K) (ha : Alloc y h) (reqM mMom : Bool)
    (hreq : reqM = true → mMom = false) :
    ft y T c reqM true ⟨h, mMom, false⟩ = none := by
  have hn2 : 0 < y.n2 := Nat.mul_pos hL hL
  have hv3 : y.v3 = y.n2 * (y.Lz + 2) + (y.Ng - 1) * 2 * y.n2 := by
    obtain ⟨g, hg⟩ : ∃ g, y.Ng = g + 1 := ⟨y.Ng - 1, by omega⟩
    unfold Lay.v3; rw [hg, Nat.add_sub_cancel]; ring
  have hlt : y.n2 * (y.Lz + 2) < y.v3 := by
    have : 0 < (y.Ng - 1) * 2 * y.n2 := Nat.mul_pos (by omega) hn2
    omega
  refine ft_velocity_none T c h ha reqM mMom hreq hP (k := 2 * (y.n2 * (y.Lz + 2))) (by omega) ?_
  obtain ⟨kd, P, L, Lz, Ng⟩ := y
  cases kd with
  | axion => exact absurd rfl hk
  | saxion => exact Nat.le_refl _
  | converted => exact Nat.le_refl _

/-- C48 is false for an Axion created as such: every transform of its velocity leaves its
array, with any number of ghost slices. -/
theorem C48_axion_out_of_bounds (T : Plans K) (c : K) (hk : y.kind = .axion) (hNg : 1 ≤ y.Ng)
    (hP : 0 < y.P) (hL : 0 < y.L) (h : Heap Addr K) (ha : Alloc y h) (reqM mMom : Bool)
    (hreq : reqM = true → mMom = false) :
    ft y T c reqM true ⟨h, mMom, false⟩ = none := by
  have hn2 : 0 < y.n2 := Nat.mul_pos hL hL
  have hv3 : y.v3 = y.n2 * (y.Lz + 2) + (y.Ng - 1) * 2 * y.n2 := by
    obtain ⟨g, hg⟩ : ∃ g, y.Ng = g + 1 := ⟨y.Ng - 1, by omega⟩
    unfold Lay.v3; rw [hg, Nat.add_sub_cancel]; ring
  have hpos : 0 < y.n2 * (y.Lz + 2) := Nat.mul_pos hn2 (by omega)
  refine ft_velocity_none T c h ha reqM mMom hreq hP (k := y.n2 * (y.Lz + 2)) (by omega) ?_
  obtain ⟨kd, P, L, Lz, Ng⟩ := y
  cases hk
  exact Nat.le_refl _

/-- C48 is false for an Axion created as such, also if only its field is moved: the
velocities, which were not to be touched, are multiplied by the factor of the transform. -/
theorem C48_axion_velocity_scaled (T : Plans K) (c : K) (hk : y.kind = .axion) (hNg : y.Ng = 1)
    (hL : 2 ≤ y.L) (hLz : y.Lz ≤ y.L) (M W : ℕ → ℕ → K) (h : Heap Addr K) (ha : Alloc y h)
    (hh : Holds y M W h) (vMom : Bool) :
    ∃ h', ft y T c true false ⟨h, false, vMom⟩ = some ⟨h', true, vMom⟩ ∧
      ∀ r < y.P, ∀ i < y.n3, h ⟨r, .m, y.v3 + i⟩ = some (W r i) ∧
        h' ⟨r, .m, y.v3 + i⟩ = some (c * W r i) := by
  obtain ⟨kd, P, L, Lz, Ng⟩ := y
  set y : Lay := ⟨kd, P, L, Lz, Ng⟩ with hy
  have hk : kd = .axion := hk
  subst hk
  have hone : y.kind.comps * y.n3 = y.n3 := Nat.one_mul _
  have hW : ∀ r < y.P, ∀ i < y.n3, h ⟨r, .m, y.v3 + i⟩ = some (W r i) := fun r hr i hi =>
    hh.v r hr i (by rw [hone]; exact hi)
  have hX : ∀ k < y.P * y.n3, h (allRanks y.n3 y.mStart k) =
      some (M (k / y.n3) (k % y.n3)) := fun k hk => by
    have := hh.m _ (rank_lt hk) _ (by rw [hone]; exact idx_lt hk)
    rw [show y.kind.comps * (y.n2 * y.Ng) = y.n2 * y.Ng from Nat.one_mul _] at this
    exact this
  have hv3 : y.v3 = y.n2 * (y.Lz + 2) := by unfold Lay.v3; rw [hNg]; ring
  have hn3 : y.n3 + 2 * y.n2 = y.v3 := by rw [hv3]; unfold Lay.n3; ring
  have hpad : y.nPad ≤ y.v3 := by
    have e1 : y.nPad = y.n3 + 2 * (y.Lz * y.L) := by unfold Lay.nPad Lay.n3 Lay.n2; ring
    have e2 : y.Lz * y.L ≤ y.n2 := Nat.mul_le_mul_right _ hLz
    omega
  have hsm : y.size .m = 2 * y.v3 := by
    show y.v3 + y.n2 * (y.Lz + 2) = _
    omega
  obtain ⟨h0, p1, p2, p3, p4⟩ := pad_spec (by omega) (by show _ ≤ 2 * y.v3; omega) ha .m (by decide)
    (y.n2 * y.Ng) (f := y.mStart) (fun _ _ => rfl) _ hX
  have hd : ∀ k < y.P * y.nPad, (h0 (allRanks y.nPad mCpu k)).isSome := by
    intro k hk
    refine (p4 _).2 ⟨rank_lt hk, ?_⟩
    have := idx_lt hk
    show k % y.nPad < y.size .m
    omega
  obtain ⟨h1, e1, e2, e3⟩ := mapCells_spec T.fm (rows y) (y.P * y.n3) (allRanks y.nPad mCpu)
    (y.P * y.nPad) h0 _ p2 hd
    (fun k hk k' hk' h => allRanks_inj (f := mCpu) (blk := .m) (g := fun i => i) (fun _ _ => rfl)
      (fun _ _ _ _ h => h) hk hk' h)
  have ha1 := map_alloc p4 hd e2 e3
  obtain ⟨h2, s1, s2, s3, s4⟩ := scale_spec c ha1 .m (by omega) (f := mCpu) (fun _ _ => rfl)
  refine ⟨h2, ?_, ?_⟩
  · show (fwdM y T c h).bind _ = _
    have : fwdM y T c h = some h2 := by
      show (padtom2 y y.mStart h).bind _ = _
      rw [p1]
      show (mapCells T.fm (rows y) (y.P * y.n3) (allRanks y.nPad mCpu) (y.P * y.nPad) h0).bind _ = _
      rw [e1]
      exact s1
    rw [this]
    rfl
  · intro r hr i hi
    refine ⟨hW r hr i hi, ?_⟩
    rw [s2 r hr _ (by omega), e3 _ ?_, p3 _ (by show Blk.m ≠ Blk.m2; decide), hW r hr i hi]
    · rfl
    · intro k hk hc
      have := congrArg Addr.idx hc
      have e : y.v3 + i = k % y.nPad := this
      have := idx_lt hk
      omega

/-- The flags: a request for field and velocity when the field already is in momentum space
returns without moving the velocity, whatever the field. -/
theorem C48_velocity_skipped (T : Plans K) (c : K) (h : Heap Addr K) :
    ft y T c true true ⟨h, true, false⟩ = some ⟨h, true, false⟩ := rfl

end Jaxions.Fourier
