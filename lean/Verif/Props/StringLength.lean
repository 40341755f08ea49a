import Verif.Lemmas.StringLength
import Verif.Props.StringMap

/-!
# C75: the length of strings
-/

namespace Jaxions
namespace StrLen

open Winding Finset

/-! ## One cell -/

theorem gap_comm (p q : Pt) : gap p q = gap q p := by
  unfold gap; congr 1; ring

theorem gap_nonneg (p q : Pt) : 0 ≤ gap p q := Real.sqrt_nonneg _

/-- **C75, none, one or two strings in a cell.**  For no, two or four points the code takes the mean
over all ways to join the points in pairs. -/
theorem C75_mean (l : List Pt) (h : l.length = 0 ∨ l.length = 2 ∨ l.length = 4) :
    cellLen l = meanLen l := by
  match l, h with
  | [], _ => simp [cellLen, meanLen, matchings, pairLen]
  | [p0, p1], _ => simp [cellLen, meanLen, matchings, picks, pairLen]
  | [p0, p1, p2, p3], _ =>
    simp [cellLen, meanLen, matchings, picks, pairLen]
    ring

/-- **C75, three strings in a cell.**  For six points the code leaves out one pair of each of the
fifteen ways: the mean is not what is added. -/
theorem C75_six (p0 p1 p2 p3 p4 p5 : Pt) :
    cellLen [p0, p1, p2, p3, p4, p5] = meanLen [p0, p1, p2, p3, p4, p5] -
      ((gap p4 p5 + gap p3 p5 + gap p3 p4) / 5 + 2 * (gap p2 p5 + gap p2 p4 + gap p2 p3) / 15) := by
  simp [cellLen, six, meanLen, matchings, picks, pairLen]
  ring

theorem meanLen_nonneg (l : List Pt) : 0 ≤ meanLen l := by
  refine div_nonneg (List.sum_nonneg fun x hx => ?_) (Nat.cast_nonneg _)
  obtain ⟨m, -, rfl⟩ := List.mem_map.mp hx
  refine List.sum_nonneg fun x hx => ?_
  obtain ⟨p, -, rfl⟩ := List.mem_map.mp hx
  exact gap_nonneg _ _

/-- Points that are one apart in `y` are at least one apart. -/
theorem one_le_gap {p q : Pt} (h : q.y = p.y + 1) : 1 ≤ gap p q := by
  unfold gap
  rw [Real.one_le_sqrt, h]
  have h1 := mul_self_nonneg (q.x - p.x)
  have h2 := mul_self_nonneg (q.z - p.z)
  linarith

/-- If all six faces of a cell are pierced, the points of the two faces across `y` are the third and
the fifth. -/
theorem six_faces {φ : Lat ℝ} (h : ClearLinks φ) {x y z : ℤ} (hl : (cubePts φ x y z).length = 6) :
    ∃ p0 p1 p2 p3 p4 p5, cubePts φ x y z = [p0, p1, p2, p3, p4, p5] ∧ p4.y = p2.y + 1 := by
  have hw : ∀ w ∈ faces stringHand φ x y z, w ≠ 0 := by
    rw [cubePts_length h] at hl
    have : (faces stringHand φ x y z).countP (· ≠ 0) = (faces stringHand φ x y z).length := by
      rw [hl]; rfl
    simpa [List.countP_eq_length] using this
  simp only [faces, List.mem_cons, List.not_mem_nil, or_false, forall_eq_or_imp, forall_eq] at hw
  obtain ⟨w1, w2, w3, w4, w5, w6⟩ := hw
  obtain ⟨p0, e0, -⟩ := ptXY_some h x y z w1
  obtain ⟨p1, e1, -⟩ := ptYZ_some h x y z w3
  obtain ⟨p2, e2, -, -, -, -, y2⟩ := ptZX_some h x y z w5
  obtain ⟨p3, e3, -⟩ := ptYZ_some h (x + 1) y z w4
  obtain ⟨p4, e4, -, -, -, -, y4⟩ := ptZX_some h x (y + 1) z w6
  obtain ⟨p5, e5, -⟩ := ptXY_some h x y (z + 1) w2
  refine ⟨p0, p1, p2, p3, p4, p5, ?_, by rw [y2, y4]; push_cast; rfl⟩
  rw [cubePts, cubeEnds, lowEnds, if_pos w1, if_pos w2, if_pos w3, if_pos w4, if_pos w5, if_pos w6,
    e0, e1, e2, e3, e4, e5]
  rfl

/-- **C75, three strings in a cell, how much.**  What is added is the length in the cell unless all
six faces are pierced; then it is too small by `2/15` of the lattice spacing or more. -/
theorem C75_cell_short {φ : Lat ℝ} (h : ClearLinks φ) (x y z : ℤ) :
    ((cubePts φ x y z).length ≠ 6 → cellLen (cubePts φ x y z) = trueLen φ x y z) ∧
    ((cubePts φ x y z).length = 6 → cellLen (cubePts φ x y z) + 2 / 15 ≤ trueLen φ x y z) := by
  constructor
  · intro hl
    obtain ⟨⟨k, hk⟩, h6⟩ := cubePts_even h x y z
    exact C75_mean _ (by omega)
  · intro hl
    obtain ⟨p0, p1, p2, p3, p4, p5, e, hy⟩ := six_faces h hl
    rw [trueLen, e, C75_six]
    have := one_le_gap hy
    have := gap_nonneg p4 p5
    have := gap_nonneg p3 p5
    have := gap_nonneg p3 p4
    have := gap_nonneg p2 p5
    have := gap_nonneg p2 p3
    linarith

/-- **C75, one cell of a rank.**  A cell adds what its points give, except that a cell on the last
slice of a rank adds nothing if a string goes through its upper face. -/
theorem C75_cell {Lx Lz r : ℕ} {ma : ℕ → Cx ℝ} {sd : ℕ → ℕ} {φ : Lat ℝ} (h : ClearLinks φ)
    (hm : Holds Lx Lz r ma φ) (hs : MapOf Lx Lz r sd φ) (hc : Closed Lx φ) {ix iy iz : ℕ}
    (hx : ix < Lx) (hy : iy < Lx) (hz : iz < Lz) :
    cell ma sd Lx Lz r ix iy iz =
      some (if iz + 1 = Lz ∧ xy stringHand φ ix iy ((r * Lz + iz : ℕ) + 1) ≠ 0 then 0
        else cellLen (cubePts φ ix iy (r * Lz + iz : ℕ))) := by
  have full : (if (cubeEnds φ ix iy (r * Lz + iz : ℕ)).length = 2 ∨
      (cubeEnds φ ix iy (r * Lz + iz : ℕ)).length = 4 ∨
      (cubeEnds φ ix iy (r * Lz + iz : ℕ)).length = 6 then
      ((cubeEnds φ ix iy (r * Lz + iz : ℕ)).mapM id).map cellLen else some 0) =
      some (cellLen (cubePts φ ix iy (r * Lz + iz : ℕ))) := by
    rw [cubePts_map h, mapM_some, List.length_map]
    obtain ⟨⟨k, hk⟩, h6⟩ := cubePts_even h ix iy (r * Lz + iz : ℕ)
    split
    · rfl
    · have : (cubePts φ ix iy (r * Lz + iz : ℕ)).length = 0 := by omega
      rw [List.length_eq_zero_iff.mp this]; rfl
  unfold cell
  simp only
  rw [ends_eq hm hs hc hx hy hz]
  by_cases h1 : iz + 1 < Lz
  · rw [if_pos h1, full, if_neg (by omega)]
  · rw [if_neg h1]
    by_cases hw : xy stringHand φ ix iy ((r * Lz + iz : ℕ) + 1) = 0
    · have : lowEnds φ ix iy (r * Lz + iz : ℕ) = cubeEnds φ ix iy (r * Lz + iz : ℕ) := by
        rw [cubeEnds, if_neg (not_not.mpr hw), List.append_nil]
      rw [this, full, if_neg (fun h => h.2 hw)]
    · have hp : iz + 1 = Lz ∧ xy stringHand φ ix iy ((r * Lz + iz : ℕ) + 1) ≠ 0 := ⟨by omega, hw⟩
      simp only [if_pos hp]
      rw [if_neg]
      have e : (cubeEnds φ ix iy (r * Lz + iz : ℕ)).length =
          (lowEnds φ ix iy (r * Lz + iz : ℕ)).length + 1 := by
        rw [cubeEnds, if_pos hw, List.length_append]; rfl
      obtain ⟨⟨k, hk⟩, h6⟩ := cubePts_even h ix iy (r * Lz + iz : ℕ)
      have e' := congrArg List.length (cubePts_map h ix iy (r * Lz + iz : ℕ))
      rw [List.length_map] at e'
      omega

/-! ## All ranks -/

/-- What a rank counts of a cell. -/
noncomputable def counted (φ : Lat ℝ) (Lz r iz iy ix : ℕ) : ℝ :=
  if iz + 1 = Lz ∧ xy stringHand φ ix iy ((r * Lz + iz : ℕ) + 1) ≠ 0 then 0
  else cellLen (cubePts φ ix iy (r * Lz + iz : ℕ))

/-- **C75, the length stored.**  `strLen` is the sum over all cells of the lattice of what the points
of their faces give, without the cells on the last slice of a rank with a string through the upper
face. -/
theorem C75_total {n Lx Lz : ℕ} {ma : ℕ → ℕ → Cx ℝ} {sd : ℕ → ℕ → ℕ} {φ : Lat ℝ}
    (h : ClearLinks φ) (hc : Closed Lx φ) (hm : ∀ r < n, Holds Lx Lz r (ma r) φ)
    (hs : ∀ r < n, MapOf Lx Lz r (sd r) φ) :
    totalLen n ma sd Lx Lz =
      some (∑ r ∈ range n, ∑ iz ∈ range Lz, ∑ iy ∈ range Lx, ∑ ix ∈ range Lx,
        counted φ Lz r iz iy ix) := by
  have hr : ∀ r < n, rankLen (ma r) (sd r) Lx Lz r =
      some (∑ iz ∈ range Lz, ∑ iy ∈ range Lx, ∑ ix ∈ range Lx, counted φ Lz r iz iy ix) := by
    intro r hr
    unfold rankLen
    rw [foldlM_sum _ _ (fun iz => ∑ iy ∈ range Lx, ∑ ix ∈ range Lx, counted φ Lz r iz iy ix) ?_,
      zero_add]
    · rfl
    intro iz hz a
    rw [foldlM_sum _ _ (fun iy => ∑ ix ∈ range Lx, counted φ Lz r iz iy ix) ?_]
    · rfl
    intro iy hy a
    rw [foldlM_sum _ _ (fun ix => counted φ Lz r iz iy ix) ?_]
    · rfl
    intro ix hx a
    rw [C75_cell h (hm r hr) (hs r hr) hc (List.mem_range.mp hx) (List.mem_range.mp hy)
      (List.mem_range.mp hz)]
    rfl
  unfold totalLen
  rw [foldlM_sum _ _ (fun r => ∑ iz ∈ range Lz, ∑ iy ∈ range Lx, ∑ ix ∈ range Lx,
    counted φ Lz r iz iy ix) ?_, zero_add]
  · rfl
  intro r hr' a
  rw [hr r (List.mem_range.mp hr')]
  rfl

/-- **C75, never too long.**  The stored length is at most the length of the strings; it is that
length if no string crosses from a rank to the next and no cell has all six faces pierced. -/
theorem C75_at_most {n Lx Lz : ℕ} {ma : ℕ → ℕ → Cx ℝ} {sd : ℕ → ℕ → ℕ} {φ : Lat ℝ}
    (h : ClearLinks φ) (hc : Closed Lx φ) (hm : ∀ r < n, Holds Lx Lz r (ma r) φ)
    (hs : ∀ r < n, MapOf Lx Lz r (sd r) φ) :
    ∃ l, totalLen n ma sd Lx Lz = some l ∧
      l ≤ ∑ r ∈ range n, ∑ iz ∈ range Lz, ∑ iy ∈ range Lx, ∑ ix ∈ range Lx,
        trueLen φ ix iy (r * Lz + iz : ℕ) ∧
      ((∀ r < n, ∀ iy < Lx, ∀ ix < Lx, xy stringHand φ ix iy (((r + 1) * Lz : ℕ) : ℤ) = 0) →
        (∀ iz < n * Lz, ∀ iy < Lx, ∀ ix < Lx, (cubePts φ ix iy iz).length ≠ 6) →
        l = ∑ r ∈ range n, ∑ iz ∈ range Lz, ∑ iy ∈ range Lx, ∑ ix ∈ range Lx,
          trueLen φ ix iy (r * Lz + iz : ℕ)) := by
  refine ⟨_, C75_total h hc hm hs, ?_, fun hb h6 => ?_⟩
  · refine sum_le_sum fun r _ => sum_le_sum fun iz _ => sum_le_sum fun iy _ => sum_le_sum fun ix _ => ?_
    unfold counted
    split
    · exact meanLen_nonneg _
    · obtain ⟨k1, k2⟩ := C75_cell_short h ix iy (r * Lz + iz : ℕ)
      by_cases hl : (cubePts φ ix iy (r * Lz + iz : ℕ)).length = 6
      · have := k2 hl; linarith
      · exact (k1 hl).le
  · refine sum_congr rfl fun r hr => sum_congr rfl fun iz hz => sum_congr rfl fun iy hy =>
      sum_congr rfl fun ix hx => ?_
    rw [Finset.mem_range] at hr hz hy hx
    have hlt : r * Lz + iz < n * Lz := by
      have : (r + 1) * Lz ≤ n * Lz := Nat.mul_le_mul_right _ hr
      have e : (r + 1) * Lz = r * Lz + Lz := by ring
      omega
    rw [counted, if_neg]
    · exact (C75_cell_short h ix iy (r * Lz + iz : ℕ)).1 (h6 _ hlt iy hy ix hx)
    · rintro ⟨e, hw⟩
      apply hw
      have e' : ((r * Lz + iz : ℕ) : ℤ) + 1 = (((r + 1) * Lz : ℕ) : ℤ) := by
        have : (r + 1) * Lz = r * Lz + iz + 1 := by rw [add_mul, one_mul]; omega
        rw [this]; push_cast; rfl
      rw [e']; exact hb r hr iy hy ix hx

/-! ## Straight strings -/

theorem straight_yz {φ : Lat ℝ} (h : ClearLinks φ) (hz : ∀ x y z, φ x y (z + 1) = φ x y z) (x y z : ℤ) :
    yz stringHand φ x y z = 0 ∧ zx stringHand φ x y z = 0 := by
  have s0 : ∀ a : Cx ℝ, side a a = 0 := fun a => side_zero Iff.rfl
  constructor
  · simp only [yz, hz, stringHand, s0, side_swap (h x y z).2.1]; ring
  · simp only [zx, hz, stringHand, s0, side_swap (h x y z).1]; ring

theorem straight_cell {φ : Lat ℝ} (h : ClearLinks φ) (hz : ∀ x y z, φ x y (z + 1) = φ x y z)
    (x y z : ℤ) : cellLen (cubePts φ x y z) = (if xy stringHand φ x y z ≠ 0 then 1 else 0) ∧
      trueLen φ x y z = (if xy stringHand φ x y z ≠ 0 then 1 else 0) := by
  have e1 : xy stringHand φ x y (z + 1) = xy stringHand φ x y z := by simp only [xy, hz]
  have key : cellLen (cubePts φ x y z) = (if xy stringHand φ x y z ≠ 0 then 1 else 0) ∧
      (cubePts φ x y z).length ≠ 6 := by
    by_cases hw : xy stringHand φ x y z ≠ 0
    · obtain ⟨u, v, e, -⟩ := C75_inside (avoids_xy h x y z) hw
      have : cubePts φ x y z = [⟨x + u, y + v, z⟩, ⟨x + u, y + v, (z + 1 : ℤ)⟩] := by
        rw [cubePts, cubeEnds, lowEnds, e1, if_pos hw, if_pos hw, (straight_yz h hz x y z).1,
          (straight_yz h hz x y z).2, (straight_yz h hz (x + 1) y z).1,
          (straight_yz h hz x (y + 1) z).2]
        simp only [ptXY, hz, e]
        rfl
      rw [if_pos hw, this]
      refine ⟨?_, by simp⟩
      simp [cellLen, gap]
    · have : cubePts φ x y z = [] := by
        rw [cubePts, cubeEnds, lowEnds, e1, if_neg hw, if_neg hw, (straight_yz h hz x y z).1,
          (straight_yz h hz x y z).2, (straight_yz h hz (x + 1) y z).1,
          (straight_yz h hz x (y + 1) z).2]
        rfl
      rw [if_neg hw, this]
      exact ⟨rfl, by simp⟩
  exact ⟨key.1, by rw [← (C75_cell_short h x y z).1 key.2]; exact key.1⟩

/-- The number of strings of a field that does not depend on `z`. -/
noncomputable def strands (Lx : ℕ) (φ : Lat ℝ) : ℕ :=
  ∑ iy ∈ range Lx, ∑ ix ∈ range Lx, if xy stringHand φ ix iy 0 ≠ 0 then 1 else 0

/-- **C75, straight strings.**  For strings along `z` one cell of each string is lost on every rank:
the stored length is `n (Lz - 1)` for each string, its length being `n Lz`. -/
theorem C75_straight {n Lx Lz : ℕ} {ma : ℕ → ℕ → Cx ℝ} {sd : ℕ → ℕ → ℕ} {φ : Lat ℝ}
    (h : ClearLinks φ) (hz : ∀ x y z, φ x y (z + 1) = φ x y z) (hc : Closed Lx φ)
    (hm : ∀ r < n, Holds Lx Lz r (ma r) φ) (hs : ∀ r < n, MapOf Lx Lz r (sd r) φ) :
    totalLen n ma sd Lx Lz = some ((n * (Lz - 1) * strands Lx φ : ℕ) : ℝ) ∧
    ∑ r ∈ range n, ∑ iz ∈ range Lz, ∑ iy ∈ range Lx, ∑ ix ∈ range Lx,
        trueLen φ ix iy (r * Lz + iz : ℕ) = ((n * Lz * strands Lx φ : ℕ) : ℝ) := by
  have hnat : ∀ (x y : ℤ) (k : ℕ), xy stringHand φ x y k = xy stringHand φ x y 0 := by
    intro x y k
    induction k with
    | zero => rfl
    | succ k ih => rw [← ih]; push_cast; simp only [xy, hz]
  have cast : ∀ f : ℕ → ℕ → ℕ, ∑ iy ∈ range Lx, ∑ ix ∈ range Lx, (f iy ix : ℝ) =
      ((∑ iy ∈ range Lx, ∑ ix ∈ range Lx, f iy ix : ℕ) : ℝ) := by intro f; push_cast; rfl
  constructor
  · rw [C75_total h hc hm hs]
    congr 1
    have : ∀ r, ∑ iz ∈ range Lz, ∑ iy ∈ range Lx, ∑ ix ∈ range Lx, counted φ Lz r iz iy ix =
        (((Lz - 1) * strands Lx φ : ℕ) : ℝ) := by
      intro r
      cases Lz with
      | zero => simp
      | succ L =>
        rw [sum_range_succ]
        have e0 : ∑ iy ∈ range Lx, ∑ ix ∈ range Lx, counted φ (L + 1) r L iy ix = 0 := by
          refine sum_eq_zero fun iy _ => sum_eq_zero fun ix _ => ?_
          rw [counted, (straight_cell h hz _ _ _).1, hnat]
          have : xy stringHand φ ix iy ((r * (L + 1) + L : ℕ) + 1) = xy stringHand φ ix iy 0 := by
            rw [← hnat _ _ (r * (L + 1) + L + 1)]; push_cast; rfl
          rw [this]
          by_cases hw : xy stringHand φ ix iy 0 = 0
          · rw [if_neg (fun h => h.2 hw), if_neg (not_not.mpr hw)]
          · rw [if_pos ⟨rfl, hw⟩]
        rw [e0, add_zero]
        have e1 : ∀ iz ∈ range L, ∑ iy ∈ range Lx, ∑ ix ∈ range Lx, counted φ (L + 1) r iz iy ix =
            (strands Lx φ : ℝ) := by
          intro iz hi
          rw [Finset.mem_range] at hi
          rw [strands, ← cast]
          refine sum_congr rfl fun iy _ => sum_congr rfl fun ix _ => ?_
          rw [counted, if_neg (by omega), (straight_cell h hz _ _ _).1, hnat]
          push_cast; rfl
        rw [sum_congr rfl e1, sum_const, card_range, nsmul_eq_mul]
        push_cast
        simp
    simp only [this, sum_const, card_range, nsmul_eq_mul]
    push_cast; ring
  · have : ∀ r iz : ℕ, ∑ iy ∈ range Lx, ∑ ix ∈ range Lx, trueLen φ ix iy (r * Lz + iz : ℕ) =
        (strands Lx φ : ℝ) := by
      intro r iz
      rw [strands, ← cast]
      refine sum_congr rfl fun iy _ => sum_congr rfl fun ix _ => ?_
      rw [(straight_cell h hz _ _ _).2, hnat]
      push_cast; rfl
    simp only [this, sum_const, card_range, nsmul_eq_mul]
    push_cast; ring

end StrLen
end Jaxions
