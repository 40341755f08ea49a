import Verif.Lemmas.AnyString
import Mathlib.Analysis.Real.Pi.Bounds
/-
C68: strings given by points.
-/
noncomputable section

namespace Jaxions.AnyString

/-! ### Field of one segment -/

/-- The closed formula for the integral along a link fails exactly if the link meets the point. -/
theorem C68_link_defined (d : Pt) : int0 d.1 d.2.1 d.2.2 = none ↔ Meets d := by
  constructor
  · intro h
    by_cases ha : d.2.1 = 0 ∧ d.2.2 = 0
    · refine ⟨ha.1, ha.2, ?_⟩
      by_contra hc
      rw [not_and_or, not_le, not_le] at hc
      rw [ha.1, ha.2, int0_axis hc.symm] at h
      simp at h
    · rw [int0_off (off_pos ha)] at h
      simp at h
  · rintro ⟨h1, h2, h3, h4⟩
    rw [h1, h2]
    exact int0_on h3 h4

example : Meets (-1, 0, 0) ∧ ¬ Meets (-2, 0, 0) ∧ ¬ Meets (-0.5, 0, 1) := by
  unfold Meets; norm_num

/-- Away from that, times the cross product it is the integral of the law of Biot and Savart. -/
theorem C68_link {d : Pt} (v : Pt) (h : ¬ Meets d) :
    (int0 d.1 d.2.1 d.2.2).map (fun q => (v.2.1 * d.2.2 - v.2.2 * d.2.1) * q) =
      some (linkField v d) :=
  link_spec v h

example : ¬ Meets ((0.25, 0, 0) : Pt) := by unfold Meets; norm_num

/-- One unit or more from the middle of a segment, the field is that of one element in the middle. -/
theorem C68_far {P Q X : Pt} (hf : 1 ≤ len2 (sep P Q X)) (hm : ¬ Meets (sep P Q X)) :
    mora P Q X = some (linkField (elem P Q) (sep P Q X)) := by
  rw [mora_def, if_neg (by linarith)]
  exact C68_link _ hm

example : 1 ≤ len2 (sep (0, 0, 0) (0, 0, 1) (2, 0, 0)) ∧ ¬ Meets (sep (0, 0, 0) (0, 0, 1) (2, 0, 0)) := by
  unfold len2 sep Meets; norm_num

/-- There the only failure is a segment whose middle is the next lattice point of the link. -/
theorem C68_far_defined {P Q X : Pt} (hf : 1 ≤ len2 (sep P Q X)) :
    mora P Q X = none ↔ sep P Q X = (-1, 0, 0) := by
  rw [mora_def, if_neg (by linarith), Option.map_eq_none_iff, C68_link_defined]
  constructor
  · rintro ⟨h1, h2, h3, h4⟩
    unfold len2 at hf
    rw [h1, h2] at hf
    have : (sep P Q X).1 = -1 := by nlinarith
    ext
    · exact this
    · exact h1
    · exact h2
  · intro h
    rw [h]
    unfold Meets
    norm_num

example : sep (1, 0, 0) (1, 0, 0) (0, 0, 0) = (-1, 0, 0) := by unfold sep; norm_num

/-- Closer than one unit the segment is replaced by ten elements. -/
theorem C68_near {P Q X : Pt} (hn : len2 (sep P Q X) < 1)
    (hm : ∀ i < 10, ¬ Meets (sample P Q X ((i : ℕ) / 10 - 1 / 2))) :
    mora P Q X = some (((List.range 10).map fun i : ℕ =>
      0.1 * linkField (elem P Q) (sample P Q X (i / 10 - 1 / 2))).sum) := by
  rw [mora_def, if_pos hn]
  rw [foldlM_sum (t := fun i : ℕ => 0.1 * linkField (elem P Q) (sample P Q X (i / 10 - 1 / 2))), zero_add]
  intro i hi x
  rw [nearTerm_eq (hm i (List.mem_range.1 hi)), Option.map_some]

example : len2 (sep (0.5, -0.5, -0.75) (0.5, -0.5, 0.25) (0, 0, 0)) < 1 ∧
    ∀ i < 10, ¬ Meets (sample (0.5, -0.5, -0.75) (0.5, -0.5, 0.25) (0, 0, 0) ((i : ℕ) / 10 - 1 / 2)) := by
  refine ⟨by unfold len2 sep; norm_num, fun i _ h => ?_⟩
  have h1 := h.1
  unfold sample sep elem at h1
  norm_num at h1

/-- Far away a segment run backwards has the opposite field. -/
theorem C68_far_reversed {P Q X : Pt} (hf : 1 ≤ len2 (sep P Q X)) :
    mora Q P X = (mora P Q X).map Neg.neg := by
  rw [mora_def, mora_def, sep_swap, elem_swap, if_neg (by linarith), if_neg (by linarith)]
  cases int0 (sep P Q X).1 (sep P Q X).2.1 (sep P Q X).2.2 with
  | none => rfl
  | some q =>
    rw [Option.map_some, Option.map_some, Option.map_some]
    congr 1
    ring

example : 1 ≤ len2 (sep (0, 0, 0) (0, 0, 1) (2, 0, 0)) := by unfold len2 sep; norm_num

/-- Close by it has not: the elements at the two ends are left over. -/
theorem C68_near_reversed {P Q X : Pt} (hn : len2 (sep P Q X) < 1)
    (hm : ∀ i ≤ 10, ¬ Meets (sample P Q X ((i : ℕ) / 10 - 1 / 2))) :
    ∃ a b, mora P Q X = some a ∧ mora Q P X = some b ∧
      a + b = 0.1 * (linkField (elem P Q) (sample P Q X (-(1 / 2))) -
        linkField (elem P Q) (sample P Q X (1 / 2))) := by
  have h1 := C68_near hn fun i hi => hm i (by omega)
  have h2 := C68_near (P := Q) (Q := P) (X := X) (by rw [sep_swap]; exact hn) (by
    intro i hi
    have := hm (10 - i) (by omega)
    rw [sample_swap]
    rw [show -((i : ℝ) / 10 - 1 / 2) = ((10 - i : ℕ) : ℝ) / 10 - 1 / 2 by
      rw [Nat.cast_sub (by omega)]; push_cast; ring]
    exact this)
  refine ⟨_, _, h1, h2, ?_⟩
  simp only [List.range, List.range.loop, List.map_cons, List.map_nil, List.sum_cons, List.sum_nil]
  simp only [elem_swap P Q, link_neg, sample_swap P Q]
  push_cast
  have e (a b : ℝ) (h : a = b) : linkField (elem P Q) (sample P Q X a) =
      linkField (elem P Q) (sample P Q X b) := by rw [h]
  rw [e (0 / 10 - 1 / 2) (-(1 / 2)) (by norm_num), e (-(0 / 10 - 1 / 2)) (1 / 2) (by norm_num),
    e (-(1 / 10 - 1 / 2)) (9 / 10 - 1 / 2) (by norm_num),
    e (-(2 / 10 - 1 / 2)) (8 / 10 - 1 / 2) (by norm_num),
    e (-(3 / 10 - 1 / 2)) (7 / 10 - 1 / 2) (by norm_num),
    e (-(4 / 10 - 1 / 2)) (6 / 10 - 1 / 2) (by norm_num),
    e (-(5 / 10 - 1 / 2)) (5 / 10 - 1 / 2) (by norm_num),
    e (-(6 / 10 - 1 / 2)) (4 / 10 - 1 / 2) (by norm_num),
    e (-(7 / 10 - 1 / 2)) (3 / 10 - 1 / 2) (by norm_num),
    e (-(8 / 10 - 1 / 2)) (2 / 10 - 1 / 2) (by norm_num),
    e (-(9 / 10 - 1 / 2)) (1 / 10 - 1 / 2) (by norm_num)]
  ring

/-- So the field of a string run backwards is not the opposite one. -/
theorem C68_near_asymmetric : ∃ P Q X a b, mora P Q X = some a ∧ mora Q P X = some b ∧ b ≠ -a := by
  obtain ⟨a, b, h1, h2, h3⟩ := C68_near_reversed (P := (0.5, -0.5, -0.75)) (Q := (0.5, -0.5, 0.25))
    (X := (0, 0, 0)) (by unfold len2 sep; norm_num) (by
      intro i _ h
      have h1 := h.1
      unfold sample sep elem at h1
      norm_num at h1)
  refine ⟨_, _, _, a, b, h1, h2, ?_⟩
  intro hc
  have e1 : sample (0.5, -0.5, -0.75) (0.5, -0.5, 0.25) (0, 0, 0) (-(1 / 2)) =
      (-(1 / 2), 1 / 2, -(1 / 4)) := by
    unfold sample sep elem; norm_num
  have e2 : sample (0.5, -0.5, -0.75) (0.5, -0.5, 0.25) (0, 0, 0) (1 / 2) =
      (-(1 / 2), 1 / 2, 3 / 4) := by
    unfold sample sep elem; norm_num
  rw [hc, e1, e2, link_mid (by norm_num), link_mid (by norm_num)] at h3
  unfold elem at h3
  have s1 : Real.sqrt ((1 / 2 : ℝ) ^ 2 + (-(1 / 4)) ^ 2 + 0.25) = 3 / 4 := by
    rw [show ((1 / 2 : ℝ) ^ 2 + (-(1 / 4)) ^ 2 + 0.25) = (3 / 4) ^ 2 by norm_num]
    exact Real.sqrt_sq (by norm_num)
  have s2 : (1 : ℝ) ≤ Real.sqrt ((1 / 2 : ℝ) ^ 2 + (3 / 4) ^ 2 + 0.25) := by
    refine Real.le_sqrt_of_sq_le ?_
    norm_num
  rw [s1] at h3
  generalize Real.sqrt ((1 / 2 : ℝ) ^ 2 + (3 / 4) ^ 2 + 0.25) = q at *
  norm_num at h3
  have h4 : q⁻¹ ≤ 1 := inv_le_one_of_one_le₀ s2
  linarith

/-! ### Sum over the segments -/

/-- The copy above is one box higher, as meant. -/
theorem C68_copy_above {Tz : ℕ} (h : Tz < 2 ^ 64) : shift 1 Tz = Tz := by
  unfold shift
  rw [one_mul, Int.emod_eq_of_lt (by omega) (by omega)]
  simp

/-- The copy below is not one box lower but `2^64` less the depth higher: the product of the counter
and the unsigned depth wraps. -/
theorem C68_copy_below {Tz : ℕ} (h0 : 0 < Tz) (h : Tz < 2 ^ 64) :
    shift (-1) Tz = 2 ^ 64 - Tz ∧ shift (-1) Tz ≠ -Tz := by
  have e : shift (-1) Tz = 2 ^ 64 - Tz := by
    unfold shift
    have : (-1 * (Tz : ℤ)) % 2 ^ 64 = 2 ^ 64 - Tz := by omega
    rw [this]
    push_cast
    norm_num
  refine ⟨e, ?_⟩
  rw [e]
  intro hc
  have : (2 : ℝ) ^ 64 = 0 := by linarith
  norm_num at this

example : (0 : ℕ) < 256 ∧ 256 < 2 ^ 64 := by omega

/-- If the last point of the file is not marked as an end, the loop reads past the points. -/
theorem C68_reads_beyond {Tz : ℕ} {file : List Pt} {eps : List ℤ} {r : Pt → Pt} {X : Pt}
    (hl : eps.length = file.length) (h0 : file ≠ []) (hlast : eps.getLast? ≠ some 1) :
    segSum (copies Tz file) eps r X = none := by
  have hn : 0 < file.length := List.length_pos_iff.2 h0
  have hlen : (copies Tz file).length = file.length + file.length + file.length := by
    unfold copies; simp [Nat.add_assoc]
  unfold segSum
  refine foldlM_none _ (file.length + file.length + file.length - 1) ?_ ?_ _
  · rw [List.mem_range, hlen]; omega
  · intro x
    have hi : (file.length + file.length + file.length - 1) % eps.length = eps.length - 1 := by
      rw [hl, show file.length + file.length + file.length - 1 =
        file.length - 1 + file.length + file.length by omega, Nat.add_mod_right, Nat.add_mod_right,
        Nat.mod_eq_of_lt (by omega)]
    unfold segStep
    rw [hi, ← List.getLast?_eq_getElem?]
    cases he : eps.getLast? with
    | none => rfl
    | some e =>
      simp only [Option.bind_eq_bind, Option.bind_some]
      rw [if_neg (fun hc => hlast (by rw [he, hc])), show file.length + file.length + file.length - 1 + 1 =
        (copies Tz file).length by rw [hlen]; omega, List.getElem?_eq_none (Nat.le_refl _)]
      cases (copies Tz file)[file.length + file.length + file.length - 1]? <;> rfl

example : ([0, 0, 0] : List ℤ).getLast? ≠ some 1 := by simp

/-- With the last point marked, the sum is the sum over the segments of the file and of its two
copies, without the segments that start at a mark; no segment joins two copies. -/
theorem C68_segments {Tz : ℕ} {file : List Pt} {eps : List ℤ} {r : Pt → Pt} {X : Pt}
    {seg : Pt → Pt → ℝ} (hl : eps.length = file.length) (hlast : eps.getLast? = some 1)
    (hs : ∀ h ∈ [0, shift (-1) Tz, shift 1 Tz], ∀ (i : ℕ) (hi : i + 1 < file.length),
      eps[i]? ≠ some 1 → mora (r (lift h file[i])) (r (lift h file[i + 1])) (r X) =
        some (seg (lift h file[i]) (lift h file[i + 1]))) :
    segSum (copies Tz file) eps r X = some (imageSum file eps seg +
      imageSum (file.map (lift (shift (-1) Tz))) eps seg +
      imageSum (file.map (lift (shift 1 Tz))) eps seg) := by
  have h0 : file ≠ [] := by
    rintro rfl
    rw [List.length_nil, List.length_eq_zero_iff] at hl
    rw [hl] at hlast
    simp at hlast
  have hn : 0 < file.length := List.length_pos_iff.2 h0
  have hlen : (copies Tz file).length = file.length + file.length + file.length := by
    unfold copies; simp [Nat.add_assoc]
  have lift0 : file.map (lift 0) = file := by
    conv_rhs => rw [← List.map_id file]
    refine List.map_congr_left fun p _ => ?_
    unfold lift; rw [add_zero]; rfl
  have hcop : copies Tz file = file.map (lift 0) ++ file.map (lift (shift (-1) Tz)) ++
      file.map (lift (shift 1 Tz)) := by
    rw [lift0]; rfl
  have him : ∀ h : ℝ, imageSum (file.map (lift h)) eps seg = ((List.range file.length).map fun i =>
      if eps.getD i 0 = 1 then 0 else seg ((file.map (lift h)).getD i (0, 0, 0))
        ((file.map (lift h)).getD (i + 1) (0, 0, 0))).sum := by
    intro h
    rw [imageSum_range (0, 0, 0) (by rw [List.length_map, hl]) (by simpa using h0) hlast,
      List.length_map]
  -- the term of the loop
  let t : ℕ → ℝ := fun i => if eps.getD (i % eps.length) 0 = 1 then 0 else
    seg ((copies Tz file).getD i (0, 0, 0)) ((copies Tz file).getD (i + 1) (0, 0, 0))
  have part : ∀ (j : ℕ) (h : ℝ), j < 3 → h ∈ [0, shift (-1) Tz, shift 1 Tz] →
      (∀ i < file.length, (copies Tz file)[j * file.length + i]? = (file.map (lift h))[i]?) →
      (∀ i < file.length, ∀ x, segStep (copies Tz file) eps r X x (j * file.length + i) =
        some (x + t (j * file.length + i))) ∧
      ((List.range file.length).map fun i => t (j * file.length + i)).sum =
        imageSum (file.map (lift h)) eps seg := by
    intro j h hj hh hget
    have hmod : ∀ i < file.length, (j * file.length + i) % eps.length = i := by
      intro i hi
      rw [hl, Nat.mul_comm, Nat.mul_add_mod, Nat.mod_eq_of_lt hi]
    have hend : eps[file.length - 1]? = some 1 := by
      rw [List.getLast?_eq_getElem?, hl] at hlast; exact hlast
    have hval : ∀ i < file.length, t (j * file.length + i) = if eps.getD i 0 = 1 then 0 else
        seg ((file.map (lift h)).getD i (0, 0, 0)) ((file.map (lift h)).getD (i + 1) (0, 0, 0)) := by
      intro i hi
      show (if eps.getD ((j * file.length + i) % eps.length) 0 = 1 then 0 else _) = _
      rw [hmod i hi]
      by_cases he : eps.getD i 0 = 1
      · rw [if_pos he, if_pos he]
      · rw [if_neg he, if_neg he]
        have hi' : i + 1 < file.length := by
          by_contra hc
          have : i = file.length - 1 := by omega
          rw [this, List.getD_eq_getElem?_getD, hend] at he
          exact he rfl
        simp only [List.getD_eq_getElem?_getD]
        rw [hget i hi, show j * file.length + i + 1 = j * file.length + (i + 1) by omega,
          hget (i + 1) hi']
    refine ⟨?_, ?_⟩
    · intro i hi x
      rw [hval i hi]
      have hei : eps[i]? = some (eps.getD i 0) := by
        rw [getD_get _ (by omega), List.getElem?_eq_getElem (by omega)]
      unfold segStep
      rw [hmod i hi, hei]
      simp only [Option.bind_eq_bind, Option.bind_some]
      by_cases he : eps.getD i 0 = 1
      · rw [if_pos he, if_pos he, add_zero]
      · rw [if_neg he, if_neg he]
        have hi' : i + 1 < file.length := by
          by_contra hc
          have : i = file.length - 1 := by omega
          rw [this, List.getD_eq_getElem?_getD, hend] at he
          exact he rfl
        rw [hget i hi, show j * file.length + i + 1 = j * file.length + (i + 1) by omega,
          hget (i + 1) hi', List.getElem?_eq_getElem (by rw [List.length_map]; omega),
          List.getElem?_eq_getElem (by rw [List.length_map]; omega)]
        simp only [Option.bind_some, List.getElem_map]
        rw [hs h hh i hi' (by rw [hei]; intro hc; exact he (Option.some.inj hc))]
        simp only [Option.bind_some]
        rw [getD_get _ (by rw [List.length_map]; omega),
          getD_get _ (by rw [List.length_map]; omega), List.getElem_map, List.getElem_map]
    · rw [him h]
      congr 1
      refine List.map_congr_left fun i hi => ?_
      exact hval i (List.mem_range.1 hi)
  obtain ⟨a1, a2⟩ := part 0 0 (by omega) (by simp) (by
    intro i hi
    rw [hcop, Nat.zero_mul, Nat.zero_add, List.append_assoc,
      List.getElem?_append_left (by rw [List.length_map]; omega)])
  obtain ⟨b1, b2⟩ := part 1 (shift (-1) Tz) (by omega) (by simp) (by
    intro i hi
    rw [hcop, Nat.one_mul, List.getElem?_append_left (by
        rw [List.length_append, List.length_map, List.length_map]; omega),
      List.getElem?_append_right (by rw [List.length_map]; omega), List.length_map,
      Nat.add_sub_cancel_left])
  obtain ⟨c1, c2⟩ := part 2 (shift 1 Tz) (by omega) (by simp) (by
    intro i hi
    rw [hcop, List.getElem?_append_right (by
        rw [List.length_append, List.length_map, List.length_map]; omega)]
    exact congrArg _ (by rw [List.length_append, List.length_map, List.length_map]; omega))
  unfold segSum
  rw [foldlM_sum (t := t), zero_add, hlen]
  · rw [List.range_add, List.range_add, List.map_append, List.map_append, List.sum_append,
      List.sum_append, ← b2, ← c2]
    rw [lift0] at a2
    rw [← a2, List.map_map, List.map_map]
    have q1 : (List.range file.length).map t =
        (List.range file.length).map fun i => t (0 * file.length + i) :=
      List.map_congr_left fun i _ => congrArg t (by omega)
    have q2 : (List.range file.length).map (t ∘ fun x => file.length + x) =
        (List.range file.length).map fun i => t (1 * file.length + i) :=
      List.map_congr_left fun i _ => congrArg t (by dsimp only; omega)
    have q3 : (List.range file.length).map (t ∘ fun x => file.length + file.length + x) =
        (List.range file.length).map fun i => t (2 * file.length + i) :=
      List.map_congr_left fun i _ => congrArg t (by dsimp only; omega)
    rw [q1, q2, q3]
  · intro i hi x
    rw [List.mem_range, hlen] at hi
    by_cases h1 : i < file.length
    · have := a1 i h1 x
      rwa [Nat.zero_mul, Nat.zero_add] at this
    · by_cases h2 : i < file.length + file.length
      · have := b1 (i - file.length) (by omega) x
        rwa [show 1 * file.length + (i - file.length) = i by omega] at this
      · have := c1 (i - (file.length + file.length)) (by omega) x
        rwa [show 2 * file.length + (i - (file.length + file.length)) = i by omega] at this

example : ([0, 0, 1] : List ℤ).getLast? = some 1 := by simp

/-! ### Gradients in memory -/

/-- For every order of the cells, `m2` holds the gradients of all links that are needed, if the slab
is not deeper than twice its width. -/
theorem C68_gradients {b : Box} {pts : List Pt} {eps : List ℤ} {rank : ℕ} {order : List ℕ}
    {m2 : Heap ℕ ℝ} {g : Grad} (hg : b.IsGrad pts eps rank g) (ho : order.Perm (List.range b.V))
    (hv : b.V + 2 * b.Sf ≤ b.v3) (hd : b.nz ≤ 2 * b.Lx) (ha : b.Alloc2 m2) :
    ∃ m2', gradAll b pts eps rank order m2 = some m2' ∧ b.Holds m2' g :=
  gradAll_spec hg ho hv hd ha

example : ((Box.mk 4 8 2 96).V + 2 * (Box.mk 4 8 2 96).Sf ≤ (Box.mk 4 8 2 96).v3) ∧
    (Box.mk 4 8 2 96).nz ≤ 2 * (Box.mk 4 8 2 96).Lx ∧
    (Box.mk 4 8 2 96).IsGrad [] [] 0 ⟨fun _ => 0, fun _ _ => 0, fun _ => 0⟩ := by
  refine ⟨by decide, by decide, ?_, ?_, ?_⟩ <;> intros <;> simp [segSum]

/-- In a deeper slab the gradients along y and along z share memory: one address would have to hold
both. -/
theorem C68_deep_slab {b : Box} {m2 : Heap ℕ ℝ} {g : Grad} (hx : 0 < b.Lx) (hd : 2 * b.Lx < b.nz)
    (h : b.Holds m2 g) : g.Gz 0 = g.Gy 0 (2 * b.Lx) := by
  have h1 := h.2.1 0 hx (2 * b.Lx) hd
  have h2 := h.2.2 0 (by omega)
  have e : b.atBy 0 (2 * b.Lx) = b.atBz 0 := by
    unfold Box.atBy Box.atBz Box.Sf
    ring
  rw [e, h2, Option.some.injEq] at h1
  exact h1

example : (0 : ℕ) < (Box.mk 2 6 1 64).Lx ∧ 2 * (Box.mk 2 6 1 64).Lx < (Box.mk 2 6 1 64).nz := by decide

/-- The heights of the cells are those of the slices exactly if there is one rank or the grid is a
cube (up to rounding of the division). -/
theorem C68_heights {b : Box} {rank x y k : ℕ} (hx : x < b.Lx) (hy : y < b.Lx) :
    b.pos rank (b.cell x y k) = (↑x, ↑y, ((k + rank * b.nz : ℕ) : ℝ)) ↔
      rank = 0 ∨ b.Lx / b.ranks = b.Tz / b.ranks := by
  obtain ⟨c1, c2, c3⟩ := coords (b := b) (k := k) hx hy
  unfold Box.pos Box.nz
  rw [c1, c2, c3, Prod.mk.injEq, Prod.mk.injEq]
  constructor
  · rintro ⟨_, _, h⟩
    have h : k + rank * (b.Lx / b.ranks) = k + rank * (b.Tz / b.ranks) := by exact_mod_cast h
    rcases Nat.eq_zero_or_pos rank with h0 | h0
    · exact Or.inl h0
    · exact Or.inr (Nat.eq_of_mul_eq_mul_left h0 (by omega))
  · rintro (h | h)
    · rw [h]; simp
    · rw [h]; exact ⟨rfl, rfl, rfl⟩

example : (Box.mk 4 8 2 96).Lx / 2 ≠ (Box.mk 4 8 2 96).Tz / 2 := by decide

/-! ### The angle -/

/-- From the first cells of the slices the angle is the sum of the links, first along y and then along
x, in every cell and for every order of the slices. -/
theorem C68_volume {b : Box} {m2 th : Heap ℕ ℝ} {g : Grad} {start : ℕ → ℝ} {ordY ordX : List ℕ}
    (hx : 0 < b.Lx) (hY : ordY.Perm (List.range b.nz)) (hX : ordX.Perm (List.range b.nz))
    (hg : b.Holds m2 g) (ha : b.AllocT th)
    (h0 : ∀ k < b.nz, th (b.cell 0 0 k) = some (start k)) :
    ∃ th', volume b m2 ordY ordX th = some th' ∧
      ∀ x < b.Lx, ∀ y < b.Lx, ∀ k < b.nz, th' (b.cell x y k) = some (b.angle g start x y k) :=
  volume_spec hx hY hX hg ha h0

example : [2, 0, 1].Perm (List.range (Box.mk 2 3 1 64).nz) := by decide

/-- The links along x have their gradient exactly. -/
theorem C68_along_x (b : Box) (g : Grad) (start : ℕ → ℝ) (x y k : ℕ) :
    b.angle g start (x + 1) y k - b.angle g start x y k = g.Gx (b.cell x y k) := by
  unfold Box.angle
  rw [path_succ]
  ring

/-- Along y the gradient comes out up to the circulations around the plaquettes on the way from the
face: if these are multiples of a full turn, the phase is right on every link. -/
theorem C68_along_y (b : Box) (g : Grad) (start : ℕ → ℝ) (x y k : ℕ) (Gy : ℕ → ℝ)
    (h0 : Gy 0 = g.Gy y k)
    (hp : ∀ i < x, SamePhase (g.Gx (b.cell i y k) + Gy (i + 1)) (g.Gx (b.cell i (y + 1) k) + Gy i)) :
    SamePhase (b.angle g start x (y + 1) k - b.angle g start x y k) (Gy x) := by
  unfold Box.angle
  rw [path_succ]
  induction x with
  | zero => exact ⟨0, by rw [path_zero, path_zero, h0]; push_cast; ring⟩
  | succ x ih =>
    obtain ⟨n, hn⟩ := ih fun i hi => hp i (by omega)
    obtain ⟨m, hm⟩ := hp x (by omega)
    refine ⟨n - m, ?_⟩
    rw [path_succ, path_succ]
    push_cast
    linarith

example : SamePhase (1 + 2 * Real.pi) 1 := ⟨1, by push_cast; ring⟩

/-- One rank: the first slice starts at zero and slice `k` at the old content of the first cell plus
the sum of `k` links, so the edge is right if that memory was clear. -/
theorem C68_edge_one {b : Box} {m2 w : ℕ → Heap ℕ ℝ} {g : ℕ → Grad} {t0 : ℝ} (hx : 0 < b.Lx)
    (hr : b.ranks = 1) (hg : ∀ k < b.nz, m2 0 (b.atBz k) = some ((g 0).Gz k))
    (ha : b.AllocT (w 0)) (h0 : w 0 0 = some t0) :
    ∃ w', edge b m2 w = some w' ∧ w' 0 0 = some 0 ∧
      (∀ k, 1 ≤ k → k ≤ b.nz → w' 0 (k * b.Sf) = some (t0 + b.edgeAngle g 0 k)) := by
  have hS : 0 < b.Sf := by unfold Box.Sf; positivity
  obtain ⟨l, e1, e2, e3⟩ := line_spec hx hg ha h0
  have hal : (l 0).isSome := by rw [e3, h0]; rfl
  refine ⟨Function.update w 0 fun a => if a = 0 then some 0 else l a, ?_, ?_, ?_⟩
  · unfold edge
    rw [hr, List.range_one, List.foldlM_cons]
    unfold turn
    simp only [e1, Option.bind_eq_bind, Option.bind_some, hr, if_pos, Function.update_self,
      Function.update_idem]
    rw [write_eq _ _ _ hal]
    rfl
  · rw [Function.update_self]; exact if_pos rfl
  · intro k hk hk'
    rw [Function.update_self, if_neg (by have := Nat.mul_pos hk hS; omega), e2 k hk']
    unfold Box.edgeAngle
    rw [path_zero, zero_add]

example : (Box.mk 2 3 1 64).AllocT fun _ => some 0 := fun _ _ => rfl

/-- Several ranks: each rank sums its own links only, from the old content of its first cell; the
first slice comes from the rank behind. -/
theorem C68_edge_many {b : Box} {m2 w : ℕ → Heap ℕ ℝ} {g : ℕ → Grad} {t0 : ℕ → ℝ} {tl : ℝ}
    (hx : 0 < b.Lx) (hz : 0 < b.nz) (hr : 2 ≤ b.ranks)
    (hg : ∀ c < b.ranks, ∀ k < b.nz, m2 c (b.atBz k) = some ((g c).Gz k))
    (ha : ∀ c < b.ranks, b.AllocT (w c)) (h0 : ∀ c < b.ranks, w c 0 = some (t0 c))
    (hl : w (b.ranks - 1) (b.Sf * b.nz) = some tl) :
    ∃ w', edge b m2 w = some w' ∧ ∀ c < b.ranks,
      w' c 0 = some (if c = 0 then tl else t0 (c - 1) + path b.nz (g (c - 1)).Gz) ∧
      (∀ k, 1 ≤ k → k ≤ b.nz → w' c (k * b.Sf) = some (t0 c + path k (g c).Gz)) :=
  edge_spec hx hz hr hg ha h0 hl

/-- So in a cleared array rank `c` has the right phase behind its first slice exactly if the sum of
the links of all lower ranks is a multiple of a full turn. -/
theorem C68_edge_phase {b : Box} {m2 w : ℕ → Heap ℕ ℝ} {g : ℕ → Grad} (hx : 0 < b.Lx)
    (hz : 0 < b.nz) (hr : 2 ≤ b.ranks)
    (hg : ∀ c < b.ranks, ∀ k < b.nz, m2 c (b.atBz k) = some ((g c).Gz k))
    (hc : ∀ c < b.ranks, ∀ a ≤ b.V, w c a = some 0) :
    ∃ w', edge b m2 w = some w' ∧ ∀ c < b.ranks, ∀ k, 1 ≤ k → k ≤ b.nz →
      ∃ t, w' c (k * b.Sf) = some t ∧ (SamePhase t (b.edgeAngle g c k) ↔
        SamePhase (path c fun r => path b.nz (g r).Gz) 0) := by
  obtain ⟨w', e1, e2⟩ := edge_spec (t0 := fun _ => 0) (tl := 0) hx hz hr hg
    (fun c h a ha => by rw [hc c h a ha]; rfl) (fun c h => hc c h 0 (Nat.zero_le _))
    (hc _ (by omega) _ (by unfold Box.V; rw [Nat.mul_comm]))
  refine ⟨w', e1, fun c h k hk hk' => ⟨_, (e2 c h).2 k hk hk', ?_⟩⟩
  unfold Box.edgeAngle SamePhase
  constructor
  · rintro ⟨n, hn⟩
    exact ⟨-n, by push_cast; linarith⟩
  · rintro ⟨n, hn⟩
    exact ⟨-n, by push_cast; linarith⟩

/-- A string for which two ranks give a jump between the first and the second slice of rank 1. -/
theorem C68_edge_jump : ∃ (b : Box) (m2 w : ℕ → Heap ℕ ℝ) (g : ℕ → Grad) (w' : ℕ → Heap ℕ ℝ) (s t : ℝ),
    b.ranks = 2 ∧ (∀ c < 2, b.Holds (m2 c) (g c)) ∧ (∀ c a, w c a = some 0) ∧
    edge b m2 w = some w' ∧ w' 1 (b.cell 0 0 0) = some s ∧ w' 1 (b.cell 0 0 1) = some t ∧
    ¬ SamePhase (t - s) ((g 1).Gz 0) := by
  have hH : ∀ c < 2, (Box.mk 1 4 2 4).Holds (fun _ => some 1)
      ⟨fun _ => 1, fun _ _ => 1, fun _ => 1⟩ := fun c _ => ⟨fun _ _ => rfl, fun _ _ _ _ => rfl, fun _ _ => rfl⟩
  obtain ⟨w', e1, e2⟩ := edge_spec (b := Box.mk 1 4 2 4) (m2 := fun _ _ => some 1)
    (w := fun _ _ => some 0) (g := fun _ => ⟨fun _ => 1, fun _ _ => 1, fun _ => 1⟩) (t0 := fun _ => 0)
    (tl := 0) (by decide) (by decide) (by decide) (fun c _ k _ => rfl) (fun c _ a _ => rfl)
    (fun c _ => rfl) rfl
  obtain ⟨h1, h2⟩ := e2 1 (by decide)
  refine ⟨_, _, _, _, w', _, _, rfl, hH, fun _ _ => rfl, e1, h1, h2 1 (by omega) (by decide), ?_⟩
  rintro ⟨n, hn⟩
  have hnz : (Box.mk 1 4 2 4).nz = 2 := rfl
  rw [if_neg (by omega), hnz] at hn
  simp only [path, List.range, List.range.loop, List.map_cons, List.map_nil, List.sum_cons,
    List.sum_nil] at hn
  have h3 : Real.pi * n = -1 := by linarith
  have hp := Real.pi_gt_three
  rcases lt_trichotomy n 0 with h | h | h
  · have : (n : ℝ) ≤ -1 := by exact_mod_cast Int.le_sub_one_of_lt h
    nlinarith
  · rw [h] at h3; norm_num at h3
  · have : (1 : ℝ) ≤ n := by exact_mod_cast h
    nlinarith

/-! ### The field -/

/-- The complex field is the unit vector with the angle, for every order, and the velocity is zero. -/
theorem C68_field {b : Box} {th : Heap ℕ ℝ} {mc : Heap ℕ ℂ} {ordM ordV : List ℕ} {f : ℕ → ℝ}
    (hM : ordM.Perm (List.range b.V)) (hV : ordV.Perm (List.range b.V))
    (ht : ∀ i < b.V, th i = some (f i)) (hm : ∀ i < b.V, (mc i).isSome)
    (ha : ∀ a < 2 * b.V, (th a).isSome) :
    ∃ mc' th', ordM.foldlM (expCell th) mc = some mc' ∧ ordV.foldlM zeroCell th = some th' ∧
      (∀ i < b.V, mc' i = some (Complex.exp (f i * Complex.I)) ∧
        th' (2 * i) = some 0 ∧ th' (2 * i + 1) = some 0) := by
  obtain ⟨mc', e1, e2⟩ := expAll_spec hM ht hm
  obtain ⟨th', e3, e4⟩ := zeroAll_spec hV ha
  exact ⟨mc', th', e1, e3, fun i hi => ⟨e2 i hi, e4 _ (by omega), e4 _ (by omega)⟩⟩

example : [3, 1, 0, 2].Perm (List.range (Box.mk 2 1 1 12).V) := by decide

/-- The whole program on one rank: in a cleared array and a slab not deeper than twice its width, the
field at every cell has the phase that is the sum of the gradients of the string along the path from the
corner, first along z, then y, then x. -/
theorem C68_one_rank {b : Box} {pts : List Pt} {eps : List ℤ} {g : Grad} {m2 th : Heap ℕ ℝ}
    {mc : Heap ℕ ℂ} {order ordY ordX ordM : List ℕ} (hr : b.ranks = 1) (hx : 0 < b.Lx)
    (hv : b.V + 2 * b.Sf ≤ b.v3) (hd : b.nz ≤ 2 * b.Lx) (hg : b.IsGrad pts eps 0 g)
    (ho : order.Perm (List.range b.V)) (hY : ordY.Perm (List.range b.nz))
    (hX : ordX.Perm (List.range b.nz)) (hM : ordM.Perm (List.range b.V)) (ha : b.Alloc2 m2)
    (hc : ∀ a ≤ b.V, th a = some 0) (hm : ∀ i < b.V, (mc i).isSome) :
    ∃ m2' w' th' mc', gradAll b pts eps 0 order m2 = some m2' ∧
      edge b (fun _ => m2') (fun _ => th) = some w' ∧ volume b m2' ordY ordX (w' 0) = some th' ∧
      ordM.foldlM (expCell th') mc = some mc' ∧
      ∀ x < b.Lx, ∀ y < b.Lx, ∀ k < b.nz, mc' (b.cell x y k) = some (Complex.exp
        (↑(path k g.Gz + path y (fun j => g.Gy j k) + path x fun i => g.Gx (b.cell i y k)) *
          Complex.I)) := by
  have hS : 0 < b.Sf := by unfold Box.Sf; positivity
  obtain ⟨m2', e1, e2⟩ := gradAll_spec hg ho hv hd ha
  obtain ⟨l, l1, l2, l3⟩ := line_spec (t0 := 0) hx e2.2.2
    (fun a h => by rw [hc a h]; rfl) (hc 0 (Nat.zero_le _))
  have hal : (l 0).isSome := by rw [l3, hc 0 (Nat.zero_le _)]; rfl
  have hw : edge b (fun _ => m2') (fun _ => th) =
      some (Function.update (fun _ => th) 0 fun a => if a = 0 then some 0 else l a) := by
    unfold edge
    rw [hr, List.range_one, List.foldlM_cons]
    unfold turn
    simp only [l1, Option.bind_eq_bind, Option.bind_some, hr, if_pos, Function.update_self,
      Function.update_idem]
    rw [write_eq _ _ _ hal]
    rfl
  obtain ⟨th', v1, v2⟩ := volume_spec (start := fun k => path k g.Gz)
    (th := fun a => if a = 0 then some 0 else l a) hx hY hX e2
    (by
      intro a h
      dsimp only
      split
      · rfl
      · rw [l3, hc a h]; rfl)
    (by
      intro k hk
      have e : b.cell 0 0 k = k * b.Sf := by unfold Box.cell; omega
      rw [e]
      rcases Nat.eq_zero_or_pos k with h | h
      · rw [h, Nat.zero_mul, if_pos rfl, path_zero]
      · rw [if_neg (by have := Nat.mul_pos h hS; omega), l2 k hk.le, zero_add])
  obtain ⟨mc', c1, c2⟩ := expAll_spec (b := b) (th := th') (mc := mc)
    (f := fun i => b.angle g (fun k => path k g.Gz) (i % b.Sf % b.Lx) (i % b.Sf / b.Lx) (i / b.Sf)) hM
    (by
      intro i hi
      obtain ⟨h1, h2, h3, h4⟩ := cell_of hi
      rw [← v2 _ h1 _ h2 _ h3, h4]) hm
  refine ⟨m2', _, th', mc', e1, hw, by rw [Function.update_self]; exact v1, c1, ?_⟩
  intro x hx' y hy k hk
  rw [c2 _ (cell_lt hx' hy hk)]
  obtain ⟨q1, q2, q3⟩ := coords (b := b) (k := k) hx' hy
  rw [q1, q2, q3]
  rfl

example : (Box.mk 2 3 1 64).ranks = 1 ∧ (Box.mk 2 3 1 64).V + 2 * (Box.mk 2 3 1 64).Sf ≤ 64 ∧
    (Box.mk 2 3 1 64).nz ≤ 2 * (Box.mk 2 3 1 64).Lx := by decide

end Jaxions.AnyString
