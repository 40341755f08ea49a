import Verif.Props.StringLength

/-!
# C75: the length of strings, continued

The map read by the length comes from the kernels of C24; how long a cell can be; the result depends
on the number of ranks; a cell with all six faces pierced.
-/

namespace Jaxions
namespace StrLen

open Winding Finset Stencil

/-! ## Where the map comes from -/

theorem and_ne_zero {M i j : ℕ} (hM : ∀ k, M.testBit k = true ↔ k = i ∨ k = j) (b : ℕ) :
    b &&& M ≠ 0 ↔ b.testBit i = true ∨ b.testBit j = true := by
  constructor
  · intro h
    by_contra hn
    push Not at hn
    apply h
    apply Nat.eq_of_testBit_eq
    intro k
    rw [Nat.testBit_and, Nat.zero_testBit]
    by_cases hk : M.testBit k = true
    · rcases (hM k).mp hk with rfl | rfl
      · simp [hn.1]
      · simp [hn.2]
    · simp [hk]
  · rintro h h0
    have h0' : ∀ k, (b &&& M).testBit k = false := by intro k; rw [h0, Nat.zero_testBit]
    rcases h with h | h
    · have := h0' i
      rw [Nat.testBit_and, h, (hM i).mpr (Or.inl rfl)] at this
      cases this
    · have := h0' j
      rw [Nat.testBit_and, h, (hM j).mpr (Or.inr rfl)] at this
      cases this

theorem bits_of {M i j : ℕ} (hM : M < 2 ^ 6)
    (h : ∀ k < 6, M.testBit k = true ↔ k = i ∨ k = j) (hi : i < 6) (hj : j < 6) (k : ℕ) :
    M.testBit k = true ↔ k = i ∨ k = j := by
  by_cases hk : k < 6
  · exact h k hk
  · have : M.testBit k = false :=
      Nat.testBit_lt_two_pow (lt_of_lt_of_le hM (Nat.pow_le_pow_right (by norm_num) (by omega)))
    rw [this]
    constructor
    · intro h; cases h
    · intro h; omega

/-- **C75, the map.**  On a rank with one ghost slice the bytes written by the kernels of C24 say
which plaquettes have a winding, so `C75_cell` and what follows apply to them. -/
theorem C75_map {Lx S Lz r NN : ℕ} (isa : Isa) (hS : 0 < S) (hdvd : S ∣ Lx) (hL : 0 < Lx)
    (hLz : 0 < Lz) {m : Heap ℕ (Cx ℝ)} {φ : Lat ℝ} (hper : Periodic Lx φ)
    (hm : StringMap.RankHolds Lx S Lz 1 r m φ) {order : List ℕ}
    (ho : order.Perm (StringMap.cpuVisits ⟨Lx, S, NN⟩ Lz)) (h : ClearLinks φ) (h0 : NoZeroIm φ) :
    ∃ d, StringMap.kernel isa ⟨Lx, S, NN⟩ Lz Lx Lz m order (StringMap.blank (Lx * Lx * Lz)) = some d ∧
      ∀ sd : ℕ → ℕ, (∀ i b, d.map i = some b → sd i = b) → MapOf Lx Lz r sd φ := by
  obtain ⟨d, hd, hb⟩ := StringMap.C24_map isa hS hdvd hL hLz hper hm ho
  refine ⟨d, hd, fun sd hsd x y z hx hy hz => ?_⟩
  obtain ⟨b, hb1, hb2⟩ := hb x y z hx hy hz
  have e : sd (x + Lx * y + Lx * Lx * z) = b := by
    apply hsd
    rw [← hb1]
    exact congrArg d.map (by ring)
  obtain ⟨v1, v2, v3⟩ := values h x y (r * Lz + z)
  obtain ⟨k1, k2, k3⟩ := C23_vector h0 isa x y (r * Lz + z)
  have key : ∀ w : ℤ, w ∈ [(-2 : ℤ), 0, 2] → ((w = 2 ∨ w = -2) ↔ w ≠ 0) := by
    intro w hw
    simp only [List.mem_cons, List.not_mem_nil, or_false] at hw
    omega
  have cz : ((r * Lz + z : ℕ) : ℤ) = (r : ℤ) * Lz + z := by push_cast; rfl
  rw [e, cz]
  refine ⟨?_, ?_, ?_⟩
  · rw [and_ne_zero (bits_of (M := StringMap.XY) (i := 0) (j := 3) (by decide) (by decide) (by decide)
      (by decide)), hb2 0, hb2 3, ← key _ v1, ← k1]; rfl
  · rw [and_ne_zero (bits_of (M := StringMap.YZ) (i := 1) (j := 4) (by decide) (by decide) (by decide)
      (by decide)), hb2 1, hb2 4, ← key _ v2, ← k2]; rfl
  · rw [and_ne_zero (bits_of (M := StringMap.ZX) (i := 2) (j := 5) (by decide) (by decide) (by decide)
      (by decide)), hb2 2, hb2 5, ← key _ v3, ← k3]; rfl

/-- A field closed in the sense of the kernels is closed here. -/
theorem closed_of {Lx : ℕ} {φ : Lat ℝ} (h : Periodic Lx φ) : Closed Lx φ := by
  intro x y z
  exact ⟨by rw [h (x + Lx) y z, h x y z, Int.add_emod_right],
    by rw [h x (y + Lx) z, h x y z, Int.add_emod_right]⟩

/-! ## How long a cell can be -/

theorem gap_le {x y z : ℤ} {p q : Pt} (hp : InCube x y z p) (hq : InCube x y z q) :
    gap p q ≤ √3 := by
  apply Real.sqrt_le_sqrt
  obtain ⟨a1, a2, a3, a4, a5, a6⟩ := hp
  obtain ⟨b1, b2, b3, b4, b5, b6⟩ := hq
  have sq : ∀ u : ℝ, -1 ≤ u → u ≤ 1 → u * u ≤ 1 := by intro u h1 h2; nlinarith
  have s1 := sq (q.x - p.x) (by linarith) (by linarith)
  have s2 := sq (q.y - p.y) (by linarith) (by linarith)
  have s3 := sq (q.z - p.z) (by linarith) (by linarith)
  linarith

/-- **C75, bound.**  A cell adds at most the diagonal of the cell for every two of its faces that are
pierced. -/
theorem C75_bound {φ : Lat ℝ} (h : ClearLinks φ) (x y z : ℤ) :
    cellLen (cubePts φ x y z) ≤ √3 * ((faces stringHand φ x y z).countP (· ≠ 0) / 2 : ℕ) := by
  rw [← cubePts_length h]
  have hin := cubePts_in h x y z
  have h3 : 0 ≤ √3 := Real.sqrt_nonneg 3
  obtain ⟨⟨k, hk⟩, h6⟩ := cubePts_even h x y z
  match hl : cubePts φ x y z with
  | [] => simp [cellLen]
  | [_] => rw [hl] at hk; simp at hk; omega
  | [p0, p1] =>
    rw [hl] at hin
    simpa [cellLen] using gap_le (hin p0 (by simp)) (hin p1 (by simp))
  | [_, _, _] => rw [hl] at hk; simp at hk; omega
  | [p0, p1, p2, p3] =>
    rw [hl] at hin
    have g : ∀ p ∈ [p0, p1, p2, p3], ∀ q ∈ [p0, p1, p2, p3], gap p q ≤ √3 :=
      fun p hp q hq => gap_le (hin p hp) (hin q hq)
    simp only [List.mem_cons, List.not_mem_nil, or_false, forall_eq_or_imp, forall_eq] at g
    obtain ⟨⟨_, g01, g02, g03⟩, ⟨_, _, g12, g13⟩, ⟨_, _, _, g23⟩, _⟩ := g
    simp only [cellLen, List.length_cons, List.length_nil]
    norm_num
    linarith
  | [_, _, _, _, _] => rw [hl] at hk; simp at hk; omega
  | [p0, p1, p2, p3, p4, p5] =>
    rw [hl] at hin
    have g : ∀ p ∈ [p0, p1, p2, p3, p4, p5], ∀ q ∈ [p0, p1, p2, p3, p4, p5], gap p q ≤ √3 :=
      fun p hp q hq => gap_le (hin p hp) (hin q hq)
    simp only [List.mem_cons, List.not_mem_nil, or_false, forall_eq_or_imp, forall_eq] at g
    obtain ⟨⟨_, g01, g02, g03, g04, g05⟩, ⟨_, _, g12, g13, g14, g15⟩, ⟨_, _, _, g23, g24, g25⟩, _⟩ := g
    simp only [cellLen, six, List.length_cons, List.length_nil]
    norm_num
    linarith
  | _ :: _ :: _ :: _ :: _ :: _ :: _ :: _ => rw [hl] at h6; simp at h6; omega

/-! ## Addresses -/

/-- **C75, addresses.**  The field is read inside the slices of the rank and the one above, the map
inside the slices of the rank. -/
theorem C75_addresses {Lx Lz ix iy iz : ℕ} (hx : ix < Lx) (hy : iy < Lx) (hz : iz < Lz) :
    let c := corner Lx ix iy iz
    (∀ i ∈ [c.o, c.x, c.y, c.z, c.xy, c.yz, c.zx, c.xyz], i < Lx * Lx * (Lz + 1)) ∧
    (∀ i ∈ [c.o, c.x, c.y, c.xy], i < Lx * Lx * Lz) ∧
    (iz + 1 < Lz → ∀ i ∈ [c.z, c.yz, c.zx, c.xyz], i < Lx * Lx * Lz) := by
  have hL : 0 < Lx := by omega
  have row : ∀ {a b c N : ℕ}, a < Lx → b < Lx → c < N → a + Lx * b + Lx * Lx * c < Lx * Lx * N := by
    intro a b c N ha hb hc
    have h1 : Lx * (b + 1) ≤ Lx * Lx := Nat.mul_le_mul_left _ hb
    have h2 : Lx * Lx * (c + 1) ≤ Lx * Lx * N := Nat.mul_le_mul_left _ hc
    rw [Nat.mul_add, Nat.mul_one] at h1 h2
    omega
  have hx' : (ix + 1) % Lx < Lx := Nat.mod_lt _ hL
  have hy' : (iy + 1) % Lx < Lx := Nat.mod_lt _ hL
  intro c
  refine ⟨?_, ?_, fun h1 => ?_⟩ <;>
    simp only [List.mem_cons, List.not_mem_nil, or_false, forall_eq_or_imp, forall_eq]
  · exact ⟨row hx hy (by omega), row hx' hy (by omega), row hx hy' (by omega), row hx hy (by omega),
      row hx' hy' (by omega), row hx hy' (by omega), row hx' hy (by omega), row hx' hy' (by omega)⟩
  · exact ⟨row hx hy hz, row hx' hy hz, row hx hy' hz, row hx' hy' hz⟩
  · exact ⟨row hx hy h1, row hx hy' h1, row hx' hy h1, row hx' hy' h1⟩

/-! ## Cases -/

/-- Four strings along `z` in a box of two by two sites. -/
noncomputable def four : Lat ℝ := fun x y _ => ⟨if x % 2 = 0 then 1 else -1, if y % 2 = 0 then 1 else -1⟩

theorem four_clear : ClearLinks four := by
  have h1 : ∀ x : ℤ, (if x % 2 = 0 then (1 : ℝ) else -1) ≠ 0 := by intro x; split <;> norm_num
  intro x y z
  refine ⟨?_, ?_, ?_⟩
  · rintro u _ _ ⟨_, e⟩
    apply h1 y
    simp only [four] at e
    linear_combination e
  · rintro u _ _ ⟨e, _⟩
    apply h1 x
    simp only [four] at e
    linear_combination e
  · rintro u _ _ ⟨e, _⟩
    apply h1 x
    simp only [four] at e
    linear_combination e

theorem four_closed : Closed 2 four := by
  intro x y z
  constructor <;> simp [four]

theorem four_pierced (x y : ℤ) : xy stringHand four x y 0 ≠ 0 := by
  rcases Int.emod_two_eq_zero_or_one x with hx | hx <;>
    rcases Int.emod_two_eq_zero_or_one y with hy | hy
  · have a : (x + 1) % 2 = 1 := by omega
    have b : (y + 1) % 2 = 1 := by omega
    norm_num [xy, four, hx, hy, a, b, stringHand, side, imMulConj]
  · have a : (x + 1) % 2 = 1 := by omega
    have b : (y + 1) % 2 = 0 := by omega
    norm_num [xy, four, hx, hy, a, b, stringHand, side, imMulConj]
  · have a : (x + 1) % 2 = 0 := by omega
    have b : (y + 1) % 2 = 1 := by omega
    norm_num [xy, four, hx, hy, a, b, stringHand, side, imMulConj]
  · have a : (x + 1) % 2 = 0 := by omega
    have b : (y + 1) % 2 = 0 := by omega
    norm_num [xy, four, hx, hy, a, b, stringHand, side, imMulConj]

/-- The memory of a rank with it. -/
noncomputable def fourMem (i : ℕ) : Cx ℝ := four (i % 2 : ℕ) (i / 2 % 2 : ℕ) 0

theorem four_holds (Lz r : ℕ) : Holds 2 Lz r fourMem four := by
  intro x y z hx hy hz
  have e1 : (x + 2 * y + 2 * 2 * z) % 2 = x := by omega
  have e2 : (x + 2 * y + 2 * 2 * z) / 2 % 2 = y := by omega
  rw [fourMem, e1, e2]; rfl

theorem four_map (Lz r : ℕ) : MapOf 2 Lz r (fun _ => 1) four := by
  intro x y z _ _ _
  obtain ⟨s1, s2⟩ := straight_yz four_clear (fun _ _ _ => rfl) x y (r * Lz + z : ℕ)
  refine ⟨iff_of_true (show 1 &&& StringMap.XY ≠ 0 by decide) (four_pierced _ _), ?_, ?_⟩
  · rw [s1]; exact show 1 &&& StringMap.YZ ≠ 0 ↔ (0 : ℤ) ≠ 0 by decide
  · rw [s2]; exact show 1 &&& StringMap.ZX ≠ 0 ↔ (0 : ℤ) ≠ 0 by decide

/-- The hypotheses on the field of `C75_map` are met by it. -/
example : Periodic 2 four ∧ ClearLinks four ∧ NoZeroIm four := by
  refine ⟨fun x y z => by simp [four], four_clear, fun x y z => ?_⟩
  simp only [four]
  split <;> norm_num

/-- **C75, ranks.**  The same field, the same map: four straight strings, each going once through the
box, of length 8 altogether.  On one rank the code stores 4, on two ranks 0. -/
theorem C75_ranks : ∃ (φ : Lat ℝ) (ma : ℕ → Cx ℝ) (sd : ℕ → ℕ), ClearLinks φ ∧ Closed 2 φ ∧
    (∀ Lz r, Holds 2 Lz r ma φ ∧ MapOf 2 Lz r sd φ) ∧
    ∑ z ∈ range 2, ∑ y ∈ range 2, ∑ x ∈ range 2, trueLen φ x y z = 8 ∧
    totalLen 1 (fun _ => ma) (fun _ => sd) 2 2 = some 4 ∧
    totalLen 2 (fun _ => ma) (fun _ => sd) 2 1 = some 0 := by
  have hs : strands 2 four = 4 := by
    simp [strands, four_pierced]
  refine ⟨four, fourMem, fun _ => 1, four_clear, four_closed,
    fun Lz r => ⟨four_holds Lz r, four_map Lz r⟩, ?_, ?_, ?_⟩
  · have := (C75_straight (n := 1) (Lz := 2) four_clear (fun _ _ _ => rfl) four_closed
      (fun r _ => four_holds 2 r) (fun r _ => four_map 2 r)).2
    rw [hs] at this
    simpa [sum_range_succ] using this
  · have := (C75_straight (n := 1) (Lz := 2) four_clear (fun _ _ _ => rfl) four_closed
      (fun r _ => four_holds 2 r) (fun r _ => four_map 2 r)).1
    rw [hs] at this
    simpa using this
  · have := (C75_straight (n := 2) (Lz := 1) four_clear (fun _ _ _ => rfl) four_closed
      (fun r _ => four_holds 1 r) (fun r _ => four_map 1 r)).1
    rw [hs] at this
    simpa using this

/-- A field of period two in which all faces of the cell at the origin are pierced. -/
noncomputable def allSix : Lat ℝ := fun x y z =>
  if x % 2 = 0 then
    if y % 2 = 0 then if z % 2 = 0 then ⟨1, 2⟩ else ⟨-1, -1⟩
    else if z % 2 = 0 then ⟨1, -2⟩ else ⟨2, -2⟩
  else
    if y % 2 = 0 then if z % 2 = 0 then ⟨2, -1⟩ else ⟨-2, -1⟩
    else if z % 2 = 0 then ⟨-2, 2⟩ else ⟨1, 2⟩

/-- Two numbers whose cross product is not zero, or whose scalar product is positive, have no zero
between them. -/
theorem avoids_of {a b : Cx ℝ} (h : a.re * b.im - a.im * b.re ≠ 0 ∨ 0 < a.re * b.re + a.im * b.im) :
    Avoids a b := by
  rintro u h0 h1 ⟨e1, e2⟩
  rcases h with h | h
  · have k1 : (1 - u) * (a.re * b.im - a.im * b.re) = 0 := by linear_combination b.im * e1 - b.re * e2
    have k2 : u * (a.re * b.im - a.im * b.re) = 0 := by linear_combination a.re * e2 - a.im * e1
    rcases mul_eq_zero.mp k1 with k | k
    · rcases mul_eq_zero.mp k2 with k' | k'
      · linarith
      · exact h k'
    · exact h k
  · have k1 : (1 - u) * (a.re * a.re + a.im * a.im) + u * (a.re * b.re + a.im * b.im) = 0 := by
      linear_combination a.re * e1 + a.im * e2
    have k2 : (1 - u) * (a.re * b.re + a.im * b.im) + u * (b.re * b.re + b.im * b.im) = 0 := by
      linear_combination b.re * e1 + b.im * e2
    have p1 := add_nonneg (mul_self_nonneg a.re) (mul_self_nonneg a.im)
    have p2 := add_nonneg (mul_self_nonneg b.re) (mul_self_nonneg b.im)
    have q1 := mul_nonneg (sub_nonneg.mpr h1) p1
    have q2 := mul_nonneg h0 p2
    have r1 := mul_nonneg h0 h.le
    have r2 := mul_nonneg (sub_nonneg.mpr h1) h.le
    have z1 : u * (a.re * b.re + a.im * b.im) = 0 := by linarith
    have z2 : (1 - u) * (a.re * b.re + a.im * b.im) = 0 := by linarith
    linarith

theorem allSix_clear : ClearLinks allSix := by
  intro x y z
  have par : ∀ k : ℤ, (k % 2 = 0 ∧ (k + 1) % 2 = 1) ∨ (k % 2 = 1 ∧ (k + 1) % 2 = 0) := by
    intro k; omega
  rcases par x with ⟨a, a'⟩ | ⟨a, a'⟩ <;> rcases par y with ⟨b, b'⟩ | ⟨b, b'⟩ <;>
    rcases par z with ⟨c, c'⟩ | ⟨c, c'⟩ <;>
    refine ⟨avoids_of ?_, avoids_of ?_, avoids_of ?_⟩ <;>
    norm_num [allSix, a, a', b, b', c, c']

/-- **C75, three strings, a case.**  There is a cell with all six faces pierced, so that the length
stored is too small. -/
theorem C75_six_case : ∃ φ : Lat ℝ, ClearLinks φ ∧ (cubePts φ 0 0 0).length = 6 ∧
    cellLen (cubePts φ 0 0 0) + 2 / 15 ≤ trueLen φ 0 0 0 := by
  have h6 : (cubePts allSix 0 0 0).length = 6 := by
    rw [cubePts_length allSix_clear]
    norm_num [faces, xy, yz, zx, allSix, stringHand, side, imMulConj]
  exact ⟨allSix, allSix_clear, h6, (C75_cell_short allSix_clear 0 0 0).2 h6⟩

end StrLen
end Jaxions
