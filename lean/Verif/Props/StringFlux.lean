import Verif.Props.Winding
import Mathlib.Algebra.BigOperators.Intervals
import Mathlib.Algebra.BigOperators.Ring.Finset
import Mathlib.Tactic.Abel

/-!
# C23: strings have no ends

The three plaquettes attached to a site are those of the string kernels
(`lib/strings/stringXeon.cpp:625-628, 667-670, 709-712`).
-/

namespace Jaxions
namespace Winding

open Finset

section
variable {K : Type} [Field K] [LinearOrder K] [IsStrictOrderedRing K]

/-- A field on the lattice. -/
abbrev Lat (K : Type) := Int → Int → Int → Cx K

/-- The three plaquettes at a site, `mel → mPx → mXY → mPy`, `mel → mPy → mYZ → mPz` and
`mel → mPz → mZX → mPx` (`stringXeon.cpp:625-628, 667-670, 709-712`), for any way `hand` of counting
the turns of a plaquette. -/
def xy (hand : Cx K → Cx K → Cx K → Cx K → Int) (φ : Lat K) (x y z : Int) : Int :=
  hand (φ x y z) (φ (x + 1) y z) (φ (x + 1) (y + 1) z) (φ x (y + 1) z)
@[inherit_doc xy]
def yz (hand : Cx K → Cx K → Cx K → Cx K → Int) (φ : Lat K) (x y z : Int) : Int :=
  hand (φ x y z) (φ x (y + 1) z) (φ x (y + 1) (z + 1)) (φ x y (z + 1))
@[inherit_doc xy]
def zx (hand : Cx K → Cx K → Cx K → Cx K → Int) (φ : Lat K) (x y z : Int) : Int :=
  hand (φ x y z) (φ x y (z + 1)) (φ (x + 1) y (z + 1)) (φ (x + 1) y z)

/-- The field interpolated along every link has a phase. -/
def ClearLinks (φ : Lat K) : Prop :=
  ∀ x y z, Avoids (φ x y z) (φ (x + 1) y z) ∧ Avoids (φ x y z) (φ x (y + 1) z) ∧
    Avoids (φ x y z) (φ x y (z + 1))

/-- No imaginary part is exactly zero (needed by the vector kernels only). -/
def NoZeroIm (φ : Lat K) : Prop := ∀ x y z, (φ x y z).im ≠ 0

omit [IsStrictOrderedRing K] in
theorem avoids_symm [IsStrictOrderedRing K] {a b : Cx K} (h : Avoids a b) : Avoids b a := by
  rintro u h0 h1 ⟨e1, e2⟩
  exact h (1 - u) (by linarith) (by linarith) ⟨by linear_combination e1, by linear_combination e2⟩

theorem xy_links {φ : Lat K} (h : ClearLinks φ) (x y z : Int) : xy stringHand φ x y z =
    side (φ x y z) (φ (x + 1) y z) + side (φ (x + 1) y z) (φ (x + 1) (y + 1) z)
    - side (φ x (y + 1) z) (φ (x + 1) (y + 1) z) - side (φ x y z) (φ x (y + 1) z) := by
  rw [xy, stringHand, side_swap (h x (y + 1) z).1, side_swap (h x y z).2.1]; ring

theorem yz_links {φ : Lat K} (h : ClearLinks φ) (x y z : Int) : yz stringHand φ x y z =
    side (φ x y z) (φ x (y + 1) z) + side (φ x (y + 1) z) (φ x (y + 1) (z + 1))
    - side (φ x y (z + 1)) (φ x (y + 1) (z + 1)) - side (φ x y z) (φ x y (z + 1)) := by
  rw [yz, stringHand, side_swap (h x y (z + 1)).2.1, side_swap (h x y z).2.2]; ring

theorem zx_links {φ : Lat K} (h : ClearLinks φ) (x y z : Int) : zx stringHand φ x y z =
    side (φ x y z) (φ x y (z + 1)) + side (φ x y (z + 1)) (φ (x + 1) y (z + 1))
    - side (φ (x + 1) y z) (φ (x + 1) y (z + 1)) - side (φ x y z) (φ (x + 1) y z) := by
  rw [zx, stringHand, side_swap (h (x + 1) y z).2.2, side_swap (h x y z).1]; ring

/-- **C23, one cube.**  As much string leaves a cell of the lattice as enters it. -/
theorem C23_cube {φ : Lat K} (h : ClearLinks φ) (x y z : Int) :
    (xy stringHand φ x y (z + 1) - xy stringHand φ x y z) +
    (yz stringHand φ (x + 1) y z - yz stringHand φ x y z) +
    (zx stringHand φ x (y + 1) z - zx stringHand φ x y z) = 0 := by
  rw [xy_links h, xy_links h, yz_links h, yz_links h, zx_links h, zx_links h]; ring

/-- The plaquettes of a field without zeros on its links have the values `-2`, `0`, `2`. -/
theorem values {φ : Lat K} (h : ClearLinks φ) (x y z : Int) :
    xy stringHand φ x y z ∈ [(-2 : Int), 0, 2] ∧ yz stringHand φ x y z ∈ [(-2 : Int), 0, 2] ∧
    zx stringHand φ x y z ∈ [(-2 : Int), 0, 2] := by
  refine ⟨C22_values_clear ?_, C22_values_clear ?_, C22_values_clear ?_⟩
  · exact ⟨(h x y z).1, (h (x + 1) y z).2.1, avoids_symm (h x (y + 1) z).1, avoids_symm (h x y z).2.1⟩
  · exact ⟨(h x y z).2.1, (h x (y + 1) z).2.2, avoids_symm (h x y (z + 1)).2.1,
      avoids_symm (h x y z).2.2⟩
  · exact ⟨(h x y z).2.2, (h x y (z + 1)).1, avoids_symm (h (x + 1) y z).2.2,
      avoids_symm (h x y z).1⟩

/-- The six faces of the cell at a site. -/
def faces (hand : Cx K → Cx K → Cx K → Cx K → Int) (φ : Lat K) (x y z : Int) : List Int :=
  [xy hand φ x y z, xy hand φ x y (z + 1), yz hand φ x y z, yz hand φ (x + 1) y z,
   zx hand φ x y z, zx hand φ x (y + 1) z]

/-- **C23, no ends.**  An even number of the faces of a cell are pierced, so a string that enters
through one face leaves through another; in particular never exactly one face is pierced. -/
theorem C23_no_end {φ : Lat K} (h : ClearLinks φ) (x y z : Int) :
    Even ((faces stringHand φ x y z).countP (· ≠ 0)) := by
  have c := C23_cube h x y z
  have v1 := (values h x y z).1
  have v2 := (values h x y (z + 1)).1
  have v3 := (values h x y z).2.1
  have v4 := (values h (x + 1) y z).2.1
  have v5 := (values h x y z).2.2
  have v6 := (values h x (y + 1) z).2.2
  simp only [faces]
  revert c v1 v2 v3 v4 v5 v6
  generalize xy stringHand φ x y z = a1
  generalize xy stringHand φ x y (z + 1) = a2
  generalize yz stringHand φ x y z = a3
  generalize yz stringHand φ (x + 1) y z = a4
  generalize zx stringHand φ x y z = a5
  generalize zx stringHand φ x (y + 1) z = a6
  intro c v1 v2 v3 v4 v5 v6
  have key : ∀ b : Int, b ∈ [(-2 : Int), 0, 2] → ∃ k : Int, b = 2 * k ∧
      ((if b ≠ 0 then 1 else 0 : Nat) : Int) = k * k ∧ ∃ q : Int, k * k = k + 2 * q := by
    intro b hb
    simp only [List.mem_cons, List.not_mem_nil, or_false] at hb
    rcases hb with rfl | rfl | rfl
    · exact ⟨-1, rfl, rfl, 1, rfl⟩
    · exact ⟨0, rfl, rfl, 0, rfl⟩
    · exact ⟨1, rfl, rfl, 0, rfl⟩
  obtain ⟨k1, e1, f1, q1, g1⟩ := key _ v1
  obtain ⟨k2, e2, f2, q2, g2⟩ := key _ v2
  obtain ⟨k3, e3, f3, q3, g3⟩ := key _ v3
  obtain ⟨k4, e4, f4, q4, g4⟩ := key _ v4
  obtain ⟨k5, e5, f5, q5, g5⟩ := key _ v5
  obtain ⟨k6, e6, f6, q6, g6⟩ := key _ v6
  simp only [List.countP_cons, List.countP_nil, decide_eq_true_eq]
  rw [Nat.even_iff]
  rw [g1] at f1; rw [g2] at f2; rw [g3] at f3; rw [g4] at f4; rw [g5] at f5; rw [g6] at f6
  omega

/-- **C23, any box.**  The net number of strings out of any box of cells, counted on its faces, is
zero. -/
theorem C23_box {φ : Lat K} (h : ClearLinks φ) (x y z : Int) (a b c : Nat) :
    (∑ i ∈ range a, ∑ j ∈ range b,
      (xy stringHand φ (x + i) (y + j) (z + c) - xy stringHand φ (x + i) (y + j) z)) +
    (∑ j ∈ range b, ∑ k ∈ range c,
      (yz stringHand φ (x + a) (y + j) (z + k) - yz stringHand φ x (y + j) (z + k))) +
    (∑ i ∈ range a, ∑ k ∈ range c,
      (zx stringHand φ (x + i) (y + b) (z + k) - zx stringHand φ (x + i) y (z + k))) = 0 := by
  have t1 : ∀ i j : Nat, ∑ k ∈ range c, (xy stringHand φ (x + i) (y + j) (z + k + 1) -
      xy stringHand φ (x + i) (y + j) (z + k)) =
      xy stringHand φ (x + i) (y + j) (z + c) - xy stringHand φ (x + i) (y + j) z := by
    intro i j
    have := sum_range_sub (fun k : Nat => xy stringHand φ (x + i) (y + j) (z + k)) c
    simpa [add_assoc] using this
  have t2 : ∀ j k : Nat, ∑ i ∈ range a, (yz stringHand φ (x + i + 1) (y + j) (z + k) -
      yz stringHand φ (x + i) (y + j) (z + k)) =
      yz stringHand φ (x + a) (y + j) (z + k) - yz stringHand φ x (y + j) (z + k) := by
    intro j k
    have := sum_range_sub (fun i : Nat => yz stringHand φ (x + i) (y + j) (z + k)) a
    simpa [add_assoc] using this
  have t3 : ∀ i k : Nat, ∑ j ∈ range b, (zx stringHand φ (x + i) (y + j + 1) (z + k) -
      zx stringHand φ (x + i) (y + j) (z + k)) =
      zx stringHand φ (x + i) (y + b) (z + k) - zx stringHand φ (x + i) y (z + k) := by
    intro i k
    have := sum_range_sub (fun j : Nat => zx stringHand φ (x + i) (y + j) (z + k)) b
    simpa [add_assoc] using this
  have cubes : ∑ i ∈ range a, ∑ j ∈ range b, ∑ k ∈ range c,
      ((xy stringHand φ (x + i) (y + j) (z + k + 1) - xy stringHand φ (x + i) (y + j) (z + k)) +
       (yz stringHand φ (x + i + 1) (y + j) (z + k) - yz stringHand φ (x + i) (y + j) (z + k)) +
       (zx stringHand φ (x + i) (y + j + 1) (z + k) - zx stringHand φ (x + i) (y + j) (z + k))) =
      0 := by
    refine sum_eq_zero fun i _ => sum_eq_zero fun j _ => sum_eq_zero fun k _ => C23_cube h _ _ _
  simp only [sum_add_distrib] at cubes
  rw [← cubes]
  congr 1
  · congr 1
    · simp only [t1]
    · conv_rhs => rw [sum_comm]
      refine sum_congr rfl fun j _ => ?_
      conv_rhs => rw [sum_comm]
      simp only [t2]
  · refine sum_congr rfl fun i _ => ?_
    conv_rhs => rw [sum_comm]
    simp only [t3]

/-- The lattice closes on itself after `n` sites in each direction. -/
def Torus (n : Nat) (φ : Lat K) : Prop :=
  ∀ x y z, φ (x + n) y z = φ x y z ∧ φ x (y + n) z = φ x y z ∧ φ x y (z + n) = φ x y z

omit [LinearOrder K] [IsStrictOrderedRing K] in
theorem sum_shift {n : Nat} (f : Int → Int) (hf : f n = f 0) :
    ∑ i ∈ range n, f (i + 1) = ∑ i ∈ range n, f i := by
  have := sum_range_sub (fun i : Nat => f i) n
  simp only [sum_sub_distrib] at this
  push_cast at this
  rw [hf] at this
  omega

/-- **C23, planes.**  On the periodic lattice as many strings pierce a lattice plane one way as the
other way, for each of the three orientations. -/
theorem C23_plane {n : Nat} {φ : Lat K} (h : ClearLinks φ) (ht : Torus n φ) (w : Int) :
    ∑ i ∈ range n, ∑ j ∈ range n, xy stringHand φ i j w = 0 ∧
    ∑ i ∈ range n, ∑ j ∈ range n, yz stringHand φ w i j = 0 ∧
    ∑ i ∈ range n, ∑ j ∈ range n, zx stringHand φ j w i = 0 := by
  have ext : ∀ f g : Int → Int → Int, (∀ x y, f x (y + n) = f x y) → (∀ x y, g (x + n) y = g x y) →
      ∑ i ∈ range n, ∑ j ∈ range n, (f i j + g (i + 1) j - f i (j + 1) - g i j) = 0 := by
    intro f g hf hg
    simp only [sum_sub_distrib, sum_add_distrib]
    have e1 : ∀ i : Nat, ∑ j ∈ range n, f i (j + 1) = ∑ j ∈ range n, f i j := fun i =>
      sum_shift (fun j => f i j) (by simpa using hf i 0)
    have e2 : ∑ i ∈ range n, ∑ j ∈ range n, g (i + 1) j = ∑ i ∈ range n, ∑ j ∈ range n, g i j := by
      refine sum_shift (fun i => ∑ j ∈ range n, g i j) ?_
      refine sum_congr rfl fun j _ => ?_
      simpa using hg 0 j
    simp only [e1, e2]
    ring
  refine ⟨?_, ?_, ?_⟩
  · simp only [xy_links h]
    exact ext (fun x y => side (φ x y w) (φ (x + 1) y w)) (fun x y => side (φ x y w) (φ x (y + 1) w))
      (fun x y => by simp only [(ht _ _ _).2.1])
      (fun x y => by simp only [(ht _ _ _).1])
  · simp only [yz_links h]
    exact ext (fun x y => side (φ w x y) (φ w (x + 1) y)) (fun x y => side (φ w x y) (φ w x (y + 1)))
      (fun x y => by simp only [(ht _ _ _).2.2])
      (fun x y => by simp only [(ht _ _ _).2.1])
  · simp only [zx_links h]
    exact ext (fun x y => side (φ y w x) (φ y w (x + 1))) (fun x y => side (φ y w x) (φ (y + 1) w x))
      (fun x y => by simp only [(ht _ _ _).1])
      (fun x y => by simp only [(ht _ _ _).2.2])

/-- The vector kernels see the same plaquettes when no imaginary part is exactly zero. -/
theorem C23_vector {φ : Lat K} (h0 : NoZeroIm φ) (isa : Isa) (x y z : Int) :
    xy (handV isa) φ x y z = xy stringHand φ x y z ∧ yz (handV isa) φ x y z = yz stringHand φ x y z ∧
    zx (handV isa) φ x y z = zx stringHand φ x y z :=
  ⟨C22_vector isa (h0 _ _ _) (h0 _ _ _) (h0 _ _ _) (h0 _ _ _), C22_vector isa (h0 _ _ _) (h0 _ _ _) (h0 _ _ _) (h0 _ _ _),
    C22_vector isa (h0 _ _ _) (h0 _ _ _) (h0 _ _ _) (h0 _ _ _)⟩

/-- **C23, vector.**  Strings found by the vector kernels have no ends either. -/
theorem C23_no_end_vector {φ : Lat K} (h : ClearLinks φ) (h0 : NoZeroIm φ) (isa : Isa)
    (x y z : Int) : Even ((faces (handV isa) φ x y z).countP (· ≠ 0)) := by
  have := C23_no_end h x y z
  simp only [faces, (C23_vector h0 isa _ _ _).1, (C23_vector h0 isa _ _ _).2.1,
    (C23_vector h0 isa _ _ _).2.2] at *
  exact this

end

/-! ## Examples -/

/-- A straight string along z through the cell of the origin. -/
def vortex : Lat ℚ := fun x y _ => ⟨2 * x - 1, 2 * y - 1⟩

theorem odd_ne (x : Int) : (2 * (x : ℚ) - 1) ≠ 0 := by
  intro h
  have : (2 * x - 1 : Int) = 0 := by exact_mod_cast h
  omega

/-- The hypotheses of `C23_cube`, `C23_no_end`, `C23_box` hold for it. -/
example : ClearLinks vortex ∧ NoZeroIm vortex := by
  refine ⟨fun x y z => ⟨?_, ?_, ?_⟩, fun x y z => odd_ne y⟩
  · rintro u - - ⟨-, h⟩; exact odd_ne y (by simp only [vortex] at h; linear_combination h)
  · rintro u - - ⟨h, -⟩; exact odd_ne x (by simp only [vortex] at h; linear_combination h)
  · rintro u - - ⟨h, -⟩; exact odd_ne x (by simp only [vortex] at h; linear_combination h)

/-- It pierces two of the six faces of its cell. -/
example : faces stringHand vortex 0 0 5 = [-2, -2, 0, 0, 0, 0] := by decide +kernel

/-- Strings and antistrings in a periodic plane. -/
def checker : Lat ℚ := fun x y _ => ⟨if x % 2 = 0 then 1 else -1, if y % 2 = 0 then 1 else -1⟩

theorem pm_ne (b : Int) : (if b % 2 = 0 then (1 : ℚ) else -1) ≠ 0 := by split <;> norm_num

/-- The hypotheses of `C23_plane` hold for it, and the plane is pierced four times. -/
example : ClearLinks checker ∧ NoZeroIm checker ∧ Torus 2 checker ∧
    (∀ i ∈ [(0 : Int), 1], ∀ j ∈ [(0 : Int), 1], xy stringHand checker i j 0 ≠ 0) := by
  refine ⟨fun x y z => ⟨?_, ?_, ?_⟩, fun x y z => pm_ne y, fun x y z => ⟨?_, ?_, rfl⟩,
    by decide +kernel⟩
  · rintro u - - ⟨-, h⟩; exact pm_ne y (by simp only [checker] at h; linear_combination h)
  · rintro u - - ⟨h, -⟩; exact pm_ne x (by simp only [checker] at h; linear_combination h)
  · rintro u - - ⟨h, -⟩; exact pm_ne x (by simp only [checker] at h; linear_combination h)
  · simp [checker]
  · simp [checker]

end Winding
end Jaxions
