import Verif.Spec.StringLength
import Verif.Props.StringCross

/-!
# Points of a cell: the code's list is the list of the specification
-/

namespace Jaxions
namespace StrLen

open Winding

theorem avoids_xy {φ : Lat ℝ} (h : ClearLinks φ) (x y z : ℤ) :
    AvoidsAll (φ x y z) (φ (x + 1) y z) (φ (x + 1) (y + 1) z) (φ x (y + 1) z) :=
  ⟨(h x y z).1, (h (x + 1) y z).2.1, avoids_symm (h x (y + 1) z).1, avoids_symm (h x y z).2.1⟩

theorem avoids_yz {φ : Lat ℝ} (h : ClearLinks φ) (x y z : ℤ) :
    AvoidsAll (φ x y z) (φ x (y + 1) z) (φ x (y + 1) (z + 1)) (φ x y (z + 1)) :=
  ⟨(h x y z).2.1, (h x (y + 1) z).2.2, avoids_symm (h x y (z + 1)).2.1, avoids_symm (h x y z).2.2⟩

theorem avoids_zx {φ : Lat ℝ} (h : ClearLinks φ) (x y z : ℤ) :
    AvoidsAll (φ x y z) (φ x y (z + 1)) (φ (x + 1) y (z + 1)) (φ (x + 1) y z) :=
  ⟨(h x y z).2.2, (h x y (z + 1)).1, avoids_symm (h (x + 1) y z).2.2, avoids_symm (h x y z).1⟩

theorem ptXY_some {φ : Lat ℝ} (h : ClearLinks φ) (x y z : ℤ) (hw : xy stringHand φ x y z ≠ 0) :
    ∃ p, ptXY φ x y z = some p ∧ (x : ℝ) ≤ p.x ∧ p.x ≤ x + 1 ∧ (y : ℝ) ≤ p.y ∧ p.y ≤ y + 1 ∧
      p.z = z := by
  obtain ⟨u, v, e, h1, h2, h3, h4⟩ := C75_inside (avoids_xy h x y z) hw
  refine ⟨_, by rw [ptXY, e]; rfl, ?_, ?_, ?_, ?_, rfl⟩ <;> simp only <;> linarith

theorem ptYZ_some {φ : Lat ℝ} (h : ClearLinks φ) (x y z : ℤ) (hw : yz stringHand φ x y z ≠ 0) :
    ∃ p, ptYZ φ x y z = some p ∧ (y : ℝ) ≤ p.y ∧ p.y ≤ y + 1 ∧ (z : ℝ) ≤ p.z ∧ p.z ≤ z + 1 ∧
      p.x = x := by
  obtain ⟨u, v, e, h1, h2, h3, h4⟩ := C75_inside (avoids_yz h x y z) hw
  refine ⟨_, by rw [ptYZ, e]; rfl, ?_, ?_, ?_, ?_, rfl⟩ <;> simp only <;> linarith

theorem ptZX_some {φ : Lat ℝ} (h : ClearLinks φ) (x y z : ℤ) (hw : zx stringHand φ x y z ≠ 0) :
    ∃ p, ptZX φ x y z = some p ∧ (z : ℝ) ≤ p.z ∧ p.z ≤ z + 1 ∧ (x : ℝ) ≤ p.x ∧ p.x ≤ x + 1 ∧
      p.y = y := by
  obtain ⟨u, v, e, h1, h2, h3, h4⟩ := C75_inside (avoids_zx h x y z) hw
  refine ⟨_, by rw [ptZX, e]; rfl, ?_, ?_, ?_, ?_, rfl⟩ <;> simp only <;> linarith

theorem mem_opt {c : Prop} [Decidable c] {α : Type} {a b : α} (h : a ∈ if c then [b] else []) :
    c ∧ a = b := by
  by_cases hc : c
  · rw [if_pos hc] at h; exact ⟨hc, by simpa using h⟩
  · rw [if_neg hc] at h; simp at h

/-- All ends are points of the cell. -/
theorem ends_some {φ : Lat ℝ} (h : ClearLinks φ) (x y z : ℤ) (e : Option Pt)
    (he : e ∈ cubeEnds φ x y z) : ∃ p, e = some p ∧ InCube x y z p := by
  simp only [cubeEnds, lowEnds, List.mem_append] at he
  have z1 : ((z + 1 : ℤ) : ℝ) = z + 1 := by push_cast; rfl
  have x1 : ((x + 1 : ℤ) : ℝ) = x + 1 := by push_cast; rfl
  have y1 : ((y + 1 : ℤ) : ℝ) = y + 1 := by push_cast; rfl
  rcases he with ((((he | he) | he) | he) | he) | he
  · obtain ⟨hw, rfl⟩ := mem_opt he
    obtain ⟨p, e, h1, h2, h3, h4, h5⟩ := ptXY_some h x y z hw
    exact ⟨p, e, h1, h2, h3, h4, by rw [h5], by rw [h5]; linarith⟩
  · obtain ⟨hw, rfl⟩ := mem_opt he
    obtain ⟨p, e, h1, h2, h3, h4, h5⟩ := ptYZ_some h x y z hw
    exact ⟨p, e, by rw [h5], by rw [h5]; linarith, h1, h2, h3, h4⟩
  · obtain ⟨hw, rfl⟩ := mem_opt he
    obtain ⟨p, e, h1, h2, h3, h4, h5⟩ := ptZX_some h x y z hw
    exact ⟨p, e, h3, h4, by rw [h5], by rw [h5]; linarith, h1, h2⟩
  · obtain ⟨hw, rfl⟩ := mem_opt he
    obtain ⟨p, e, h1, h2, h3, h4, h5⟩ := ptYZ_some h (x + 1) y z hw
    rw [x1] at h5
    exact ⟨p, e, by rw [h5]; linarith, by rw [h5], h1, h2, h3, h4⟩
  · obtain ⟨hw, rfl⟩ := mem_opt he
    obtain ⟨p, e, h1, h2, h3, h4, h5⟩ := ptZX_some h x (y + 1) z hw
    rw [y1] at h5
    exact ⟨p, e, h3, h4, by rw [h5]; linarith, by rw [h5], h1, h2⟩
  · obtain ⟨hw, rfl⟩ := mem_opt he
    obtain ⟨p, e, h1, h2, h3, h4, h5⟩ := ptXY_some h x y (z + 1) hw
    rw [z1] at h5
    exact ⟨p, e, h1, h2, h3, h4, by rw [h5]; linarith, by rw [h5]⟩

theorem reduce_some {α : Type} (l : List (Option α)) (h : ∀ e ∈ l, ∃ p, e = some p) :
    l = l.reduceOption.map some := by
  induction l with
  | nil => rfl
  | cons a l ih =>
    obtain ⟨p, rfl⟩ := h a (List.mem_cons_self ..)
    rw [List.reduceOption_cons_of_some, List.map_cons,
      ← ih fun e he => h e (List.mem_cons_of_mem _ he)]

theorem mapM_some {α : Type} (l : List α) : (l.map some).mapM id = some l := by
  induction l with
  | nil => rfl
  | cons a l ih => rw [List.map_cons, List.mapM_cons, ih]; rfl

theorem cubePts_map {φ : Lat ℝ} (h : ClearLinks φ) (x y z : ℤ) :
    cubeEnds φ x y z = (cubePts φ x y z).map some :=
  reduce_some _ fun e he => (ends_some h x y z e he).imp fun _ hp => hp.1

theorem cubePts_in {φ : Lat ℝ} (h : ClearLinks φ) (x y z : ℤ) (p : Pt) (hp : p ∈ cubePts φ x y z) :
    InCube x y z p := by
  have : some p ∈ cubeEnds φ x y z := by
    rw [cubePts_map h]; exact List.mem_map_of_mem hp
  obtain ⟨q, e, hq⟩ := ends_some h x y z _ this
  cases e
  exact hq

theorem length_opt {c : Prop} [Decidable c] {α : Type} (b : α) :
    (if c then [b] else []).length = if c then 1 else 0 := by split <;> rfl

theorem cubeEnds_length (φ : Lat ℝ) (x y z : ℤ) :
    (cubeEnds φ x y z).length = (faces stringHand φ x y z).countP (· ≠ 0) := by
  simp only [cubeEnds, lowEnds, List.length_append, length_opt, faces, List.countP_cons,
    List.countP_nil, decide_eq_true_eq]
  omega

theorem cubePts_length {φ : Lat ℝ} (h : ClearLinks φ) (x y z : ℤ) :
    (cubePts φ x y z).length = (faces stringHand φ x y z).countP (· ≠ 0) := by
  rw [← cubeEnds_length, cubePts_map h, List.length_map]

theorem cubePts_even {φ : Lat ℝ} (h : ClearLinks φ) (x y z : ℤ) :
    Even (cubePts φ x y z).length ∧ (cubePts φ x y z).length ≤ 6 := by
  rw [cubePts_length h]
  exact ⟨C23_no_end h x y z, List.countP_le_length⟩

/-! ## Addresses -/

theorem wrap_x {Lx ix : ℕ} (h : ix < Lx) {φ : Lat ℝ} (hc : Closed Lx φ) (y z : ℤ) :
    φ ((ix + 1) % Lx : ℕ) y z = φ (ix + 1 : ℤ) y z := by
  rcases Nat.lt_or_ge (ix + 1) Lx with h' | h'
  · rw [Nat.mod_eq_of_lt h']; push_cast; rfl
  · have e : ix + 1 = Lx := by omega
    rw [e, Nat.mod_self]
    have := (hc 0 y z).1
    rw [zero_add] at this
    have e' : (ix : ℤ) + 1 = (Lx : ℤ) := by omega
    rw [e', this]; rfl

theorem wrap_y {Lx iy : ℕ} (h : iy < Lx) {φ : Lat ℝ} (hc : Closed Lx φ) (x z : ℤ) :
    φ x ((iy + 1) % Lx : ℕ) z = φ x (iy + 1 : ℤ) z := by
  rcases Nat.lt_or_ge (iy + 1) Lx with h' | h'
  · rw [Nat.mod_eq_of_lt h']; push_cast; rfl
  · have e : iy + 1 = Lx := by omega
    rw [e, Nat.mod_self]
    have := (hc x 0 z).2
    rw [zero_add] at this
    have e' : (iy : ℤ) + 1 = (Lx : ℤ) := by omega
    rw [e', this]; rfl

/-- The eight corners are the eight corners. -/
theorem corners {Lx Lz r : ℕ} {ma : ℕ → Cx ℝ} {φ : Lat ℝ} (hm : Holds Lx Lz r ma φ)
    (hc : Closed Lx φ) {ix iy iz : ℕ} (hx : ix < Lx) (hy : iy < Lx) (hz : iz < Lz) :
    let c := corner Lx ix iy iz
    let z : ℤ := (r * Lz + iz : ℕ)
    ma c.o = φ ix iy z ∧ ma c.x = φ (ix + 1) iy z ∧ ma c.y = φ ix (iy + 1) z ∧
    ma c.z = φ ix iy (z + 1) ∧ ma c.xy = φ (ix + 1) (iy + 1) z ∧
    ma c.yz = φ ix (iy + 1) (z + 1) ∧ ma c.zx = φ (ix + 1) iy (z + 1) ∧
    ma c.xyz = φ (ix + 1) (iy + 1) (z + 1) := by
  have hx' : (ix + 1) % Lx < Lx := Nat.mod_lt _ (by omega)
  have hy' : (iy + 1) % Lx < Lx := Nat.mod_lt _ (by omega)
  have ez : ((r * Lz + (iz + 1) : ℕ) : ℤ) = ((r * Lz + iz : ℕ) : ℤ) + 1 := by push_cast; ring
  refine ⟨?_, ?_, ?_, ?_, ?_, ?_, ?_, ?_⟩
  · exact hm ix iy iz hx hy hz.le
  · exact (hm _ iy iz hx' hy hz.le).trans (wrap_x hx hc _ _)
  · exact (hm ix _ iz hx hy' hz.le).trans (wrap_y hy hc _ _)
  · exact (hm ix iy (iz + 1) hx hy hz).trans (by rw [ez])
  · exact (hm _ _ iz hx' hy' hz.le).trans ((wrap_x hx hc _ _).trans (wrap_y hy hc _ _))
  · exact (hm ix _ (iz + 1) hx hy' hz).trans ((wrap_y hy hc _ _).trans (by rw [ez]))
  · exact (hm _ iy (iz + 1) hx' hy hz).trans ((wrap_x hx hc _ _).trans (by rw [ez]))
  · exact (hm _ _ (iz + 1) hx' hy' hz).trans ((wrap_x hx hc _ _).trans
      ((wrap_y hy hc _ _).trans (by rw [ez])))

theorem closed_yz {Lx : ℕ} {φ : Lat ℝ} (hc : Closed Lx φ) (x y z : ℤ) :
    yz stringHand φ (x + Lx) y z = yz stringHand φ x y z := by
  simp only [yz, (hc x _ _).1]

theorem closed_zx {Lx : ℕ} {φ : Lat ℝ} (hc : Closed Lx φ) (x y z : ℤ) :
    zx stringHand φ x (y + Lx) z = zx stringHand φ x y z := by
  simp only [zx, (hc _ y _).2]

/-- The six bits looked at are those of the six faces. -/
theorem bits {Lx Lz r : ℕ} {sd : ℕ → ℕ} {φ : Lat ℝ} (hs : MapOf Lx Lz r sd φ) (hc : Closed Lx φ)
    {ix iy iz : ℕ} (hx : ix < Lx) (hy : iy < Lx) (hz : iz < Lz) :
    let c := corner Lx ix iy iz
    let z : ℤ := (r * Lz + iz : ℕ)
    ((sd c.o &&& StringMap.XY ≠ 0) ↔ xy stringHand φ ix iy z ≠ 0) ∧
    ((sd c.o &&& StringMap.YZ ≠ 0) ↔ yz stringHand φ ix iy z ≠ 0) ∧
    ((sd c.o &&& StringMap.ZX ≠ 0) ↔ zx stringHand φ ix iy z ≠ 0) ∧
    ((sd c.x &&& StringMap.YZ ≠ 0) ↔ yz stringHand φ (ix + 1) iy z ≠ 0) ∧
    ((sd c.y &&& StringMap.ZX ≠ 0) ↔ zx stringHand φ ix (iy + 1) z ≠ 0) ∧
    (iz + 1 < Lz → ((sd c.z &&& StringMap.XY ≠ 0) ↔ xy stringHand φ ix iy (z + 1) ≠ 0)) := by
  have hx' : (ix + 1) % Lx < Lx := Nat.mod_lt _ (by omega)
  have hy' : (iy + 1) % Lx < Lx := Nat.mod_lt _ (by omega)
  have ez : ((r * Lz + (iz + 1) : ℕ) : ℤ) = ((r * Lz + iz : ℕ) : ℤ) + 1 := by push_cast; ring
  have h0 := hs ix iy iz hx hy hz
  refine ⟨h0.1, h0.2.1, h0.2.2, ?_, ?_, ?_⟩
  · refine (hs _ iy iz hx' hy hz).2.1.trans ?_
    rcases Nat.lt_or_ge (ix + 1) Lx with h' | h'
    · rw [Nat.mod_eq_of_lt h']; push_cast; rfl
    · have e : ix + 1 = Lx := by omega
      have e' : (ix : ℤ) + 1 = 0 + (Lx : ℤ) := by omega
      rw [e, Nat.mod_self, e', closed_yz hc]; rfl
  · refine (hs ix _ iz hx hy' hz).2.2.trans ?_
    rcases Nat.lt_or_ge (iy + 1) Lx with h' | h'
    · rw [Nat.mod_eq_of_lt h']; push_cast; rfl
    · have e : iy + 1 = Lx := by omega
      have e' : (iy : ℤ) + 1 = 0 + (Lx : ℤ) := by omega
      rw [e, Nat.mod_self, e', closed_zx hc]; rfl
  · intro h
    refine (hs ix iy (iz + 1) hx hy h).1.trans ?_
    rw [ez]

theorem push_eq {c : ℕ} {p : Prop} [Decidable p] (h : c ≠ 0 ↔ p) (o : Option (ℝ × ℝ))
    (f : ℝ × ℝ → Pt) : push (c != 0) o f = if p then [o.map f] else [] := by
  unfold push
  by_cases hp : p
  · rw [if_pos hp, if_pos (by simpa using h.mpr hp)]
  · rw [if_neg hp, if_neg (by simpa using fun e => hp (h.mp e))]

/-- The points collected in a cell. -/
theorem ends_eq {Lx Lz r : ℕ} {ma : ℕ → Cx ℝ} {sd : ℕ → ℕ} {φ : Lat ℝ} (hm : Holds Lx Lz r ma φ)
    (hs : MapOf Lx Lz r sd φ) (hc : Closed Lx φ) {ix iy iz : ℕ} (hx : ix < Lx) (hy : iy < Lx)
    (hz : iz < Lz) :
    ends ma sd Lx ix iy iz (r * Lz + iz) (!decide (iz + 1 < Lz)) =
      if iz + 1 < Lz then cubeEnds φ ix iy (r * Lz + iz : ℕ) else lowEnds φ ix iy (r * Lz + iz : ℕ) := by
  obtain ⟨c1, c2, c3, c4, c5, c6, c7, c8⟩ := corners hm hc hx hy hz
  obtain ⟨b1, b2, b3, b4, b5, b6⟩ := bits hs hc hx hy hz
  have low : ends ma sd Lx ix iy iz (r * Lz + iz) true = lowEnds φ ix iy (r * Lz + iz : ℕ) := by
    unfold ends lowEnds
    simp only [if_true, List.append_nil]
    rw [push_eq b1, push_eq b2, push_eq b3, push_eq b4, push_eq b5, c1, c2, c3, c4, c5, c6, c7, c8]
    simp only [ptXY, ptYZ, ptZX, Int.cast_natCast, Int.cast_add, Int.cast_one]
  by_cases h : iz + 1 < Lz
  · rw [if_pos h, decide_eq_true h, cubeEnds, ← low]
    unfold ends
    simp only [Bool.not_true, Bool.false_eq_true, if_false, if_true, List.append_nil]
    rw [push_eq (b6 h), c4, c6, c7, c8]
    simp only [ptXY, Int.cast_natCast, Int.cast_add, Int.cast_one]
  · rw [if_neg h, decide_eq_false h]; exact low

/-! ## Sums -/

theorem foldlM_sum {α : Type} (L : List α) (F : ℝ → α → Option ℝ) (v : α → ℝ)
    (h : ∀ i ∈ L, ∀ a, F a i = some (a + v i)) (a : ℝ) : L.foldlM F a = some (a + (L.map v).sum) := by
  induction L generalizing a with
  | nil => simp
  | cons i L ih =>
    rw [List.foldlM_cons, h i (List.mem_cons_self ..)]
    show L.foldlM F (a + v i) = _
    rw [ih (fun j hj => h j (List.mem_cons_of_mem _ hj)), List.map_cons, List.sum_cons, add_assoc]

end StrLen
end Jaxions
