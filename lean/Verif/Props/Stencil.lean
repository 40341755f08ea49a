import Verif.Lemmas.Stencil
import Verif.Model.Simd
import Verif.Props.Passes
import Verif.Spec.Layout
import Mathlib.Tactic.FinCases
import Mathlib.Tactic.Abel
import Mathlib.Tactic.Module
import Mathlib.Algebra.BigOperators.Intervals
/-
C04: the folded vector stencil is the periodic stencil of the lattice.
-/
namespace Jaxions

namespace Simd

/-- **C04** Every instruction set, precision and kernel: the rotation used for the y-1 neighbour
moves site `l-1` (cyclically) to site `l`, the one for y+1 moves site `l+1` to site `l`; both
components of a complex site stay together. -/
theorem C04_rotations {α : Type} (k : Kind) (p : Prec) (i : Isa)
    (a : Vec (scalars k * sites k p i) α) (j : Fin (scalars k * sites k p i)) :
    rotMinus k p i a j =
      a ⟨scalars k * ((j / scalars k + sites k p i - 1) % sites k p i) + j % scalars k, by
        cases k <;> cases p <;> cases i <;> simp only [scalars, sites] at j ⊢ <;> omega⟩ ∧
    rotPlus k p i a j =
      a ⟨scalars k * ((j / scalars k + 1) % sites k p i) + j % scalars k, by
        cases k <;> cases p <;> cases i <;> simp only [scalars, sites] at j ⊢ <;> omega⟩ := by
  cases k <;> cases p <;> cases i <;>
    (simp only [scalars, sites] at j; fin_cases j <;> exact ⟨rfl, rfl⟩)

/-- `Align` in bytes (propXeon.h:14-28). -/
def align : Isa → Nat
  | .avx512 => 64
  | .avx2 => 32
  | .avx => 32
  | .sse => 16
/-- Bytes of a scalar. -/
def bytes : Prec → Nat
  | .double => 8
  | .single => 4

/-- The vector length of the kernels is the number of sites per alignment unit, which is the `shift`
the folder uses (scalarField.cpp:199 `shift = mAlign/fSize`). -/
theorem C04_step_is_shift (k : Kind) (p : Prec) (i : Isa) :
    sites k p i = align i / (scalars k * bytes p) := by
  cases k <;> cases p <;> cases i <;> rfl

end Simd

namespace Stencil

variable {K α : Type} [Field K] [AddCommGroup α] [Module K α]

theorem foldlM_sum {ι : Type} (f : ι → Option α) (g : ι → α) (l : List ι)
    (h : ∀ i ∈ l, f i = some (g i)) (x : α) :
    l.foldlM (fun acc i => do let t ← f i; return acc + t) x = some (x + (l.map g).sum) := by
  induction l generalizing x with
  | nil => simp
  | cons i l ih =>
    simp only [List.foldlM_cons, h i (by simp), Option.pure_def, Option.bind_eq_bind,
      Option.bind_some, List.map_cons, List.sum_cons]
    rw [← add_assoc]
    exact ih (fun j hj => h j (by simp [hj])) _

omit [AddCommGroup α] in
/-- The values read for one ring of neighbours. -/
theorem six_eq {Y S NN : Nat} (hS : 0 < S) (m : Heap Nat α) (φ : Int → Int → Int → α) (nz : Nat)
    (hper : Periodic (Y * S) φ) (hm : Holds (Y * S) S nz m φ) {x y z nv : Nat} (hx : x < Y * S)
    (hy : y < Y * S) (h2 : 2 * nv ≤ Y) (hz : nv ≤ z) (hz' : z + nv < nz) :
    six (shape Y S NN) m (vec Y S x (y % Y) z) (y / Y) nv =
      some ⟨φ x y z, φ x (y - nv) z, φ x (y + nv) z, φ (x + nv) y z, φ (x - nv) y z,
        φ x y (z - nv), φ x y (z + nv)⟩ := by
  have hY : 0 < Y := by
    rcases Nat.eq_zero_or_pos Y with h | h
    · subst h; simp at hy
    · exact h
  have hYS : 0 < Y * S := Nat.mul_pos hY hS
  have hle : Y ≤ Y * S := Nat.le_mul_of_pos_right Y hS
  have hm0 : y % Y < Y := Nat.mod_lt _ hY
  have rd : ∀ x' y' z' : Nat, x' < Y * S → y' < Y * S → z' < nz →
      m (vec Y S x' (y' % Y) z' + y' / Y) = some (φ x' y' z') := by
    intro x' y' z' h1 h2 h3
    rw [← cell_eq hS]
    exact hm x' y' z' h1 h2 h3
  have wrapP : ∀ t : Nat, ((((t + nv) % (Y * S) : Nat) : Int)) = ((t : Int) + nv) % ((Y * S : Nat) : Int) := by
    intro t; push_cast; rfl
  have wrapM : ∀ t : Nat, ((((t + Y * S - nv) % (Y * S) : Nat) : Int)) =
      ((t : Int) - nv) % ((Y * S : Nat) : Int) := by
    intro t
    have : ((t + Y * S - nv : Nat) : Int) = ((t : Int) - nv) + ((Y * S : Nat) : Int) := by omega
    rw [Int.natCast_emod, this, Int.add_emod_right]
  have small : ∀ t : Nat, t < Y * S → (t : Int) = (t : Int) % ((Y * S : Nat) : Int) := by
    intro t ht
    rw [← Int.natCast_emod, Nat.mod_eq_of_lt ht]
  have e1 := hper (x + nv) y z
  have e2 := hper (x - nv) y z
  have e3 := hper x (y + nv) z
  have e4 := hper x (y - nv) z
  rw [← small y hy, ← wrapP x] at e1
  rw [← small y hy, ← wrapM x] at e2
  rw [← small x hx, ← wrapP y] at e3
  rw [← small x hx, ← wrapM y] at e4
  have a1 := rd ((x + nv) % (Y * S)) y z (Nat.mod_lt _ hYS) hy (by omega)
  have a2 := rd ((x + Y * S - nv) % (Y * S)) y z (Nat.mod_lt _ hYS) hy (by omega)
  have a3 := hm x ((y + nv) % (Y * S)) z hx (Nat.mod_lt _ hYS) (by omega)
  have a4 := hm x ((y + Y * S - nv) % (Y * S)) z hx (Nat.mod_lt _ hYS) (by omega)
  have a5 := rd x y (z + nv) hx hy hz'
  have a6 := rd x y (z - nv) hx hy (by omega)
  have a0 := rd x y z hx hy (by omega)
  rw [← e1] at a1
  rw [← e2] at a2
  rw [← e3] at a3
  rw [← e4] at a4
  have ez : ((z - nv : Nat) : Int) = (z : Int) - nv := by omega
  rw [ez] at a6
  simp only [Nat.cast_add] at a5
  simp only [six, shape_XC, shape_YC hS, vec_mod hS hx, vec_div hS hx hm0,
    addr_yPlus hS hy h2, addr_yMinus hS hy (show nv ≤ Y by omega),
    addr_xPlus hS hx (show nv ≤ Y * S by omega), addr_xMinus hS hx (show nv ≤ Y * S by omega),
    addr_zPlus, addr_zMinus hz, load, Option.map_some, Option.bind_some, Option.bind_eq_bind,
    Option.pure_def, a0, a1, a2, a3, a4, a5, a6]

/-- The sum over one ring of neighbours. -/
theorem ring_eq {Y S NN : Nat} (hS : 0 < S) (m : Heap Nat α) (φ : Int → Int → Int → α) (nz : Nat)
    (hper : Periodic (Y * S) φ) (hm : Holds (Y * S) S nz m φ) {x y z nv : Nat} (hx : x < Y * S)
    (hy : y < Y * S) (h2 : 2 * nv ≤ Y) (hz : nv ≤ z) (hz' : z + nv < nz) :
    ring (K := K) (shape Y S NN) m (vec Y S x (y % Y) z) (y / Y) nv =
      some (φ (x + nv) y z + φ (x - nv) y z + φ x (y + nv) z + φ x (y - nv) z + φ x y (z + nv) +
        φ x y (z - nv) - (6 : K) • φ x y z) := by
  rw [ring, six_eq hS m φ nz hper hm hx hy h2 hz hz']
  simp only [Option.bind_eq_bind, Option.bind_some, Option.pure_def, Option.some.injEq, neg_smul]
  abel

theorem sum_list_range (f : Nat → α) (n : Nat) :
    ((List.range n).map f).sum = ∑ k ∈ Finset.range n, f k := by
  induction n with
  | zero => rfl
  | succ n ih => simp [List.range_succ, Finset.sum_range_succ, ih]

/-- **C04** The value the kernel computes in a lane of a vector is the periodic Laplacian of the
lattice at the site kept in that lane, with the weights `PC[k] * ood2`.  For every grid length that
is a multiple of the lane count with at least `2 NN` rows per block, every stencil radius up to
five, every site with `NN` slices on each side, every field. -/
theorem C04_laplacian {Lx S NN : Nat} (hS : 0 < S) (hdvd : S ∣ Lx) (hrow : 2 * NN ≤ Lx / S)
    (PC : List K) (w : Nat → K) (hPC : ∀ k, k < NN → PC[k]? = some (w k)) (h5 : NN ≤ 5) (ood2 : K)
    (m : Heap Nat α) (φ : Int → Int → Int → α) (nz : Nat)
    (hper : Periodic Lx φ) (hm : Holds Lx S nz m φ) {x y z : Nat} (hx : x < Lx)
    (hy : y < Lx) (hz : NN ≤ z) (hz' : z + NN < nz) :
    lap ⟨Lx, S, NN⟩ PC ood2 m (cell Lx S x y z - y / (Lx / S)) (y / (Lx / S)) =
      some (laplacian (fun k => w k * ood2) NN φ x y z) := by
  obtain ⟨Y, rfl⟩ : ∃ Y, Lx = Y * S := by
    obtain ⟨Y, h⟩ := hdvd; exact ⟨Y, by rw [h, Nat.mul_comm]⟩
  rw [Nat.mul_div_cancel _ hS] at hrow ⊢
  rw [cell_eq hS, Nat.add_sub_cancel]
  have key : ∀ k ∈ List.range NN, (do
      let t ← ring (K := K) (shape Y S NN) m (vec Y S x (y % Y) z) (y / Y) (k + 1)
      let w ← cov PC ood2 k
      return w • t : Option α) = some ((w k * ood2) •
    (φ (x + (k + 1 : Nat)) y z + φ (x - (k + 1 : Nat)) y z + φ x (y + (k + 1 : Nat)) z +
     φ x (y - (k + 1 : Nat)) z + φ x y (z + (k + 1 : Nat)) + φ x y (z - (k + 1 : Nat)) -
     (6 : K) • φ x y z)) := by
    intro k hk
    rw [List.mem_range] at hk
    rw [ring_eq hS m φ nz hper hm hx hy (show 2 * (k + 1) ≤ Y by omega) (by omega) (by omega)]
    simp [cov, hPC k hk, show k < 5 by omega]
  have h := foldlM_sum _ _ _ key (0 : α)
  rw [zero_add, sum_list_range] at h
  rw [laplacian, ← h, lap]
  congr 1
  funext acc k
  simp only [shape, Option.bind_eq_bind, Option.pure_def, Option.bind_assoc, Option.bind_some]

/-! ### Whole kernel calls -/

omit [AddCommGroup α] in
/-- Generic rule for a sweep: distinct cells, everything allocated. -/
theorem sweep_rule (s : Shape) (lapF : Nat → Nat → Option α) (law : α → α → α → α × α)
    (m : Heap Nat α) (M L V : Nat × Nat → α) (cs : List (Nat × Nat)) (o : Out α)
    (hnd : (cs.map fun c => c.1 + c.2).Nodup)
    (hoff : ∀ c ∈ cs, s.NN * s.Sf ≤ c.1)
    (hm : ∀ c ∈ cs, m (c.1 + c.2) = some (M c))
    (hl : ∀ c ∈ cs, lapF c.1 c.2 = some (L c))
    (hv : ∀ c ∈ cs, o.v (c.1 - s.NN * s.Sf + c.2) = some (V c))
    (hm2 : ∀ c ∈ cs, (o.m2 (c.1 + c.2)).isSome) :
    ∃ o', cs.foldlM (updateWith s lapF law m) o = some o' ∧
      (∀ c ∈ cs, o'.m2 (c.1 + c.2) = some (law (L c) (M c) (V c)).1 ∧
        o'.v (c.1 - s.NN * s.Sf + c.2) = some (law (L c) (M c) (V c)).2) ∧
      (∀ a, a ∉ cs.map (fun c => c.1 + c.2) → o'.m2 a = o.m2 a) ∧
      (∀ a, a + s.NN * s.Sf ∉ cs.map (fun c => c.1 + c.2) → o'.v a = o.v a) := by
  induction cs generalizing o with
  | nil => exact ⟨o, rfl, by simp, fun _ _ => rfl, fun _ _ => rfl⟩
  | cons c cs ih =>
    simp only [List.map_cons, List.nodup_cons] at hnd
    have h1 := hm c (by simp)
    have h2 := hl c (by simp)
    have h3 := hv c (by simp)
    have h4 := hm2 c (by simp)
    have h5 := hoff c (by simp)
    have hstep : updateWith s lapF law m o c = some
        ⟨fun b => if b = c.1 - s.NN * s.Sf + c.2 then some (law (L c) (M c) (V c)).2 else o.v b,
         fun b => if b = c.1 + c.2 then some (law (L c) (M c) (V c)).1 else o.m2 b⟩ := by
      simp [updateWith, h1, h2, h3, sub?, h5, Heap.write, h4]
    have hne : ∀ c' ∈ cs, c'.1 + c'.2 ≠ c.1 + c.2 := by
      intro c' hc' e
      exact hnd.1 (List.mem_map.2 ⟨c', hc', e⟩)
    obtain ⟨o', hrun, hval, hr2, hrv⟩ := ih (hnd := hnd.2) (hoff := fun c' hc' => hoff c' (by simp [hc']))
      (hm := fun c' hc' => hm c' (by simp [hc'])) (hl := fun c' hc' => hl c' (by simp [hc']))
      (o := ⟨fun b => if b = c.1 - s.NN * s.Sf + c.2 then some (law (L c) (M c) (V c)).2 else o.v b,
         fun b => if b = c.1 + c.2 then some (law (L c) (M c) (V c)).1 else o.m2 b⟩)
      (hv := fun c' hc' => by
        have := hne c' hc'
        have := hoff c' (by simp [hc'])
        simp only
        rw [if_neg (by omega)]
        exact hv c' (by simp [hc']))
      (hm2 := fun c' hc' => by
        simp only
        rw [if_neg (hne c' hc')]
        exact hm2 c' (by simp [hc']))
    refine ⟨o', ?_, ?_, ?_, ?_⟩
    · rw [List.foldlM_cons, hstep]
      simpa using hrun
    · intro c' hc'
      rcases List.mem_cons.1 hc' with rfl | hc'
      · constructor
        · rw [hr2 _ hnd.1]; simp
        · rw [hrv _ (by
            rw [show c'.1 - s.NN * s.Sf + c'.2 + s.NN * s.Sf = c'.1 + c'.2 by omega]; exact hnd.1)]
          simp
      · exact hval c' hc'
    · intro a ha
      simp only [List.map_cons, List.mem_cons, not_or] at ha
      rw [hr2 a ha.2]
      simp [ha.1]
    · intro a ha
      simp only [List.map_cons, List.mem_cons, not_or] at ha
      rw [hrv a ha.2]
      simp only
      rw [if_neg (by omega)]

/-- The vectors visited in one substep, in any order: all vectors of the physical slices, once. -/
theorem order_spec {Lx S bY bZ Lz NN : Nat} (hL : 0 < Lx) (hS : 0 < S) (hdvd : S ∣ Lx)
    (hby : 0 < bY) (hbz : 0 < bZ) (hdepth : 2 * NN ≤ Lz ∨ Lz = NN) (order : List Nat)
    (horder : order.Perm (substepVisits true Lx S bY bZ Lz NN)) :
    order.Nodup ∧ ∀ i, i ∈ order ↔ S ∣ i ∧ NN ≤ i / (Lx * Lx) ∧ i / (Lx * Lx) < NN + Lz := by
  have hdv : ∀ i ∈ order, S ∣ i := by
    intro i hi
    have hi := horder.mem_iff.1 hi
    simp only [substepVisits, List.mem_flatMap] at hi
    obtain ⟨c, _, hi⟩ := hi
    unfold kernelVisits at hi
    split at hi
    · simp at hi
    · exact ((Tile.mem_visits ⟨Lx * S, Lx / S, S, _, _, bY, bZ⟩ hS ⟨Lx, Nat.mul_comm _ _⟩ hby hbz
        i).1 hi).2.2
  have hcount : ∀ i, S ∣ i → order.count i =
      if NN ≤ i / (Lx * Lx) ∧ i / (Lx * Lx) < NN + Lz then 1 else 0 := by
    intro i hi
    rw [horder.count_eq]
    exact (C06_exactly_once_iff hL hS hdvd hby hbz Lz NN).2 hdepth i hi
  constructor
  · rw [List.nodup_iff_count_le_one]
    intro i
    by_cases hi : S ∣ i
    · rw [hcount i hi]; split <;> omega
    · rw [List.count_eq_zero_of_not_mem (fun h => hi (hdv i h))]; omega
  · intro i
    constructor
    · intro h
      have h1 := hdv i h
      have h2 := hcount i h1
      have h3 := List.count_pos_iff.2 h
      refine ⟨h1, ?_⟩
      split at h2
      · assumption
      · omega
    · rintro ⟨h1, h2⟩
      have h3 := hcount i h1
      rw [if_pos h2] at h3
      exact List.count_pos_iff.1 (by omega)

theorem vec_slice {Y S x y0 z l : Nat} (hx : x < Y * S) (hy : y0 < Y) (hl : l < S) :
    (vec Y S x y0 z + l) / (Y * (Y * S * S)) = z := by
  have h1 : x * S + l < Y * S * S := pair_lt hx hl
  have h2 : y0 * (Y * S * S) + (x * S + l) < Y * (Y * S * S) := pair_lt hy h1
  have : vec Y S x y0 z + l = z * (Y * (Y * S * S)) + (y0 * (Y * S * S) + (x * S + l)) := by
    simp only [vec]; omega
  rw [this]
  exact div_of h2

omit [AddCommGroup α] in
/-- One substep on a rank with any routine `lapF` that computes `Lap` at every site of the physical
slices. -/
theorem substep_rule {Lx S NN Lz bY bZ : Nat} (hL : 0 < Lx) (hS : 0 < S) (hdvd : S ∣ Lx)
    (hby : 0 < bY) (hbz : 0 < bZ) (hdepth : 2 * NN ≤ Lz ∨ Lz = NN)
    (lapF : Nat → Nat → Option α) (Lap : Nat → Nat → Nat → α)
    (law : α → α → α → α × α) (order : List Nat)
    (horder : order.Perm (substepVisits true Lx S bY bZ Lz NN))
    (m : Heap Nat α) (o : Out α) (φ ν : Int → Int → Int → α)
    (hlap : ∀ x y z : Nat, x < Lx → y < Lx → z < Lz →
      lapF (cell Lx S x y (z + NN) - y / (Lx / S)) (y / (Lx / S)) = some (Lap x y z))
    (hm : Holds Lx S (Lz + 2 * NN) m φ) (hv : Holds Lx S Lz o.v ν)
    (hm2 : ∀ a, a < (Lz + 2 * NN) * (Lx * Lx) → (o.m2 a).isSome) :
    ∃ o', sweepWith ⟨Lx, S, NN⟩ lapF law m order o = some o' ∧
      (∀ x y z : Nat, x < Lx → y < Lx → z < Lz →
        let r := law (Lap x y z) (φ x y (z + NN : Nat)) (ν x y z)
        o'.m2 (cell Lx S x y (z + NN)) = some r.1 ∧ o'.v (cell Lx S x y z) = some r.2) ∧
      (∀ a, a / (Lx * Lx) < NN ∨ NN + Lz ≤ a / (Lx * Lx) → o'.m2 a = o.m2 a) := by
  obtain ⟨hnd, hmem⟩ := order_spec hL hS hdvd hby hbz hdepth order horder
  obtain ⟨Y, rfl⟩ : ∃ Y, Lx = Y * S := by
    obtain ⟨Y, h⟩ := hdvd; exact ⟨Y, by rw [h, Nat.mul_comm]⟩
  have hY : 0 < Y := Nat.pos_of_mul_pos_right hL
  have hSf : Y * S * (Y * S) = Y * (Y * S * S) := by ring
  -- every visited lane is a site
  have hsite : ∀ c ∈ lanes (shape Y S NN) order, ∃ x y z : Nat, x < Y * S ∧ y < Y * S ∧ z < Lz ∧
      c.1 = vec Y S x (y % Y) (z + NN) ∧ c.2 = y / Y := by
    rintro ⟨i, l⟩ hc
    simp only [lanes, List.mem_flatMap, List.mem_map, List.mem_range, Prod.mk.injEq] at hc
    obtain ⟨i', hi', l', hl', rfl, rfl⟩ := hc
    obtain ⟨⟨k, hk⟩, hz1, hz2⟩ := (hmem i').1 hi'
    rw [hSf] at hz1 hz2
    have hl' : l' < S := hl'
    have hXC : 0 < Y * S * S := Nat.mul_pos hL hS
    have e1 := div_mul_add_mod i' (Y * S * S)
    have e2 := div_mul_add_mod (i' / (Y * S * S)) Y
    have hd : S ∣ i' % (Y * S * S) := (Nat.dvd_mod_iff ⟨Y * S, Nat.mul_comm _ _⟩).2 ⟨k, hk⟩
    obtain ⟨x, hx⟩ := hd
    have hxl : x < Y * S := by
      have := Nat.mod_lt i' hXC
      rw [hx, Nat.mul_comm] at this
      exact Nat.lt_of_mul_lt_mul_right this
    have hy0 : i' / (Y * S * S) % Y < Y := Nat.mod_lt _ hY
    have hzz : i' / (Y * S * S) / Y = i' / (Y * (Y * S * S)) := by
      rw [Nat.div_div_eq_div_mul, Nat.mul_comm]
    refine ⟨x, l' * Y + i' / (Y * S * S) % Y, i' / (Y * (Y * S * S)) - NN, hxl, ?_, by omega, ?_, ?_⟩
    · have := pair_lt hl' hy0
      rwa [Nat.mul_comm S Y] at this
    · rw [mod_of hy0, show i' / (Y * (Y * S * S)) - NN + NN = i' / (Y * (Y * S * S)) by omega]
      simp only [vec]
      rw [← hzz, ← Nat.mul_assoc, ← Nat.add_mul, e2, Nat.mul_comm x S, ← hx, e1]
    · rw [div_of hy0]
  -- every site is visited
  have hvis : ∀ x y z : Nat, x < Y * S → y < Y * S → z < Lz →
      (vec Y S x (y % Y) (z + NN), y / Y) ∈ lanes (shape Y S NN) order := by
    intro x y z hx hy hz
    simp only [lanes, List.mem_flatMap, List.mem_map, List.mem_range, Prod.mk.injEq]
    refine ⟨_, (hmem _).2 ⟨?_, ?_⟩, y / Y, lane_lt hy, rfl, rfl⟩
    · exact ⟨(z + NN) * (Y * (Y * S)) + y % Y * (Y * S) + x, by simp only [vec]; ring⟩
    · have := vec_slice (z := z + NN) (l := 0) hx (Nat.mod_lt y hY) hS
      rw [Nat.add_zero] at this
      rw [hSf, this]; omega
  have hlane : ∀ c ∈ lanes (shape Y S NN) order, c.1 ∈ order ∧ c.2 < S := by
    rintro ⟨i, l⟩ hc
    simp only [lanes, List.mem_flatMap, List.mem_map, List.mem_range, Prod.mk.injEq] at hc
    obtain ⟨i', hi', l', hl', rfl, rfl⟩ := hc
    exact ⟨hi', hl'⟩
  have hnd' : ((lanes (shape Y S NN) order).map fun c => c.1 + c.2).Nodup := by
    refine List.Nodup.map_on ?_ ?_
    · rintro ⟨i, l⟩ hc ⟨i', l'⟩ hc' e
      obtain ⟨h1, h2⟩ := hlane _ hc
      obtain ⟨h3, h4⟩ := hlane _ hc'
      obtain ⟨⟨k, hk⟩, _⟩ := (hmem i).1 h1
      obtain ⟨⟨k', hk'⟩, _⟩ := (hmem i').1 h3
      simp only at e h2 h4
      rw [hk, hk', Nat.mul_comm S k, Nat.mul_comm S k'] at e
      have := pair_inj h2 h4 e
      rw [hk, hk', this.1, this.2]
    · unfold lanes
      rw [List.nodup_flatMap]
      refine ⟨fun i _ => List.Nodup.map (fun a b h => (Prod.mk.inj h).2) List.nodup_range, ?_⟩
      refine hnd.imp ?_
      intro a b hab
      simp only [Function.onFun, List.Disjoint, List.mem_map]
      rintro _ ⟨_, _, rfl⟩ ⟨_, _, e⟩
      exact hab (Prod.mk.inj e).1.symm
  -- read the vectors through the lattice
  let X : Nat × Nat → Nat := fun c => c.1 % (Y * S * S) / S
  let Yc : Nat × Nat → Nat := fun c => c.2 * Y + c.1 / (Y * S * S) % Y
  let Z : Nat × Nat → Nat := fun c => c.1 / (Y * (Y * S * S)) - NN
  have hcoord : ∀ x y z : Nat, x < Y * S → y < Y * S → z < Lz →
      X (vec Y S x (y % Y) (z + NN), y / Y) = x ∧ Yc (vec Y S x (y % Y) (z + NN), y / Y) = y ∧
      Z (vec Y S x (y % Y) (z + NN), y / Y) = z := by
    intro x y z hx hy hz
    refine ⟨?_, ?_, ?_⟩
    · simp only [X]; rw [vec_mod hS hx, Nat.mul_div_cancel _ hS]
    · simp only [Yc]; rw [vec_div hS hx (Nat.mod_lt y hY), div_mul_add_mod]
    · have := vec_slice (z := z + NN) (l := 0) hx (Nat.mod_lt y hY) hS
      rw [Nat.add_zero] at this
      simp only [Z]; rw [this]; omega
  have hl : ∀ c ∈ lanes (shape Y S NN) order, lapF c.1 c.2 =
      some (Lap (X c) (Yc c) (Z c)) := by
    intro c hc
    obtain ⟨x, y, z, hx, hy, hz, e1, e2⟩ := hsite c hc
    obtain ⟨c1, c2⟩ := c
    simp only at e1 e2
    subst e1 e2
    obtain ⟨q1, q2, q3⟩ := hcoord x y z hx hy hz
    have := hlap x y z hx hy hz
    rw [Nat.mul_div_cancel _ hS, cell_eq hS, Nat.add_sub_cancel] at this
    rw [q1, q2, q3]
    exact this
  have hmm : ∀ c ∈ lanes (shape Y S NN) order, m (c.1 + c.2) =
      some (φ (X c) (Yc c) (Z c + NN : Nat)) := by
    intro c hc
    obtain ⟨x, y, z, hx, hy, hz, e1, e2⟩ := hsite c hc
    obtain ⟨c1, c2⟩ := c
    simp only at e1 e2
    subst e1 e2
    obtain ⟨q1, q2, q3⟩ := hcoord x y z hx hy hz
    have := hm x y (z + NN) hx hy (by omega)
    rw [cell_eq hS] at this
    rw [q1, q2, q3]
    exact this
  have hvoff : ∀ x y0 z, vec Y S x y0 (z + NN) = vec Y S x y0 z + NN * (shape Y S NN).Sf := by
    intro x y0 z
    rw [shape_Sf]
    simp only [vec]; ring
  have hvv : ∀ c ∈ lanes (shape Y S NN) order,
      o.v (c.1 - (shape Y S NN).NN * (shape Y S NN).Sf + c.2) = some (ν (X c) (Yc c) (Z c)) := by
    intro c hc
    obtain ⟨x, y, z, hx, hy, hz, e1, e2⟩ := hsite c hc
    obtain ⟨c1, c2⟩ := c
    simp only at e1 e2
    subst e1 e2
    obtain ⟨q1, q2, q3⟩ := hcoord x y z hx hy hz
    have := hv x y z hx hy hz
    rw [cell_eq hS] at this
    rw [q1, q2, q3, hvoff, show (shape Y S NN).NN = NN from rfl, Nat.add_sub_cancel]
    exact this
  have hoff : ∀ c ∈ lanes (shape Y S NN) order, (shape Y S NN).NN * (shape Y S NN).Sf ≤ c.1 := by
    intro c hc
    obtain ⟨x, y, z, hx, hy, hz, e1, e2⟩ := hsite c hc
    rw [e1, hvoff, show (shape Y S NN).NN = NN from rfl]
    omega
  have hslice : ∀ c ∈ lanes (shape Y S NN) order,
      NN ≤ (c.1 + c.2) / (Y * S * (Y * S)) ∧ (c.1 + c.2) / (Y * S * (Y * S)) < NN + Lz := by
    intro c hc
    obtain ⟨x, y, z, hx, hy, hz, e1, e2⟩ := hsite c hc
    rw [e1, e2, hSf, vec_slice hx (Nat.mod_lt y hY) (lane_lt hy)]
    omega
  have hSf0 : 0 < Y * S * (Y * S) := Nat.mul_pos hL hL
  have h2 : ∀ c ∈ lanes (shape Y S NN) order, (o.m2 (c.1 + c.2)).isSome := by
    intro c hc
    apply hm2
    rw [← Nat.div_lt_iff_lt_mul hSf0]
    have := hslice c hc
    omega
  obtain ⟨o', hrun, hval, hr2, _⟩ := sweep_rule (shape Y S NN) lapF law m _ _ _
    (lanes (shape Y S NN) order) o hnd' hoff hmm hl hvv h2
  refine ⟨o', hrun, ?_, ?_⟩
  · intro x y z hx hy hz
    have := hval _ (hvis x y z hx hy hz)
    obtain ⟨q1, q2, q3⟩ := hcoord x y z hx hy hz
    rw [q1, q2, q3] at this
    simp only [hvoff] at this
    rw [show (shape Y S NN).NN = NN from rfl, Nat.add_sub_cancel] at this
    rw [cell_eq hS, cell_eq hS, hvoff]
    exact this
  · intro a ha
    apply hr2
    intro hin
    obtain ⟨c, hc, e⟩ := List.mem_map.1 hin
    have := hslice c hc
    rw [e] at this
    omega

/-- **C04** One substep of the propagator on a rank, all its kernel calls, for every block size and
every order in which the threads execute the iterations: if the source array holds the lattice
field `φ` (ghost slices included) and the velocity array holds `ν`, then afterwards every site of
the physical slices holds in `m2` and `v` the update `law` of the *periodic Laplacian*, the field
and the velocity at that site; the ghost slices of `m2` are untouched. -/
theorem C04_substep {Lx S NN Lz bY bZ : Nat} (hL : 0 < Lx) (hS : 0 < S) (hdvd : S ∣ Lx)
    (hrow : 2 * NN ≤ Lx / S) (hby : 0 < bY) (hbz : 0 < bZ) (hdepth : 2 * NN ≤ Lz ∨ Lz = NN)
    (PC : List K) (w : Nat → K) (hPC : ∀ k, k < NN → PC[k]? = some (w k)) (h5 : NN ≤ 5) (ood2 : K)
    (law : α → α → α → α × α) (order : List Nat)
    (horder : order.Perm (substepVisits true Lx S bY bZ Lz NN))
    (m : Heap Nat α) (o : Out α) (φ ν : Int → Int → Int → α)
    (hper : Periodic Lx φ) (hm : Holds Lx S (Lz + 2 * NN) m φ) (hv : Holds Lx S Lz o.v ν)
    (hm2 : ∀ a, a < (Lz + 2 * NN) * (Lx * Lx) → (o.m2 a).isSome) :
    ∃ o', sweep ⟨Lx, S, NN⟩ PC ood2 law m order o = some o' ∧
      (∀ x y z : Nat, x < Lx → y < Lx → z < Lz →
        let r := law (laplacian (fun k => w k * ood2) NN φ x y (z + NN : Nat))
          (φ x y (z + NN : Nat)) (ν x y z)
        o'.m2 (cell Lx S x y (z + NN)) = some r.1 ∧ o'.v (cell Lx S x y z) = some r.2) ∧
      (∀ a, a / (Lx * Lx) < NN ∨ NN + Lz ≤ a / (Lx * Lx) → o'.m2 a = o.m2 a) := by
  refine substep_rule hL hS hdvd hby hbz hdepth (lap ⟨Lx, S, NN⟩ PC ood2 m)
    (fun x y z => laplacian (fun k => w k * ood2) NN φ x y (z + NN : Nat)) law order horder m o φ ν
    ?_ hm hv hm2
  intro x y z hx hy hz
  exact C04_laplacian hS hdvd hrow PC w hPC h5 ood2 m φ (Lz + 2 * NN) hper hm hx hy
    (z := z + NN) (by omega) (by omega)

/-- The condition on the number of rows per block is exact: with fewer than `2 NN` rows the address
read as y+NN neighbour of some site is not the cell of that neighbour. -/
theorem C04_row_condition {Y S NN : Nat} (hS : 0 < S) (hY : 0 < Y) (hN : 0 < NN) :
    (∀ x y z nv : Nat, x < Y * S → y < Y * S → 0 < nv → nv ≤ NN →
      (shape Y S NN).yPlus nv (y % Y) (vec Y S x (y % Y) z) (y / Y) =
        some (cell (Y * S) S x ((y + nv) % (Y * S)) z)) ↔ 2 * NN ≤ Y := by
  constructor
  · intro h
    by_contra hlt
    -- row min(NN, Y) - 1 of the first block
    have hyY : min NN Y - 1 < Y := by omega
    have hYS : Y ≤ Y * S := Nat.le_mul_of_pos_right Y hS
    have := h 0 (min NN Y - 1) 0 NN (Nat.mul_pos hY hS) (by omega) hN (Nat.le_refl _)
    rw [Nat.mod_eq_of_lt hyY, Nat.div_eq_of_lt hyY, cell_eq hS] at this
    simp only [Shape.yPlus, shape_XC] at this
    rw [if_pos (by omega)] at this
    have hb : (min NN Y - 1 + NN) % (Y * S) % Y < Y := Nat.mod_lt _ hY
    have hb2 : (min NN Y - 1 + NN) % (Y * S) / Y < S :=
      lane_lt (Nat.mod_lt _ (Nat.mul_pos hY hS))
    have h1 : vec Y S 0 ((min NN Y - 1 + NN) % (Y * S) % Y) 0 +
        (min NN Y - 1 + NN) % (Y * S) / Y < Y * (Y * S * S) := by
      have := vec_slice (z := 0) (Nat.mul_pos hY hS) hb hb2
      exact Nat.lt_of_div_eq_zero (Nat.mul_pos hY (Nat.mul_pos (Nat.mul_pos hY hS) hS)) this
    have h2 : Y * (Y * S * S) ≤ vec Y S 0 (min NN Y - 1) 0 + NN * (Y * S * S) := by
      simp only [vec, Nat.zero_mul, Nat.zero_add, Nat.add_zero]
      rw [← Nat.add_mul]
      exact Nat.mul_le_mul_right _ (by omega)
    simp only [Option.some.injEq, Nat.add_zero] at this
    omega
  · intro h x y z nv hx hy _ hn
    exact addr_yPlus hS hy (by omega)

/-- The cells are those of the folder's layout (C01). -/
theorem cell_eq_sitePos (g : Geo) (x y z : Nat) :
    sitePos g true x y z = cell g.n1 g.shift x y z := by
  simp [sitePos, cell, Geo.n2]

/-! Concrete case: 8 x 8 lattice, two lanes, radius two (four rows per block), six slices. -/

/-- A field that varies in all directions. -/
def demoField (x y z : Int) : Rat := (((x % 8) * (x % 8) + 10 * (y % 8) - z : Int) : Rat)
/-- The folded array holding it. -/
def demoArray : Heap Nat Rat := fun a =>
  if a < 6 * 64 then
    some (demoField ((a / 2 % 8 : Nat) : Int) ((a % 2 * 4 + a / 16 % 4 : Nat) : Int) ((a / 64 : Nat) : Int))
  else none

example : Periodic 8 demoField ∧ Holds 8 2 6 demoArray demoField := by
  constructor
  · intro x y z
    simp [demoField]
  · intro x y z hx hy hz
    obtain ⟨l, y0, hl, hy0, rfl⟩ : ∃ l y0, l < 2 ∧ y0 < 4 ∧ y = l * 4 + y0 :=
      ⟨y / 4, y % 4, by omega, by omega, by omega⟩
    have e : cell 8 2 x (l * 4 + y0) z = z * 64 + (y0 * 8 + x) * 2 + l := by
      have h1 : (l * 4 + y0) % (8 / 2) = y0 := by omega
      have h2 : (l * 4 + y0) / (8 / 2) = l := by omega
      rw [cell, h1, h2]
    have h1 : (cell 8 2 x (l * 4 + y0) z) / 2 % 8 = x := by rw [e]; omega
    have h2 : (cell 8 2 x (l * 4 + y0) z) % 2 * 4 + (cell 8 2 x (l * 4 + y0) z) / 16 % 4 =
      l * 4 + y0 := by rw [e]; omega
    have h3 : (cell 8 2 x (l * 4 + y0) z) / 64 = z := by rw [e]; omega
    have h4 : cell 8 2 x (l * 4 + y0) z < 6 * 64 := by rw [e]; omega
    rw [demoArray, if_pos h4, h1, h2, h3]

-- the order in which the sequential program visits vectors meets `horder`; depth 2 equals the
-- ghost width
example : ∃ order : List Nat, order.Perm (substepVisits true 8 2 3 1 2 2) ∧ order ≠ [] :=
  ⟨_, List.Perm.refl _, by decide⟩

end Stencil
end Jaxions
