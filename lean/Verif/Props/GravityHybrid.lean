import Verif.Model.GravityHybrid
import Verif.Spec.Gravity
import Verif.Props.Gravity
import Verif.Props.Stencil
import Verif.Lemmas.Run
import Verif.Lemmas.MendRow
import Mathlib.Algebra.BigOperators.Group.Finset.Basic
import Mathlib.Algebra.Order.Field.Basic
import Mathlib.Tactic.Linarith
import Mathlib.Tactic.FieldSimp
/-
C60, continued: the hybrid calculation of the gravitational potential.
-/
namespace Jaxions.Gravity

open Finset

/-! ### Mean -/

section Mean
variable {K : Type} [Field K]

theorem sum_flatMap_range (n : ℕ) (x : ℕ → List K) :
    ((List.range n).flatMap x).sum = ∑ q ∈ range n, (x q).sum := by
  induction n with
  | zero => simp
  | succ n ih => rw [List.range_succ, List.flatMap_append, List.sum_append, ih, sum_range_succ]; simp

/-- What `mean` returns is the mean of the density exactly if the other ranks have none: the sum over
the ranks is thrown away. -/
theorem C60_mean {n V : ℕ} (x : ℕ → List K) (hV : ((n * V : ℕ) : K) ≠ 0) {r : ℕ} (hr : r < n) :
    meanOf n x (n * V) r = ((List.range n).flatMap x).sum / (n * V : ℕ) ↔
      ∑ q ∈ (range n).erase r, (x q).sum = 0 := by
  unfold meanOf
  dsimp only
  rw [sum_flatMap_range, ← add_sum_erase _ _ (mem_range.2 hr), div_left_inj' hV]
  constructor
  · intro h
    have := h
    rw [eq_comm, add_eq_left] at this
    exact this
  · intro h
    rw [h, add_zero]

theorem sum_map_sub (l : List K) (c : K) : (l.map fun a => a + -c).sum = l.sum - l.length * c := by
  induction l with
  | nil => simp
  | cons a l ih => rw [List.map_cons, List.sum_cons, ih]; simp; ring

/-- So the contrast does not vanish on average: its sum over all ranks is `1 - 1/n` of the sum of the
density. -/
theorem C60_contrast {n V : ℕ} (x : ℕ → List K) (hx : ∀ r < n, (x r).length = V)
    (hV : ((n * V : ℕ) : K) ≠ 0) :
    ((List.range n).flatMap (contrast n x (n * V))).sum =
      (1 - 1 / n) * ((List.range n).flatMap x).sum := by
  rw [sum_flatMap_range, sum_flatMap_range, mul_sum]
  refine sum_congr rfl fun r hr => ?_
  push_cast at hV
  have h1 : (n : K) ≠ 0 := left_ne_zero_of_mul hV
  have h2 : (V : K) ≠ 0 := right_ne_zero_of_mul hV
  unfold contrast meanOf
  dsimp only
  rw [sum_map_sub, hx r (mem_range.1 hr)]
  push_cast
  field_simp

end Mean

/-- For a positive density only a single rank gets it right. -/
theorem C60_mean_ranks {n V : ℕ} (x : ℕ → List ℚ) (hn : 0 < n) (hV : 0 < V)
    (hx : ∀ r < n, (x r).length = V) (hpos : ∀ r < n, ∀ a ∈ x r, 0 < a) :
    (∀ r < n, meanOf n x (n * V) r = ((List.range n).flatMap x).sum / (n * V : ℕ)) ↔ n = 1 := by
  have hnV : ((n * V : ℕ) : ℚ) ≠ 0 := Nat.cast_ne_zero.2 (Nat.mul_pos hn hV).ne'
  have hs : ∀ r < n, 0 < (x r).sum := by
    intro r hr
    refine List.sum_pos _ (hpos r hr) ?_
    intro h
    have := hx r hr
    rw [h] at this
    simp at this
    omega
  constructor
  · intro h
    by_contra hne
    have h0 := (C60_mean x hnV hn).1 (h 0 hn)
    have : 0 < ∑ q ∈ (range n).erase 0, (x q).sum := by
      refine sum_pos (fun q hq => hs q (mem_range.1 (mem_of_mem_erase hq))) ⟨1, ?_⟩
      rw [mem_erase, mem_range]
      omega
    exact this.ne' h0
  · rintro rfl r hr
    rw [C60_mean x hnV hr]
    have : r = 0 := by omega
    subst this
    rfl

/-! ### Normalisation -/

theorem sum_scaled (l : List ℝ) (c : ℝ) :
    ((l.map (· * c)).map (· ^ 2)).sum = c ^ 2 * (l.map (· ^ 2)).sum := by
  induction l with
  | nil => simp
  | cons a l ih =>
    simp only [List.map_cons, List.sum_cons] at ih ⊢
    rw [ih]; ring

/-- Mean density of the field. -/
noncomputable def density (n tsize : ℕ) (s : Pax) : ℝ :=
  (∑ r ∈ range n, (((s.m r).map (· ^ 2)).sum + ((s.v r).map (· ^ 2)).sum)) / tsize

theorem sum_range_list (f : ℕ → ℝ) (n : ℕ) : ((List.range n).map f).sum = ∑ k ∈ range n, f k := by
  induction n with
  | zero => rfl
  | succ n ih => simp [List.range_succ, sum_range_succ, ih]

/-- After `normaliseFields` the density has mean one, and the self-interaction `beta |ψ|²` is the same
as before at every site. -/
theorem C60_normalise {n tsize : ℕ} (s : Pax) (h : 0 < density n tsize s) :
    density n tsize (normalise n tsize s) = 1 ∧
    ∀ (r i : ℕ) (a b : ℝ), (s.m r)[i]? = some a → (s.v r)[i]? = some b →
      ∃ a' b', ((normalise n tsize s).m r)[i]? = some a' ∧
        ((normalise n tsize s).v r)[i]? = some b' ∧
        (normalise n tsize s).beta * (a' ^ 2 + b' ^ 2) = s.beta * (a ^ 2 + b ^ 2) := by
  have hd : (((List.range n).map fun r => ((s.m r).map (· ^ 2)).sum + ((s.v r).map (· ^ 2)).sum).sum :
      ℝ) / tsize = density n tsize s := by
    rw [sum_range_list]; rfl
  have hsq : (1 / Real.sqrt (density n tsize s)) ^ 2 = 1 / density n tsize s := by
    rw [div_pow, one_pow, Real.sq_sqrt h.le]
  constructor
  · unfold normalise
    dsimp only
    rw [hd]
    have : ∀ r, (((s.m r).map (· * (1 / Real.sqrt (density n tsize s)))).map (· ^ 2)).sum +
        (((s.v r).map (· * (1 / Real.sqrt (density n tsize s)))).map (· ^ 2)).sum =
        1 / density n tsize s * (((s.m r).map (· ^ 2)).sum + ((s.v r).map (· ^ 2)).sum) := by
      intro r
      rw [sum_scaled, sum_scaled, hsq]
      ring
    have e : density n tsize ⟨fun r => (s.m r).map (· * (1 / Real.sqrt (density n tsize s))),
        fun r => (s.v r).map (· * (1 / Real.sqrt (density n tsize s))),
        s.beta * density n tsize s⟩ = 1 / density n tsize s * density n tsize s := by
      generalize hD : density n tsize s = D at *
      unfold density at hD ⊢
      dsimp only
      rw [sum_congr rfl fun r _ => this r, ← mul_sum, mul_div_assoc, hD]
    rw [e]
    rw [one_div, inv_mul_cancel₀ h.ne']
  · intro r i a b ha hb
    unfold normalise
    dsimp only
    rw [hd]
    refine ⟨a * (1 / Real.sqrt (density n tsize s)), b * (1 / Real.sqrt (density n tsize s)), ?_, ?_, ?_⟩
    · rw [List.getElem?_map, ha]; rfl
    · rw [List.getElem?_map, hb]; rfl
    · rw [mul_pow, mul_pow, hsq]
      field_simp

/-! ### Modes of the reduced grid -/

/-- The reduced lattice. -/
def Geo.reduced (g : Geo) (ref : ℕ) : Geo := ⟨g.n, g.Lx / ref, g.Lz / ref⟩

theorem reduced_Tz {g : Geo} {ref : ℕ} (hdz : ref ∣ g.Lz) : (g.reduced ref).Tz = g.Tz / ref := by
  unfold Geo.reduced Geo.Tz
  dsimp only
  rw [Nat.mul_div_assoc _ hdz]

theorem numberRed_eq {g : Geo} {ref : ℕ} (hdz : ref ∣ g.Lz) (r idx : ℕ)
    (hz : g.zBase r = (g.reduced ref).zBase r) :
    numberRed g ref r idx = (g.reduced ref).number r idx := by
  unfold numberRed Geo.number Geo.hLx Geo.hLy Geo.hTz
  rw [hz, reduced_Tz hdz]
  dsimp only [Geo.reduced]
  rw [Nat.mul_comm (g.Tz / ref)]
  rfl

/-- The first rank has the right wave numbers. -/
theorem C60_reduced_first {g : Geo} {ref : ℕ} (hdz : ref ∣ g.Lz) (ok : (g.reduced ref).Ok) {i : ℕ}
    (hi : i < (g.reduced ref).modes) :
    numberRed g ref 0 i = (signed (modeOf (g.reduced ref) 0 i).1, signed (modeOf (g.reduced ref) 0 i).2.1,
      signed (modeOf (g.reduced ref) 0 i).2.2) := by
  rw [numberRed_eq hdz 0 i (by simp [Geo.zBase]), number_eq ok ok.ranks hi]

/-- With the reduction set by the constructor, the first mode of every other rank is taken for
another one. -/
theorem C60_reduced_wrong {g : Geo} (hdx : 2 ∣ g.Lx) (ok : (g.reduced 2).Ok) {r : ℕ}
    (hr : r < g.n) (h0 : 0 < r) :
    (numberRed g 2 r 0).2.1 ≠ signed (modeOf (g.reduced 2) r 0).2.1 := by
  have hp := ok.part_pos
  have hky := ok.ky_lt (i := 0) hr (by rw [ok.modes_eq]; exact Nat.mul_pos (Nat.mul_pos hp ok.Tz_pos) (by unfold Geo.hLx; omega))
  have hdn := ok.dvd
  have hn := ok.ranks
  dsimp only [Geo.reduced] at hp hky hdn hn
  obtain ⟨q, hq⟩ := hdx
  have e1 : g.Lx / 2 = q := by omega
  rw [e1] at hp hky hdn
  obtain ⟨p, rfl⟩ := hdn
  have e2 : g.n * p / g.n = p := Nat.mul_div_cancel_left _ hn
  have e3 : g.Lx / g.n = 2 * p := by
    rw [hq, show 2 * (g.n * p) = g.n * (2 * p) by ring, Nat.mul_div_cancel_left _ hn]
  rw [e2] at hp hky
  simp only [Nat.zero_div, Nat.add_zero] at hky
  have hrp : 0 < r * p := Nat.mul_pos h0 hp
  have hs : signed (modeOf (g.reduced 2) r 0).2.1 =
      if ((r * p : ℕ) : ℤ) > (g.n * p / 2 : ℕ) then ((r * p : ℕ) : ℤ) - (g.n * p : ℕ) else (r * p : ℕ) := by
    have hL : (g.reduced 2).Lx = g.n * p := e1
    have hm : (modeOf (g.reduced 2) r 0).2.1 = ((r * p : ℕ) : ZMod (g.reduced 2).Lx) := by
      unfold modeOf
      dsimp only
      rw [Nat.zero_div, Nat.zero_div, Nat.add_zero, hL]
      congr 2
    rw [hm, signed_natCast (by rw [hL]; exact hky), hL]
  rw [hs]
  unfold numberRed Geo.zBase
  dsimp only
  rw [e1, e3]
  simp only [Nat.zero_div, Nat.cast_zero, zero_add]
  have e4 : ((2 * p * r : ℕ) : ℤ) = 2 * (r * p : ℕ) := by push_cast; ring
  rw [e4]
  generalize r * p = a at *
  generalize g.n * p = b at *
  split <;> split <;> omega

theorem fold_modes {u : ℕ → Option ℂ → Option ℂ} (order : List ℕ) (hnd : order.Nodup)
    (a : ℕ → Option ℂ) (i : ℕ) :
    order.foldl (fun a idx i => if i = idx then u idx (a idx) else a i) a i =
      if i ∈ order then u i (a i) else a i := by
  induction order generalizing a with
  | nil => simp
  | cons j order ih =>
    rw [List.nodup_cons] at hnd
    rw [List.foldl_cons, ih hnd.2]
    by_cases hij : i = j
    · subst hij
      rw [if_neg hnd.1, if_pos List.mem_cons_self]
      simp
    · simp [hij]

/-- Where the reduction divides the number of ranks, one rank divides by zero: the amplitude of a
mode that is not the zero mode is lost. -/
theorem C60_reduced_nan {g : Geo} {ref : ℕ} (h1 : 1 < ref) (hdx : ref ∣ g.Lx) (hdz : ref ∣ g.Lz)
    (ok : (g.reduced ref).Ok) (hdn : ref ∣ g.n) (k₀ : ℝ) (order : List ℕ)
    (ho : order.Perm (List.range (g.reduced ref).modes)) (a : ℕ → Option ℂ) :
    g.n / ref < g.n ∧ modeOf (g.reduced ref) (g.n / ref) 0 ≠ 0 ∧
    ∃ a', ilapRed g ref k₀ (g.n / ref) order a = some a' ∧ a' 0 = none := by
  have hn := ok.ranks
  have hdv := ok.dvd
  have hp := ok.part_pos
  have hT := ok.Tz_pos
  have hmod : 0 < (g.reduced ref).modes := by
    rw [ok.modes_eq]
    exact Nat.mul_pos (Nat.mul_pos hp hT) (by unfold Geo.hLx; omega)
  dsimp only [Geo.reduced] at hn hdv hp
  obtain ⟨m, hm⟩ := hdn
  obtain ⟨q, hq⟩ := hdx
  have e1 : g.Lx / ref = q := by rw [hq, Nat.mul_div_cancel_left _ (by omega)]
  rw [e1] at hdv hp
  obtain ⟨p, rfl⟩ := hdv
  have e2 : g.n * p / g.n = p := Nat.mul_div_cancel_left _ hn
  have e3 : g.Lx / g.n = ref * p := by
    rw [hq, show ref * (g.n * p) = g.n * (ref * p) by ring, Nat.mul_div_cancel_left _ hn]
  have e4 : g.n / ref = m := by rw [hm, Nat.mul_div_cancel_left _ (by omega)]
  rw [e2] at hp
  have hm0 : 0 < m := by
    rcases Nat.eq_zero_or_pos m with h | h
    · subst h; omega
    · exact h
  have hlt : m < g.n := by
    rw [hm]
    calc m < 2 * m := by omega
      _ ≤ ref * m := Nat.mul_le_mul_right _ h1
  rw [e4]
  refine ⟨hlt, ?_, ?_⟩
  · rw [Ne, modeOf_eq_zero ok hlt hmod]
    omega
  · have hnum : numberRed g ref m 0 = (0, 0, 0) := by
      have hbp : 0 < g.n * p := Nat.mul_pos hn hp
      unfold numberRed Geo.zBase
      dsimp only
      rw [e1, e3, show ref * p * m = g.n * p by rw [hm]; ring]
      simp only [Nat.zero_div, Nat.cast_zero, zero_add, Nat.zero_mul, Nat.zero_sub]
      generalize g.n * p = b at *
      rw [if_pos (by omega), if_neg (by exact not_lt.2 (Int.natCast_nonneg _)), sub_self]
    have hnd : order.Nodup := ho.nodup_iff.2 List.nodup_range
    have hmem : 0 ∈ order := by rw [ho.mem_iff]; exact List.mem_range.2 hmod
    unfold ilapRed
    rw [if_neg (by
      rw [not_or, not_not, not_not]
      exact ⟨Nat.mul_div_cancel' ⟨_, hq⟩, Nat.mul_div_cancel' hdz⟩)]
    refine ⟨_, rfl, ?_⟩
    rw [if_neg hm0.ne']
    unfold ilapRedMode
    rw [fold_modes (u := fun idx b => b.bind fun c =>
      if (numberRed g ref m idx).1 * (numberRed g ref m idx).1 +
        (numberRed g ref m idx).2.1 * (numberRed g ref m idx).2.1 +
        (numberRed g ref m idx).2.2 * (numberRed g ref m idx).2.2 = 0 then none
      else some (c * _)) order hnd, if_pos hmem, hnum]
    cases a 0 <;> simp

/-! ### Reduction and expansion -/

namespace Red

/-- Lattices that can be reduced: the vector and the reduction divide the side, the reduction divides
the depth, there is a ghost slice. -/
structure Ok (s : Red) : Prop where
  shift : 0 < s.shift
  dshift : s.shift ∣ s.Lx
  side : 0 < s.Lx
  ghost : 0 < s.Ng
  ref : 1 < s.ref
  dx : s.ref ∣ s.Lx
  dz : s.ref ∣ s.Lz

variable {s : Red} (ok : s.Ok) {α : Type}
include ok

theorem Ok.ref_rLx : s.ref * s.rLx = s.Lx := Nat.mul_div_cancel' ok.dx

theorem Ok.rLx_pos : 0 < s.rLx := Nat.div_pos (Nat.le_of_dvd ok.side ok.dx) (by have := ok.ref; omega)

/-- A padded slice of the reduced grid is not larger than a slice. -/
theorem Ok.slice_le : s.rLx * (s.rLx + 2) ≤ s.S := by
  have h1 := ok.ref_rLx
  have h2 := ok.rLx_pos
  have h3 : 2 * s.rLx ≤ s.Lx := by rw [← h1]; exact Nat.mul_le_mul_right _ ok.ref
  unfold S
  calc s.rLx * (s.rLx + 2) ≤ s.rLx * (4 * s.rLx) := Nat.mul_le_mul_left _ (by omega)
    _ = (2 * s.rLx) * (2 * s.rLx) := by ring
    _ ≤ s.Lx * s.Lx := Nat.mul_le_mul h3 h3

theorem Ok.BO_ge : s.S ≤ s.BO := by
  unfold BO
  calc s.S = 1 * s.S := (Nat.one_mul _).symm
    _ ≤ s.Ng * s.S := Nat.mul_le_mul_right _ ok.ghost

theorem Ok.Y_pos : 0 < s.Lx / s.shift := Nat.div_pos (Nat.le_of_dvd ok.side ok.dshift) ok.shift

theorem Ok.Y_mul : s.Lx / s.shift * s.shift = s.Lx := Nat.div_mul_cancel ok.dshift

theorem Ok.rfuapIdx (x y z : ℕ) :
    s.ref * (z * s.S + x * s.shift) +
      (s.ref * y - s.ref * y / (s.Lx / s.shift) * s.Lx / s.shift) * s.Lx * s.shift +
      s.ref * y / (s.Lx / s.shift) = Stencil.cell s.Lx s.shift (s.ref * x) (s.ref * y) (s.ref * z) := by
  have e1 : s.ref * y / (s.Lx / s.shift) * s.Lx / s.shift =
      s.ref * y / (s.Lx / s.shift) * (s.Lx / s.shift) := Nat.mul_div_assoc _ ok.dshift
  have e2 : s.ref * y - s.ref * y / (s.Lx / s.shift) * (s.Lx / s.shift) =
      s.ref * y % (s.Lx / s.shift) := by
    have := div_mul_add_mod (s.ref * y) (s.Lx / s.shift); omega
  rw [e1, e2]
  unfold Stencil.cell S
  ring

omit ok in
theorem egufIdx_eq (iz riy rix yy xx : ℕ) : s.egufIdx iz riy rix yy xx =
    Stencil.cell s.Lx s.shift (rix * s.ref + xx) (s.ref * riy + yy) iz := by
  unfold egufIdx Stencil.cell
  have e2 : s.ref * riy + yy - (s.ref * riy + yy) / (s.Lx / s.shift) * (s.Lx / s.shift) =
      (s.ref * riy + yy) % (s.Lx / s.shift) := by
    have := div_mul_add_mod (s.ref * riy + yy) (s.Lx / s.shift); omega
  dsimp only
  rw [e2]
  ring

/-- Cells of a slice. -/
theorem Ok.cell_mem {x y : ℕ} (z : ℕ) (hx : x < s.Lx) (hy : y < s.Lx) :
    z * s.S ≤ Stencil.cell s.Lx s.shift x y z ∧ Stencil.cell s.Lx s.shift x y z < (z + 1) * s.S := by
  have := Run.cell_lt ok.shift ok.dshift hx hy
  rw [Run.cell_split]
  unfold S
  rw [Nat.add_mul]
  omega

theorem Ok.cell_inj {x y z x' y' z' : ℕ} (hx : x < s.Lx) (hx' : x' < s.Lx) (hy : y < s.Lx)
    (hy' : y' < s.Lx) (h : Stencil.cell s.Lx s.shift x y z = Stencil.cell s.Lx s.shift x' y' z') :
    x = x' ∧ y = y' ∧ z = z' := by
  have e := ok.Y_mul
  rw [← e] at h hx hx' hy hy'
  exact (Mend.cell_inj ok.shift ok.Y_pos hx hx' hy hy').1 h

/-- Place of a site of the reduced grid. -/
def _root_.Jaxions.Gravity.Red.place (s : Red) (x y z : ℕ) : ℕ := (z * s.rLx + y) * (s.rLx + 2) + x

omit ok in
theorem place_lt {x y : ℕ} (z : ℕ) (hx : x < s.rLx) (hy : y < s.rLx) :
    s.place x y z < (z + 1) * (s.rLx * (s.rLx + 2)) := by
  have h : z * s.rLx + y < (z + 1) * s.rLx := by rw [Nat.add_mul]; omega
  have := pair_lt (b := s.rLx + 2) h (by omega : x < s.rLx + 2)
  rw [← Nat.mul_assoc]
  exact this

omit ok in
theorem place_inj {x y z x' y' z' : ℕ} (hx : x < s.rLx) (hy : y < s.rLx) (hx' : x' < s.rLx)
    (hy' : y' < s.rLx) (h : s.place x y z = s.place x' y' z') : x = x' ∧ y = y' ∧ z = z' := by
  obtain ⟨h1, h2⟩ := pair_inj (by omega : x < s.rLx + 2) (by omega : x' < s.rLx + 2) h
  obtain ⟨h3, h4⟩ := pair_inj hy hy' h1
  exact ⟨h2, h4, h3⟩

/-- The writes of a slice stay below what is still to be read. -/
theorem Ok.below (z : ℕ) : (z + 1) * (s.rLx * (s.rLx + 2)) ≤ s.BO + z * s.S := by
  have h1 := ok.slice_le
  have h2 := ok.BO_ge
  have h3 : z * (s.rLx * (s.rLx + 2)) ≤ z * s.S := Nat.mul_le_mul_left _ h1
  rw [Nat.add_mul]
  omega

/-- The reduction in place keeps every `ref`-th site of the folded slab and leaves them unfolded, in
padded rows, whatever the order of the threads. -/
theorem C60_reduce (order : ℕ → List (ℕ × ℕ))
    (ho : ∀ z c, c ∈ order z ↔ c.1 < s.rLx ∧ c.2 < s.rLx) (h : Heap ℕ α) (f : ℕ → ℕ → ℕ → α)
    (hroom : ∀ a, a < s.BO + s.Lz * s.S → (h a).isSome)
    (hf : ∀ x y z, x < s.Lx → y < s.Lx → z < s.Lz →
      h (s.BO + Stencil.cell s.Lx s.shift x y z) = some (f x y z)) :
    ∃ h', s.rfuap order h = some h' ∧ (∀ x y z, x < s.rLx → y < s.rLx → z < s.rLz →
      h' (s.place x y z) = some (f (s.ref * x) (s.ref * y) (s.ref * z))) ∧
      ∀ a, a < s.BO + s.Lz * s.S → (h' a).isSome := by
  have hex : ¬(s.ref * s.rLx ≠ s.Lx ∨ s.ref * s.rLz ≠ s.Lz) := by
    rw [not_or, not_not, not_not]
    exact ⟨Nat.mul_div_cancel' ok.dx, Nat.mul_div_cancel' ok.dz⟩
  have hrz : s.ref * s.rLz = s.Lz := Nat.mul_div_cancel' ok.dz
  have href := ok.ref
  unfold rfuap
  rw [if_neg hex]
  obtain ⟨h', e, p1, -, p3⟩ := loop_inv (n := s.rLz) (s := h)
    (body := fun riz m2 => (order riz).foldlM (s.rfuapCell riz) m2)
    (P := fun k t => (∀ x y z, x < s.rLx → y < s.rLx → z < k →
        t (s.place x y z) = some (f (s.ref * x) (s.ref * y) (s.ref * z))) ∧
      (∀ a, k * (s.rLx * (s.rLx + 2)) ≤ a → t a = h a) ∧
      ∀ a, a < s.BO + s.Lz * s.S → (t a).isSome)
    ⟨by omega, fun _ _ => rfl, hroom⟩
    (by
      rintro k hk t ⟨t1, t2, t3⟩
      have hkz : s.ref * k < s.Lz := by
        rw [← hrz]; exact Nat.mul_lt_mul_of_pos_left hk (by omega)
      have hb := ok.below k
      have hkS : k * s.S ≤ s.ref * k * s.S := Nat.mul_le_mul_right _ (by
        calc k = 1 * k := (Nat.one_mul _).symm
          _ ≤ s.ref * k := Nat.mul_le_mul_right _ (by omega))
      have hin : ∀ c ∈ order k, s.ref * c.1 < s.Lx ∧ s.ref * c.2 < s.Lx := by
        intro c hc
        obtain ⟨c1, c2⟩ := (ho k c).1 hc
        rw [← ok.ref_rLx]
        exact ⟨Nat.mul_lt_mul_of_pos_left c1 (by omega), Nat.mul_lt_mul_of_pos_left c2 (by omega)⟩
      have hend : (s.ref * k + 1) * s.S ≤ s.Lz * s.S := Nat.mul_le_mul_right _ hkz
      have hops : (order k).foldlM (s.rfuapCell k) t = copyCells ((order k).map fun c =>
          (s.place c.2 c.1 k, s.BO + Stencil.cell s.Lx s.shift (s.ref * c.2) (s.ref * c.1) (s.ref * k))) t := by
        unfold copyCells
        rw [List.foldlM_map]
        congr 1
        funext t c
        unfold rfuapCell
        dsimp only
        rw [ok.rfuapIdx, Nat.mul_comm (s.rLx + 2)]
        rfl
      obtain ⟨t', e, q1, q2⟩ := copyCells_spec ((order k).map fun c =>
          (s.place c.2 c.1 k, s.BO + Stencil.cell s.Lx s.shift (s.ref * c.2) (s.ref * c.1) (s.ref * k))) t
        (by
          intro p hp
          obtain ⟨c, hc, rfl⟩ := List.mem_map.1 hp
          obtain ⟨c1, c2⟩ := (ho k c).1 hc
          obtain ⟨d1, d2⟩ := hin c hc
          have h1 := place_lt k c2 c1
          have h2 := ok.cell_mem (s.ref * k) d2 d1
          dsimp only
          constructor
          · exact t3 _ (by
              have : k * s.S ≤ s.Lz * s.S := Nat.le_trans hkS (Nat.mul_le_mul_right _ hkz.le)
              omega)
          · exact t3 _ (by omega))
        (by
          intro p hp q hq
          obtain ⟨c, hc, rfl⟩ := List.mem_map.1 hp
          obtain ⟨c', hc', rfl⟩ := List.mem_map.1 hq
          obtain ⟨c1, c2⟩ := (ho k c).1 hc
          obtain ⟨d1, d2⟩ := hin c' hc'
          have h1 := place_lt k c2 c1
          have h2 := ok.cell_mem (s.ref * k) d2 d1
          dsimp only
          omega)
        (by
          intro p hp q hq hpq
          obtain ⟨c, hc, rfl⟩ := List.mem_map.1 hp
          obtain ⟨c', hc', rfl⟩ := List.mem_map.1 hq
          obtain ⟨c1, c2⟩ := (ho k c).1 hc
          obtain ⟨c1', c2'⟩ := (ho k c').1 hc'
          obtain ⟨e1, e2, -⟩ := place_inj c2 c1 c2' c1' hpq
          dsimp only
          rw [e1, e2])
      refine ⟨t', hops.trans e, ?_, ?_, ?_⟩
      · intro x y z hx hy hz
        rcases Nat.lt_or_ge z k with hzk | hzk
        · rw [q2 _ ?_, t1 x y z hx hy hzk]
          intro p hp he
          obtain ⟨c, hc, rfl⟩ := List.mem_map.1 hp
          obtain ⟨c1, c2⟩ := (ho k c).1 hc
          have := (place_inj hx hy c2 c1 he).2.2
          omega
        · have : z = k := by omega
          subst this
          have hm : (y, x) ∈ order z := (ho z _).2 ⟨hy, hx⟩
          have := q1 _ (List.mem_map.2 ⟨_, hm, rfl⟩)
          dsimp only at this
          obtain ⟨d1, d2⟩ := hin _ hm
          rw [this, t2 _ ?_, hf _ _ _ d2 d1 hkz]
          have h2 := ok.cell_mem (s.ref * z) d2 d1
          dsimp only at h2
          have : z * (s.rLx * (s.rLx + 2)) ≤ (z + 1) * (s.rLx * (s.rLx + 2)) :=
            Nat.mul_le_mul_right _ (by omega)
          omega
      · intro a ha
        rw [q2 a ?_, t2 a ?_]
        · have : k * (s.rLx * (s.rLx + 2)) ≤ (k + 1) * (s.rLx * (s.rLx + 2)) :=
            Nat.mul_le_mul_right _ (by omega)
          omega
        · intro p hp he
          obtain ⟨c, hc, rfl⟩ := List.mem_map.1 hp
          obtain ⟨c1, c2⟩ := (ho k c).1 hc
          have := place_lt k c2 c1
          dsimp only at he
          omega
      · intro a ha
        rw [copyCells_isSome e]
        exact t3 a ha)
  exact ⟨h', e, p1, p3⟩

/-- Blocks: a site is in one block, at one place in it. -/
theorem Ok.block {x y : ℕ} (hx : x < s.Lx) (hy : y < s.Lx) :
    x / s.ref < s.rLx ∧ y / s.ref < s.rLx ∧ x % s.ref < s.ref ∧ y % s.ref < s.ref := by
  have h := ok.ref
  have hr := ok.ref_rLx
  rw [← hr, Nat.mul_comm] at hx hy
  exact ⟨(Nat.div_lt_iff_lt_mul (by omega)).2 hx, (Nat.div_lt_iff_lt_mul (by omega)).2 hy,
    Nat.mod_lt _ (by omega), Nat.mod_lt _ (by omega)⟩

theorem Ok.inside {rx xx : ℕ} (h : rx < s.rLx) (h' : xx < s.ref) : rx * s.ref + xx < s.Lx := by
  rw [← ok.ref_rLx, Nat.mul_comm s.ref]
  exact pair_lt h h'

/-- One block of a slice. -/
theorem egufCell_spec {iz : ℕ} (hiz : iz < s.Lz) {c : ℕ × ℕ} (hc : c.1 < s.rLx ∧ c.2 < s.rLx)
    (t : Heap ℕ α) (v : α) (hroom : ∀ a, a < s.BO + s.Lz * s.S → (t a).isSome)
    (hv : t (s.place c.2 c.1 (iz / s.ref)) = some v) :
    ∃ t', s.egufCell iz t c = some t' ∧
      (∀ yy xx, yy < s.ref → xx < s.ref →
        t' (s.BO + Stencil.cell s.Lx s.shift (c.2 * s.ref + xx) (c.1 * s.ref + yy) iz) = some v) ∧
      (∀ a, (∀ yy xx, yy < s.ref → xx < s.ref →
        a ≠ s.BO + Stencil.cell s.Lx s.shift (c.2 * s.ref + xx) (c.1 * s.ref + yy) iz) → t' a = t a) ∧
      ∀ a, a < s.BO + s.Lz * s.S → (t' a).isSome := by
  have hmem : ∀ p ∈ (List.range s.ref ×ˢ List.range s.ref).map fun p : ℕ × ℕ =>
      (s.BO + s.egufIdx iz c.1 c.2 p.1 p.2, v), ∃ yy xx, yy < s.ref ∧ xx < s.ref ∧
      p = (s.BO + Stencil.cell s.Lx s.shift (c.2 * s.ref + xx) (c.1 * s.ref + yy) iz, v) := by
    intro p hp
    obtain ⟨⟨yy, xx⟩, hq, rfl⟩ := List.mem_map.1 hp
    rw [List.mem_product, List.mem_range, List.mem_range] at hq
    exact ⟨yy, xx, hq.1, hq.2, by rw [egufIdx_eq, Nat.mul_comm s.ref]⟩
  have hend : (iz + 1) * s.S ≤ s.Lz * s.S := Nat.mul_le_mul_right _ hiz
  obtain ⟨t', e, q1, q2⟩ := writeAll_spec ((List.range s.ref ×ˢ List.range s.ref).map fun p : ℕ × ℕ =>
      (s.BO + s.egufIdx iz c.1 c.2 p.1 p.2, v)) t
    (by
      intro p hp
      obtain ⟨yy, xx, h1, h2, rfl⟩ := hmem p hp
      have := ok.cell_mem iz (ok.inside hc.2 h2) (ok.inside hc.1 h1)
      exact hroom _ (by dsimp only; omega))
    (by
      rw [List.map_map]
      refine List.Nodup.map_on ?_ (List.nodup_range.product List.nodup_range)
      rintro ⟨yy, xx⟩ hq ⟨yy', xx'⟩ hq' he
      rw [List.mem_product, List.mem_range, List.mem_range] at hq hq'
      dsimp only [Function.comp] at he
      rw [egufIdx_eq, egufIdx_eq, Nat.mul_comm s.ref] at he
      obtain ⟨e1, e2, -⟩ := ok.cell_inj (ok.inside hc.2 hq.2) (ok.inside hc.2 hq'.2)
        (ok.inside hc.1 hq.1) (ok.inside hc.1 hq'.1) (Nat.add_left_cancel he)
      rw [Nat.add_left_cancel e1, Nat.add_left_cancel e2])
  have hk : ∀ yy xx, yy < s.ref → xx < s.ref →
      (s.BO + Stencil.cell s.Lx s.shift (c.2 * s.ref + xx) (c.1 * s.ref + yy) iz, v) ∈
      (List.range s.ref ×ˢ List.range s.ref).map fun p : ℕ × ℕ =>
      (s.BO + s.egufIdx iz c.1 c.2 p.1 p.2, v) := by
    intro yy xx h1 h2
    refine List.mem_map.2 ⟨(yy, xx), ?_, ?_⟩
    · rw [List.mem_product, List.mem_range, List.mem_range]; exact ⟨h1, h2⟩
    · dsimp only; rw [egufIdx_eq, Nat.mul_comm s.ref]
  have h1 : ∀ yy xx, yy < s.ref → xx < s.ref →
        t' (s.BO + Stencil.cell s.Lx s.shift (c.2 * s.ref + xx) (c.1 * s.ref + yy) iz) = some v :=
    fun yy xx h1 h2 => q1 _ (hk yy xx h1 h2)
  have h2 : ∀ a, (∀ yy xx, yy < s.ref → xx < s.ref →
        a ≠ s.BO + Stencil.cell s.Lx s.shift (c.2 * s.ref + xx) (c.1 * s.ref + yy) iz) → t' a = t a := by
    intro a ha
    refine q2 a ?_
    intro hm
    obtain ⟨p, hp, rfl⟩ := List.mem_map.1 hm
    obtain ⟨yy, xx, h1, h2, rfl⟩ := hmem p hp
    exact ha yy xx h1 h2 rfl
  refine ⟨t', ?_, h1, h2, ?_⟩
  · unfold egufCell
    dsimp only
    have hp : iz / s.ref * (s.rLx + 2) * s.rLx + c.1 * (s.rLx + 2) + c.2 =
        s.place c.2 c.1 (iz / s.ref) := by unfold place; ring
    rw [hp, hv]
    exact e
  · intro a ha
    by_cases hc' : ∃ yy xx, yy < s.ref ∧ xx < s.ref ∧
        a = s.BO + Stencil.cell s.Lx s.shift (c.2 * s.ref + xx) (c.1 * s.ref + yy) iz
    · obtain ⟨yy, xx, g1, g2, rfl⟩ := hc'
      rw [h1 yy xx g1 g2]; rfl
    · rw [h2 a (fun yy xx g1 g2 he => hc' ⟨yy, xx, g1, g2, he⟩)]
      exact hroom a ha

/-- The expansion in place: every site of the folded slab gets the value of its block. -/
theorem C60_expand (order : ℕ → List (ℕ × ℕ))
    (ho : ∀ z c, c ∈ order z ↔ c.1 < s.rLx ∧ c.2 < s.rLx) (h : Heap ℕ α) (f : ℕ → ℕ → ℕ → α)
    (hroom : ∀ a, a < s.BO + s.Lz * s.S → (h a).isSome)
    (hf : ∀ x y z, x < s.rLx → y < s.rLx → z < s.rLz → h (s.place x y z) = some (f x y z)) :
    ∃ h', s.eguf order h = some h' ∧ ∀ x y z, x < s.Lx → y < s.Lx → z < s.Lz →
      h' (s.BO + Stencil.cell s.Lx s.shift x y z) = some (f (x / s.ref) (y / s.ref) (z / s.ref)) := by
  have hex : ¬(s.ref * s.rLx ≠ s.Lx ∨ s.ref * s.rLz ≠ s.Lz) := by
    rw [not_or, not_not, not_not]
    exact ⟨Nat.mul_div_cancel' ok.dx, Nat.mul_div_cancel' ok.dz⟩
  have hrz : s.ref * s.rLz = s.Lz := Nat.mul_div_cancel' ok.dz
  have href := ok.ref
  unfold eguf
  rw [if_neg hex]
  obtain ⟨h', e, p1, -, -⟩ := loop_inv (n := s.Lz) (s := h)
    (body := fun j m2 => (order (s.Lz - 1 - j)).foldlM (s.egufCell (s.Lz - 1 - j)) m2)
    (P := fun k t => (∀ x y z, x < s.Lx → y < s.Lx → z < s.Lz → s.Lz ≤ z + k →
        t (s.BO + Stencil.cell s.Lx s.shift x y z) = some (f (x / s.ref) (y / s.ref) (z / s.ref))) ∧
      (∀ a, a < s.BO + (s.Lz - k) * s.S → t a = h a) ∧
      ∀ a, a < s.BO + s.Lz * s.S → (t a).isSome)
    ⟨by omega, fun _ _ => rfl, hroom⟩
    (by
      rintro k hk t ⟨t1, t2, t3⟩
      obtain ⟨iz, hiz⟩ : ∃ iz, s.Lz - 1 - k = iz := ⟨_, rfl⟩
      have hizk : s.Lz - k = iz + 1 := by omega
      have hizk' : s.Lz - (k + 1) = iz := by omega
      have hizL : iz < s.Lz := by omega
      rw [hizk] at t2
      rw [hiz, hizk']
      have hq : iz / s.ref < s.rLz := by
        rw [Nat.div_lt_iff_lt_mul (by omega), Nat.mul_comm, hrz]; exact hizL
      have hqle : iz / s.ref ≤ iz := Nat.div_le_self _ _
      have hb := ok.below (iz / s.ref)
      have hbS : iz / s.ref * s.S ≤ iz * s.S := Nat.mul_le_mul_right _ hqle
      have hread : ∀ c ∈ order iz, s.place c.2 c.1 (iz / s.ref) < s.BO + iz * s.S := by
        intro c hc
        obtain ⟨c1, c2⟩ := (ho iz c).1 hc
        have := place_lt (iz / s.ref) c2 c1
        omega
      obtain ⟨t', e, q1, q2, q3⟩ := foldlM_inv (f := s.egufCell iz) (s := t)
        (P := fun pre t' => (∀ c ∈ pre, ∀ yy xx, yy < s.ref → xx < s.ref →
            t' (s.BO + Stencil.cell s.Lx s.shift (c.2 * s.ref + xx) (c.1 * s.ref + yy) iz) =
              some (f c.2 c.1 (iz / s.ref))) ∧
          (∀ a, (a < s.BO + iz * s.S ∨ s.BO + (iz + 1) * s.S ≤ a) → t' a = t a) ∧
          ∀ a, a < s.BO + s.Lz * s.S → (t' a).isSome)
        (order iz) ⟨by simp, fun _ _ => rfl, t3⟩
        (by
          rintro pre c post hl u ⟨u1, u2, u3⟩
          have hc : c ∈ order iz := by rw [hl]; simp
          have hc' := (ho iz c).1 hc
          obtain ⟨u', e, g1, g2, g3⟩ := egufCell_spec ok hizL hc' u (f c.2 c.1 (iz / s.ref)) u3
            (by
              have h1 := hread c hc
              rw [u2 _ (Or.inl h1), t2 _ (by rw [Nat.add_mul]; omega)]
              exact hf _ _ _ hc'.2 hc'.1 hq)
          refine ⟨u', e, ?_, ?_, g3⟩
          · intro d hd yy xx hyy hxx
            by_cases hdc : d = c
            · subst hdc; exact g1 yy xx hyy hxx
            · have hd' : d ∈ pre := by
                rcases List.mem_append.1 hd with h | h
                · exact h
                · exact absurd (List.mem_singleton.1 h) hdc
              have hdo := (ho iz d).1 (by rw [hl]; simp [hd'])
              rw [g2 _ ?_]
              · exact u1 d hd' yy xx hyy hxx
              · intro yy' xx' hyy' hxx' he
                obtain ⟨e1, e2, -⟩ := ok.cell_inj (ok.inside hdo.2 hxx) (ok.inside hc'.2 hxx')
                  (ok.inside hdo.1 hyy) (ok.inside hc'.1 hyy') (Nat.add_left_cancel he)
                obtain ⟨f1, -⟩ := pair_inj hxx hxx' e1
                obtain ⟨f2, -⟩ := pair_inj hyy hyy' e2
                exact hdc (Prod.ext f2 f1)
          · intro a ha
            rw [g2 a ?_, u2 a ha]
            intro yy xx hyy hxx he
            have := ok.cell_mem iz (ok.inside hc'.2 hxx) (ok.inside hc'.1 hyy)
            omega)
      refine ⟨t', e, ?_, ?_, q3⟩
      · intro x y z hx hy hz hzk
        obtain ⟨b1, b2, b3, b4⟩ := ok.block hx hy
        rcases Nat.lt_or_ge iz z with hlt | hge
        · rw [q2 _ (Or.inr ?_)]
          · exact t1 x y z hx hy hz (by omega)
          · have := ok.cell_mem z hx hy
            have h2 : (iz + 1) * s.S ≤ z * s.S := Nat.mul_le_mul_right _ hlt
            omega
        · have hzi : z = iz := by omega
          subst hzi
          have := q1 (y / s.ref, x / s.ref) ((ho z _).2 ⟨b2, b1⟩) (y % s.ref) (x % s.ref) b4 b3
          dsimp only at this
          rw [div_mul_add_mod, div_mul_add_mod] at this
          exact this
      · intro a ha
        rw [q2 a (Or.inl ha), t2 a (by rw [Nat.add_mul]; omega)])
  exact ⟨h', e, fun x y z hx hy hz => p1 x y z hx hy hz (by omega)⟩

/-- Reduction followed by expansion makes the slab constant on blocks. -/
theorem C60_blocks (order order' : ℕ → List (ℕ × ℕ))
    (ho : ∀ z c, c ∈ order z ↔ c.1 < s.rLx ∧ c.2 < s.rLx)
    (ho' : ∀ z c, c ∈ order' z ↔ c.1 < s.rLx ∧ c.2 < s.rLx) (h : Heap ℕ α) (f : ℕ → ℕ → ℕ → α)
    (hroom : ∀ a, a < s.BO + s.Lz * s.S → (h a).isSome)
    (hf : ∀ x y z, x < s.Lx → y < s.Lx → z < s.Lz →
      h (s.BO + Stencil.cell s.Lx s.shift x y z) = some (f x y z)) :
    ∃ h', (s.rfuap order h).bind (s.eguf order') = some h' ∧
      ∀ x y z, x < s.Lx → y < s.Lx → z < s.Lz →
      h' (s.BO + Stencil.cell s.Lx s.shift x y z) =
        some (f (x - x % s.ref) (y - y % s.ref) (z - z % s.ref)) := by
  obtain ⟨h1, e1, p1, r1⟩ := C60_reduce ok order ho h f hroom hf
  obtain ⟨h2, e2, p2⟩ := C60_expand ok order' ho' h1 _ r1 p1
  refine ⟨h2, by rw [e1]; exact e2, fun x y z hx hy hz => ?_⟩
  rw [p2 x y z hx hy hz]
  have hd : ∀ a, s.ref * (a / s.ref) = a - a % s.ref := fun a => by
    have := div_mul_add_mod a s.ref
    rw [Nat.mul_comm]; omega
  rw [hd, hd, hd]

end Red

/-! ### Relaxation -/

/-- A sweep in place over parts that do not share cells: nothing changes exactly if no part, taken
alone, would change. -/
theorem inplace {A ι α : Type} {step : Heap A α → ι → Option (Heap A α)} {own : ι → A → Prop}
    {Good : Heap A α → Prop} (l : List ι)
    (hstep : ∀ i ∈ l, ∀ t, Good t → ∃ t', step t i = some t' ∧ (∀ a, ¬own i a → t' a = t a) ∧ Good t')
    (hdisj : l.Pairwise fun i j => ∀ a, own i a → ¬own j a) (m : Heap A α) (hm : Good m) :
    ∃ m', l.foldlM step m = some m' ∧ (∀ a, (∀ i ∈ l, ¬own i a) → m' a = m a) ∧
      (m' = m ↔ ∀ i ∈ l, step m i = some m) := by
  induction l generalizing m with
  | nil => exact ⟨m, rfl, fun _ _ => rfl, by simp⟩
  | cons i l ih =>
    rw [List.pairwise_cons] at hdisj
    obtain ⟨t, e, h1, h2⟩ := hstep i (by simp) m hm
    obtain ⟨m', e', h3, h4⟩ := ih (fun j hj => hstep j (by simp [hj])) hdisj.2 t h2
    refine ⟨m', by rw [List.foldlM_cons, e]; exact e', ?_, ?_⟩
    · intro a ha
      rw [h3 a (fun j hj => ha j (by simp [hj])), h1 a (ha i (by simp))]
    · constructor
      · intro hmm
        have ht : t = m := by
          funext a
          by_cases ho : own i a
          · rw [← h3 a (fun j hj => hdisj.1 j hj a ho), hmm]
          · exact h1 a ho
        subst ht
        intro j hj
        rcases List.mem_cons.1 hj with rfl | hj
        · exact e
        · exact h4.1 hmm j hj
      · intro h
        have ht : t = m := Option.some.inj (e.symm.trans (h i (by simp)))
        subst ht
        exact h4.2 fun j hj => h j (by simp [hj])

theorem zip_map_self {A B : Type} (l : List A) (f : A → B) :
    l.zip (l.map f) = l.map fun a => (a, f a) := by
  induction l with
  | nil => rfl
  | cons a l ih => simp [ih]

section Relax
open Stencil
variable {K : Type} [Field K]

/-- A lane of a vector is a site. -/
theorem site_of_lane {Lx S i l : ℕ} (hL : 0 < Lx) (hS : 0 < S) (hd : S ∣ Lx) (hi : S ∣ i)
    (hl : l < S) : ∃ x y, x < Lx ∧ y < Lx ∧ i = cell Lx S x y (i / (Lx * Lx)) - y / (Lx / S) ∧
      l = y / (Lx / S) ∧ i + l = cell Lx S x y (i / (Lx * Lx)) := by
  obtain ⟨Y, rfl⟩ : ∃ Y, Lx = Y * S := by
    obtain ⟨Y, h⟩ := hd; exact ⟨Y, by rw [h, Nat.mul_comm]⟩
  have hY : 0 < Y := Nat.pos_of_mul_pos_right hL
  have hXC : 0 < Y * S * S := Nat.mul_pos hL hS
  have e1 := div_mul_add_mod i (Y * S * S)
  have e2 := div_mul_add_mod (i / (Y * S * S)) Y
  have hd : S ∣ i % (Y * S * S) := (Nat.dvd_mod_iff ⟨Y * S, Nat.mul_comm _ _⟩).2 hi
  obtain ⟨x, hx⟩ := hd
  have hxl : x < Y * S := by
    have := Nat.mod_lt i hXC
    rw [hx, Nat.mul_comm] at this
    exact Nat.lt_of_mul_lt_mul_right this
  have hy0 : i / (Y * S * S) % Y < Y := Nat.mod_lt _ hY
  have hSf : Y * S * (Y * S) = Y * (Y * S * S) := by ring
  have hzz : i / (Y * S * S) / Y = i / (Y * (Y * S * S)) := by
    rw [Nat.div_div_eq_div_mul, Nat.mul_comm]
  have hv : vec Y S x (i / (Y * S * S) % Y) (i / (Y * S * (Y * S))) = i := by
    rw [hSf, ← hzz]
    simp only [vec]
    rw [← Nat.mul_assoc, ← Nat.add_mul, e2, Nat.mul_comm x S, ← hx, e1]
  refine ⟨x, l * Y + i / (Y * S * S) % Y, hxl, ?_, ?_, ?_, ?_⟩
  · have := pair_lt hl hy0
    rwa [Nat.mul_comm S Y] at this
  · rw [Nat.mul_div_cancel _ hS, cell_eq hS, mod_of hy0, div_of hy0, hv]; omega
  · rw [Nat.mul_div_cancel _ hS, div_of hy0]
  · rw [cell_eq hS, mod_of hy0, div_of hy0, hv]

/-- Array in which every cell of `nz` slices exists. -/
def Room (Lx nz : ℕ) (h : Heap ℕ K) : Prop := ∀ a, a < nz * (Lx * Lx) → (h a).isSome

/-- New value of a lane. -/
theorem sorLane_eq {Lx S NN nz : ℕ} (hS : 0 < S) (hd : S ∣ Lx) (hrow : 2 * NN ≤ Lx / S)
    (PC : List K) (w : ℕ → K) (hPC : ∀ k, k < NN → PC[k]? = some (w k)) (h5 : NN ≤ 5) (b : K)
    (ρ m : Heap ℕ K) (φ : ℤ → ℤ → ℤ → K) (hper : Periodic Lx φ) (hm : Holds Lx S nz m φ)
    {x y z : ℕ} (hx : x < Lx) (hy : y < Lx) (hz : NN ≤ z) (hz' : z + NN < nz) {r : K}
    (hr : ρ (cell Lx S x y z) = some r) :
    sorLane ⟨Lx, S, NN⟩ PC b ρ m (cell Lx S x y z - y / (Lx / S)) (y / (Lx / S)) =
      some (φ x y z + ood2Of PC NN * (laplacian w NN φ x y z - b * r)) := by
  have hle : y / (Lx / S) ≤ cell Lx S x y z := by unfold cell; omega
  unfold sorLane
  rw [Nat.sub_add_cancel hle, hm x y z hx hy (by omega), hr,
    C04_laplacian hS hd hrow PC w hPC h5 _ m φ nz hper hm hx hy hz hz']
  simp only [Option.bind_eq_bind, Option.bind_some, Option.pure_def, Option.some.injEq]
  have e : laplacian (fun k => w k * ood2Of PC NN) NN φ x y z =
      ood2Of PC NN * laplacian w NN φ x y z := by
    unfold laplacian
    rw [mul_sum]
    refine sum_congr rfl fun k _ => ?_
    simp only [smul_eq_mul]
    ring
  rw [e]
  ring

variable {Lx S NN Lz : ℕ} (hL : 0 < Lx) (hS : 0 < S) (hd : S ∣ Lx)
include hL hS hd

/-- One vector. -/
theorem sorVec_spec (hrow : 2 * NN ≤ Lx / S)
    (PC : List K) (w : ℕ → K) (hPC : ∀ k, k < NN → PC[k]? = some (w k)) (h5 : NN ≤ 5) (b : K)
    (ρ : Heap ℕ K) (hρ : Room Lx (Lz + NN) ρ) (m : Heap ℕ K) (hm : Room Lx (Lz + 2 * NN) m) {i : ℕ}
    (hi : S ∣ i) (h1 : NN ≤ i / (Lx * Lx)) (h2 : i / (Lx * Lx) < NN + Lz) :
    ∃ m', sorVec ⟨Lx, S, NN⟩ PC b ρ m i = some m' ∧
      (∀ l, l < S → m' (i + l) = sorLane ⟨Lx, S, NN⟩ PC b ρ m i l) ∧
      (∀ l, l < S → (sorLane ⟨Lx, S, NN⟩ PC b ρ m i l).isSome) ∧
      (∀ a, ¬(i ≤ a ∧ a < i + S) → m' a = m a) ∧ Room Lx (Lz + 2 * NN) m' := by
  have : Inhabited K := ⟨0⟩
  have hlane : ∀ l, l < S → (sorLane ⟨Lx, S, NN⟩ PC b ρ m i l).isSome := by
    intro l hl
    obtain ⟨x, y, hx, hy, e1, e2, e3⟩ := site_of_lane hL hS hd hi hl
    have hc : cell Lx S x y (i / (Lx * Lx)) < (Lz + NN) * (Lx * Lx) := by
      rw [Run.cell_split]
      exact pair_lt (by omega) (Run.cell_lt hS hd hx hy)
    obtain ⟨r, hr⟩ := Option.isSome_iff_exists.1 (hρ _ hc)
    have := sorLane_eq hS hd hrow PC w hPC h5 b ρ m _ (Run.fieldOf_periodic Lx S m)
      (Run.fieldOf_holds hS hd m hm) hx hy h1 (by omega) hr
    rw [← e1, ← e2] at this
    rw [this]; rfl
  have hin : ∀ l, l < S → i + l < (Lz + 2 * NN) * (Lx * Lx) := by
    intro l hl
    obtain ⟨x, y, hx, hy, -, -, e3⟩ := site_of_lane hL hS hd hi hl
    rw [e3, Run.cell_split]
    exact pair_lt (by omega) (Run.cell_lt hS hd hx hy)
  have hread := readAll_map S id (fun l => (sorLane ⟨Lx, S, NN⟩ PC b ρ m i l).getD 0)
    (sorLane ⟨Lx, S, NN⟩ PC b ρ m i) (by
      intro l hl
      obtain ⟨v, hv⟩ := Option.isSome_iff_exists.1 (hlane l hl)
      simp [hv])
  rw [List.map_id] at hread
  have hzip : ((List.range S).zip ((List.range S).map fun l =>
      (sorLane ⟨Lx, S, NN⟩ PC b ρ m i l).getD 0)).map (fun p => (i + p.1, p.2)) =
      (List.range S).map fun l => (i + l, (sorLane ⟨Lx, S, NN⟩ PC b ρ m i l).getD 0) := by
    rw [zip_map_self, List.map_map]
    rfl
  have hfst : ((List.range S).map fun l =>
      (i + l, (sorLane ⟨Lx, S, NN⟩ PC b ρ m i l).getD 0)).map Prod.fst =
      (List.range S).map (i + ·) := by rw [List.map_map]; rfl
  obtain ⟨m', e, q1, q2⟩ := writeAll_spec ((List.range S).map fun l =>
      (i + l, (sorLane ⟨Lx, S, NN⟩ PC b ρ m i l).getD 0)) m
    (by
      intro p hp
      obtain ⟨l, hl, rfl⟩ := List.mem_map.1 hp
      exact hm _ (hin l (List.mem_range.1 hl)))
    (by
      rw [hfst]
      exact List.Nodup.map (fun _ _ h => Nat.add_left_cancel h) List.nodup_range)
  have h3 : ∀ l, l < S → m' (i + l) = sorLane ⟨Lx, S, NN⟩ PC b ρ m i l := by
    intro l hl
    rw [q1 (i + l, _) (List.mem_map.2 ⟨l, List.mem_range.2 hl, rfl⟩)]
    obtain ⟨v, hv⟩ := Option.isSome_iff_exists.1 (hlane l hl)
    simp [hv]
  have h4 : ∀ a, ¬(i ≤ a ∧ a < i + S) → m' a = m a := by
    intro a ha
    refine q2 a ?_
    rw [hfst]
    intro hm
    obtain ⟨l, hl, rfl⟩ := List.mem_map.1 hm
    have := List.mem_range.1 hl
    omega
  refine ⟨m', ?_, h3, hlane, h4, ?_⟩
  · unfold sorVec
    rw [hread]
    exact (congrArg (fun l => writeAll l m) hzip).trans e
  · intro a ha
    by_cases hc : i ≤ a ∧ a < i + S
    · have := h3 (a - i) (by omega)
      rw [show i + (a - i) = a by omega] at this
      rw [this]
      exact hlane _ (by omega)
    · rw [h4 a hc]; exact hm a ha

/-- A sweep of the relaxation in single precision is always defined, and it leaves the field as it is
exactly if the field solves the finite difference Poisson equation `Δφ = b σ` at every site, whatever
the order in which the vectors are updated in place. -/
theorem C60_relax (hrow : 2 * NN ≤ Lx / S)
    (PC : List K) (w : ℕ → K) (hPC : ∀ k, k < NN → PC[k]? = some (w k)) (h5 : NN ≤ 5)
    (hne : ood2Of PC NN ≠ 0) (b : K) (order : List ℕ) (hnd : order.Nodup)
    (ho : ∀ i, i ∈ order ↔ S ∣ i ∧ NN ≤ i / (Lx * Lx) ∧ i / (Lx * Lx) < NN + Lz)
    (ρ m : Heap ℕ K) (φ σ : ℤ → ℤ → ℤ → K) (hper : Periodic Lx φ)
    (hm : Holds Lx S (Lz + 2 * NN) m φ) (hρ : Holds Lx S (Lz + NN) ρ σ)
    (hroom : Room Lx (Lz + 2 * NN) m) (hroom' : Room Lx (Lz + NN) ρ) :
    ∃ m', sor ⟨Lx, S, NN⟩ PC b ρ order m = some m' ∧
      (m' = m ↔ ∀ x y z : ℕ, x < Lx → y < Lx → NN ≤ z → z < NN + Lz →
        laplacian w NN φ x y z = b * σ x y z) := by
  obtain ⟨m', e, -, hiff⟩ := inplace (step := sorVec ⟨Lx, S, NN⟩ PC b ρ)
    (own := fun i a => i ≤ a ∧ a < i + S) (Good := Room Lx (Lz + 2 * NN)) order
    (by
      intro i hi t ht
      obtain ⟨g1, g2, g3⟩ := (ho i).1 hi
      obtain ⟨t', e, -, -, q, r⟩ := sorVec_spec hL hS hd hrow PC w hPC h5 b ρ hroom' t ht g1 g2 g3
      exact ⟨t', e, q, r⟩)
    (by
      refine (List.Pairwise.and_mem.1 hnd).imp ?_
      rintro i j ⟨hi, hj, hij⟩ a ⟨a1, a2⟩ ⟨b1, b2⟩
      obtain ⟨⟨p, rfl⟩, -⟩ := (ho i).1 hi
      obtain ⟨⟨q, rfl⟩, -⟩ := (ho j).1 hj
      refine hij ?_
      have e1 : a / S = p := by
        rw [Nat.div_eq_iff hS]; constructor
        · rw [Nat.mul_comm]; exact a1
        · rw [Nat.mul_comm p]; omega
      have e2 : a / S = q := by
        rw [Nat.div_eq_iff hS]; constructor
        · rw [Nat.mul_comm]; exact b1
        · rw [Nat.mul_comm q]; omega
      rw [← e1, ← e2]) m hroom
  refine ⟨m', e, hiff.trans ?_⟩
  have hval : ∀ x y z : ℕ, x < Lx → y < Lx → NN ≤ z → z < NN + Lz →
      sorLane ⟨Lx, S, NN⟩ PC b ρ m (cell Lx S x y z - y / (Lx / S)) (y / (Lx / S)) =
      some (φ x y z + ood2Of PC NN * (laplacian w NN φ x y z - b * σ x y z)) :=
    fun x y z hx hy h1 h2 => sorLane_eq hS hd hrow PC w hPC h5 b ρ m φ hper hm hx hy h1 (by omega)
      (hρ x y z hx hy (by omega))
  constructor
  · intro h x y z hx hy h1 h2
    have hle : y / (Lx / S) ≤ cell Lx S x y z := by unfold cell; omega
    have hlt : y / (Lx / S) < S := by
      rw [Nat.div_lt_iff_lt_mul (Nat.div_pos (Nat.le_of_dvd hL hd) hS), Nat.mul_comm,
        Nat.div_mul_cancel hd]
      exact hy
    have hdv : S ∣ cell Lx S x y z - y / (Lx / S) := by
      unfold cell
      rw [Nat.add_sub_cancel]
      exact Nat.dvd_add (Nat.dvd_mul_left_of_dvd (Nat.dvd_mul_left_of_dvd hd _) _)
        (Nat.dvd_mul_left _ _)
    have hz := Run.cell_sub_div (z := z) hS hd hx hy
    have hmem := (ho _).2 ⟨hdv, by rw [hz]; exact h1, by rw [hz]; exact h2⟩
    obtain ⟨g1, g2, g3⟩ := (ho _).1 hmem
    obtain ⟨t', e', q1, -⟩ := sorVec_spec hL hS hd hrow PC w hPC h5 b ρ hroom' m hroom g1 g2 g3
    have ht : t' = m := Option.some.inj (e'.symm.trans (h _ hmem))
    have := q1 _ hlt
    rw [ht, Nat.sub_add_cancel hle, hm x y z hx hy (by omega), hval x y z hx hy h1 h2] at this
    have h0 := Option.some.inj this
    rw [eq_comm, add_eq_left, mul_eq_zero] at h0
    exact sub_eq_zero.1 (h0.resolve_left hne)
  · intro h i hi
    obtain ⟨g1, g2, g3⟩ := (ho i).1 hi
    obtain ⟨t', e', q1, -, q3, -⟩ := sorVec_spec hL hS hd hrow PC w hPC h5 b ρ hroom' m hroom g1 g2 g3
    rw [e']
    congr 1
    funext a
    by_cases hc : i ≤ a ∧ a < i + S
    · have hq := q1 (a - i) (by omega)
      obtain ⟨x, y, hx, hy, e1, e2, e3⟩ := site_of_lane (l := a - i) hL hS hd g1 (by omega)
      have hv := hval x y _ hx hy g2 g3
      rw [← e1, ← e2, h x y _ hx hy g2 g3, sub_self, mul_zero, add_zero] at hv
      rw [hv, show i + (a - i) = a by omega] at hq
      rw [show i + (a - i) = a by omega] at e3
      rw [hq, e3, hm x y _ hx hy (by omega)]
    · exact q3 a hc

end Relax

/-- In double precision no sweep is defined: the neighbours are read through a pointer that was never
given a value. -/
theorem C60_double {K : Type} [Field K] (s : Stencil.Shape) (hN : 0 < s.NN) (hS : 0 < s.step)
    (PC : List K) (b : K) (ρ m : Heap ℕ K) (i : ℕ) (order : List ℕ) :
    sorD s PC b (fun _ => none) ρ (i :: order) m = none := by
  have hl : ∀ l, sorLaneD s PC b (fun _ => none) ρ m i l = none := by
    intro l
    unfold sorLaneD
    cases m (i + l) with
    | none => rfl
    | some v =>
      obtain ⟨k, hk⟩ : ∃ k, s.NN = k + 1 := ⟨s.NN - 1, by omega⟩
      rw [hk, List.range_succ_eq_map]
      simp only [Option.bind_eq_bind, Option.bind_some, List.foldlM_cons]
      have : ∀ o, Stencil.load (fun _ : ℕ => (none : Option K)) o = none := by
        intro o; cases o <;> rfl
      simp only [this]
      rfl
  unfold sorD
  rw [List.foldlM_cons]
  unfold sorVecD
  obtain ⟨k, hk⟩ : ∃ k, s.step = k + 1 := ⟨s.step - 1, by omega⟩
  rw [hk, List.range_succ_eq_map]
  unfold readAll
  rw [List.mapM_cons, hl]
  rfl

/-! ### Concrete cases -/

/-- Two ranks with the same density: each returns half of the mean. -/
example : meanOf 2 (fun _ => [(1 : ℚ), 2]) (2 * 2) 0 = 3 / 4 ∧
    ((List.range 2).flatMap fun _ => [(1 : ℚ), 2]).sum / (2 * 2 : ℕ) = 3 / 2 := by
  constructor <;> norm_num [meanOf, List.range_succ]

example : ¬∀ r < 2, meanOf 2 (fun _ => [(1 : ℚ), 2]) (2 * 2) r =
    ((List.range 2).flatMap fun _ => [(1 : ℚ), 2]).sum / (2 * 2 : ℕ) := by
  rw [C60_mean_ranks (V := 2) _ (by decide) (by decide) (by simp) (by simp)]
  decide

example : ((List.range 2).flatMap (contrast 2 (fun _ => [(1 : ℚ), 2]) (2 * 2))).sum = 3 := by
  have := C60_contrast (n := 2) (V := 2) (fun _ => [(1 : ℚ), 2]) (by simp) (by norm_num)
  rw [this]
  norm_num [List.range_succ]

example : density 1 1 (normalise 1 1 ⟨fun _ => [3], fun _ => [4], 2⟩) = 1 :=
  (C60_normalise _ (by norm_num [density])).1

theorem demo_reduced_ok : ((⟨2, 4, 4⟩ : Geo).reduced 2).Ok := ⟨by decide, by decide, by decide, by decide⟩

/-- Two ranks, reduction by two. -/
example (a : ℕ → Option ℂ) : ∃ a', ilapRed ⟨2, 4, 4⟩ 2 1 1
    (List.range ((⟨2, 4, 4⟩ : Geo).reduced 2).modes) a = some a' ∧ a' 0 = none :=
  (C60_reduced_nan (g := ⟨2, 4, 4⟩) (ref := 2) (by decide) (by decide) (by decide) demo_reduced_ok
    (by decide) 1 _ (List.Perm.refl _) a).2.2

example : (numberRed ⟨2, 4, 4⟩ 2 1 0).2.1 ≠
    signed (modeOf ((⟨2, 4, 4⟩ : Geo).reduced 2) 1 0).2.1 :=
  C60_reduced_wrong (by decide) demo_reduced_ok (by decide) (by decide)

example : numberRed ⟨2, 4, 4⟩ 2 0 3 = (signed (modeOf ((⟨2, 4, 4⟩ : Geo).reduced 2) 0 3).1,
    signed (modeOf ((⟨2, 4, 4⟩ : Geo).reduced 2) 0 3).2.1,
    signed (modeOf ((⟨2, 4, 4⟩ : Geo).reduced 2) 0 3).2.2) :=
  C60_reduced_first (by decide) demo_reduced_ok (by decide)

theorem Red.demo_ok : (⟨4, 4, 2, 1, 2⟩ : Red).Ok :=
  ⟨by decide, by decide, by decide, by decide, by decide, by decide, by decide⟩

/-- A slab of 4 x 4 x 4 sites in vectors of two: every site gets the value of the corner of its
block. -/
example (h : Heap ℕ ℚ) (hroom : ∀ a, a < 16 + 4 * 16 → (h a).isSome)
    (hf : ∀ x y z, x < 4 → y < 4 → z < 4 → h (16 + Stencil.cell 4 2 x y z) = some (x + 10 * y + 100 * z : ℚ)) :
    ∃ h', ((⟨4, 4, 2, 1, 2⟩ : Red).rfuap (fun _ => List.range 2 ×ˢ List.range 2) h).bind
      ((⟨4, 4, 2, 1, 2⟩ : Red).eguf fun _ => List.range 2 ×ˢ List.range 2) = some h' ∧
      h' (16 + Stencil.cell 4 2 3 1 3) = some 202 := by
  have ho : ∀ (z : ℕ) (c : ℕ × ℕ), c ∈ List.range 2 ×ˢ List.range 2 ↔ c.1 < 2 ∧ c.2 < 2 := by
    intro z c
    rw [show c = (c.1, c.2) from rfl, List.mem_product, List.mem_range, List.mem_range]
  obtain ⟨h', e, p⟩ := Red.C60_blocks Red.demo_ok _ _ ho ho h
    (fun x y z => (x + 10 * y + 100 * z : ℚ)) hroom hf
  refine ⟨h', e, ?_⟩
  have : h' (16 + Stencil.cell 4 2 3 1 3) = some ((2 : ℕ) + 10 * (0 : ℕ) + 100 * (2 : ℕ) : ℚ) :=
    p 3 1 3 (by decide) (by decide) (by decide)
  rw [this]
  norm_num

/-- The parabola `z²` has Laplacian two: it is at rest for the density one and `b = 2`. -/
example (order : List ℕ) (hnd : order.Nodup)
    (ho : ∀ i, i ∈ order ↔ 2 ∣ i ∧ 1 ≤ i / (4 * 4) ∧ i / (4 * 4) < 1 + 2)
    (ρ m : Heap ℕ ℚ) (hm : Stencil.Holds 4 2 (2 + 2 * 1) m fun _ _ z => (z : ℚ) ^ 2)
    (hρ : Stencil.Holds 4 2 (2 + 1) ρ fun _ _ _ => 1) (hroom : Room 4 (2 + 2 * 1) m)
    (hroom' : Room 4 (2 + 1) ρ) : sor ⟨4, 2, 1⟩ [1] 2 ρ order m = some m := by
  obtain ⟨m', e, h⟩ := C60_relax (Lx := 4) (S := 2) (NN := 1) (Lz := 2) (by decide) (by decide)
    (by decide) (by decide) [(1 : ℚ)] (fun _ => 1)
    (by intro k hk; obtain rfl : k = 0 := by omega
        rfl) (by decide)
    (by norm_num [ood2Of]) 2 order hnd ho ρ m (fun _ _ z => (z : ℚ) ^ 2) (fun _ _ _ => 1)
    (fun _ _ _ => rfl) hm hρ hroom hroom'
  rw [e, h.2]
  intro x y z _ _ _ _
  simp only [Stencil.laplacian, sum_range_one, smul_eq_mul]
  push_cast
  ring

example (ρ m : Heap ℕ ℚ) : sorD ⟨4, 2, 1⟩ [1] 2 (fun _ => none) ρ [16, 18] m = none :=
  C60_double _ (by decide) (by decide) _ _ _ _ _ _

end Jaxions.Gravity
