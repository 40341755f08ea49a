import Verif.Lemmas.Smooth
import Mathlib.Logic.Function.Iterate
import Mathlib.Algebra.BigOperators.Intervals
import Mathlib.Algebra.BigOperators.GroupWithZero.Action
import Mathlib.Algebra.Module.LinearMap.Defs
import Mathlib.Algebra.Order.Field.Basic
import Mathlib.Algebra.Order.Field.Rat
import Mathlib.Algebra.Field.Rat
import Mathlib.Tactic.Module
import Mathlib.Tactic.NormNum

/-!
# C30: smoothing is an average
-/

namespace Jaxions
namespace Smooth

section
variable {K E : Type} [Field K] [AddCommGroup E] [Module K E]

/-- C30: smoothing runs without undefined accesses and replaces the field, in every iteration, by the
average of each site with its six neighbours on the whole periodic lattice, for every number of ranks and
order of the sites. -/
theorem C30_smooth (g : Grid) (hL : 2 ≤ g.Lx) (hNg : 1 ≤ g.Ng) (hLz : g.Ng ≤ g.Lz) (alpha : K) (iter : Nat)
    (order : Nat → Nat → List Nat) (ho : Orders g order) (w : World E) (ha : Alloc g w)
    (f : Nat → Nat → Nat → E) (hf : Holds g w f) :
    ∃ w', smoothXeon g alpha iter order w = some w' ∧
      Holds g w' ((average g.Lx (g.n * g.Lz) alpha)^[iter] f) := by
  obtain ⟨w', h, hP⟩ := loop_inv (n := iter) (s := ({ w with m := exchange g w.m } : World E))
    (body := fun it w => iteration g alpha (order it) w)
    (P := fun k t => Alloc g t ∧ Holds g t ((average g.Lx (g.n * g.Lz) alpha)^[k] f) ∧
      ∀ r < g.n, Ghosted g r (t.m r) ((average g.Lx (g.n * g.Lz) alpha)^[k] f))
    (by
      have hx := fun r (hr : r < g.n) => exchange_ghosted hNg hLz hf hr
      exact ⟨exchange_alloc hLz ha, fun r hr x hx' y hy z hz => (hx r hr x hx' y hy).1 z hz, hx⟩)
    (by
      rintro k - t ⟨t1, -, t3⟩
      obtain ⟨t', e1, e2, e3, e4⟩ := iteration_spec (alpha := alpha) hL hNg hLz (ho k) t1 t3
      rw [Function.iterate_succ_apply']
      exact ⟨t', e1, e2, e3, e4⟩)
  exact ⟨w', h, hP.2.1⟩

/-- C30: two ways of splitting the same lattice give the same smoothed lattice. -/
theorem C30_ranks (g g' : Grid) (hL : 2 ≤ g.Lx) (hNg : 1 ≤ g.Ng) (hLz : g.Ng ≤ g.Lz) (hNg' : 1 ≤ g'.Ng)
    (hLz' : g'.Ng ≤ g'.Lz) (hx : g'.Lx = g.Lx) (hT : g'.n * g'.Lz = g.n * g.Lz) (alpha : K) (iter : Nat)
    (order order' : Nat → Nat → List Nat) (ho : Orders g order) (ho' : Orders g' order')
    (w w' : World E) (ha : Alloc g w) (ha' : Alloc g' w')
    (f : Nat → Nat → Nat → E) (hf : Holds g w f) (hf' : Holds g' w' f) :
    ∃ v v' f', smoothXeon g alpha iter order w = some v ∧ smoothXeon g' alpha iter order' w' = some v' ∧
      Holds g v f' ∧ Holds g' v' f' := by
  obtain ⟨v, h1, h2⟩ := C30_smooth g hL hNg hLz alpha iter order ho w ha f hf
  obtain ⟨v', h1', h2'⟩ := C30_smooth g' (by omega) hNg' hLz' alpha iter order' ho' w' ha' f hf'
  rw [hx, hT] at h2'
  exact ⟨v, v', _, h1, h1', h2, h2'⟩

/-- The total over the lattice. -/
def total (L T : Nat) (f : Nat → Nat → Nat → E) : E :=
  ∑ x ∈ Finset.range L, ∑ y ∈ Finset.range L, ∑ z ∈ Finset.range T, f x y z

theorem sum_next (N : Nat) (h : Nat → E) :
    ∑ x ∈ Finset.range N, h ((x + 1) % N) = ∑ x ∈ Finset.range N, h x := by
  cases N with
  | zero => simp
  | succ N =>
    rw [Finset.sum_range_succ, Nat.mod_self, Finset.sum_range_succ']
    congr 1
    exact Finset.sum_congr rfl fun x hx => by
      rw [Nat.mod_eq_of_lt (by have := Finset.mem_range.1 hx; omega)]

theorem sum_prev (N : Nat) (h : Nat → E) :
    ∑ x ∈ Finset.range N, h ((x + N - 1) % N) = ∑ x ∈ Finset.range N, h x := by
  cases N with
  | zero => simp
  | succ N =>
    rw [Finset.sum_range_succ', Finset.sum_range_succ]
    congr 1
    · exact Finset.sum_congr rfl fun x hx => by
        rw [show x + 1 + (N + 1) - 1 = x + (N + 1) by omega, Nat.add_mod_right,
          Nat.mod_eq_of_lt (by have := Finset.mem_range.1 hx; omega)]
    · rw [show 0 + (N + 1) - 1 = N by omega, Nat.mod_eq_of_lt (by omega)]

/-- C30: the average keeps the total. -/
theorem C30_total (h6 : (6 : K) ≠ 0) (L T : Nat) (alpha : K) (f : Nat → Nat → Nat → E) :
    total L T (average L T alpha f) = total L T f := by
  unfold total average
  simp only [Finset.sum_add_distrib, ← Finset.smul_sum]
  have z1 : ∀ x y, ∑ z ∈ Finset.range T, f x y ((z + 1) % T) = ∑ z ∈ Finset.range T, f x y z :=
    fun x y => sum_next T (f x y)
  have z2 : ∀ x y, ∑ z ∈ Finset.range T, f x y ((z + T - 1) % T) = ∑ z ∈ Finset.range T, f x y z :=
    fun x y => sum_prev T (f x y)
  have y1 : ∀ x, ∑ y ∈ Finset.range L, ∑ z ∈ Finset.range T, f x ((y + 1) % L) z =
      ∑ y ∈ Finset.range L, ∑ z ∈ Finset.range T, f x y z :=
    fun x => sum_next L fun y => ∑ z ∈ Finset.range T, f x y z
  have y2 : ∀ x, ∑ y ∈ Finset.range L, ∑ z ∈ Finset.range T, f x ((y + L - 1) % L) z =
      ∑ y ∈ Finset.range L, ∑ z ∈ Finset.range T, f x y z :=
    fun x => sum_prev L fun y => ∑ z ∈ Finset.range T, f x y z
  have x1 := sum_next L fun x => ∑ y ∈ Finset.range L, ∑ z ∈ Finset.range T, f x y z
  have x2 := sum_prev L fun x => ∑ y ∈ Finset.range L, ∑ z ∈ Finset.range T, f x y z
  simp only [z1, z2, y1, y2, x1, x2]
  generalize (∑ x ∈ Finset.range L, ∑ y ∈ Finset.range L, ∑ z ∈ Finset.range T, f x y z) = s
  have : ((1 - alpha) / 6) • (s + s + s + s + s + s) = (1 - alpha) • s := by
    rw [show s + s + s + s + s + s = (6 : K) • s by module, smul_smul]
    congr 1
    field_simp
  rw [this]
  module

/-- C30: a constant field is unchanged. -/
theorem C30_constant (h6 : (6 : K) ≠ 0) (L T : Nat) (alpha : K) (f : Nat → Nat → Nat → E) (c : E)
    (hf : ∀ x < L, ∀ y < L, ∀ z < T, f x y z = c) : ∀ x < L, ∀ y < L, ∀ z < T,
      average L T alpha f x y z = c := by
  intro x hx y hy z hz
  have hL : 0 < L := by omega
  have hT : 0 < T := by omega
  have m1 := fun k => Nat.mod_lt k hL
  have m2 := fun k => Nat.mod_lt k hT
  unfold average
  rw [hf x hx y hy z hz, hf _ (m1 _) y hy z hz, hf _ (m1 _) y hy z hz, hf x hx _ (m1 _) z hz,
    hf x hx _ (m1 _) z hz, hf x hx y hy _ (m2 _), hf x hx y hy _ (m2 _)]
  have : ((1 - alpha) / 6) • (c + c + c + c + c + c) = (1 - alpha) • c := by
    rw [show c + c + c + c + c + c = (6 : K) • c by module, smul_smul]
    congr 1
    field_simp
  rw [this]
  module

/-- C30: without `m2` (`--lowmem`) smoothing writes through a null pointer. -/
theorem C30_lowmem (g : Grid) (hV : 0 < g.V) (hn : 0 < g.n) (alpha : K) (iter : Nat)
    (order : Nat → Nat → List Nat) (ho : Orders g order) (w : World E) (hm2 : ∀ r i, w.m2 r i = none)
    (hi : 0 < iter) : smoothXeon g alpha iter order w = none := by
  have hit : ∀ (ord : List Nat) (m : Heap Int E) (m2 : Heap Nat E), ord.Perm (List.range g.V) →
      (∀ i, m2 i = none) → itera g alpha ord m m2 = none := by
    intro ord m m2 hp h2
    cases ord with
    | nil =>
      have := hp.length_eq
      simp at this
      omega
    | cons i l =>
      unfold itera
      rw [List.foldlM_cons]
      have : (do Heap.write m2 i (← site g alpha m i) : Option (Heap Nat E)) = none := by
        cases site g alpha m i with
        | none => rfl
        | some v => simp [Heap.write, h2]
      rw [this]
      rfl
  obtain ⟨n, hn'⟩ : ∃ n, g.n = n + 1 := ⟨g.n - 1, by omega⟩
  obtain ⟨k, rfl⟩ : ∃ k, iter = k + 1 := ⟨iter - 1, by omega⟩
  unfold smoothXeon loop
  rw [List.range_succ_eq_map, List.foldlM_cons]
  have : iteration g alpha (order 0) { w with m := exchange g w.m } = none := by
    unfold iteration loop
    rw [hn', List.range_succ_eq_map, List.foldlM_cons]
    simp only [hit (order 0 0) _ (w.m2 0) (ho 0 0) (hm2 0)]
    rfl
  beta_reduce
  rw [this]
  rfl

end

section
variable {K E : Type} [Field K] [LinearOrder K] [IsStrictOrderedRing K] [AddCommGroup E] [Module K E]

/-- C30: no component in any direction leaves the interval it had, for a constant between zero and one. -/
theorem C30_bounds (L T : Nat) (alpha : K) (h0 : 0 ≤ alpha) (h1 : alpha ≤ 1) (f : Nat → Nat → Nat → E)
    (φ : E →ₗ[K] K) (lo hi : K) (hf : ∀ x < L, ∀ y < L, ∀ z < T, lo ≤ φ (f x y z) ∧ φ (f x y z) ≤ hi) :
    ∀ x < L, ∀ y < L, ∀ z < T, lo ≤ φ (average L T alpha f x y z) ∧ φ (average L T alpha f x y z) ≤ hi := by
  intro x hx y hy z hz
  have hL : 0 < L := by omega
  have hT : 0 < T := by omega
  have m1 := fun k => Nat.mod_lt k hL
  have m2 := fun k => Nat.mod_lt k hT
  have a0 := hf x hx y hy z hz
  have a1 := hf _ (m1 (x + 1)) y hy z hz
  have a2 := hf _ (m1 (x + L - 1)) y hy z hz
  have a3 := hf x hx _ (m1 (y + 1)) z hz
  have a4 := hf x hx _ (m1 (y + L - 1)) z hz
  have a5 := hf x hx y hy _ (m2 (z + 1))
  have a6 := hf x hx y hy _ (m2 (z + T - 1))
  unfold average
  simp only [map_add, map_smul, smul_eq_mul]
  have hb : 0 ≤ (1 - alpha) / 6 := div_nonneg (by linarith) (by norm_num)
  generalize hbe : (1 - alpha) / 6 = b at *
  have hab : alpha + 6 * b = 1 := by rw [← hbe]; ring
  constructor
  · have s1 : 6 * lo ≤ φ (f ((x + 1) % L) y z) + φ (f ((x + L - 1) % L) y z) + φ (f x ((y + 1) % L) z) +
        φ (f x ((y + L - 1) % L) z) + φ (f x y ((z + 1) % T)) + φ (f x y ((z + T - 1) % T)) := by linarith
    have s2 := mul_le_mul_of_nonneg_left s1 hb
    have s3 := mul_le_mul_of_nonneg_left a0.1 h0
    have : lo = alpha * lo + b * (6 * lo) := by
      rw [show alpha * lo + b * (6 * lo) = (alpha + 6 * b) * lo by ring, hab, one_mul]
    linarith
  · have s1 : φ (f ((x + 1) % L) y z) + φ (f ((x + L - 1) % L) y z) + φ (f x ((y + 1) % L) z) +
        φ (f x ((y + L - 1) % L) z) + φ (f x y ((z + 1) % T)) + φ (f x y ((z + T - 1) % T)) ≤ 6 * hi := by
      linarith
    have s2 := mul_le_mul_of_nonneg_left s1 hb
    have s3 := mul_le_mul_of_nonneg_left a0.2 h0
    have : hi = alpha * hi + b * (6 * hi) := by
      rw [show alpha * hi + b * (6 * hi) = (alpha + 6 * b) * hi by ring, hab, one_mul]
    linarith

/-- C30: the whole of smoothing on all ranks: the total is conserved, no component leaves its interval, a
constant stays. -/
theorem C30_run (g : Grid) (hL : 2 ≤ g.Lx) (hNg : 1 ≤ g.Ng) (hLz : g.Ng ≤ g.Lz) (alpha : K) (h0 : 0 ≤ alpha)
    (h1 : alpha ≤ 1) (iter : Nat) (order : Nat → Nat → List Nat) (ho : Orders g order) (w : World E)
    (ha : Alloc g w) (f : Nat → Nat → Nat → E) (hf : Holds g w f) :
    ∃ w' f', smoothXeon g alpha iter order w = some w' ∧ Holds g w' f' ∧
      total g.Lx (g.n * g.Lz) f' = total g.Lx (g.n * g.Lz) f ∧
      (∀ (φ : E →ₗ[K] K) lo hi,
        (∀ x < g.Lx, ∀ y < g.Lx, ∀ z < g.n * g.Lz, lo ≤ φ (f x y z) ∧ φ (f x y z) ≤ hi) →
        ∀ x < g.Lx, ∀ y < g.Lx, ∀ z < g.n * g.Lz, lo ≤ φ (f' x y z) ∧ φ (f' x y z) ≤ hi) ∧
      (∀ c, (∀ x < g.Lx, ∀ y < g.Lx, ∀ z < g.n * g.Lz, f x y z = c) →
        ∀ x < g.Lx, ∀ y < g.Lx, ∀ z < g.n * g.Lz, f' x y z = c) := by
  obtain ⟨w', e1, e2⟩ := C30_smooth g hL hNg hLz alpha iter order ho w ha f hf
  have h6 : (6 : K) ≠ 0 := by norm_num
  refine ⟨w', _, e1, e2, ?_, ?_, ?_⟩
  · clear e1 e2
    induction iter with
    | zero => rfl
    | succ k ih => rw [Function.iterate_succ_apply', C30_total h6, ih]
  · intro φ lo hi hb
    clear e1 e2
    induction iter with
    | zero => exact hb
    | succ k ih =>
      rw [Function.iterate_succ_apply']
      exact C30_bounds _ _ alpha h0 h1 _ φ lo hi ih
  · intro c hc
    clear e1 e2
    induction iter with
    | zero => exact hc
    | succ k ih =>
      rw [Function.iterate_succ_apply']
      exact C30_constant h6 _ _ alpha _ c ih

end

/-! ### An instance -/

/-- Two ranks with `2 × 2 × 3` sites and one ghost slice, one site of the second rank set. -/
def gEx : Grid := ⟨2, 3, 2, 1⟩

def fEx : Nat → Nat → Nat → ℚ := fun x y z => if x = 1 ∧ y = 0 ∧ z = 5 then 12 else 0

def wEx : World ℚ where
  m := fun r i => if -4 ≤ i ∧ i < 16 then
    some (if 0 ≤ i ∧ i < 12 then fEx (i.toNat % 2) (i.toNat / 2 % 2) (r * 3 + i.toNat / 4) else 77) else none
  m2 := fun _ i => if i < 20 then some 5 else none

example : ∃ w', smoothXeon gEx (1 / 2 : ℚ) 1 (fun _ _ => (List.range 12).reverse) wEx = some w' ∧
    w'.m 1 9 = some 6 ∧ w'.m 0 1 = some 1 ∧ w'.m 1 8 = some 2 ∧ w'.m 0 2 = some 0 := by
  obtain ⟨w', h1, h2⟩ := C30_smooth gEx (by decide) (by decide) (by decide) (1 / 2 : ℚ) 1
    (fun _ _ => (List.range 12).reverse) (fun _ _ => List.reverse_perm _) wEx (by
      intro r hr
      refine ⟨fun i => ?_, fun i hi => ?_⟩
      · have : (wEx.m r i).isSome = true ↔ -4 ≤ i ∧ i < 16 := by
          unfold wEx; dsimp only; split <;> simp_all
        rw [this]
        show _ ↔ (-(4 : Int)) ≤ i ∧ i < 12 + 4
        omega
      · have hi' : i < 12 := hi
        unfold wEx; dsimp only; rw [if_pos (by omega)]; rfl) fEx (by
      intro r hr x hx y hy z hz
      have hx' : x < 2 := hx
      have hy' : y < 2 := hy
      have hz' : z < 3 := hz
      have e : ∀ r : Nat, ∀ x < 2, ∀ y < 2, ∀ z < 3, wEx.m r ((x + 2 * y + 4 * z : Nat) : Int) =
          some (fEx x y (r * 3 + z)) := by
        intro r x hx y hy z hz
        unfold wEx
        dsimp only
        rw [if_pos (by omega), if_pos (by omega), Int.toNat_natCast,
          show (x + 2 * y + 4 * z) % 2 = x by omega, show (x + 2 * y + 4 * z) / 2 % 2 = y by omega,
          show (x + 2 * y + 4 * z) / 4 = z by omega]
      exact e r x hx' y hy' z hz')
  refine ⟨w', h1, ?_, ?_, ?_, ?_⟩
  · exact (h2 1 (by decide) 1 (by decide) 0 (by decide) 2 (by decide)).trans (by decide +kernel)
  · exact (h2 0 (by decide) 1 (by decide) 0 (by decide) 0 (by decide)).trans (by decide +kernel)
  · exact (h2 1 (by decide) 0 (by decide) 0 (by decide) 2 (by decide)).trans (by decide +kernel)
  · exact (h2 0 (by decide) 0 (by decide) 1 (by decide) 0 (by decide)).trans (by decide +kernel)

end Smooth
end Jaxions
