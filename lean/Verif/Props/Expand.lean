import Verif.Lemmas.Expand
import Mathlib.Algebra.Order.Field.Basic
import Mathlib.Algebra.Order.Ring.Cast
import Mathlib.Algebra.Order.Field.Rat
import Mathlib.Algebra.Field.Rat
import Mathlib.Tactic.NormNum

/-!
# C57: expansion of a smaller configuration
-/

namespace Jaxions.Expand

section
variable {K E : Type} [Field K] [CharZero K] [AddCommGroup E] [Module K E]

/-- C57: when all sides are the same multiple `k` of those of the file, the expansion runs without
undefined accesses and leaves the interpolation of the configuration of the file on the whole
periodic lattice, for every number of ranks and every interleaving of the threads. -/
theorem C57_expand (g : Geo) (k : ℕ) (hg : Sizes g k k) (w : ℕ → Mem E)
    (hw : ∀ r < g.ranks, Room g (w r)) (f : ℕ → ℕ → ℕ → E) (hf : Compact g w f)
    (order : ℕ → List Iter) (ho : ∀ r < g.ranks, (order r).Perm (program g)) :
    ∃ w', expand K g order w = some w' ∧ Full g w' (tri K k g.n (g.ranks * g.nz) f) := by
  obtain ⟨w', e, p⟩ := expand_spec (K := K) hg hw hf ho
  refine ⟨w', e, fun r hr x hx y hy z hz => ?_⟩
  have hk : 0 < k := by have := hg.k2; omega
  have hk' : (k : K) ≠ 0 := Nat.cast_ne_zero.2 (by omega)
  rw [p r hr x hx y hy z hz]
  have d1 : (r * g.Nz + z) / k = r * g.nz + z / k := by
    rw [hg.Nz, show r * (k * g.nz) = k * (r * g.nz) by ring, Nat.mul_add_div hk]
  have d2 : (r * g.Nz + z) % k = z % k := by
    rw [hg.Nz, show r * (k * g.nz) = k * (r * g.nz) by ring, Nat.mul_add_mod]
  have d3 : z / k < g.nz := Nat.div_lt_of_lt_mul (hg.Nz ▸ hz)
  have d4 : (z : K) / k - (z / k : ℕ) = ((z % k : ℕ) : K) / k := by
    have h3 : ((k * (z / k) + z % k : ℕ) : K) = (z : K) := by rw [Nat.div_add_mod]
    push_cast at h3 ⊢
    rw [← h3]
    field_simp
    ring
  unfold val tri
  dsimp only
  rw [lin.eq_1 K k (g.ranks * g.nz), d1, d2, d4,
    Nat.mod_eq_of_lt (pair_lt hr d3), Nat.add_assoc]

omit [CharZero K] in
/-- C57: a point that belongs to the lattice of the file keeps its value. -/
theorem C57_points (k n T : ℕ) (hk : 0 < k) (f : ℕ → ℕ → ℕ → E) (x y z : ℕ) :
    tri K k n T f (k * x) (k * y) (k * z) = f x y z := by
  unfold tri lin
  simp [Nat.mul_mod_right, Nat.mul_div_cancel_left _ hk]

/-- C57: two ways of splitting the same lattice over ranks give the same lattice. -/
theorem C57_ranks (g g' : Geo) (k : ℕ) (hg : Sizes g k k) (hg' : Sizes g' k k) (hn : g'.n = g.n)
    (hT : g'.ranks * g'.nz = g.ranks * g.nz) (w w' : ℕ → Mem E) (hw : ∀ r < g.ranks, Room g (w r))
    (hw' : ∀ r < g'.ranks, Room g' (w' r)) (f : ℕ → ℕ → ℕ → E) (hf : Compact g w f)
    (hf' : Compact g' w' f) (order order' : ℕ → List Iter)
    (ho : ∀ r < g.ranks, (order r).Perm (program g))
    (ho' : ∀ r < g'.ranks, (order' r).Perm (program g')) :
    ∃ v v' F, expand K g order w = some v ∧ expand K g' order' w' = some v' ∧
      Full g v F ∧ Full g' v' F := by
  obtain ⟨v, e1, e2⟩ := C57_expand (K := K) g k hg w hw f hf order ho
  obtain ⟨v', e1', e2'⟩ := C57_expand (K := K) g' k hg' w' hw' f hf' order' ho'
  rw [hn, hT] at e2'
  exact ⟨v, v', _, e1, e1', e2, e2'⟩

/-- C57: with different factors `k` along `x`, `y` and `kz` along `z` the weight of the slices uses the
factor of `x`: at height `z` of a rank it is `z / k - ⌊z / kz⌋`. -/
theorem C57_two_factors (g : Geo) (k kz : ℕ) (hg : Sizes g k kz) (w : ℕ → Mem E)
    (hw : ∀ r < g.ranks, Room g (w r)) (f : ℕ → ℕ → ℕ → E) (hf : Compact g w f)
    (order : ℕ → List Iter) (ho : ∀ r < g.ranks, (order r).Perm (program g)) :
    ∃ w', expand K g order w = some w' ∧ ∀ r < g.ranks, ∀ x < g.n, ∀ y < g.n, ∀ z < g.Nz,
      w' r (.s, k * x + g.N * (k * y + g.N * z)) =
        some ((1 - ((z : K) / k - (z / kz : ℕ))) • f x y (r * g.nz + z / kz) +
          ((z : K) / k - (z / kz : ℕ)) • f x y ((r * g.nz + z / kz + 1) % (g.ranks * g.nz))) := by
  obtain ⟨w', e, p⟩ := expand_spec (K := K) hg hw hf ho
  refine ⟨w', e, fun r hr x hx y hy z hz => ?_⟩
  have hk : 0 < k := by have := hg.k2; omega
  have hx' : k * x < g.N := by rw [hg.N]; exact Nat.mul_lt_mul_of_pos_left hx hk
  have hy' : k * y < g.N := by rw [hg.N]; exact Nat.mul_lt_mul_of_pos_left hy hk
  have d3 : z / kz < g.nz := Nat.div_lt_of_lt_mul (hg.Nz ▸ hz)
  rw [p r hr _ hx' _ hy' z hz]
  unfold val lin
  dsimp only
  rw [Nat.mod_eq_of_lt (pair_lt hr d3), Nat.add_assoc]
  simp [Nat.mul_mod_right, Nat.mul_div_cancel_left _ hk]

omit [CharZero K] in
/-- C57: without `m2` (`--lowmem`) the expansion writes through a null pointer. -/
theorem C57_lowmem (g : Geo) (hn : 0 < g.n) (hnz : 0 < g.nz) (hr : 0 < g.ranks) (w : ℕ → Mem E)
    (hm2 : ∀ i, w 0 (.m2, i) = none) (order : ℕ → List Iter) : expand K g order w = none := by
  have hV : 0 < g.n * g.n * g.nz := Nat.mul_pos (Nat.mul_pos hn hn) hnz
  have hb : before g (w 0) = none := by
    unfold before memcpy
    rw [if_pos (fun i _ j _ => by simp [Geo.m2]), copyCells_none _ _ (g.m2 0, (.s, 0))
      (List.mem_map.2 ⟨0, by simpa using hV, rfl⟩) (.inl (hm2 _))]
    rfl
  obtain ⟨m, hm⟩ : ∃ m, g.ranks = m + 1 := ⟨g.ranks - 1, by omega⟩
  unfold expand onAll loop
  rw [hm, List.range_succ_eq_map, List.foldlM_cons]
  dsimp only
  rw [hb]
  rfl

end

section
variable {K : Type} [Field K] [LinearOrder K] [IsStrictOrderedRing K]

theorem lin_range {k n X : ℕ} (hk : 0 < k) (hn : 0 < n) (hX : X < k * n) {f : ℕ → K} {a b : K}
    (hf : ∀ x < n, a ≤ f x ∧ f x ≤ b) : a ≤ lin K k n f X ∧ lin K k n f X ≤ b := by
  have hk' : (0 : K) < (k : K) := Nat.cast_pos.2 hk
  obtain ⟨l1, l2⟩ := hf (X / k) (Nat.div_lt_of_lt_mul hX)
  obtain ⟨l3, l4⟩ := hf ((X / k + 1) % n) (Nat.mod_lt _ hn)
  have t0 : (0 : K) ≤ ((X % k : ℕ) : K) / k := div_nonneg (Nat.cast_nonneg _) hk'.le
  have t1 : ((X % k : ℕ) : K) / k ≤ 1 := by
    rw [div_le_one hk']
    exact Nat.cast_le.2 (Nat.mod_lt _ hk).le
  unfold lin
  simp only [smul_eq_mul]
  constructor <;> nlinarith

/-- C57: the expansion creates no values outside the range of the file. -/
theorem C57_range (k n T : ℕ) (hk : 0 < k) (hn : 0 < n) (hT : 0 < T) (f : ℕ → ℕ → ℕ → K) (a b : K)
    (hf : ∀ x < n, ∀ y < n, ∀ z < T, a ≤ f x y z ∧ f x y z ≤ b) (X Y Z : ℕ) (hX : X < k * n)
    (hY : Y < k * n) (hZ : Z < k * T) :
    a ≤ tri K k n T f X Y Z ∧ tri K k n T f X Y Z ≤ b := by
  unfold tri
  exact lin_range hk hT hZ fun z hz => lin_range hk hn hY fun y hy => lin_range hk hn hX
    fun x hx => hf x hx y hy z hz

end

/-- A file of `2 × 2 × 2` points on two ranks, doubled; it holds `x + 10 y + 100 z`. -/
def pair : Geo := ⟨2, 1, 4, 2, 1, 2⟩

def pairData : ℕ → Mem ℚ := fun r a =>
  if a.1 = .s then some ((a.2 % 2 + 10 * (a.2 / 2) + 100 * r : ℕ) : ℚ) else some 0

example : ∃ w', expand ℚ pair (fun _ => (program pair).reverse) pairData = some w' ∧
    w' 1 (.s, 1 + 4 * (3 + 4 * 1)) = some (111 / 2) := by
  obtain ⟨w', e, p⟩ := C57_expand (K := ℚ) pair 2 ⟨by decide, by decide, by decide, by decide,
    by decide, by decide, by decide, by decide⟩ pairData
    (fun r _ => ⟨fun _ _ => by simp [pairData], fun _ _ => by simp [pairData]⟩)
    (fun x y z => ((x + 10 * y + 100 * z : ℕ) : ℚ))
    (by
      intro r hr x hx y hy z hz
      have hx' : x < 2 := hx
      have hz' : z = 0 := by simp only [pair] at hz; omega
      subst hz'
      simp only [pairData, pair, if_true]
      rw [show (x + 2 * (y + 2 * 0)) % 2 = x by omega, show (x + 2 * (y + 2 * 0)) / 2 = y by omega]
      simp)
    (fun _ => (program pair).reverse) (fun _ _ => List.reverse_perm _)
  refine ⟨w', e, ?_⟩
  have := p 1 (by decide) 1 (by decide) 3 (by decide) 1 (by decide)
  simp only [pair] at this
  rw [this]
  norm_num [tri, lin]

/-! ### Other ratios -/

/-- A file of `1 × 1 × 2` points read into `2 × 2 × 8`. -/
def long : Geo := ⟨1, 2, 2, 8, 1, 1⟩

/-- Every cell holds its number; the file holds `z` at height `z`. -/
def ramp : ℕ → Mem ℚ := fun _ a => some (a.2 : ℚ)

/-- C57: with different factors the values leave the range of the file: a file with values between 0
and 1 gives `3 / 2`. -/
theorem C57_overshoot : Sizes long 2 4 ∧ (∀ r < long.ranks, Room long (ramp r)) ∧
    Compact long ramp (fun _ _ z => (z : ℚ)) ∧
    ∃ w', expand ℚ long (fun _ => program long) ramp = some w' ∧ w' 0 (.s, 12) = some (3 / 2) := by
  have h1 : Sizes long 2 4 := ⟨by decide, by decide, by decide, by decide, by decide, by decide,
    by decide, by decide⟩
  have h2 : ∀ r < long.ranks, Room long (ramp r) := fun r _ => ⟨fun _ _ => rfl, fun _ _ => rfl⟩
  have h3 : Compact long ramp (fun _ _ z => (z : ℚ)) := by
    intro r hr x hx y hy z hz
    have r0 : r = 0 := by simp only [long] at hr; omega
    have x0 : x = 0 := by simp only [long] at hx; omega
    have y0 : y = 0 := by simp only [long] at hy; omega
    subst r0 x0 y0
    simp [ramp, long]
  refine ⟨h1, h2, h3, ?_⟩
  obtain ⟨w', e, p⟩ := C57_two_factors (K := ℚ) long 2 4 h1 ramp h2 _ h3 (fun _ => program long)
    (fun _ _ => List.Perm.refl _)
  refine ⟨w', e, ?_⟩
  have := p 0 (by decide) 0 (by decide) 0 (by decide) 3 (by decide)
  simp [long] at this
  rw [this]

/-- A file of `2 × 2 × 2` points read into `3 × 3 × 3`. -/
def odd : Geo := ⟨2, 2, 3, 3, 1, 1⟩

/-- The file holds `z` at height `z`. -/
def steps : ℕ → Mem ℚ := fun _ a => some ((a.2 / 4 : ℕ) : ℚ)

/-- C57: if the sides are no multiples of those of the file, two threads write the same points with
different values: the result depends on which of them comes last. -/
theorem C57_race : (∀ r < odd.ranks, Room odd (steps r)) ∧ Compact odd steps (fun _ _ z => (z : ℚ)) ∧
    ((expand ℚ odd (fun _ => program odd) steps).bind fun w => w 0 (.s, 9)) = some (4 / 3) ∧
    ((expand ℚ odd (fun _ => (program odd).reverse) steps).bind fun w => w 0 (.s, 9)) =
      some (2 / 3) := by
  refine ⟨fun r _ => ⟨fun _ _ => rfl, fun _ _ => rfl⟩, ?_, by decide +kernel, by decide +kernel⟩
  intro r hr x hx y hy z hz
  have r0 : r = 0 := by simp only [odd] at hr; omega
  subst r0
  have hx' : x < 2 := hx
  have hy' : y < 2 := hy
  simp only [steps, odd]
  rw [show (x + 2 * (y + 2 * z)) / 4 = z by omega]
  simp

end Jaxions.Expand
