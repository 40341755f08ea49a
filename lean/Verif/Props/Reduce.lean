import Verif.Lemmas.Reduce

/-!
# C28: reduction of the grid
-/

namespace Jaxions
namespace Reduce

variable {K : Type} [Field K] [CharZero K]

/-- C28.  Reducing in place gives at every new site the interpolation of the *original* content at
`(ix L/n, iy L/n, iz Lz/nz)`; nothing behind the new grid changes and nothing outside of the old
one is touched. -/
theorem C28_in_place (L Lz n nz : Nat) (hn : 0 < n) (hnL : n ≤ L) (hnz : 0 < nz) (hnzL : nz ≤ Lz)
    (f : Nat → Nat → Nat → K) (h : Heap Nat K) (hf : Holds h L Lz f) :
    ∃ g, reduce L Lz n nz h = some g ∧
      (∀ ix < n, ∀ iy < n, ∀ iz < nz, g (ix + n * (iy + n * iz)) =
        some (trilinear f ((ix * L : ℚ) / n) ((iy * L : ℚ) / n) ((iz * Lz : ℚ) / nz))) ∧
      (∀ x, n * n * nz ≤ x → g x = h x) := by
  obtain ⟨g, e, hU⟩ := reduce_spec L Lz n nz hn hnL hnz hnzL f h hf
  refine ⟨g, e, ?_, ?_⟩
  · intro ix hix iy hiy iz hiz
    have hlt : ix + n * (iy + n * iz) < n * (n * nz) := by
      have e1 : n * (iz + 1) ≤ n * nz := Nat.mul_le_mul_left _ hiz
      have e2 : n * (iy + n * iz + 1) ≤ n * (n * nz) :=
        Nat.mul_le_mul_left _ (by rw [Nat.mul_add] at e1; omega)
      rw [Nat.mul_add] at e2
      omega
    rw [hU, if_pos hlt]
    unfold value
    rw [site_mod hix, site_div hix, site_mod hiy, site_div hiy]
    simp only [mul_div_assoc]
  · intro x hx
    rw [hU, if_neg (by rw [← Nat.mul_assoc]; omega)]

omit [CharZero K] in
/-- `lin` at a shifted coordinate, if both neighbours agree. -/
theorem lin_shift (g g' : Nat → K) (k : Nat) (x : ℚ) (hx : 0 ≤ x)
    (h1 : g (x.floor.toNat) = g' (k + x.floor.toNat))
    (h2 : x ≠ x.floor → g (x.floor.toNat + 1) = g' (k + x.floor.toNat + 1)) :
    lin g x = lin g' (k + x) := by
  have hfl : ((k : ℚ) + x).floor = k + x.floor := by
    apply le_antisymm
    · have := (Rat.floor_lt_iff (a := (k : ℚ) + x) (x := (k : ℤ) + x.floor + 1)).2 (by
        have := (Rat.floor_lt_iff (a := x) (x := x.floor + 1)).1 (by omega)
        push_cast at this ⊢
        linarith)
      omega
    · refine Rat.le_floor_iff.2 ?_
      have := (Rat.le_floor_iff (x := x.floor) (a := x)).1 le_rfl
      push_cast
      linarith
  have h0 : 0 ≤ x.floor := Rat.le_floor_iff.2 (by simpa using hx)
  have ht : ((k : ℤ) + x.floor).toNat = k + x.floor.toNat := by omega
  unfold lin
  rw [hfl, ht, h1]
  have e : ((k : ℚ) + x - ((k + x.floor : ℤ) : ℚ)) = x - x.floor := by push_cast; ring
  rw [e]
  by_cases hc : x = x.floor
  · rw [← hc]; simp
  · rw [h2 hc]

/-- C28.  The result does not depend on the number of ranks: rank `r` of `ranks`, which holds the
slices `r Lz … (r+1) Lz - 1` of the lattice `F`, gives the interpolation of the whole lattice at the
position of its sites in the whole new grid. -/
theorem C28_ranks (L Lz n nz ranks r : Nat) (hn : 0 < n) (hnL : n ≤ L) (hnz : 0 < nz)
    (hnzL : nz ≤ Lz) (hr : r < ranks) (F : Nat → Nat → Nat → K) (h : Heap Nat K)
    (hF : Holds h L Lz fun x y z => F x y (r * Lz + z)) :
    ∃ g, reduce L Lz n nz h = some g ∧
      ∀ ix < n, ∀ iy < n, ∀ iz < nz, g (ix + n * (iy + n * iz)) =
        some (trilinear F ((ix * L : ℚ) / n) ((iy * L : ℚ) / n)
          ((((r * nz + iz : Nat) : ℚ) * ((ranks * Lz : Nat) : ℚ)) / ((ranks * nz : Nat) : ℚ))) := by
  obtain ⟨g, e, hv, _⟩ := C28_in_place L Lz n nz hn hnL hnz hnzL _ h hF
  refine ⟨g, e, ?_⟩
  intro ix hix iy hiy iz hiz
  rw [hv ix hix iy hiy iz hiz]
  have hz : (((r * nz + iz : Nat) : ℚ) * ((ranks * Lz : Nat) : ℚ)) / ((ranks * nz : Nat) : ℚ) =
      ((r * Lz : Nat) : ℚ) + (iz * Lz : ℚ) / nz := by
    have h1 : (ranks : ℚ) ≠ 0 := by
      have : ranks ≠ 0 := by omega
      exact_mod_cast this
    have h2 : (nz : ℚ) ≠ 0 := by
      have : nz ≠ 0 := by omega
      exact_mod_cast this
    push_cast
    field_simp
  rw [hz]
  congr 1
  unfold trilinear
  have hnonneg : (0 : ℚ) ≤ (iz * Lz : ℚ) / nz := by positivity
  exact lin_shift _ _ (r * Lz) _ hnonneg rfl (fun _ => rfl)

/-- `lin` of a constant. -/
theorem lin_const (c : K) (x : ℚ) : lin (fun _ => c) x = c := by
  unfold lin; push_cast; ring

/-- C28.  The weights add up to one: a constant field stays the same constant. -/
theorem C28_constant (L Lz n nz : Nat) (hn : 0 < n) (hnL : n ≤ L) (hnz : 0 < nz) (hnzL : nz ≤ Lz)
    (c : K) (h : Heap Nat K) (hf : Holds h L Lz fun _ _ _ => c) :
    ∃ g, reduce L Lz n nz h = some g ∧
      ∀ ix < n, ∀ iy < n, ∀ iz < nz, g (ix + n * (iy + n * iz)) = some c := by
  obtain ⟨g, e, hv, _⟩ := C28_in_place L Lz n nz hn hnL hnz hnzL _ h hf
  refine ⟨g, e, fun ix hix iy hiy iz hiz => ?_⟩
  rw [hv ix hix iy hiy iz hiz]
  simp [trilinear, lin_const]

omit [CharZero K] in
/-- `lin` at a site. -/
theorem lin_site (g : Nat → K) (a : Nat) : lin g (a : ℚ) = g a := by
  have : ((a : ℚ)).floor = a := by
    show ⌊(a : ℚ)⌋ = a
    simp
  unfold lin
  rw [this]
  simp

/-- C28.  If the new sizes divide the old ones the new grid is a subset of the old one. -/
theorem C28_subset (L Lz n nz s t : Nat) (hn : 0 < n) (hs : L = s * n) (hs0 : 0 < s) (hnz : 0 < nz)
    (ht : Lz = t * nz) (ht0 : 0 < t) (f : Nat → Nat → Nat → K) (h : Heap Nat K)
    (hf : Holds h L Lz f) :
    ∃ g, reduce L Lz n nz h = some g ∧
      ∀ ix < n, ∀ iy < n, ∀ iz < nz, g (ix + n * (iy + n * iz)) =
        some (f (ix * s) (iy * s) (iz * t)) := by
  obtain ⟨g, e, hv, _⟩ := C28_in_place L Lz n nz hn (by rw [hs]; exact Nat.le_mul_of_pos_left _ hs0)
    hnz (by rw [ht]; exact Nat.le_mul_of_pos_left _ ht0) _ h hf
  refine ⟨g, e, fun ix hix iy hiy iz hiz => ?_⟩
  have h1 : (n : ℚ) ≠ 0 := by
    have : n ≠ 0 := by omega
    exact_mod_cast this
  have h2 : (nz : ℚ) ≠ 0 := by
    have : nz ≠ 0 := by omega
    exact_mod_cast this
  have e1 : ∀ i : Nat, ((i : ℚ) * (L : ℚ)) / n = ((i * s : Nat) : ℚ) := by
    intro i; rw [hs]; push_cast; field_simp
  have e2 : ((iz : ℚ) * (Lz : ℚ)) / nz = ((iz * t : Nat) : ℚ) := by
    rw [ht]; push_cast; field_simp
  rw [hv ix hix iy hiy iz hiz, e1, e1, e2]
  simp only [trilinear, lin_site]

section Order

variable {R : Type} [Field R] [LinearOrder R] [IsStrictOrderedRing R]

/-- `lin` between bounds, if the neighbours are. -/
theorem lin_bounds (g : Nat → R) (x : ℚ) (lo hi : R)
    (h1 : lo ≤ g x.floor.toNat ∧ g x.floor.toNat ≤ hi)
    (h2 : x ≠ x.floor → lo ≤ g (x.floor.toNat + 1) ∧ g (x.floor.toNat + 1) ≤ hi) :
    lo ≤ lin g x ∧ lin g x ≤ hi := by
  have f1 := (Rat.le_floor_iff (x := x.floor) (a := x)).1 le_rfl
  have f2 := (Rat.floor_lt_iff (a := x) (x := x.floor + 1)).1 (by omega)
  push_cast at f2
  have r0 : (0 : R) ≤ ((x - x.floor : ℚ) : R) := by
    have : (0 : ℚ) ≤ x - x.floor := by linarith
    exact_mod_cast this
  have r1 : ((x - x.floor : ℚ) : R) ≤ 1 := by
    have : x - x.floor ≤ (1 : ℚ) := by linarith
    exact_mod_cast this
  unfold lin
  by_cases hc : x = x.floor
  · rw [← hc]; simpa using h1
  · obtain ⟨a1, a2⟩ := h1
    obtain ⟨b1, b2⟩ := h2 hc
    rw [Rat.cast_sub, Rat.cast_one]
    generalize ((x - x.floor : ℚ) : R) = r at *
    constructor <;> nlinarith

/-- C28.  The reduced field stays between the bounds of the input. -/
theorem C28_bounds (L Lz n nz : Nat) (hn : 0 < n) (hnL : n ≤ L) (hnz : 0 < nz) (hnzL : nz ≤ Lz)
    (f : Nat → Nat → Nat → R) (h : Heap Nat R) (hf : Holds h L Lz f) (lo hi : R)
    (hb : ∀ x < L, ∀ y < L, ∀ z < Lz, lo ≤ f x y z ∧ f x y z ≤ hi) :
    ∃ g, reduce L Lz n nz h = some g ∧
      ∀ ix < n, ∀ iy < n, ∀ iz < nz, ∃ v, g (ix + n * (iy + n * iz)) = some v ∧ lo ≤ v ∧ v ≤ hi := by
  obtain ⟨g, e, hv, _⟩ := C28_in_place L Lz n nz hn hnL hnz hnzL _ h hf
  refine ⟨g, e, fun ix hix iy hiy iz hiz => ⟨_, hv ix hix iy hiy iz hiz, ?_⟩⟩
  have split : ∀ (M m i : Nat), 0 < m → m ≤ M → i < m →
      ((i * M : ℚ) / m).floor.toNat < M ∧
        ((i * M : ℚ) / m ≠ ((i * M : ℚ) / m).floor → ((i * M : ℚ) / m).floor.toNat + 1 < M) := by
    intro M m i h1 h2 h3
    obtain ⟨a, fa, _, aM, ca⟩ := coord M m i h1 h2 h3
    rw [mul_div_assoc, fa]
    refine ⟨by simpa using aM, fun hne => ?_⟩
    rcases ca with ⟨ea, _⟩ | ⟨_, la⟩
    · exact absurd (by rw [ea]; simp) hne
    · simpa using la
  obtain ⟨x1, x2⟩ := split L n ix hn hnL hix
  obtain ⟨y1, y2⟩ := split L n iy hn hnL hiy
  obtain ⟨z1, z2⟩ := split Lz nz iz hnz hnzL hiz
  have row : ∀ k < Lz, lo ≤ lin (fun j => lin (fun i => f i j k) ((ix * L : ℚ) / n)) ((iy * L : ℚ) / n)
      ∧ lin (fun j => lin (fun i => f i j k) ((ix * L : ℚ) / n)) ((iy * L : ℚ) / n) ≤ hi := by
    intro k hk
    have line : ∀ j < L, lo ≤ lin (fun i => f i j k) ((ix * L : ℚ) / n) ∧
        lin (fun i => f i j k) ((ix * L : ℚ) / n) ≤ hi := fun j hj =>
      lin_bounds _ _ lo hi (hb _ x1 j hj k hk) fun hne => hb _ (x2 hne) j hj k hk
    exact lin_bounds _ _ lo hi (line _ y1) fun hne => line _ (y2 hne)
  exact lin_bounds _ _ lo hi (row _ z1) fun hne => row _ (z2 hne)

end Order

/-! ### The reorganisation of `filter` -/

/-- C28.  `filter` collects every `seta`-th site of the padded map, all read before they are
overwritten. -/
theorem C28_cherry {α : Type} (Ly Lz seta : Nat) (hs : 0 < seta) (h : Heap Nat α)
    (halloc : ∀ x < (Ly + 2) * Ly * Lz, (h x).isSome) :
    ∃ g, cherry Ly Lz seta h = some g ∧
      (∀ ix < Ly / seta, ∀ iy < Ly / seta, ∀ iz < Lz / seta,
        g (ix + Ly / seta * (iy + Ly / seta * iz)) =
          h (ix * seta + (Ly + 2) * (iy * seta + Ly * (iz * seta)))) ∧
      (∀ x, Ly / seta * (Ly / seta) * (Lz / seta) ≤ x → g x = h x) := by
  obtain ⟨n, hnd⟩ : ∃ n, n = Ly / seta := ⟨_, rfl⟩
  obtain ⟨nz, hnzd⟩ : ∃ nz, nz = Lz / seta := ⟨_, rfl⟩
  have hnL : n * seta ≤ Ly := hnd ▸ Nat.div_mul_le_self _ _
  have hnzL : nz * seta ≤ Lz := hnzd ▸ Nat.div_mul_le_self _ _
  have hnL' : n ≤ Ly := le_trans (Nat.le_mul_of_pos_right _ hs) hnL
  -- content of the new cell `x`
  let src : Nat → Nat := fun x =>
    x % n * seta + (Ly + 2) * (x / n % n * seta + Ly * (x / n / n * seta))
  let Up : Nat → Heap Nat α → Prop := fun k g => ∀ x, g x = if x < k then h (src x) else h x
  have cell : ∀ ix iy iz, ix < n → iy < n → iz < nz → ∀ g, Up (ix + n * (iy + n * iz)) g →
      ∃ g', copyCell g (ix + n * iy + n * n * iz)
        (ix * seta + (Ly + 2) * iy * seta + Ly * (Ly + 2) * iz * seta) = some g' ∧
        Up (ix + 1 + n * (iy + n * iz)) g' := by
    intro ix iy iz hix hiy hiz g hg
    have a1 : ix + n * iy + n * n * iz = ix + n * (iy + n * iz) := by ring
    have a2 : ix * seta + (Ly + 2) * iy * seta + Ly * (Ly + 2) * iz * seta =
        ix * seta + (Ly + 2) * (iy * seta + Ly * (iz * seta)) := by ring
    have hsrc : src (ix + n * (iy + n * iz)) =
        ix * seta + (Ly + 2) * (iy * seta + Ly * (iz * seta)) := by
      simp only [src]
      rw [site_mod hix, site_div hix, site_mod hiy, site_div hiy]
    have bx : ix * seta < Ly := lt_of_lt_of_le (Nat.mul_lt_mul_of_pos_right hix hs) hnL
    have bY : iy * seta < Ly := lt_of_lt_of_le (Nat.mul_lt_mul_of_pos_right hiy hs) hnL
    have bZ : iz * seta < Lz := lt_of_lt_of_le (Nat.mul_lt_mul_of_pos_right hiz hs) hnzL
    have hlt : ix * seta + (Ly + 2) * (iy * seta + Ly * (iz * seta)) < (Ly + 2) * Ly * Lz := by
      have e1 : Ly * (iz * seta + 1) ≤ Ly * Lz := Nat.mul_le_mul_left _ bZ
      have e2 : (Ly + 2) * (iy * seta + Ly * (iz * seta) + 1) ≤ (Ly + 2) * (Ly * Lz) :=
        Nat.mul_le_mul_left _ (by rw [Nat.mul_add] at e1; omega)
      rw [Nat.mul_add] at e2
      rw [Nat.mul_assoc]
      omega
    have hle : ix + n * (iy + n * iz) ≤ ix * seta + (Ly + 2) * (iy * seta + Ly * (iz * seta)) := by
      have e0 : ∀ k, k ≤ k * seta := fun k => Nat.le_mul_of_pos_right _ hs
      have e1 : n * iz ≤ Ly * (iz * seta) := Nat.mul_le_mul hnL' (e0 iz)
      have e2 : n * (iy + n * iz) ≤ (Ly + 2) * (iy * seta + Ly * (iz * seta)) :=
        Nat.mul_le_mul (by omega) (Nat.add_le_add (e0 iy) e1)
      have := e0 ix
      omega
    rw [a1, a2]
    have r1 : g (ix * seta + (Ly + 2) * (iy * seta + Ly * (iz * seta))) =
        h (ix * seta + (Ly + 2) * (iy * seta + Ly * (iz * seta))) := by
      rw [hg, if_neg (by omega)]
    have r2 : g (ix + n * (iy + n * iz)) = h (ix + n * (iy + n * iz)) := by
      rw [hg, if_neg (by omega)]
    refine ⟨_, copyCell_eq g _ _ (by rw [r2]; exact halloc _ (by omega))
      (by rw [r1]; exact halloc _ hlt), ?_⟩
    intro x
    dsimp only
    by_cases hx : x = ix + n * (iy + n * iz)
    · subst hx
      rw [if_pos rfl, if_pos (by omega), r1, hsrc]
    · rw [if_neg hx, hg]
      by_cases hx' : x < ix + n * (iy + n * iz)
      · rw [if_pos hx', if_pos (by omega)]
      · rw [if_neg hx', if_neg (by omega)]
  obtain ⟨g, e, hU⟩ := loop_inv (n := nz) (P := fun iz g => Up (n * (n * iz)) g) (s := h)
    (body := fun iz h => loop n (fun iy h => loop n (fun ix h =>
      copyCell h (ix + n * iy + n * n * iz)
        (ix * seta + (Ly + 2) * iy * seta + Ly * (Ly + 2) * iz * seta)) h) h)
    (by intro x; simp) (by
      intro iz hiz g hg
      obtain ⟨g1, e1, hU1⟩ := loop_inv (n := n) (P := fun iy g => Up (n * (iy + n * iz)) g) (s := g)
        (body := fun iy h => loop n (fun ix h =>
          copyCell h (ix + n * iy + n * n * iz)
            (ix * seta + (Ly + 2) * iy * seta + Ly * (Ly + 2) * iz * seta)) h)
        (by simpa using hg) (by
          intro iy hiy g hg
          obtain ⟨g2, e2, hU2⟩ := loop_inv (n := n)
            (P := fun ix g => Up (ix + n * (iy + n * iz)) g) (s := g)
            (body := fun ix h => copyCell h (ix + n * iy + n * n * iz)
              (ix * seta + (Ly + 2) * iy * seta + Ly * (Ly + 2) * iz * seta))
            (by simpa using hg) (fun ix hix g hg => cell ix iy iz hix hiy hiz g hg)
          refine ⟨g2, e2, ?_⟩
          have : n * (iy + 1 + n * iz) = n + n * (iy + n * iz) := by ring
          rwa [this])
      refine ⟨g1, e1, ?_⟩
      have : n * (n * (iz + 1)) = n * (n + n * iz) := by ring
      rwa [this])
  rw [← hnd, ← hnzd]
  refine ⟨g, ?_, ?_, ?_⟩
  · unfold cherry
    rw [if_neg (by omega)]
    dsimp only
    rw [← hnd, ← hnzd]
    exact e
  · intro ix hix iy hiy iz hiz
    have hlt : ix + n * (iy + n * iz) < n * (n * nz) := by
      have e1 : n * (iz + 1) ≤ n * nz := Nat.mul_le_mul_left _ hiz
      have e2 : n * (iy + n * iz + 1) ≤ n * (n * nz) :=
        Nat.mul_le_mul_left _ (by rw [Nat.mul_add] at e1; omega)
      rw [Nat.mul_add] at e2
      omega
    rw [hU, if_pos hlt]
    simp only [src]
    rw [site_mod hix, site_div hix, site_mod hiy, site_div hiy]
  · intro x hx
    rw [hU, if_neg (by rw [← Nat.mul_assoc]; omega)]

/-! ### Where the result goes -/

/-- A transform that leaves the numbers `red` at the beginning of `m2` and no other array
touched. -/
def Leaves {α : Type} (tr : Heap (Buf × Nat) α → Option (Heap (Buf × Nat) α)) (vol : Nat)
    (red : Nat → α) : Prop :=
  ∀ h, (∀ i < vol, (h (.m2, i)).isSome) → ∃ h', tr h = some h' ∧
    (∀ i < vol, h' (.m2, i) = some (red i)) ∧ ∀ b, b ≠ .m2 → ∀ i, h' (b, i) = h (b, i)

/-- Copy out of `m2`. -/
theorem copyOut_spec {α : Type} (dst : Buf) (hd : dst ≠ .m2) (off n : Nat)
    (h : Heap (Buf × Nat) α) (h1 : ∀ i < n, (h (.m2, i)).isSome)
    (h2 : ∀ i < n, (h (dst, off + i)).isSome) :
    ∃ g, copyOut dst off n h = some g ∧ (∀ i < n, g (dst, off + i) = h (.m2, i)) ∧
      (∀ b i, b ≠ dst → g (b, i) = h (b, i)) := by
  obtain ⟨g, e, hv, hu⟩ := memcpy_spec (fun i => (dst, off + i)) (fun i => (Buf.m2, i)) n h
    h1 h2 (fun i _ j _ e => by simpa using e) (fun i _ j _ e => hd (by simpa using congrArg Prod.fst e))
  exact ⟨g, e, hv, fun b i hb => hu _ fun j _ e => hb (by simpa using congrArg Prod.fst e)⟩

/-- C28.  In place reduction of a field: the reduced angle and velocity are where the field with its
new dimensions looks for them, if both sizes shrink. -/
theorem C28_field {α : Type} (k : Kind) (d : Dims) (newLx newLz : Nat) (redM redV : Nat → α)
    (trM trV : Heap (Buf × Nat) α → Option (Heap (Buf × Nat) α)) (h : Heap (Buf × Nat) α)
    (hM : Leaves trM (newLx * newLx * newLz) redM) (hV : Leaves trV (newLx * newLx * newLz) redV)
    (hx : newLx < d.n1) (hz : newLz < d.Lz)
    (a2 : ∀ i < newLx * newLx * newLz, (h (.m2, i)).isSome)
    (am : ∀ i < d.n1 * d.n1 * (d.Lz + 2 * d.Ng), (h (.m, i)).isSome)
    (av : ∀ i < d.n1 * d.n1 * d.Lz, (h (.v, i)).isSome) :
    ∃ g d', runCpu k true d newLx newLz trM trV h = some (g, d') ∧
      d' = ⟨newLx, newLz, d.Ng⟩ ∧
      (∀ i < newLx * newLx * newLz, g (.m, d'.start + i) = some (redM i)) ∧
      (∀ i < newLx * newLx * newLz, g (.v, i) = some (redV i)) := by
  obtain ⟨h1, e1, v1, u1⟩ := hM h a2
  have sq : newLx * newLx ≤ d.n1 * d.n1 := Nat.mul_le_mul (by omega) (by omega)
  have b1 : newLx * newLx * newLz ≤ d.n1 * d.n1 * d.Lz := Nat.mul_le_mul sq (by omega)
  have b2 : newLx * newLx * d.Ng ≤ d.n1 * d.n1 * d.Ng := Nat.mul_le_mul_right _ sq
  have b3 : d.n1 * d.n1 * (d.Lz + 2 * d.Ng) = d.n1 * d.n1 * d.Lz + 2 * (d.n1 * d.n1 * d.Ng) := by
    ring
  obtain ⟨h2, e2, v2, u2⟩ := copyOut_spec .m (by decide) (newLx * newLx * d.Ng)
    (newLx * newLx * newLz) h1 (fun i hi => by rw [v1 i hi]; rfl)
    (fun i hi => by rw [u1 .m (by decide)]; exact am _ (by omega))
  obtain ⟨h3, e3, v3, u3⟩ := hV h2 (fun i hi => by rw [u2 .m2 i (by decide), v1 i hi]; rfl)
  obtain ⟨h4, e4, v4, u4⟩ := copyOut_spec .v (by decide) 0
    (newLx * newLx * newLz) h3 (fun i hi => by rw [v3 i hi]; rfl)
    (fun i hi => by
      rw [u3 .v (by decide), u2 .v _ (by decide), u1 .v (by decide)]; exact av _ (by omega))
  refine ⟨h4, ⟨newLx, newLz, d.Ng⟩, ?_, rfl, ?_, ?_⟩
  · simp [runCpu, e1, e2, e3, e4, setDims, hx, hz]
  · intro i hi
    show h4 (.m, newLx * newLx * d.Ng + i) = _
    rw [u4 .m _ (by decide), u3 .m (by decide), v2 i hi, v1 i hi]
  · intro i hi
    have := v4 i hi
    rw [Nat.zero_add] at this
    rw [this, v3 i hi]

/-- C28.  A complex field reduced into a new field. -/
theorem C28_new_saxion {α : Type} (d : Dims) (newLx newLz : Nat) (redM redV : Nat → α)
    (trM trV : Heap (Buf × Nat) α → Option (Heap (Buf × Nat) α)) (h : Heap (Buf × Nat) α)
    (hM : Leaves trM (newLx * newLx * newLz) redM) (hV : Leaves trV (newLx * newLx * newLz) redV)
    (a2 : ∀ i < newLx * newLx * newLz, (h (.m2, i)).isSome)
    (am : ∀ i < newLx * newLx * (newLz + 2 * d.Ng), (h (.outM, i)).isSome)
    (av : ∀ i < newLx * newLx * newLz, (h (.outV, i)).isSome) :
    ∃ g, runCpu .saxion false d newLx newLz trM trV h = some (g, d) ∧
      (∀ i < newLx * newLx * newLz, g (.outM, newLx * newLx * d.Ng + i) = some (redM i)) ∧
      (∀ i < newLx * newLx * newLz, g (.outV, i) = some (redV i)) ∧
      (∀ i, g (.m, i) = h (.m, i) ∧ g (.v, i) = h (.v, i)) := by
  obtain ⟨h1, e1, v1, u1⟩ := hM h a2
  have b3 : newLx * newLx * (newLz + 2 * d.Ng) =
      newLx * newLx * newLz + 2 * (newLx * newLx * d.Ng) := by ring
  obtain ⟨h2, e2, v2, u2⟩ := copyOut_spec .outM (by decide) (newLx * newLx * d.Ng)
    (newLx * newLx * newLz) h1 (fun i hi => by rw [v1 i hi]; rfl)
    (fun i hi => by rw [u1 .outM (by decide)]; exact am _ (by omega))
  obtain ⟨h3, e3, v3, u3⟩ := hV h2 (fun i hi => by rw [u2 .m2 i (by decide), v1 i hi]; rfl)
  obtain ⟨h4, e4, v4, u4⟩ := copyOut_spec .outV (by decide) 0
    (newLx * newLx * newLz) h3 (fun i hi => by rw [v3 i hi]; rfl)
    (fun i hi => by
      rw [u3 .outV (by decide), u2 .outV _ (by decide), u1 .outV (by decide)]
      exact av _ (by omega))
  refine ⟨h4, ?_, ?_, ?_, ?_⟩
  · simp [runCpu, e1, e2, e3, e4, Dims.start]
  · intro i hi
    rw [u4 .outM _ (by decide), u3 .outM (by decide), v2 i hi, v1 i hi]
  · intro i hi
    have := v4 i hi
    rw [Nat.zero_add] at this
    rw [this, v3 i hi]
  · intro i
    constructor
    · rw [u4 .m _ (by decide), u3 .m (by decide), u2 .m _ (by decide), u1 .m (by decide)]
    · rw [u4 .v _ (by decide), u3 .v (by decide), u2 .v _ (by decide), u1 .v (by decide)]

/-- C28, negative.  An angle reduced into a new field: the angle of the new field is never written,
and the angle of the old field is overwritten with the reduced one (`reducer.cpp:252-255`). -/
theorem C28_new_axion_lost {α : Type} (d : Dims) (newLx newLz : Nat) (redM redV : Nat → α)
    (trM trV : Heap (Buf × Nat) α → Option (Heap (Buf × Nat) α)) (h : Heap (Buf × Nat) α)
    (hM : Leaves trM (newLx * newLx * newLz) redM) (hV : Leaves trV (newLx * newLx * newLz) redV)
    (hx : newLx ≤ d.n1) (hz : newLz ≤ d.Lz)
    (a2 : ∀ i < newLx * newLx * newLz, (h (.m2, i)).isSome)
    (am : ∀ i < d.n1 * d.n1 * (d.Lz + 2 * d.Ng), (h (.m, i)).isSome)
    (av : ∀ i < newLx * newLx * newLz, (h (.outV, i)).isSome) :
    ∃ g, runCpu .axion false d newLx newLz trM trV h = some (g, d) ∧
      (∀ i, g (.outM, i) = h (.outM, i)) ∧
      (∀ i < newLx * newLx * newLz, g (.m, d.start + i) = some (redM i)) := by
  obtain ⟨h1, e1, v1, u1⟩ := hM h a2
  have sq : newLx * newLx ≤ d.n1 * d.n1 := Nat.mul_le_mul (by omega) (by omega)
  have b1 : newLx * newLx * newLz ≤ d.n1 * d.n1 * d.Lz := Nat.mul_le_mul sq (by omega)
  have b3 : d.n1 * d.n1 * (d.Lz + 2 * d.Ng) = d.n1 * d.n1 * d.Lz + 2 * (d.n1 * d.n1 * d.Ng) := by
    ring
  obtain ⟨h2, e2, v2, u2⟩ := copyOut_spec .m (by decide) d.start
    (newLx * newLx * newLz) h1 (fun i hi => by rw [v1 i hi]; rfl)
    (fun i hi => by
      rw [u1 .m (by decide)]
      exact am _ (by unfold Dims.start; omega))
  obtain ⟨h3, e3, v3, u3⟩ := hV h2 (fun i hi => by rw [u2 .m2 i (by decide), v1 i hi]; rfl)
  obtain ⟨h4, e4, v4, u4⟩ := copyOut_spec .outV (by decide) 0
    (newLx * newLx * newLz) h3 (fun i hi => by rw [v3 i hi]; rfl)
    (fun i hi => by
      rw [u3 .outV (by decide), u2 .outV _ (by decide), u1 .outV (by decide)]
      exact av _ (by omega))
  refine ⟨h4, ?_, ?_, ?_⟩
  · simp [runCpu, e1, e2, e3, e4]
  · intro i
    rw [u4 .outM _ (by decide), u3 .outM (by decide), u2 .outM _ (by decide), u1 .outM (by decide)]
  · intro i hi
    rw [u4 .m _ (by decide), u3 .m (by decide), v2 i hi, v1 i hi]

/-- C28, negative.  Reducing in place along one direction only leaves the dimensions of the field as
they were although the data are those of the smaller grid. -/
theorem C28_dims (d : Dims) (newLx newLz : Nat) :
    setDims d newLx newLz = ⟨newLx, newLz, d.Ng⟩ ↔
      (newLx < d.n1 ∧ newLz < d.Lz) ∨ (newLx = d.n1 ∧ newLz = d.Lz) := by
  unfold setDims
  split
  · rename_i h; simp [h]
  · rename_i h
    constructor
    · intro e
      right
      exact ⟨(congrArg Dims.n1 e).symm, (congrArg Dims.Lz e).symm⟩
    · rintro (h' | ⟨rfl, rfl⟩)
      · exact absurd h' h
      · rfl

/-! ### Cases -/

/-- `3 × 3 × 3` numbers `x² + 10 y + 100 z`. -/
def cube : Nat → Nat → Nat → ℚ := fun x y z => x * x + 10 * y + 100 * z

/-- The cube in memory. -/
def cubeMem : Heap Nat ℚ := fun a => if a < 27 then some (cube (a % 3) (a / 3 % 3) (a / 9)) else none

theorem cube_holds : Holds cubeMem 3 3 cube := by
  intro x hx y hy z hz
  have h1 : (x + 3 * (y + 3 * z)) % 3 = x := site_mod hx
  have h2 : (x + 3 * (y + 3 * z)) / 3 % 3 = y := by rw [site_div hx, site_mod hy]
  have h3 : (x + 3 * (y + 3 * z)) / 9 = z := by omega
  simp only [cubeMem, h1, h2, h3]
  rw [if_pos (by omega)]

/-- From 3 to 2 sites along each direction: the site `(1,1,1)` is at `(3/2, 3/2, 3/2)`. -/
example : ∃ g, reduce 3 3 2 2 cubeMem = some g ∧ g 7 = some (trilinear cube (3 / 2) (3 / 2) (3 / 2)) := by
  obtain ⟨g, e, hv, _⟩ := C28_in_place 3 3 2 2 (by decide) (by decide) (by decide) (by decide) cube
    cubeMem cube_holds
  refine ⟨g, e, ?_⟩
  have := hv 1 (by decide) 1 (by decide) 1 (by decide)
  norm_num at this
  exact this

example : (reduce 3 3 2 2 cubeMem).bind (fun g => g 7) = some (335 / 2) := by decide +kernel

/-- Bounds of the same reduction. -/
example : ∃ g, reduce 3 3 2 2 cubeMem = some g ∧ ∀ ix < 2, ∀ iy < 2, ∀ iz < 2, ∃ v,
    g (ix + 2 * (iy + 2 * iz)) = some v ∧ 0 ≤ v ∧ v ≤ 224 :=
  C28_bounds 3 3 2 2 (by decide) (by decide) (by decide) (by decide) cube cubeMem cube_holds 0 224
    (by
      intro x hx y hy z hz
      have a : (x : ℚ) ≤ 2 := by exact_mod_cast Nat.le_of_lt_succ hx
      have b : (y : ℚ) ≤ 2 := by exact_mod_cast Nat.le_of_lt_succ hy
      have c : (z : ℚ) ≤ 2 := by exact_mod_cast Nat.le_of_lt_succ hz
      have a' : (0 : ℚ) ≤ x := by positivity
      have b' : (0 : ℚ) ≤ y := by positivity
      have c' : (0 : ℚ) ≤ z := by positivity
      unfold cube
      constructor
      · positivity
      · nlinarith)

/-- Enlarging the grid is outside of the theorems, and it does read overwritten sites: two sites 1, 5
along x, enlarged to three, should give 5 (the last site) at `4/3`. -/
example : (reduce 2 1 3 1 (fun a => if a < 9 then some (if a = 1 then (5 : ℚ) else 1) else none)).bind
    (fun g => g 2) = some (11 / 3) := by
  decide +kernel

/-- `filter` with 4 neighbours: 8 × 8 × 4 padded sites. -/
example : ∃ g, cherry 8 4 4 (fun x => if x < 320 then some x else none) = some g ∧
    g 3 = some 44 := by
  obtain ⟨g, e, hv, _⟩ := C28_cherry 8 4 4 (by decide) (fun x => if x < 320 then some x else none)
    (by intro x hx; simp; omega)
  exact ⟨g, e, by simpa using hv 1 (by decide) 1 (by decide) 0 (by decide)⟩

end Reduce
end Jaxions
