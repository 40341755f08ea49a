import Verif.Model.Expand
import Verif.Spec.Expand
import Verif.Basic.Fold
import Verif.Basic.DivMod
import Mathlib.Tactic.FieldSimp
import Mathlib.Tactic.Ring
import Mathlib.Tactic.Linarith
import Mathlib.Tactic.Module
import Mathlib.Algebra.CharZero.Defs
import Mathlib.Data.Nat.Cast.Basic

namespace Jaxions.Expand

variable {K E : Type} [Field K] [CharZero K] [AddCommGroup E] [Module K E]

theorem mem_upTo {a b i : ℕ} : i ∈ upTo a b ↔ a ≤ i ∧ i ≤ b := by
  unfold upTo
  simp only [List.mem_map, List.mem_range]
  constructor
  · rintro ⟨k, h, rfl⟩; omega
  · rintro ⟨h1, h2⟩; exact ⟨i - a, by omega, by omega⟩

theorem mem_program {g : Geo} {i : Iter} : i ∈ program g ↔
    i.riz < g.nz ∧ i.riy < g.n ∧ i.rix < g.n ∧
    (first i.riz g.nz g.Nz ≤ i.iz ∧ i.iz ≤ last i.riz g.nz g.Nz g.Nz) ∧
    (first i.riy g.n g.N ≤ i.iy ∧ i.iy ≤ last i.riy g.n g.N g.N) ∧
    (first i.rix g.n g.N ≤ i.ix ∧ i.ix ≤ last i.rix g.n g.N g.Nz) := by
  unfold program
  simp only [List.mem_flatMap, List.mem_map, List.mem_range, mem_upTo]
  constructor
  · rintro ⟨a, ha, b, hb, c, hc, d, hd, e, he, f, hf, rfl⟩
    exact ⟨ha, hb, hc, hd, he, hf⟩
  · rintro ⟨ha, hb, hc, hd, he, hf⟩
    exact ⟨_, ha, _, hb, _, hc, _, hd, _, he, _, hf, rfl⟩

theorem first_mul {r m k : ℕ} (hm : 0 < m) : first r m (k * m) = k * r := by
  unfold first
  rw [show r * (k * m) = k * r * m by ring, Nat.mul_div_cancel _ hm]

theorem last_mul {r m k : ℕ} (hm : 0 < m) : last r m (k * m) (k * m) = k * (r + 1) - 1 := by
  unfold last
  rw [show (r + 1) * (k * m) = k * (r + 1) * m by ring, Nat.mul_mod_left, if_pos rfl,
    Nat.mul_div_cancel _ hm]

theorem last_mul' {r m k t : ℕ} (hm : 0 < m) (hr : r < m) :
    last r m (k * m) t ≤ k * (r + 1) - 1 ∨ (last r m (k * m) t = k * (r + 1) ∧ r + 1 < m) := by
  unfold last
  rw [show (r + 1) * (k * m) = k * (r + 1) * m by ring, Nat.mul_div_cancel _ hm]
  split
  · exact .inl (Nat.le_refl _)
  · rename_i h
    refine .inr ⟨rfl, ?_⟩
    rcases Nat.lt_or_ge (r + 1) m with h1 | h1
    · exact h1
    · exfalso
      apply h
      rw [show r + 1 = m by omega, Nat.mul_mod_right]

/-- One direction, inside a block. -/
theorem lin_block {k n r X : ℕ} (hk : 0 < k) (hn : 0 < n) (f : ℕ → E) (hX : X / k = r) :
    (1 - ((n : K) / ((k * n : ℕ) : K) * X - r)) • f r +
      ((n : K) / ((k * n : ℕ) : K) * X - r) • f ((r + 1) % n) = lin K k n f X := by
  have hk' : (k : K) ≠ 0 := Nat.cast_ne_zero.2 (by omega)
  have hn' : (n : K) ≠ 0 := Nat.cast_ne_zero.2 (by omega)
  have e : (n : K) / ((k * n : ℕ) : K) * X - r = ((X % k : ℕ) : K) / (k : K) := by
    have h3 : ((k * (X / k) + X % k : ℕ) : K) = (X : K) := by rw [Nat.div_add_mod]
    rw [hX] at h3
    push_cast at h3 ⊢
    rw [← h3]
    field_simp
    ring
  unfold lin
  rw [e, hX]

theorem div_block {k r X : ℕ} (hk : 0 < k) (h1 : k * r ≤ X) (h2 : X ≤ k * (r + 1) - 1) :
    X / k = r := by
  have h3 : k * (r + 1) = k * r + k := by ring
  obtain ⟨a, rfl⟩ : ∃ a, X = k * r + a := ⟨X - k * r, by omega⟩
  rw [Nat.mul_add_div hk, Nat.div_eq_of_lt (by omega), Nat.add_zero]

/-- One direction: also at the point after the block. -/
theorem lin_weights {k n r X : ℕ} (hk : 0 < k) (hn : 0 < n) (f : ℕ → E) (h1 : k * r ≤ X)
    (h2 : X ≤ k * (r + 1) - 1 ∨ (X = k * (r + 1) ∧ r + 1 < n)) :
    (1 - ((n : K) / ((k * n : ℕ) : K) * X - r)) • f r +
      ((n : K) / ((k * n : ℕ) : K) * X - r) • f ((r + 1) % n) = lin K k n f X := by
  have hk' : (k : K) ≠ 0 := Nat.cast_ne_zero.2 (by omega)
  have hn' : (n : K) ≠ 0 := Nat.cast_ne_zero.2 (by omega)
  rcases h2 with h2 | ⟨h2, h3⟩
  · exact lin_block hk hn f (div_block hk h1 h2)
  · have e : (n : K) / ((k * n : ℕ) : K) * X - r = 1 := by
      rw [h2]
      push_cast
      field_simp
      ring
    rw [e]
    unfold lin
    rw [h2, Nat.mul_mod_right, Nat.mul_div_cancel_left _ hk, Nat.mod_eq_of_lt h3]
    simp

/-- Value of a point of one rank: `c` is the coarse field of the rank with one more slice. -/
def val (K : Type) [Field K] [Module K E] (k kz n : ℕ) (c : ℕ → ℕ → ℕ → E) (x y z : ℕ) : E :=
  (1 - ((z : K) / k - (z / kz : ℕ))) • lin K k n (fun b => lin K k n (fun a => c a b (z / kz)) x) y +
    ((z : K) / k - (z / kz : ℕ)) •
      lin K k n (fun b => lin K k n (fun a => c a b (z / kz + 1)) x) y

/-- The coarse data of a rank in `m2`. -/
def Coarse (g : Geo) (h : Mem E) (c : ℕ → ℕ → ℕ → E) : Prop :=
  ∀ x < g.n, ∀ y < g.n, ∀ z ≤ g.nz, h (g.m2 (x + g.n * (y + g.n * z))) = some (c x y z)

omit [CharZero K] in
theorem eight (dx dy dz : K) (a b c d e f g h : E) :
    ((1 - dx) * (1 - dy) * (1 - dz)) • a + (dx * (1 - dy) * (1 - dz)) • b +
      ((1 - dx) * dy * (1 - dz)) • c + (dx * dy * (1 - dz)) • d +
      ((1 - dx) * (1 - dy) * dz) • e + (dx * (1 - dy) * dz) • f +
      ((1 - dx) * dy * dz) • g + (dx * dy * dz) • h =
    (1 - dz) • ((1 - dy) • ((1 - dx) • a + dx • b) + dy • ((1 - dx) • c + dx • d)) +
      dz • ((1 - dy) • ((1 - dx) • e + dx • f) + dy • ((1 - dx) • g + dx • h)) := by
  module

theorem site_spec {g : Geo} {k kz : ℕ} (hk : 0 < k) (hkz : 0 < kz) (hN : g.N = k * g.n)
    (hNz : g.Nz = kz * g.nz) {h : Mem E} {c : ℕ → ℕ → ℕ → E} (hc : Coarse g h c)
    (hs : ∀ i < g.N * g.N * g.Nz, (h (.s, i)).isSome) {i : Iter} (hi : i ∈ program g) :
    i.ix < g.N ∧ i.iy < g.N ∧ i.iz < g.Nz ∧ i.iz / kz = i.riz ∧
    site K g h i = some fun a => if a = (.s, i.ix + g.N * (i.iy + g.N * i.iz)) then
      some (val K k kz g.n c i.ix i.iy i.iz) else h a := by
  obtain ⟨hz, hy, hx, ⟨z1, z2⟩, ⟨y1, y2⟩, x1, x2⟩ := mem_program.1 hi
  have hn : 0 < g.n := by omega
  have hnz : 0 < g.nz := by omega
  rw [hN, first_mul hn] at y1 x1
  rw [hN, last_mul hn] at y2
  rw [hNz, first_mul hnz] at z1
  rw [hNz, last_mul hnz] at z2
  rw [hN] at x2
  have x3 : i.ix ≤ k * (i.rix + 1) - 1 ∨ (i.ix = k * (i.rix + 1) ∧ i.rix + 1 < g.n) := by
    rcases last_mul' (t := g.Nz) hn hx with h1 | ⟨h1, h2⟩
    · exact .inl (x2.trans h1)
    · rw [h1] at x2
      rcases Nat.eq_or_lt_of_le x2 with h3 | h3
      · exact .inr ⟨h3, h2⟩
      · exact .inl (by omega)
  have bx : i.ix < g.N := by
    rw [hN]
    rcases x3 with h1 | ⟨h1, h2⟩
    · have : k * (i.rix + 1) ≤ k * g.n := Nat.mul_le_mul_left _ hx
      have : 0 < k * (i.rix + 1) := Nat.mul_pos hk (by omega)
      omega
    · have : k * (i.rix + 1 + 1) ≤ k * g.n := Nat.mul_le_mul_left _ h2
      rw [Nat.mul_add] at this
      omega
  have by' : i.iy < g.N := by
    rw [hN]
    have : k * (i.riy + 1) ≤ k * g.n := Nat.mul_le_mul_left _ hy
    have : 0 < k * (i.riy + 1) := Nat.mul_pos hk (by omega)
    omega
  have bz : i.iz < g.Nz := by
    rw [hNz]
    have : kz * (i.riz + 1) ≤ kz * g.nz := Nat.mul_le_mul_left _ hz
    have : 0 < kz * (i.riz + 1) := Nat.mul_pos hkz (by omega)
    omega
  have dz := div_block hkz z1 z2
  refine ⟨bx, by', bz, dz, ?_⟩
  have hk' : (k : K) ≠ 0 := Nat.cast_ne_zero.2 (by omega)
  have hn' : (g.n : K) ≠ 0 := Nat.cast_ne_zero.2 (by omega)
  have mx : (i.rix + 1) % g.n < g.n := Nat.mod_lt _ hn
  have my : (i.riy + 1) % g.n < g.n := Nat.mod_lt _ hn
  have ht : (h (.s, i.ix + g.N * (i.iy + g.N * i.iz))).isSome := by
    apply hs
    have e1 := pair_lt (a := g.N) (b := g.N) (q := i.iy) (r := i.ix) by' bx
    have e2 := pair_lt (a := g.Nz) (b := g.N * g.N) (q := i.iz) (r := i.iy * g.N + i.ix) bz e1
    calc i.ix + g.N * (i.iy + g.N * i.iz) = i.iz * (g.N * g.N) + (i.iy * g.N + i.ix) := by ring
      _ < g.Nz * (g.N * g.N) := e2
      _ = g.N * g.N * g.Nz := by ring
  unfold site
  dsimp only
  rw [hc _ hx _ hy _ (by omega), hc _ hx _ hy _ (by omega), hc _ hx _ my _ (by omega),
    hc _ mx _ hy _ (by omega), hc _ hx _ my _ (by omega), hc _ mx _ hy _ (by omega),
    hc _ mx _ my _ (by omega), hc _ mx _ my _ (by omega)]
  simp only [Option.bind_some]
  rw [write_eq _ _ _ ht, eight, hN]
  rw [lin_weights (f := fun a => c a i.riy i.riz) hk hn x1 x3,
    lin_weights (f := fun a => c a ((i.riy + 1) % g.n) i.riz) hk hn x1 x3,
    lin_weights (f := fun a => c a i.riy (i.riz + 1)) hk hn x1 x3,
    lin_weights (f := fun a => c a ((i.riy + 1) % g.n) (i.riz + 1)) hk hn x1 x3]
  rw [lin_weights (f := fun b => lin K k g.n (fun a => c a b i.riz) i.ix) hk hn y1 (.inl y2),
    lin_weights (f := fun b => lin K k g.n (fun a => c a b (i.riz + 1)) i.ix) hk hn y1 (.inl y2)]
  have ez : (g.n : K) / ((k * g.n : ℕ) : K) * i.iz - i.riz = (i.iz : K) / k - i.riz := by
    push_cast
    field_simp
  unfold val
  rw [ez, dz]

/-- The loops of one rank, in any order. -/
theorem loops_spec {g : Geo} {k kz : ℕ} (hk : 0 < k) (hkz : 0 < kz) (hN : g.N = k * g.n)
    (hNz : g.Nz = kz * g.nz) {h : Mem E} {c : ℕ → ℕ → ℕ → E} (hc : Coarse g h c)
    (hs : ∀ i < g.N * g.N * g.Nz, (h (.s, i)).isSome) {order : List Iter}
    (ho : order.Perm (program g)) :
    ∃ h', order.foldlM (site K g) h = some h' ∧ ∀ x < g.N, ∀ y < g.N, ∀ z < g.Nz,
      h' (.s, x + g.N * (y + g.N * z)) = some (val K k kz g.n c x y z) := by
  obtain ⟨h', e, p1, p2, p3⟩ := foldlM_inv (f := site K g) (s := h) order
    (P := fun done t => Coarse g t c ∧ (∀ i < g.N * g.N * g.Nz, (t (.s, i)).isSome) ∧
      ∀ i ∈ done, t (.s, i.ix + g.N * (i.iy + g.N * i.iz)) =
        some (val K k kz g.n c i.ix i.iy i.iz))
    ⟨hc, hs, by simp⟩
    (by
      rintro pre i post rfl t ⟨t1, t2, t3⟩
      have hi : i ∈ program g := ho.mem_iff.1 (by simp)
      obtain ⟨bx, by', bz, -, e⟩ := site_spec (K := K) hk hkz hN hNz t1 t2 hi
      refine ⟨_, e, ?_, ?_, ?_⟩
      · intro x hx y hy z hz
        dsimp only
        rw [if_neg (by simp [Geo.m2])]
        exact t1 x hx y hy z hz
      · intro j hj
        split
        · rfl
        · exact t2 j hj
      · intro j hj
        by_cases hji : (Buf.s, j.ix + g.N * (j.iy + g.N * j.iz)) =
            (Buf.s, i.ix + g.N * (i.iy + g.N * i.iz))
        · rw [if_pos hji]
          have hjp : j ∈ program g := by
            apply ho.mem_iff.1
            rcases List.mem_append.1 hj with hj | hj
            · simp [hj]
            · simp at hj; simp [hj]
          obtain ⟨bx', by'', -, -, -⟩ := site_spec (K := K) hk hkz hN hNz t1 t2 hjp
          have e0 : j.ix + g.N * (j.iy + g.N * j.iz) = i.ix + g.N * (i.iy + g.N * i.iz) :=
            (Prod.mk.inj hji).2
          have e1 := pair_inj (b := g.N) (q := j.iy + g.N * j.iz) (q' := i.iy + g.N * i.iz) bx' bx
            (by linarith)
          have e2 := pair_inj (b := g.N) (q := j.iz) (q' := i.iz) by'' by' (by linarith [e1.1])
          rw [e1.2, e2.1, e2.2]
        · rw [if_neg hji]
          rcases List.mem_append.1 hj with hj | hj
          · exact t3 j hj
          · simp at hj; subst hj; exact absurd rfl hji)
  refine ⟨h', e, fun x hx y hy z hz => ?_⟩
  have hn : 0 < g.n := by
    rcases Nat.eq_zero_or_pos g.n with h0 | h0
    · rw [hN, h0, Nat.mul_zero] at hx; omega
    · exact h0
  have hnz : 0 < g.nz := by
    rcases Nat.eq_zero_or_pos g.nz with h0 | h0
    · rw [hNz, h0, Nat.mul_zero] at hz; omega
    · exact h0
  have blk : ∀ {q X : ℕ}, 0 < q → q * (X / q) ≤ X ∧ X ≤ q * (X / q + 1) - 1 := by
    intro q X hq
    have h1 := Nat.div_add_mod X q
    have h2 := Nat.mod_lt X hq
    rw [Nat.mul_add]
    omega
  refine p3 ⟨z / kz, y / k, x / k, z, y, x⟩ (ho.mem_iff.2 (mem_program.2 ?_))
  refine ⟨?_, ?_, ?_, ⟨?_, ?_⟩, ⟨?_, ?_⟩, ?_, ?_⟩
  · exact Nat.div_lt_of_lt_mul (hNz ▸ hz)
  · exact Nat.div_lt_of_lt_mul (hN ▸ hy)
  · exact Nat.div_lt_of_lt_mul (hN ▸ hx)
  · show first (z / kz) g.nz g.Nz ≤ z
    rw [hNz, first_mul hnz]; exact (blk hkz).1
  · show z ≤ last (z / kz) g.nz g.Nz g.Nz
    rw [hNz, last_mul hnz]; exact (blk hkz).2
  · show first (y / k) g.n g.N ≤ y
    rw [hN, first_mul hn]; exact (blk hk).1
  · show y ≤ last (y / k) g.n g.N g.N
    rw [hN, last_mul hn]; exact (blk hk).2
  · show first (x / k) g.n g.N ≤ x
    rw [hN, first_mul hn]; exact (blk hk).1
  · show x ≤ last (x / k) g.n g.N g.Nz
    refine (blk (q := k) (X := x) hk).2.trans ?_
    unfold last
    rw [hN, show (x / k + 1) * (k * g.n) = k * (x / k + 1) * g.n by ring, Nat.mul_div_cancel _ hn]
    split <;> omega

omit [AddCommGroup E] in
theorem onAll_spec {n : ℕ} {f : ℕ → Mem E → Option (Mem E)} {w : ℕ → Mem E}
    {Q : ℕ → Mem E → Prop} (hf : ∀ r < n, ∃ h, f r (w r) = some h ∧ Q r h) :
    ∃ w', onAll n f w = some w' ∧ (∀ r < n, Q r (w' r)) ∧ ∀ r, n ≤ r → w' r = w r := by
  obtain ⟨w', e, p1, p2⟩ := loop_inv (n := n) (s := w)
    (body := fun r w => (f r (w r)).map fun h r' => if r' = r then h else w r')
    (P := fun m t => (∀ r < m, Q r (t r)) ∧ ∀ r, m ≤ r → t r = w r)
    ⟨by omega, fun _ _ => rfl⟩
    (by
      rintro r hr t ⟨t1, t2⟩
      obtain ⟨h, e, q⟩ := hf r hr
      refine ⟨fun r' => if r' = r then h else t r', by rw [t2 r (Nat.le_refl _), e]; rfl, ?_, ?_⟩
      · intro j hj
        dsimp only
        split
        · rename_i hjr; rw [hjr]; exact q
        · exact t1 j (by omega)
      · intro j hj
        dsimp only
        rw [if_neg (by omega)]
        exact t2 j (by omega))
  exact ⟨w', e, p1, p2⟩

theorem Sizes.fits {g : Geo} {k kz : ℕ} (hg : Sizes g k kz) :
    g.n * g.n * (g.nz + 1) ≤ g.N * g.N * g.Nz ∧ g.n * g.n * g.nz ≤ g.N * g.N * (g.Nz - 1) ∧
    g.n * g.n ≤ g.N * g.N ∧ g.N * g.N * (g.Nz - 1) + g.N * g.N = g.N * g.N * g.Nz ∧
    g.n * g.n * (g.nz - 1) + g.n * g.n = g.n * g.n * g.nz ∧ 1 ≤ g.n * g.n := by
  obtain ⟨k2, kz2, n1, nz1, ng1, ngz, hN, hNz⟩ := hg
  have h1 : g.n ≤ g.N := by rw [hN]; nlinarith
  have h2 : g.n * g.n ≤ g.N * g.N := Nat.mul_le_mul h1 h1
  have h3 : 2 * g.nz ≤ g.Nz := by rw [hNz]; exact Nat.mul_le_mul_right _ kz2
  have h4 : 1 ≤ g.n * g.n := Nat.mul_le_mul n1 n1
  refine ⟨Nat.mul_le_mul h2 (by omega), Nat.mul_le_mul h2 (by omega), h2, ?_, ?_, h4⟩
  · obtain ⟨m, hm⟩ : ∃ m, g.Nz = m + 1 := ⟨g.Nz - 1, by omega⟩
    rw [hm, Nat.add_sub_cancel]; ring
  · obtain ⟨m, hm⟩ : ∃ m, g.nz = m + 1 := ⟨g.nz - 1, by omega⟩
    rw [hm, Nat.add_sub_cancel]; ring

omit [AddCommGroup E] in
theorem before_spec {g : Geo} {k kz : ℕ} (hg : Sizes g k kz) {h : Mem E} (hr : Room g h) :
    ∃ h', before g h = some h' ∧ Room g h' ∧
      ∀ i < g.n * g.n * g.nz, h' (g.m2 i) = h (.s, i) := by
  obtain ⟨f1, f2, f3, f4, f5, f6⟩ := hg.fits
  obtain ⟨r1, r2⟩ := hr
  have hV : g.N * g.N * (g.Nz + 2 * g.Ng) = g.N * g.N * g.Nz + (g.start + g.start) := by
    unfold Geo.start; ring
  have hs : g.n * g.n * (g.nz + 1) = g.n * g.n * g.nz + g.n * g.n := by ring
  have key : ∀ (h h' : Mem E), Room g h →
      (∀ a, (h' a).isSome = (h a).isSome) → Room g h' := by
    intro h h' hr ha
    exact ⟨fun i hi => by rw [ha]; exact hr.1 i hi, fun i hi => by rw [ha]; exact hr.2 i hi⟩
  obtain ⟨h1, e1, p1, q1⟩ := memcpy_spec g.m2 (fun k => (Buf.s, k)) (g.n * g.n * g.nz) h
    (fun i hi => r1 i (by omega)) (fun i hi => r2 _ (by omega))
    (fun i _ j _ e => by
      have := (Prod.mk.inj e).2
      omega)
    (fun i _ j _ => by simp [Geo.m2])
  have R1 : Room g h1 := by
    refine key h h1 ⟨r1, r2⟩ fun a => ?_
    by_cases ha : ∃ i < g.n * g.n * g.nz, a = g.m2 i
    · obtain ⟨i, hi, rfl⟩ := ha
      rw [p1 i hi]
      rw [r1 i (by omega)]
      exact (r2 _ (by omega)).symm
    · rw [q1 a fun i hi e => ha ⟨i, hi, e⟩]
  obtain ⟨h2, e2, p2, q2⟩ := memcpy_spec (fun k => g.m2 (g.N * g.N * (g.Nz - 1) + k))
    (fun k => g.m2 (g.n * g.n * (g.nz - 1) + k)) (g.n * g.n) h1
    (fun i hi => R1.2 _ (by omega)) (fun i hi => R1.2 _ (by omega))
    (fun i _ j _ e => by
      have := (Prod.mk.inj e).2
      omega)
    (fun i hi j hj e => by
      have := (Prod.mk.inj e).2
      omega)
  refine ⟨h2, by unfold before; rw [e1]; exact e2, ?_, ?_⟩
  · refine key h1 h2 R1 fun a => ?_
    by_cases ha : ∃ i < g.n * g.n, a = g.m2 (g.N * g.N * (g.Nz - 1) + i)
    · obtain ⟨i, hi, rfl⟩ := ha
      rw [p2 i hi]
      exact (R1.2 _ (by omega)).trans (R1.2 _ (by omega)).symm
    · rw [q2 a fun i hi e => ha ⟨i, hi, e⟩]
  · intro i hi
    rw [q2 _ fun j hj e => by
      have := (Prod.mk.inj e).2
      omega, p1 i hi]

omit [AddCommGroup E] in
theorem after_spec {g : Geo} {k kz : ℕ} (hg : Sizes g k kz) {h : Mem E} (hr : Room g h) :
    ∃ h', after g h = some h' ∧ Room g h' ∧
      (∀ i < g.n * g.n * g.nz, h' (g.m2 i) = h (g.m2 i)) ∧
      ∀ i < g.n * g.n, h' (g.m2 (g.n * g.n * g.nz + i)) = h (.m2, g.back + i) := by
  obtain ⟨f1, f2, f3, f4, f5, f6⟩ := hg.fits
  obtain ⟨r1, r2⟩ := hr
  have hV : g.N * g.N * (g.Nz + 2 * g.Ng) = g.N * g.N * g.Nz + (g.start + g.start) := by
    unfold Geo.start; ring
  have hs : g.n * g.n * (g.nz + 1) = g.n * g.n * g.nz + g.n * g.n := by ring
  have hst : g.n * g.n ≤ g.start := f3.trans (Nat.le_mul_of_pos_right _ hg.ng1)
  have hb : g.back = g.start + g.N * g.N * g.Nz := rfl
  have key : ∀ (h h' : Mem E), Room g h →
      (∀ a, (h' a).isSome = (h a).isSome) → Room g h' := by
    intro h h' hr ha
    exact ⟨fun i hi => by rw [ha]; exact hr.1 i hi, fun i hi => by rw [ha]; exact hr.2 i hi⟩
  obtain ⟨h1, e1, p1, q1⟩ := memmove_spec (fun k => (Buf.m2, g.start - g.n * g.n + k))
    (fun k => (Buf.m2, k)) (g.n * g.n) h
    (fun i hi => r2 i (by omega)) (fun i hi => r2 _ (by omega))
    (fun i _ j _ e => by
      have := (Prod.mk.inj e).2
      omega)
  have R1 : Room g h1 := by
    refine key h h1 ⟨r1, r2⟩ fun a => ?_
    by_cases ha : ∃ i < g.n * g.n, a = (Buf.m2, g.start - g.n * g.n + i)
    · obtain ⟨i, hi, rfl⟩ := ha
      rw [p1 i hi, r2 i (by omega)]
      exact (r2 _ (by omega)).symm
    · rw [q1 a fun i hi e => ha ⟨i, hi, e⟩]
  obtain ⟨h2, e2, p2, q2⟩ := memmove_spec (fun k => g.m2 (g.n * g.n * g.nz + k))
    (fun k => (Buf.m2, g.back + k)) (g.n * g.n) h1
    (fun i hi => R1.2 _ (by omega)) (fun i hi => R1.2 _ (by omega))
    (fun i _ j _ e => by
      have := (Prod.mk.inj e).2
      omega)
  refine ⟨h2, by unfold after; rw [e1]; exact e2, ?_, ?_, ?_⟩
  · refine key h1 h2 R1 fun a => ?_
    by_cases ha : ∃ i < g.n * g.n, a = g.m2 (g.n * g.n * g.nz + i)
    · obtain ⟨i, hi, rfl⟩ := ha
      rw [p2 i hi, R1.2 _ (by omega)]
      exact (R1.2 _ (by omega)).symm
    · rw [q2 a fun i hi e => ha ⟨i, hi, e⟩]
  · intro i hi
    rw [q2 _ fun j hj e => by
      have := (Prod.mk.inj e).2
      omega, q1 _ fun j hj e => by
      have := (Prod.mk.inj e).2
      omega]
  · intro i hi
    rw [p2 i hi, q1 _ fun j hj e => by
      have := (Prod.mk.inj e).2
      omega]

/-- Slice `z` of rank `r`, or the first of the next rank, on the whole lattice. -/
theorem slice_mod {R nz r z : ℕ} (hr : r < R) (hz : z ≤ nz) (hnz : 0 < nz) :
    (z < nz → (r * nz + z) % (R * nz) = r * nz + z) ∧
    (z = nz → (r * nz + z) % (R * nz) = (r + 1) % R * nz) := by
  constructor
  · intro h
    exact Nat.mod_eq_of_lt (pair_lt hr h)
  · rintro rfl
    rw [show r * z + z = (r + 1) * z by ring, Nat.mul_mod_mul_right]

theorem expand_spec {g : Geo} {k kz : ℕ} (hg : Sizes g k kz) {w : ℕ → Mem E}
    (hw : ∀ r < g.ranks, Room g (w r)) {f : ℕ → ℕ → ℕ → E} (hf : Compact g w f)
    {order : ℕ → List Iter} (ho : ∀ r < g.ranks, (order r).Perm (program g)) :
    ∃ w', expand K g order w = some w' ∧ ∀ r < g.ranks, ∀ x < g.N, ∀ y < g.N, ∀ z < g.Nz,
      w' r (.s, x + g.N * (y + g.N * z)) =
        some (val K k kz g.n (fun a b c => f a b ((r * g.nz + c) % (g.ranks * g.nz))) x y z) := by
  obtain ⟨f1, f2, f3, f4, f5, f6⟩ := hg.fits
  have hst : g.n * g.n ≤ g.start := f3.trans (Nat.le_mul_of_pos_right _ hg.ng1)
  have hb : g.back = g.start + g.N * g.N * g.Nz := rfl
  have hsN : g.start ≤ g.N * g.N * g.Nz := Nat.mul_le_mul_left _ hg.ngz
  have hV : g.N * g.N * (g.Nz + 2 * g.Ng) = g.N * g.N * g.Nz + (g.start + g.start) := by
    unfold Geo.start; ring
  have ix : ∀ {x y z : ℕ}, x < g.n → y < g.n → z < g.nz →
      x + g.n * (y + g.n * z) < g.n * g.n * g.nz := by
    intro x y z hx hy hz
    have e1 := pair_lt (a := g.n) (b := g.n) (q := y) (r := x) hy hx
    have e2 := pair_lt (a := g.nz) (b := g.n * g.n) (q := z) (r := y * g.n + x) hz e1
    calc x + g.n * (y + g.n * z) = z * (g.n * g.n) + (y * g.n + x) := by ring
      _ < g.nz * (g.n * g.n) := e2
      _ = g.n * g.n * g.nz := by ring
  obtain ⟨w1, e1, p1, -⟩ := onAll_spec (n := g.ranks) (f := fun _ => before g) (w := w)
    (Q := fun r h => Room g h ∧ ∀ i < g.n * g.n * g.nz, h (g.m2 i) = w r (.s, i))
    (fun r hr => before_spec hg (hw r hr))
  have R2 : ∀ r < g.ranks, Room g (exchange g w1 r) := by
    intro r hr
    refine ⟨fun i hi => ?_, fun i hi => ?_⟩
    · unfold exchange
      rw [if_neg (by simp), if_neg (by simp)]
      exact (p1 r hr).1.1 i hi
    · unfold exchange
      have l1 : (r + g.ranks - 1) % g.ranks < g.ranks := Nat.mod_lt _ (by omega)
      have l2 : (r + 1) % g.ranks < g.ranks := Nat.mod_lt _ (by omega)
      dsimp only
      split_ifs with a b
      · exact (p1 _ l1).1.2 _ (by omega)
      · exact (p1 _ l2).1.2 _ (by omega)
      · exact (p1 r hr).1.2 i hi
  obtain ⟨w2, e2, p2, -⟩ := onAll_spec (n := g.ranks)
    (f := fun r h => (after g h).bind fun h => (order r).foldlM (site K g) h) (w := exchange g w1)
    (Q := fun r h => ∀ x < g.N, ∀ y < g.N, ∀ z < g.Nz, h (.s, x + g.N * (y + g.N * z)) =
      some (val K k kz g.n (fun a b c => f a b ((r * g.nz + c) % (g.ranks * g.nz))) x y z))
    (fun r hr => by
      obtain ⟨h1, a1, a2, a3, a4⟩ := after_spec hg (R2 r hr)
      have hc : Coarse g h1 fun a b c => f a b ((r * g.nz + c) % (g.ranks * g.nz)) := by
        intro x hx y hy z hz
        dsimp only
        rcases Nat.eq_or_lt_of_le hz with rfl | hz'
        · rw [(slice_mod hr hz hg.nz1).2 rfl]
          have l2 : (r + 1) % g.ranks < g.ranks := Nat.mod_lt _ (by omega)
          have b1 : y * g.n + x < g.n * g.n := pair_lt hy hx
          have b2 := ix hx hy hg.nz1
          have := a4 (y * g.n + x) b1
          rw [show g.n * g.n * g.nz + (y * g.n + x) = x + g.n * (y + g.n * g.nz) by ring] at this
          rw [this]
          unfold exchange
          dsimp only
          rw [if_neg (by omega), if_pos ⟨rfl, by omega, by omega⟩]
          have h2 := (p1 _ l2).2 (x + g.n * (y + g.n * 0)) b2
          rw [hf _ l2 x hx y hy 0 hg.nz1] at h2
          refine Eq.trans ?_ h2
          unfold Geo.m2
          congr 2
          rw [Nat.mul_zero, Nat.add_zero, Nat.mul_comm g.n y]
          omega
        · rw [(slice_mod hr hz hg.nz1).1 hz']
          have b := ix hx hy hz'
          rw [a3 _ b]
          have : exchange g w1 r (g.m2 (x + g.n * (y + g.n * z))) =
              w1 r (g.m2 (x + g.n * (y + g.n * z))) := by
            unfold exchange Geo.m2
            dsimp only
            rw [if_neg (by omega), if_neg (by omega)]
          rw [this, (p1 r hr).2 _ b, hf r hr x hx y hy z hz']
      obtain ⟨h2, c1, c2⟩ := loops_spec (K := K) (by have := hg.k2; omega)
        (by have := hg.kz2; omega) hg.N hg.Nz hc a2.1 (ho r hr)
      exact ⟨h2, by rw [a1]; exact c1, c2⟩)
  exact ⟨w2, by unfold expand; rw [e1]; exact e2, p2⟩

end Jaxions.Expand
