import Verif.Spec.Run
import Verif.Props.Ghosts
import Verif.Props.Stencil
import Verif.Props.Tiles
import Verif.Basic.Fold
import Mathlib.Algebra.Ring.Periodic
/-
Lemmas for C59: bytes and cells, allocation, periodicity.
-/
namespace Jaxions.Run

open Stencil

variable {α : Type}

/-! ### Bytes and cells -/

theorem decode_of {sz : Nat} (hsz : 0 < sz) {h : Heap (Nat × Nat) (α × Nat)} {r a : Nat} {o : Option α}
    (e : ∀ k, k < sz → h (r, a * sz + k) = o.map fun x => (x, k)) : decode sz h (r, a) = o := by
  unfold decode
  cases o with
  | none =>
    rw [dif_neg]
    rintro ⟨x, hx⟩
    have := hx 0 hsz
    rw [e 0 hsz] at this
    exact absurd this (by simp)
  | some y =>
    have hex : ∃ x, ∀ k, k < sz → h (r, a * sz + k) = some (x, k) := ⟨y, fun k hk => by
      rw [e k hk]; rfl⟩
    rw [dif_pos hex]
    have h1 := hex.choose_spec 0 hsz
    rw [e 0 hsz] at h1
    simp only [Option.map_some, Option.some.injEq, Prod.mk.injEq] at h1
    rw [← h1.1]

theorem encode_at {sz : Nat} (h : Heap (Nat × Nat) α) (r a : Nat) {k : Nat} (hk : k < sz) :
    encode sz h (r, a * sz + k) = (h (r, a)).map fun x => (x, k) := by
  unfold encode
  simp only
  rw [div_of hk, mod_of hk]

theorem encode_alloc {n sz : Nat} (hsz : 0 < sz) {g : Slab} {h : Heap (Nat × Nat) α}
    (ha : WorldAlloc n g h) : WorldAlloc n ⟨g.plane * sz, g.Lz, g.Ng⟩ (encode sz h) := by
  intro r a
  unfold encode
  simp only [Option.isSome_map]
  rw [ha, Nat.div_lt_iff_lt_mul hsz, Nat.mul_assoc]

/-- The exchange of bytes is an exchange of cells. -/
theorem exchanged_cells {n sz : Nat} (hsz : 0 < sz) {g : Slab} {w : Nat} (h : Heap (Nat × Nat) α)
    {hb : Heap (Nat × Nat) (α × Nat)}
    (hx : Exchanged n ⟨g.plane * sz, g.Lz, g.Ng⟩ w (encode sz h) hb) :
    Exchanged n g w h (decode sz hb) := by
  constructor
  · intro r hr j hj b hbb
    refine decode_of hsz ?_
    intro k hk
    have e1 : ((g.Ng - w + j) * g.plane + b) * sz + k =
        (g.Ng - w + j) * (g.plane * sz) + (b * sz + k) := by ring
    have := hx.lattice r hr j hj (b * sz + k) (pair_lt hbb hk)
    rw [e1]
    refine this.trans ?_
    simp only [latticeByte]
    have e2 : ∀ q : Nat, q * (g.plane * sz) + (b * sz + k) = (q * g.plane + b) * sz + k := by
      intro q; ring
    rw [e2, encode_at h _ _ hk]
  · intro r a hna
    refine decode_of hsz ?_
    intro k hk
    rw [hx.keep r (a * sz + k) ?_, encode_at h _ _ hk]
    intro hc
    apply hna
    refine ⟨hc.1, ?_⟩
    have key : ∀ q : Nat, (q * (g.plane * sz) ≤ a * sz + k ↔ q * g.plane ≤ a) := by
      intro q
      rw [← Nat.mul_assoc]
      constructor
      · intro hq
        by_contra hlt
        have h1 : a + 1 ≤ q * g.plane := by omega
        have h2 := Nat.mul_le_mul_right sz h1
        rw [Nat.add_mul] at h2
        omega
      · intro hq
        have := Nat.mul_le_mul_right sz hq
        omega
    have key' : ∀ q : Nat, (a * sz + k < q * (g.plane * sz) ↔ a < q * g.plane) := by
      intro q
      rw [← Nat.not_le, ← Nat.not_le, key]
    rcases hc.2 with ⟨h1, h2⟩ | ⟨h1, h2⟩
    · exact Or.inl ⟨(key _).1 h1, (key' _).1 h2⟩
    · exact Or.inr ⟨(key _).1 h1, (key' _).1 h2⟩

theorem exchange_eq {n sz Lz : Nat} {s : Shape} (hn : 0 < n) (hsz : 0 < sz) (hL : 0 < Lz)
    (hw : s.NN ≤ Lz) (hsmall : s.NN * (s.Lx * s.Lx * sz) < 10 * 2147483584)
    (order : List ((Nat × Nat) × (Nat × Nat)) → List ((Nat × Nat) × (Nat × Nat)))
    (horder : ∀ l, (order l).Perm l) (h : Heap (Nat × Nat) α)
    (ha : WorldAlloc n ⟨s.Lx * s.Lx, Lz, s.NN⟩ h) :
    ∃ h', exchange n sz s Lz order h = some h' ∧
      Exchanged n ⟨s.Lx * s.Lx, Lz, s.NN⟩ s.NN h h' := by
  rcases C09_exchange_ghosts hn ⟨s.Lx * s.Lx * sz, Lz, s.NN⟩ hL hw order horder (encode sz h)
    (encode_alloc hsz ha) with ⟨_, h2⟩ | ⟨hb, h1, h2⟩
  · simp only at h2
    omega
  · refine ⟨decode sz hb, ?_, exchanged_cells (g := ⟨s.Lx * s.Lx, Lz, s.NN⟩) hsz h h2⟩
    unfold exchange
    rw [h1]
    rfl

theorem exchanged_alloc {n : Nat} {g : Slab} (hL : 0 < g.Lz) (hp : 0 < g.plane)
    {h h' : Heap (Nat × Nat) α}
    (ha : WorldAlloc n g h) (hx : Exchanged n g g.Ng h h') : WorldAlloc n g h' := by
  intro r a
  by_cases hin : r < n ∧ a < (g.Lz + 2 * g.Ng) * g.plane
  · refine ⟨fun _ => hin, fun _ => ?_⟩
    have hj : a / g.plane < g.Lz + 2 * g.Ng := (Nat.div_lt_iff_lt_mul hp).2 hin.2
    have := hx.lattice r hin.1 (a / g.plane) hj (a % g.plane) (Nat.mod_lt _ hp)
    rw [Nat.sub_self, Nat.zero_add, div_mul_add_mod] at this
    rw [this, latticeByte, ha]
    have hn : 0 < n := by omega
    have hN : 0 < n * g.Lz := Nat.mul_pos hn hL
    constructor
    · exact Nat.div_lt_of_lt_mul (Nat.lt_of_lt_of_eq (Nat.mod_lt _ hN) (Nat.mul_comm _ _))
    · refine pair_lt ?_ (Nat.mod_lt _ hp)
      have := Nat.mod_lt ((r * g.Lz + a / g.plane + n * g.Lz - g.Ng) % (n * g.Lz)) hL
      omega
  · rw [hx.keep r a ?_]
    · exact ha r a
    · rintro ⟨h1, h2⟩
      apply hin
      refine ⟨h1, ?_⟩
      have e : (g.Lz + 2 * g.Ng) * g.plane = (g.Ng + g.Lz + g.Ng) * g.plane := by ring
      rw [e]
      rcases h2 with ⟨_, h2⟩ | ⟨_, h2⟩
      · refine Nat.lt_of_lt_of_le h2 (Nat.mul_le_mul_right _ (by omega))
      · exact h2

/-! ### The kernel allocates nothing -/

theorem write_isSome {A : Type _} [DecidableEq A] {h h' : Heap A α} {a : A} {x : α}
    (e : h.write a x = some h') (b : A) : (h' b).isSome = (h b).isSome := by
  unfold Heap.write at e
  split at e
  · injection e with e
    subst e
    by_cases hb : b = a
    · subst hb; rename_i hs; simp [hs]
    · simp [hb]
  · exact absurd e (by simp)

theorem updateWith_isSome {s : Shape} {lapF : Nat → Nat → Option α} {law : α → α → α → α × α}
    {m : Heap Nat α} {o o' : Out α} {c : Nat × Nat} (e : updateWith s lapF law m o c = some o')
    (a : Nat) : (o'.m2 a).isSome = (o.m2 a).isSome := by
  unfold updateWith at e
  simp only [Option.bind_eq_bind, Option.pure_def, Option.bind_eq_some_iff] at e
  obtain ⟨_, _, _, _, _, _, _, _, m2, h1, v, _, h3⟩ := e
  injection h3 with h3
  subst h3
  exact write_isSome h1 a

theorem sweepWith_isSome {s : Shape} {lapF : Nat → Nat → Option α} {law : α → α → α → α × α}
    {m : Heap Nat α} {order : List Nat} {o o' : Out α}
    (e : sweepWith s lapF law m order o = some o') (a : Nat) :
    (o'.m2 a).isSome = (o.m2 a).isSome := by
  unfold sweepWith at e
  generalize lanes s order = l at e
  induction l generalizing o with
  | nil => injection e with e; subst e; rfl
  | cons c l ih =>
    rw [List.foldlM_cons] at e
    cases hu : updateWith s lapF law m o c with
    | none => rw [hu] at e; exact absurd e (by simp)
    | some o1 =>
      rw [hu] at e
      rw [ih e, updateWith_isSome hu]

/-! ### Periodicity -/

theorem Periodic3.add_mul {Lx N : Nat} {φ : Int → Int → Int → α} (h : Periodic3 Lx N φ)
    (x y z a b c : Int) : φ (x + a * Lx) (y + b * Lx) (z + c * N) = φ x y z := by
  have h1 : ∀ y z, Function.Periodic (fun x => φ x y z) (Lx : Int) := fun y z x => h.1 x y z
  have h2 : ∀ x z, Function.Periodic (fun y => φ x y z) (Lx : Int) := fun x z y => h.2.1 x y z
  have h3 : ∀ x y, Function.Periodic (fun z => φ x y z) (N : Int) := fun x y z => h.2.2 x y z
  have e1 := (h1 (y + b * Lx) (z + c * N)).int_mul a x
  have e2 := (h2 x (z + c * N)).int_mul b y
  have e3 := (h3 x y).int_mul c z
  simp only [Int.cast_id] at e1 e2 e3
  rw [e1, e2, e3]

theorem Periodic3.xy {Lx N : Nat} {φ : Int → Int → Int → α} (h : Periodic3 Lx N φ) (s : Int) :
    Periodic Lx (fun x y z => φ x y (z + s)) := by
  intro x y z
  have e := h.add_mul x y (z + s) (-(x / Lx)) (-(y / Lx)) 0
  have e1 : x + -(x / Lx) * Lx = x % Lx := by
    have := Int.emod_add_mul_ediv x Lx; rw [neg_mul, mul_comm]; omega
  have e2 : y + -(y / Lx) * Lx = y % Lx := by
    have := Int.emod_add_mul_ediv y Lx; rw [neg_mul, mul_comm]; omega
  rw [e1, e2, zero_mul, add_zero] at e
  exact e.symm

theorem Periodic3.mod {Lx N : Nat} {φ : Int → Int → Int → α} (h : Periodic3 Lx N φ)
    (x y z : Int) : φ x y (z % N) = φ x y z := by
  have e := h.add_mul x y z 0 0 (-(z / N))
  have e1 : z + -(z / N) * N = z % N := by
    have := Int.emod_add_mul_ediv z N; rw [neg_mul, mul_comm]; omega
  rw [e1, zero_mul, add_zero, add_zero] at e
  exact e

theorem Rule.step_periodic {Lx N NN : Nat} {u : Sub α} {g : Rule α} (hc : Computes NN u g) {F : Lat α}
    (h1 : Periodic3 Lx N F.φ) (h2 : Periodic3 Lx N F.ν) :
    Periodic3 Lx N (g.step F).φ ∧ Periodic3 Lx N (g.step F).ν := by
  have key : Periodic3 Lx N (g.lap F.φ) := by
    refine ⟨fun x y z => ?_, fun x y z => ?_, fun x y z => ?_⟩
    · have := hc.shift F.φ Lx 0 0 x y z
      simp only [add_zero, h1.1] at this
      exact this.symm
    · have := hc.shift F.φ 0 Lx 0 x y z
      simp only [add_zero, h1.2.1] at this
      exact this.symm
    · have := hc.shift F.φ 0 0 N x y z
      simp only [add_zero, h1.2.2] at this
      exact this.symm
  refine ⟨⟨?_, ?_, ?_⟩, ⟨?_, ?_, ?_⟩⟩ <;> intro x y z <;>
    simp only [Rule.step, key.1, key.2.1, key.2.2, h1.1, h1.2.1, h1.2.2, h2.1, h2.2.1, h2.2.2]

/-! ### What a rank sees -/

theorem cell_split (Lx S x y z : Nat) : cell Lx S x y z = z * (Lx * Lx) + cell Lx S x y 0 := by
  unfold cell; omega

theorem cell_lt {Lx S x y : Nat} (hS : 0 < S) (hd : S ∣ Lx) (hx : x < Lx) (hy : y < Lx) :
    cell Lx S x y 0 < Lx * Lx := by
  obtain ⟨Y, rfl⟩ : ∃ Y, Lx = Y * S := by
    obtain ⟨Y, h⟩ := hd; exact ⟨Y, by rw [h, Nat.mul_comm]⟩
  have hY : 0 < Y := by
    rcases Nat.eq_zero_or_pos Y with h | h
    · subst h; simp at hy
    · exact h
  unfold cell
  rw [Nat.mul_div_cancel _ hS, Nat.zero_mul, Nat.zero_add]
  have h1 : y / Y < S := by
    rw [Nat.div_lt_iff_lt_mul hY, Nat.mul_comm]; exact hy
  have h2 : y % Y * (Y * S) + x < Y * (Y * S) := pair_lt (Nat.mod_lt _ hY) hx
  have h3 := pair_lt h2 h1
  calc _ < Y * (Y * S) * S := h3
    _ = Y * S * (Y * S) := by ring

/-- After the exchange the array of rank `r` holds its part of the lattice with all ghost slices. -/
theorem exchanged_holds {n Lx S Lz NN : Nat} (hn : 0 < n) (hS : 0 < S) (hd : S ∣ Lx) (hL : 0 < Lz)
    (hw : NN ≤ Lz) {h h' : Heap (Nat × Nat) α} {φ : Int → Int → Int → α}
    (hper : Periodic3 Lx (n * Lz) φ) (hsh : Shows n Lx S Lz NN h φ)
    (hx : Exchanged n ⟨Lx * Lx, Lz, NN⟩ NN h h') {r : Nat} (hr : r < n) :
    Holds Lx S (Lz + 2 * NN) (onRank h' r)
      (fun x y z => φ x y (z + ((r * Lz : Nat) - (NN : Nat) : Int))) := by
  intro x y z hx1 hy1 hz1
  have h0 := hx.lattice r hr z hz1 (cell Lx S x y 0) (cell_lt hS hd hx1 hy1)
  simp only [Nat.sub_self, Nat.zero_add] at h0
  rw [← cell_split] at h0
  unfold onRank
  rw [h0, latticeByte]
  simp only
  have hN : 0 < n * Lz := Nat.mul_pos hn hL
  have hge : Lz ≤ n * Lz := Nat.le_mul_of_pos_left _ hn
  generalize hq : (r * Lz + z + n * Lz - NN) % (n * Lz) = q
  have hqN : q < n * Lz := by rw [← hq]; exact Nat.mod_lt _ hN
  have hr' : q / Lz < n := Nat.div_lt_of_lt_mul (by rw [Nat.mul_comm]; exact hqN)
  have hz' : q % Lz < Lz := Nat.mod_lt _ hL
  have := hsh (q / Lz) x y (q % Lz) hr' hx1 hy1 hz'
  rw [Nat.add_comm (q % Lz) NN, cell_split, div_mul_add_mod] at this
  rw [this]
  congr 1
  have e1 : ((r * Lz + z + n * Lz - NN : Nat) : Int) =
      ((z : Int) + ((r * Lz : Nat) - (NN : Nat) : Int)) + ((n * Lz : Nat) : Int) := by omega
  have e2 : (q : Int) = ((z : Int) + ((r * Lz : Nat) - (NN : Nat) : Int)) % ((n * Lz : Nat) : Int) := by
    rw [← hq, Int.natCast_emod, e1, Int.add_emod_right]
  rw [e2, hper.mod]

/-! ### Calls before and after the wait -/

theorem foldlM_congr {σ β : Type} {f g : σ → β → Option σ} {l : List β}
    (h : ∀ b ∈ l, ∀ s, f s b = g s b) (s : σ) : l.foldlM f s = l.foldlM g s := by
  induction l generalizing s with
  | nil => rfl
  | cons b l ih =>
    rw [List.foldlM_cons, List.foldlM_cons, h b (by simp) s]
    congr 1
    funext t
    exact ih (fun c hc => h c (by simp [hc])) t

theorem updateWith_congr {s : Shape} {F G : Nat → Nat → Option α} {law : α → α → α → α × α}
    {m m' : Heap Nat α} {c : Nat × Nat} (h1 : F c.1 c.2 = G c.1 c.2) (h2 : m (c.1 + c.2) = m' (c.1 + c.2))
    (o : Out α) : updateWith s F law m o c = updateWith s G law m' o c := by
  unfold updateWith
  rw [h1, h2]

/-- Two sweeps with different neighbour sums are one sweep that looks up which to use. -/
theorem sweep_split (s : Shape) (F G : Nat → Nat → Option α) (law : α → α → α → α × α)
    (m m' : Heap Nat α) (a b : List Nat) (hab : ∀ i ∈ b, i ∉ a)
    (hm : ∀ c ∈ lanes s a, m (c.1 + c.2) = m' (c.1 + c.2)) (o : Out α) :
    (do let o ← sweepWith s F law m a o
        sweepWith s G law m' b o) =
      sweepWith s (fun i l => if i ∈ a then F i l else G i l) law m' (a ++ b) o := by
  have hmem : ∀ (q : List Nat), ∀ c ∈ lanes s q, c.1 ∈ q := by
    rintro q ⟨i, l⟩ hc
    simp only [lanes, List.mem_flatMap, List.mem_map, List.mem_range, Prod.mk.injEq] at hc
    obtain ⟨i', hi', l', hl', rfl, rfl⟩ := hc
    exact hi'
  have e : lanes s (a ++ b) = lanes s a ++ lanes s b := by simp [lanes]
  have h1 := foldlM_congr (l := lanes s a) (f := updateWith s F law m)
    (g := updateWith s (fun i l => if i ∈ a then F i l else G i l) law m')
    (fun c hc t => updateWith_congr (by rw [if_pos (hmem a c hc)]) (hm c hc) t) o
  have h2 := fun t => foldlM_congr (l := lanes s b) (f := updateWith s G law m')
    (g := updateWith s (fun i l => if i ∈ a then F i l else G i l) law m')
    (fun c hc t => updateWith_congr (by rw [if_neg (hab _ (hmem b c hc))]) rfl t) t
  unfold sweepWith
  rw [h1, e, List.foldlM_append]
  congr 1
  funext t
  exact h2 t

theorem bulk_mem {Lx S bY bZ Lz NN : Nat} (hL : 0 < Lx) (hS : 0 < S) (hd : S ∣ Lx) (hby : 0 < bY)
    (hbz : 0 < bZ) {i : Nat}
    (hi : i ∈ kernelVisits Lx S bY bZ (2 * (NN * (Lx * Lx))) (Lz * (Lx * Lx))) :
    S ∣ i ∧ 2 * NN ≤ i / (Lx * Lx) ∧ i / (Lx * Lx) < Lz := by
  have hp : 0 < Lx * Lx := Nat.mul_pos hL hL
  unfold kernelVisits at hi
  split at hi
  · simp at hi
  · obtain ⟨h1, h2, h3⟩ := (Tile.mem_visits ⟨Lx * S, Lx / S, S, _, _, bY, bZ⟩ hS
      ⟨Lx, Nat.mul_comm _ _⟩ hby hbz i).1 hi
    have e : Lx / S * (Lx * S) = Lx * Lx := by
      obtain ⟨Y, rfl⟩ := hd
      rw [Nat.mul_div_cancel_left _ hS]; ring
    simp only [e] at h1 h2
    rw [← Nat.mul_assoc 2 NN, Nat.mul_div_cancel _ hp] at h1
    rw [Nat.mul_div_cancel _ hp] at h2
    exact ⟨h3, (Nat.le_div_iff_mul_le hp).2 h1, (Nat.div_lt_iff_lt_mul hp).2 h2⟩

theorem cell_sub_div {Lx S x y z : Nat} (hS : 0 < S) (hd : S ∣ Lx) (hx : x < Lx) (hy : y < Lx) :
    (cell Lx S x y z - y / (Lx / S)) / (Lx * Lx) = z := by
  have hlt := cell_lt hS hd hx hy
  have h0 : y / (Lx / S) ≤ cell Lx S x y 0 := by unfold cell; omega
  rw [cell_split, Nat.add_sub_assoc h0]
  exact div_of (Nat.lt_of_le_of_lt (Nat.sub_le _ _) hlt)

/-- Some field that an allocated array holds. -/
def fieldOf [Inhabited α] (Lx S : Nat) (h : Heap Nat α) (x y z : Int) : α :=
  (h (cell Lx S (x % Lx).toNat (y % Lx).toNat z.toNat)).getD default

theorem fieldOf_periodic [Inhabited α] (Lx S : Nat) (h : Heap Nat α) :
    Periodic Lx (fieldOf Lx S h) := by
  intro x y z
  unfold fieldOf
  rw [Int.emod_emod_of_dvd _ (dvd_refl _), Int.emod_emod_of_dvd _ (dvd_refl _)]

theorem fieldOf_nat [Inhabited α] {Lx S : Nat} (h : Heap Nat α) {x y : Nat} (z : Nat) (hx : x < Lx)
    (hy : y < Lx) : fieldOf Lx S h x y z = (h (cell Lx S x y z)).getD default := by
  unfold fieldOf
  rw [← Int.natCast_emod, ← Int.natCast_emod, Int.toNat_natCast, Int.toNat_natCast,
    Int.toNat_natCast, Nat.mod_eq_of_lt hx, Nat.mod_eq_of_lt hy]

theorem fieldOf_holds [Inhabited α] {Lx S nz : Nat} (hS : 0 < S) (hd : S ∣ Lx) (h : Heap Nat α)
    (ha : ∀ a, a < nz * (Lx * Lx) → (h a).isSome) : Holds Lx S nz h (fieldOf Lx S h) := by
  intro x y z hx hy hz
  rw [fieldOf_nat h z hx hy]
  have := ha (cell Lx S x y z) (by
    rw [cell_split]; exact pair_lt hz (cell_lt hS hd hx hy))
  obtain ⟨v, hv⟩ := Option.isSome_iff_exists.1 this
  rw [hv]
  rfl

/-- Sites of the bulk: the messages on their way make no difference. -/
theorem bulk_lap {Lx S NN Lz : Nat} (hS : 0 < S) (hd : S ∣ Lx) (hrow : 2 * NN ≤ Lx / S)
    {u : Sub α} {g : Rule α} (hc : Computes NN u g) {m mid : Heap Nat α} {φ : Int → Int → Int → α}
    (hper : Periodic Lx φ) (hm : Holds Lx S (Lz + 2 * NN) m φ)
    (ha : ∀ a, a < (Lz + 2 * NN) * (Lx * Lx) → (mid a).isSome)
    (hsame : ∀ a, NN * (Lx * Lx) ≤ a → a < (NN + Lz) * (Lx * Lx) → mid a = m a)
    {x y z : Nat} (hx : x < Lx) (hy : y < Lx) (h1 : 2 * NN ≤ z) (h2 : z < Lz) :
    u.lapF ⟨Lx, S, NN⟩ mid (cell Lx S x y z - y / (Lx / S)) (y / (Lx / S)) = some (g.lap φ x y z) := by
  have : Inhabited α := ⟨φ 0 0 0⟩
  rw [hc.lap hS hd hrow mid _ _ (fieldOf_periodic Lx S mid) (fieldOf_holds hS hd mid ha) hx hy
    (by omega) (by omega)]
  congr 1
  refine hc.near _ _ _ _ _ ?_
  intro x' y' z' hz1 hz2
  obtain ⟨k, rfl⟩ : ∃ k : Nat, z' = k := ⟨z'.toNat, by omega⟩
  rw [fieldOf_periodic Lx S mid, hper]
  have hL : 0 < (Lx : Int) := by omega
  have p1 := Int.emod_nonneg x' (ne_of_gt hL)
  have p2 := Int.emod_lt_of_pos x' hL
  have p3 := Int.emod_nonneg y' (ne_of_gt hL)
  have p4 := Int.emod_lt_of_pos y' hL
  obtain ⟨a, ea⟩ : ∃ a : Nat, x' % Lx = a := ⟨(x' % Lx).toNat, by omega⟩
  obtain ⟨b, eb⟩ : ∃ b : Nat, y' % Lx = b := ⟨(y' % Lx).toNat, by omega⟩
  have ha' : a < Lx := by omega
  have hb' : b < Lx := by omega
  rw [ea, eb, fieldOf_nat mid k ha' hb']
  have hlt := cell_lt hS hd ha' hb'
  have hk : NN ≤ k ∧ k < NN + Lz := by omega
  rw [hsame (cell Lx S a b k) (by
      rw [cell_split]; exact le_trans (Nat.mul_le_mul_right _ hk.1) (Nat.le_add_right _ _)) (by
      rw [cell_split]; exact pair_lt hk.2 hlt), hm a b k ha' hb' (by omega)]
  rfl

end Jaxions.Run
