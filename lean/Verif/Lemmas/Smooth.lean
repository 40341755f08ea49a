import Verif.Spec.Smooth
import Verif.Basic.DivMod
import Verif.Basic.Fold
import Verif.Props.Index
import Mathlib.Tactic.Ring
import Mathlib.Tactic.Linarith
import Mathlib.Tactic.FieldSimp

/-!
# Lemmas about smoothing
-/

namespace Jaxions
namespace Smooth

/-- Storage position. -/
def at' (g : Grid) (x y z : Nat) : Nat := x + g.Lx * y + g.Lx * g.Lx * z

theorem at_siteNo (g : Grid) (x y z : Nat) : at' g x y z = siteNo g.Lx x y z := by
  unfold at' siteNo; ring

theorem at_lt {g : Grid} {x y z : Nat} (hx : x < g.Lx) (hy : y < g.Lx) (hz : z < g.Lz) : at' g x y z < g.V := by
  have h := pair_lt hz (pair_lt hy hx)
  unfold at' Grid.V
  rw [Nat.mul_comm (g.Lx * g.Lx) g.Lz, Nat.mul_comm (g.Lx * g.Lx) z, Nat.mul_comm g.Lx y]
  omega

theorem at_surj {g : Grid} {i : Nat} (hi : i < g.V) :
    ∃ x y z, x < g.Lx ∧ y < g.Lx ∧ z < g.Lz ∧ i = at' g x y z := by
  obtain ⟨e, h1, h2, h3⟩ := C03_number_of_coords g.Lx g.Lz i (by unfold Grid.V at hi; rwa [Nat.mul_comm])
  exact ⟨_, _, _, h1, h2, h3, e.symm.trans (by unfold vec2Idx at'; ring)⟩

theorem nbr_spec {g : Grid} {x y z : Nat} (hL : 2 ≤ g.Lx) (hx : x < g.Lx) (hy : y < g.Lx) :
    nbrX g.Lx (at' g x y z) = (at' g ((x + 1) % g.Lx) y z, at' g ((x + g.Lx - 1) % g.Lx) y z) ∧
    nbrY g.Lx g.S (at' g x y z) = (at' g x ((y + 1) % g.Lx) z, at' g x ((y + g.Lx - 1) % g.Lx) z) := by
  have hc : idx2Vec (at' g x y z) g.Lx = (x, y, z) := by
    have := C03_coords_of_number g.Lx x y z hx hy
    rw [← this]; congr 1; unfold at'; ring
  have inc : ∀ a, a + 1 < g.Lx → (a + 1) % g.Lx = a + 1 := fun a h => Nat.mod_eq_of_lt h
  have wrap : ∀ a, a + 1 = g.Lx → (a + 1) % g.Lx = 0 := fun a h => by rw [h, Nat.mod_self]
  have dec : ∀ a, 0 < a → a < g.Lx → (a + g.Lx - 1) % g.Lx = a - 1 := fun a h h' => by
    rw [show a + g.Lx - 1 = (a - 1) + g.Lx by omega, Nat.add_mod_right, Nat.mod_eq_of_lt (by omega)]
  have dec0 : (0 + g.Lx - 1) % g.Lx = g.Lx - 1 := by
    rw [show 0 + g.Lx - 1 = g.Lx - 1 by omega, Nat.mod_eq_of_lt (by omega)]
  constructor
  · unfold nbrX
    rw [hc]
    dsimp only
    split
    · subst x
      rw [inc 0 (by omega), dec0]
      unfold at'
      refine Prod.ext ?_ ?_ <;> dsimp only <;> omega
    · split
      · rw [wrap x (by omega), dec x (by omega) hx]
        unfold at'
        refine Prod.ext ?_ ?_ <;> dsimp only <;> omega
      · rw [inc x (by omega), dec x (by omega) hx]
        unfold at'
        refine Prod.ext ?_ ?_ <;> dsimp only <;> omega
  · unfold nbrY Grid.S
    rw [hc]
    dsimp only
    have hLL : g.Lx * (g.Lx - 1) + g.Lx = g.Lx * g.Lx := by
      rw [← Nat.mul_succ, Nat.succ_eq_add_one, Nat.sub_add_cancel (by omega)]
    have hy1 : g.Lx * (y + 1) = g.Lx * y + g.Lx := by ring
    split
    · subst y
      rw [inc 0 (by omega), dec0]
      unfold at'
      rw [hy1]
      refine Prod.ext ?_ ?_ <;> dsimp only <;> omega
    · have hy2 : g.Lx * (y - 1) + g.Lx = g.Lx * y := by
        rw [← Nat.mul_succ, Nat.succ_eq_add_one, Nat.sub_add_cancel (by omega)]
      split
      · rename_i hye
        rw [wrap y (by omega), dec y (by omega) hy]
        unfold at'
        rw [← hye] at hLL
        rw [Nat.mul_zero]
        refine Prod.ext ?_ ?_ <;> dsimp only <;> omega
      · rw [inc y (by omega), dec y (by omega) hy]
        unfold at'
        rw [hy1]
        refine Prod.ext ?_ ?_ <;> dsimp only <;> omega

variable {K E : Type} [Field K] [AddCommGroup E] [Module K E]

/-- Physical sites and nearest ghost slices are right. -/
def Ghosted (g : Grid) (r : Nat) (m : Heap Int E) (f : Nat → Nat → Nat → E) : Prop :=
  ∀ x < g.Lx, ∀ y < g.Lx,
    (∀ z < g.Lz, m (at' g x y z : Int) = some (f x y (r * g.Lz + z))) ∧
    m (at' g x y g.Lz : Int) = some (f x y ((r * g.Lz + g.Lz) % (g.n * g.Lz))) ∧
    m ((at' g x y 0 : Int) - g.S) = some (f x y ((r * g.Lz + g.n * g.Lz - 1) % (g.n * g.Lz)))

theorem site_spec {g : Grid} {r : Nat} {m : Heap Int E} {f : Nat → Nat → Nat → E} {alpha : K}
    (hL : 2 ≤ g.Lx) (hr : r < g.n) (hm : Ghosted g r m f) {x y z : Nat} (hx : x < g.Lx) (hy : y < g.Lx)
    (hz : z < g.Lz) : site g alpha m (at' g x y z) =
      some (average g.Lx (g.n * g.Lz) alpha f x y (r * g.Lz + z)) := by
  obtain ⟨nx, ny⟩ := nbr_spec (z := z) hL hx hy
  have hpos : 0 < g.Lx := by omega
  have hT : r * g.Lz + z < g.n * g.Lz := pair_lt hr hz
  have hlt : r * g.Lz + g.Lz ≤ g.n * g.Lz := by
    have := Nat.mul_le_mul_right g.Lz (Nat.succ_le_of_lt hr)
    rwa [Nat.succ_mul] at this
  have hpz : m (((at' g x y z : Nat) : Int) + (g.S : Int)) =
      some (f x y ((r * g.Lz + z + 1) % (g.n * g.Lz))) := by
    have e : ((at' g x y z : Nat) : Int) + (g.S : Int) = ((at' g x y (z + 1) : Nat) : Int) := by
      unfold at' Grid.S; push_cast; ring
    rw [e]
    by_cases h : z + 1 < g.Lz
    · rw [((hm x hx y hy).1 (z + 1) h), Nat.mod_eq_of_lt]
      · rfl
      · omega
    · have hz' : z + 1 = g.Lz := by omega
      rw [hz', (hm x hx y hy).2.1, ← hz']
      rfl
  have hmz : m (((at' g x y z : Nat) : Int) - (g.S : Int)) =
      some (f x y ((r * g.Lz + z + g.n * g.Lz - 1) % (g.n * g.Lz))) := by
    by_cases h : z = 0
    · subst h
      rw [(hm x hx y hy).2.2]; rfl
    · have e : ((at' g x y z : Nat) : Int) - (g.S : Int) = ((at' g x y (z - 1) : Nat) : Int) := by
        obtain ⟨z', rfl⟩ : ∃ z', z = z' + 1 := ⟨z - 1, by omega⟩
        unfold at' Grid.S; simp only [Nat.add_sub_cancel]; push_cast; ring
      rw [e, (hm x hx y hy).1 (z - 1) (by omega),
        show r * g.Lz + z + g.n * g.Lz - 1 = (r * g.Lz + (z - 1)) + g.n * g.Lz by omega, Nat.add_mod_right,
        Nat.mod_eq_of_lt (by omega)]
  have hc : ∀ a < g.Lx, ∀ b < g.Lx, m ((at' g a b z : Nat) : Int) = some (f a b (r * g.Lz + z)) :=
    fun a ha b hb => (hm a ha b hb).1 z hz
  unfold site
  rw [nx, ny]
  dsimp only
  rw [hc x hx y hy, hc _ (Nat.mod_lt _ hpos) y hy, hc _ (Nat.mod_lt _ hpos) y hy,
    hc x hx _ (Nat.mod_lt _ hpos), hc x hx _ (Nat.mod_lt _ hpos), hpz, hmz]
  unfold average
  simp only [Option.bind_eq_bind, Option.bind_some, Option.some.injEq]
  rw [show (1 / 6 : K) * (1 - alpha) = (1 - alpha) / 6 by ring]

theorem itera_spec {g : Grid} {r : Nat} {m : Heap Int E} {f : Nat → Nat → Nat → E} {alpha : K}
    (hL : 2 ≤ g.Lx) (hr : r < g.n) (hm : Ghosted g r m f) {order : List Nat}
    (ho : order.Perm (List.range g.V)) {m2 : Heap Nat E} (h2 : ∀ i < g.V, (m2 i).isSome) :
    ∃ m2', itera g alpha order m m2 = some m2' ∧ (∀ i < g.V, (m2' i).isSome) ∧
      ∀ x < g.Lx, ∀ y < g.Lx, ∀ z < g.Lz, m2' (at' g x y z) =
        some (average g.Lx (g.n * g.Lz) alpha f x y (r * g.Lz + z)) := by
  obtain ⟨m2', h, hP⟩ := foldlM_inv (f := fun m2 idx => do
      Heap.write m2 idx (← site g alpha m idx)) (s := m2)
    (P := fun pre t => (∀ i < g.V, (t i).isSome) ∧ ∀ x < g.Lx, ∀ y < g.Lx, ∀ z < g.Lz,
      at' g x y z ∈ pre → t (at' g x y z) =
        some (average g.Lx (g.n * g.Lz) alpha f x y (r * g.Lz + z))) order ⟨h2, by simp⟩ (by
      rintro pre i post hpre t ⟨t1, t2⟩
      have hi : i < g.V := List.mem_range.1 (ho.mem_iff.1 (by rw [hpre]; simp))
      obtain ⟨x, y, z, hx, hy, hz, rfl⟩ := at_surj hi
      rw [site_spec hL hr hm hx hy hz]
      refine ⟨_, by rw [Option.bind_eq_bind, Option.bind_some]; exact write_eq _ _ _ (t1 _ hi), ?_, ?_⟩
      · intro j hj
        split
        · rfl
        · exact t1 j hj
      · intro x' hx' y' hy' z' hz' hmem
        split
        · rename_i e
          have e1 := C03_coords_of_number g.Lx x' y' z' hx' hy'
          have e2 := C03_coords_of_number g.Lx x y z hx hy
          rw [show x' + g.Lx * (y' + g.Lx * z') = at' g x' y' z' by unfold at'; ring, e,
            show at' g x y z = x + g.Lx * (y + g.Lx * z) by unfold at'; ring, e2] at e1
          simp only [Prod.mk.injEq] at e1
          obtain ⟨rfl, rfl, rfl⟩ := e1
          rfl
        · rename_i hne
          rcases List.mem_append.1 hmem with h | h
          · exact t2 x' hx' y' hy' z' hz' h
          · exact absurd (by simpa using h) hne)
  refine ⟨m2', h, hP.1, fun x hx y hy z hz => hP.2 x hx y hy z hz ?_⟩
  exact ho.mem_iff.2 (List.mem_range.2 (at_lt hx hy hz))

omit [AddCommGroup E] in
theorem copyBack_spec (g : Grid) {m2 : Heap Nat E} {m : Heap Int E} (h2 : ∀ i < g.V, (m2 i).isSome)
    (h1 : ∀ i < g.V, (m (i : Int)).isSome) : ∃ m', copyBack g m2 m = some m' ∧
      (∀ i < g.V, m' (i : Int) = m2 i) ∧ ∀ i, (m' i).isSome = (m i).isSome := by
  obtain ⟨m', h, hP⟩ := loop_inv (n := g.V) (s := m) (body := fun idx m => do
      Heap.write m (idx : Int) (← m2 idx))
    (P := fun k t => (∀ i < k, t (i : Int) = m2 i) ∧ ∀ i, (t i).isSome = (m i).isSome)
    ⟨by simp, by simp⟩ (by
      rintro k hk t ⟨t1, t2⟩
      obtain ⟨v, hv⟩ := Option.isSome_iff_exists.1 (h2 k hk)
      rw [hv]
      refine ⟨_, by rw [Option.bind_eq_bind, Option.bind_some]; exact write_eq _ _ _ (by rw [t2]; exact h1 k hk),
        ?_, ?_⟩
      · intro i hi
        by_cases e : i = k
        · rw [if_pos (by rw [e]), e, hv]
        · rw [if_neg (by omega)]; exact t1 i (by omega)
      · intro i
        split
        · rename_i e
          rw [e, (h1 k hk : _)]
          rfl
        · exact t2 i)
  exact ⟨m', h, hP.1, hP.2⟩

omit [AddCommGroup E] in
theorem exchange_ghosted {g : Grid} (hNg : 1 ≤ g.Ng) (hLz : g.Ng ≤ g.Lz) {w : World E} {f : Nat → Nat → Nat → E}
    (h : Holds g w f) {r : Nat} (hr : r < g.n) : Ghosted g r (exchange g w.m r) f := by
  have hn : 0 < g.n := by omega
  intro x hx y hy
  have hS : at' g x y 0 < g.S := by
    have := pair_lt hy hx
    unfold at' Grid.S
    rw [Nat.mul_comm g.Lx y]
    omega
  have hNgS : g.S ≤ g.Ng * g.S := Nat.le_mul_of_pos_left _ hNg
  have hV : g.S * g.Lz = g.V := rfl
  have hz0 : ∀ z, at' g x y z = at' g x y 0 + g.S * z := by intro z; unfold at' Grid.S; ring
  refine ⟨fun z hz => ?_, ?_, ?_⟩
  · have := at_lt hx hy hz
    unfold exchange
    rw [if_neg (by omega), if_neg (by omega)]
    exact h r hr x hx y hy z hz
  · unfold exchange
    rw [hz0, hV, if_neg (by omega), if_pos (by push_cast; constructor <;> omega)]
    have hp : (r + 1) % g.n < g.n := Nat.mod_lt _ hn
    rw [show (((at' g x y 0 + g.V : Nat) : Int) - g.V) = ((at' g x y 0 : Nat) : Int) by push_cast; ring]
    have := h _ hp x hx y hy 0 (by omega)
    unfold at'
    rw [this, Nat.add_zero, ← Nat.succ_mul, Nat.mul_mod_mul_right]
  · unfold exchange
    rw [if_pos (by constructor <;> omega)]
    have hp : (r + g.n - 1) % g.n < g.n := Nat.mod_lt _ hn
    have e : ((at' g x y 0 : Nat) : Int) - g.S + g.V = ((at' g x y (g.Lz - 1) : Nat) : Int) := by
      obtain ⟨k, hk⟩ : ∃ k, g.Lz = k + 1 := ⟨g.Lz - 1, by omega⟩
      unfold at' Grid.S Grid.V
      rw [hk, Nat.add_sub_cancel]
      push_cast
      ring
    rw [e]
    have := h _ hp x hx y hy (g.Lz - 1) (by omega)
    unfold at'
    rw [this]
    congr 2
    have e2 : r * g.Lz + g.n * g.Lz - 1 = (r + g.n - 1) * g.Lz + (g.Lz - 1) := by
      obtain ⟨k, hk⟩ : ∃ k, r + g.n = k + 1 := ⟨r + g.n - 1, by omega⟩
      rw [← Nat.add_mul, hk, Nat.add_sub_cancel, Nat.succ_mul]
      omega
    rw [e2]
    have hdm := Nat.div_add_mod (r + g.n - 1) g.n
    have e3 : (r + g.n - 1) * g.Lz + (g.Lz - 1) =
        ((r + g.n - 1) % g.n * g.Lz + (g.Lz - 1)) + (g.n * g.Lz) * ((r + g.n - 1) / g.n) := by
      conv_lhs => rw [← hdm]
      ring
    rw [e3, Nat.add_mul_mod_self_left]
    exact (Nat.mod_eq_of_lt (pair_lt hp (by omega))).symm

omit [AddCommGroup E] in
theorem exchange_alloc {g : Grid} (hLz : g.Ng ≤ g.Lz) {w : World E} (ha : Alloc g w) :
    Alloc g { w with m := exchange g w.m } := by
  intro r hr
  have hn : 0 < g.n := by omega
  refine ⟨fun i => ?_, (ha r hr).2⟩
  have hNV : g.Ng * g.S ≤ g.V := by
    unfold Grid.V Grid.S
    rw [Nat.mul_comm]
    exact Nat.mul_le_mul_left _ hLz
  unfold exchange
  dsimp only
  split
  · rw [(ha _ (Nat.mod_lt _ hn)).1]; omega
  · split
    · rw [(ha _ (Nat.mod_lt _ hn)).1]; omega
    · rw [(ha r hr).1]

theorem iteration_spec {g : Grid} (hL : 2 ≤ g.Lx) (hNg : 1 ≤ g.Ng) (hLz : g.Ng ≤ g.Lz) {w : World E}
    {f : Nat → Nat → Nat → E} {alpha : K} {order : Nat → List Nat}
    (ho : ∀ r, (order r).Perm (List.range g.V)) (ha : Alloc g w)
    (hg : ∀ r < g.n, Ghosted g r (w.m r) f) :
    ∃ w', iteration g alpha order w = some w' ∧ Alloc g w' ∧
      Holds g w' (average g.Lx (g.n * g.Lz) alpha f) ∧
      ∀ r < g.n, Ghosted g r (w'.m r) (average g.Lx (g.n * g.Lz) alpha f) := by
  obtain ⟨w1, h1, hP⟩ := loop_inv (n := g.n) (s := w) (body := fun r (w : World E) => do
      let m2 ← itera g alpha (order r) (w.m r) (w.m2 r)
      let m ← copyBack g m2 (w.m r)
      some (⟨fun r' => if r' = r then m else w.m r', fun r' => if r' = r then m2 else w.m2 r'⟩ : World E))
    (P := fun k t => Alloc g t ∧ (∀ r, k ≤ r → t.m r = w.m r) ∧
      ∀ r < k, r < g.n → ∀ x < g.Lx, ∀ y < g.Lx, ∀ z < g.Lz, t.m r (at' g x y z : Int) =
        some (average g.Lx (g.n * g.Lz) alpha f x y (r * g.Lz + z)))
    ⟨ha, fun _ _ => rfl, by simp⟩ (by
      rintro k hk t ⟨t1, t2, t3⟩
      have hgk : Ghosted g k (t.m k) f := by rw [t2 k (le_refl _)]; exact hg k hk
      obtain ⟨m2', e1, e2, e3⟩ := itera_spec (alpha := alpha) hL hk hgk (ho k) (t1 k hk).2
      obtain ⟨m', e4, e5, e6⟩ := copyBack_spec g e2 (m := t.m k) (fun i hi => by
        rw [(t1 k hk).1]; omega)
      refine ⟨⟨fun r' => if r' = k then m' else t.m r', fun r' => if r' = k then m2' else t.m2 r'⟩,
        by rw [e1]; simp only [Option.bind_eq_bind, Option.bind_some]; rw [e4]; rfl, ?_, ?_, ?_⟩
      · intro r hr
        dsimp only
        by_cases e : r = k
        · subst e
          simp only [if_pos trivial]
          exact ⟨fun i => by rw [e6]; exact (t1 r hr).1 i, e2⟩
        · simp only [if_neg e]
          exact t1 r hr
      · intro r hr
        dsimp only
        rw [if_neg (by omega)]
        exact t2 r (by omega)
      · intro r hr hrn x hx y hy z hz
        dsimp only
        by_cases e : r = k
        · subst e
          rw [if_pos rfl, e5 _ (at_lt hx hy hz)]
          exact e3 x hx y hy z hz
        · rw [if_neg e]
          exact t3 r (by omega) hrn x hx y hy z hz)
  have hh : Holds g w1 (average g.Lx (g.n * g.Lz) alpha f) :=
    fun r hr x hx y hy z hz => hP.2.2 r hr hr x hx y hy z hz
  have hx := fun r (hr : r < g.n) => exchange_ghosted hNg hLz hh hr
  refine ⟨{ w1 with m := exchange g w1.m }, ?_, exchange_alloc hLz hP.1, ?_, hx⟩
  · unfold iteration
    rw [h1]
    rfl
  · intro r hr x hx' y hy z hz
    exact (hx r hr x hx' y hy).1 z hz

end Smooth
end Jaxions
