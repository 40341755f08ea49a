import Verif.Spec.Norm
import Verif.Basic.Fold
import Verif.Basic.DivMod
import Mathlib.Data.List.Nodup
import Mathlib.Tactic.Ring
import Mathlib.Tactic.Linarith
import Mathlib.Tactic.FieldSimp
import Mathlib.Tactic.NormNum

/-!
C56: normalisation of the complex field and profile of string cores.
-/

namespace Jaxions.Norm

theorem normLoop (base : ℕ → Buf × ℕ) (n : ℕ) (order : List ℕ) (h : Mem)
    (ho : ∀ i, i ∈ order ↔ i < n) (hnd : order.Nodup) (hA : ∀ i < n, (h (base i)).isSome)
    (hinj : ∀ i < n, ∀ j < n, base i = base j → i = j) :
    ∃ h', order.foldlM (normSite base) h = some h' ∧
      (∀ i < n, h' (base i) = (h (base i)).map fun z => z / (‖z‖ : ℂ)) ∧
      (∀ c, (∀ i < n, c ≠ base i) → h' c = h c) := by
  obtain ⟨h', e, p1, p2, p3⟩ := foldlM_inv (f := normSite base)
    (P := fun pre (t : Mem) =>
      (∀ i ∈ pre, t (base i) = (h (base i)).map fun z => z / (‖z‖ : ℂ)) ∧
      (∀ i < n, i ∉ pre → t (base i) = h (base i)) ∧
      (∀ c, (∀ i < n, c ≠ base i) → t c = h c)) (s := h) order
    ⟨by simp, fun _ _ _ => rfl, fun _ _ => rfl⟩ (by
      intro pre i post hL t ⟨t1, t2, t3⟩
      have hi : i < n := (ho i).1 (by rw [hL]; simp)
      have hip : i ∉ pre := by
        rw [hL, List.nodup_append] at hnd
        intro hp; exact hnd.2.2 i hp i (by simp) rfl
      have hti := t2 i hi hip
      obtain ⟨z, hz⟩ := Option.isSome_iff_exists.1 (hA i hi)
      rw [hz] at hti
      refine ⟨_, by
        unfold normSite; rw [hti]; simp only [Option.bind_some]
        exact write_eq _ _ _ (by rw [hti]; rfl), ?_, ?_, ?_⟩
      · intro j hj
        by_cases hji : j = i
        · subst hji; simp [hz]
        · have hj' : j ∈ pre := by
            rcases List.mem_append.1 hj with h | h
            · exact h
            · exact absurd (List.mem_singleton.1 h) hji
          have hjn : j < n := (ho j).1 (by rw [hL]; simp [hj'])
          rw [if_neg (fun hc => hji (hinj j hjn i hi hc))]
          exact t1 j hj'
      · intro j hj hjp
        have hji : j ≠ i := by rintro rfl; exact hjp (by simp)
        rw [if_neg (fun hc => hji (hinj j hj i hi hc))]
        exact t2 j hj (fun h => hjp (by simp [h]))
      · intro c hc
        rw [if_neg (hc i hi)]
        exact t3 c hc)
  exact ⟨h', e, fun i hi => p1 i ((ho i).2 hi), p3⟩

/-- **C56.**  Normalising the field: in any order of the sites, every site of the rank gets modulus
one and keeps its phase, and nothing else changes.  Where the field is zero the code divides by
zero, so this is excluded. -/
theorem C56_normalise (dbl low : Bool) (g : Geo) (order : List ℕ) (h : Mem) (φ : ℕ → ℂ)
    (ho : ∀ i, i ∈ order ↔ i < g.n1 * g.n1 * g.Lz) (hnd : order.Nodup)
    (hφ : ∀ i < g.n1 * g.n1 * g.Lz, h (.m, g.n1 * g.n1 * g.Ng + i) = some (φ i))
    (hne : ∀ i, φ i ≠ 0) :
    ∃ h', norm dbl g .fM low order h = some h' ∧
      (∀ i < g.n1 * g.n1 * g.Lz, ∃ w, h' (.m, g.n1 * g.n1 * g.Ng + i) = some w ∧ ‖w‖ = 1 ∧
        φ i = ‖φ i‖ * w) ∧
      (∀ c, (∀ i < g.n1 * g.n1 * g.Lz, c ≠ (.m, g.n1 * g.n1 * g.Ng + i)) → h' c = h c) := by
  obtain ⟨h', e, p, q⟩ := normLoop (fun l => (.m, g.S * g.Ng + l)) (g.n1 * g.n1 * g.Lz) order h ho
    hnd (fun i hi => by
      have := hφ i hi
      unfold Geo.S; rw [this]; rfl)
    (by intro i _ j _ h; injection h with _ h; omega)
  refine ⟨h', e, ?_, q⟩
  intro i hi
  have hp := p i hi
  have hh := hφ i hi
  unfold Geo.S at hp
  rw [hh] at hp
  have hn : (‖φ i‖ : ℂ) ≠ 0 := by
    have := norm_ne_zero_iff.2 (hne i)
    exact_mod_cast this
  refine ⟨_, hp, ?_, ?_⟩
  · dsimp only
    rw [Complex.norm_div, Complex.norm_real, norm_norm, div_self (norm_ne_zero_iff.2 (hne i))]
  · field_simp

/-- **C56, finding.**  Asked for `m2`, the loop starts at the beginning of the block and not behind the
ghosts: the slices of the rank are shifted by the ghosts, so the last sites of the rank are left as
they were. -/
theorem C56_m2 (dbl : Bool) (g : Geo) (order : List ℕ) (h : Mem) (h' : Mem)
    (ho : ∀ i, i ∈ order ↔ i < g.n1 * g.n1 * g.Lz) (hnd : order.Nodup)
    (hA : ∀ i < g.n1 * g.n1 * (g.Lz + 2 * g.Ng), (h (.m2, i)).isSome)
    (he : norm dbl g .fM2 false order h = some h') (i : ℕ) (_hi : i < g.n1 * g.n1 * g.Lz)
    (hlast : g.n1 * g.n1 * g.Lz ≤ g.n1 * g.n1 * g.Ng + i) :
    h' (.m2, g.n1 * g.n1 * g.Ng + i) = h (.m2, g.n1 * g.n1 * g.Ng + i) := by
  have hle : g.n1 * g.n1 * g.Lz ≤ g.n1 * g.n1 * (g.Lz + 2 * g.Ng) :=
    Nat.mul_le_mul_left _ (by omega)
  obtain ⟨h'', e, _, q⟩ := normLoop (fun l => (.m2, l)) (g.n1 * g.n1 * g.Lz) order h ho hnd
    (fun i hi => hA i (by omega)) (by intro i _ j _ h; injection h)
  have : h'' = h' := by
    unfold norm at he
    simp only [Bool.false_eq_true, if_false] at he
    rw [e] at he
    exact Option.some.inj he
  rw [← this]
  refine q _ ?_
  intro j hj hc
  injection hc with _ hc
  omega

/-- **C56, finding.**  A wrong field index is reported and ignored in double precision; in single
precision the loop then runs over a pointer that was never set. -/
theorem C56_wrong_index (g : Geo) (low : Bool) (order : List ℕ) (h : Mem) :
    norm true g .other low order h = some h ∧ norm false g .other low order h = none := by
  simp [norm]

/-! ### The profile -/

theorem imq_turn {a : ℂ} (ha : a ≠ 0) (b : ℂ) : imq b a a = turn a b ∧ imq a b a = -turn a b := by
  unfold imq turn
  rw [sub_div, sub_div, div_self ha]
  simp

/-- The rational function stays between 0 and 1. -/
theorem rhof_range {s : ℝ} (hs : 0 < s) : 0 < rhof s ∧ rhof s < 1 := by
  unfold rhof
  have hd : 0 < 1 + 0.39 * s + 0.2 * (s * s) + 0.036 * (s * s * (s * s)) := by positivity
  constructor
  · positivity
  · rw [div_lt_one hd]
    nlinarith [sq_nonneg (s - 0.5), mul_pos hs hs]

theorem profile_range {LL R delta G : ℝ} (hL : 0 < LL) (hR : 0 < R) (hd : 0 < delta) :
    0 < profile LL R delta G ∧ profile LL R delta G ≤ 1 := by
  unfold profile
  split_ifs with h
  · have hG : 0 < G := lt_trans (by norm_num) h
    have h1 : 0 < √LL := Real.sqrt_pos.2 hL
    have h2 : 0 < √G := Real.sqrt_pos.2 hG
    have h3 := rhof_range (s := 2 * √LL * R * delta / √G) (by positivity)
    exact ⟨h3.1, h3.2.le⟩
  · exact ⟨one_pos, le_refl 1⟩

theorem site_idx {n x y z : ℕ} (hx : x < n) (hy : y < n) :
    (x + n * y + n * n * z) % n = x ∧ (x + n * y + n * n * z) / n % n = y := by
  have hn : 0 < n := by omega
  have e : x + n * y + n * n * z = x + n * (y + n * z) := by ring
  rw [e, Nat.add_mul_mod_self_left, Nat.mod_eq_of_lt hx, Nat.add_mul_div_left _ _ hn,
    Nat.div_eq_of_lt hx, Nat.zero_add, Nat.add_mul_mod_self_left, Nat.mod_eq_of_lt hy]
  exact ⟨rfl, rfl⟩

theorem succ_mod {n x : ℕ} (hx : x < n) : (x + 1) % n = if x = n - 1 then 0 else x + 1 := by
  split_ifs with h
  · rw [h, Nat.sub_add_cancel (by omega), Nat.mod_self]
  · exact Nat.mod_eq_of_lt (by omega)

theorem pred_mod {n x : ℕ} (hx : x < n) : (x + n - 1) % n = if x = 0 then n - 1 else x - 1 := by
  split_ifs with h
  · rw [h, Nat.zero_add]; exact Nat.mod_eq_of_lt (by omega)
  · rw [show x + n - 1 = (x - 1) + n by omega, Nat.add_mod_right]
    exact Nat.mod_eq_of_lt (by omega)

theorem iPx_eq {n x y z : ℕ} (h2 : 2 ≤ n) (hx : x < n) (hy : y < n) :
    iPx n (x + n * y + n * n * z) = (x + 1) % n + n * y + n * n * z := by
  unfold iPx
  rw [(site_idx hx hy).1, succ_mod hx]
  split_ifs <;> omega

theorem iMx_eq {n x y z : ℕ} (h2 : 2 ≤ n) (hx : x < n) (hy : y < n) :
    iMx n (x + n * y + n * n * z) = (x + n - 1) % n + n * y + n * n * z := by
  unfold iMx
  rw [(site_idx hx hy).1, pred_mod hx]
  split_ifs <;> omega

theorem iPy_eq {n x y z : ℕ} (h2 : 2 ≤ n) (hx : x < n) (hy : y < n) :
    iPy n (x + n * y + n * n * z) = x + n * ((y + 1) % n) + n * n * z := by
  unfold iPy
  rw [(site_idx hx hy).2, succ_mod hy]
  have e1 : n * (y + 1) = n * y + n := by ring
  split_ifs with h1 h3 h4
  · omega
  · omega
  · have : n * y + n = n * n := by rw [← e1, h4, Nat.sub_add_cancel (by omega)]
    rw [Nat.mul_zero]; omega
  · omega

theorem iMy_eq {n x y z : ℕ} (h2 : 2 ≤ n) (hx : x < n) (hy : y < n) :
    iMy n (x + n * y + n * n * z) = x + n * ((y + n - 1) % n) + n * n * z := by
  unfold iMy
  rw [(site_idx hx hy).2, pred_mod hy]
  have e1 : n * (n - 1) + n = n * n := by
    rw [← Nat.mul_succ]; congr 1; omega
  split_ifs with h1 h3
  · rw [h1, Nat.mul_zero]; omega
  · have : n * (y - 1) + n = n * y := by rw [← Nat.mul_succ]; congr 1; omega
    omega
  · have : n * (y - 1) + n = n * y := by rw [← Nat.mul_succ]; congr 1; omega
    omega

/-- New value of the field at a site. -/
noncomputable def newval (n : ℕ) (LL R delta : ℝ) (Φ : ℕ → ℕ → ℕ → ℂ) (x y k : ℕ) : ℂ :=
  Φ x y k * (profile LL R delta (grad2 n Φ x y k) : ℂ) / (‖Φ x y k‖ : ℂ)

theorem coreSite_eq (g : Geo) (LL R delta : ℝ) (aux : ℕ → Buf × ℕ) (h : Mem)
    (Φ : ℕ → ℕ → ℕ → ℂ) (x y z : ℕ) (hn : 2 ≤ g.n1) (hH : Holds g h Φ) (hx : x < g.n1)
    (hy : y < g.n1) (hz : z < g.Lz) (hne : Φ x y (z + 1) ≠ 0) :
    coreSite g LL R delta aux h (x + g.n1 * y + g.n1 * g.n1 * z) =
      h.write (aux (x + g.n1 * y + g.n1 * g.n1 * z)) (newval g.n1 LL R delta Φ x y (z + 1)) := by
  have hz1 : ∀ a b, g.S + (a + b + g.n1 * g.n1 * z) = a + b + g.n1 * g.n1 * (z + 1) := by
    intro a b; unfold Geo.S; ring
  have hz2 : ∀ a b, g.S + (a + b + g.n1 * g.n1 * z) + g.S =
      a + b + g.n1 * g.n1 * (z + 1 + 1) := by
    intro a b; unfold Geo.S; ring
  have hmx : (x + 1) % g.n1 < g.n1 := Nat.mod_lt _ (by omega)
  have hmx' : (x + g.n1 - 1) % g.n1 < g.n1 := Nat.mod_lt _ (by omega)
  have hmy : (y + 1) % g.n1 < g.n1 := Nat.mod_lt _ (by omega)
  have hmy' : (y + g.n1 - 1) % g.n1 < g.n1 := Nat.mod_lt _ (by omega)
  have c0 : h (g.cell (g.S + (x + g.n1 * y + g.n1 * g.n1 * z))) = some (Φ x y (z + 1)) := by
    rw [hz1]; exact hH x hx y hy (z + 1) (by omega)
  have c1 : h (g.cell (g.S + iPx g.n1 (x + g.n1 * y + g.n1 * g.n1 * z))) =
      some (Φ ((x + 1) % g.n1) y (z + 1)) := by
    rw [iPx_eq hn hx hy, hz1]; exact hH _ hmx y hy (z + 1) (by omega)
  have c2 : h (g.cell (g.S + iMx g.n1 (x + g.n1 * y + g.n1 * g.n1 * z))) =
      some (Φ ((x + g.n1 - 1) % g.n1) y (z + 1)) := by
    rw [iMx_eq hn hx hy, hz1]; exact hH _ hmx' y hy (z + 1) (by omega)
  have c3 : h (g.cell (g.S + iPy g.n1 (x + g.n1 * y + g.n1 * g.n1 * z))) =
      some (Φ x ((y + 1) % g.n1) (z + 1)) := by
    rw [iPy_eq hn hx hy, hz1]; exact hH x hx _ hmy (z + 1) (by omega)
  have c4 : h (g.cell (g.S + iMy g.n1 (x + g.n1 * y + g.n1 * g.n1 * z))) =
      some (Φ x ((y + g.n1 - 1) % g.n1) (z + 1)) := by
    rw [iMy_eq hn hx hy, hz1]; exact hH x hx _ hmy' (z + 1) (by omega)
  have c5 : h (g.cell (g.S + (x + g.n1 * y + g.n1 * g.n1 * z) + g.S)) =
      some (Φ x y (z + 1 + 1)) := by
    rw [hz2]; exact hH x hx y hy (z + 1 + 1) (by omega)
  have c6 : h (g.cell (x + g.n1 * y + g.n1 * g.n1 * z)) = some (Φ x y z) :=
    hH x hx y hy z (by omega)
  unfold coreSite
  rw [c0, c1, c2, c3, c4, c5, c6]
  simp only [Option.bind_some]
  congr 1
  unfold newval
  congr 3
  congr 1
  simp only [(imq_turn hne _).1, (imq_turn hne _).2]
  unfold grad2
  rw [Nat.add_sub_cancel]
  ring

theorem site_of_idx {n Lz i : ℕ} (hn : 2 ≤ n) (hi : i < n * n * Lz) :
    ∃ x y z, x < n ∧ y < n ∧ z < Lz ∧ i = x + n * y + n * n * z := by
  refine ⟨i % n, i / n % n, i / n / n, Nat.mod_lt _ (by omega), Nat.mod_lt _ (by omega), ?_, ?_⟩
  · rw [Nat.div_div_eq_div_mul]
    exact Nat.div_lt_of_lt_mul hi
  · have h1 := Nat.mod_add_div i n
    have h2 := Nat.mod_add_div (i / n) n
    calc i = i % n + n * (i / n) := h1.symm
      _ = i % n + n * (i / n % n + n * (i / n / n)) := by rw [h2]
      _ = _ := by ring

/-- **C56.**  The profile of cores, with at least two sites in a row and one ghost slice, in any order
of the sites: every site of the rank gets the phase it had and the modulus `profile` of the gradient
of the phase over its six neighbours, which are those of the lattice with `x` and `y` periodic and the
ghosts in z.  The modulus is positive and at most one.  With enough memory the velocity is not
touched, with low memory it is overwritten by the new field. -/
theorem C56_core (g : Geo) (LL R delta : ℝ) (low : Bool) (order : List ℕ) (h : Mem)
    (Φ : ℕ → ℕ → ℕ → ℂ) (hn : 2 ≤ g.n1) (_hN : 1 ≤ g.Ng) (hL : 0 < LL) (hR : 0 < R)
    (hd : 0 < delta) (ho : ∀ i, i ∈ order ↔ i < g.n1 * g.n1 * g.Lz) (hH : Holds g h Φ)
    (hne : ∀ x y k, Φ x y k ≠ 0)
    (hA : ∀ i < g.n1 * g.n1 * g.Lz, (h (if low then .v else .m2, i)).isSome) :
    ∃ h', normCore g LL R delta low order h = some h' ∧
      (∀ x < g.n1, ∀ y < g.n1, ∀ z < g.Lz, ∃ w,
        h' (.m, g.n1 * g.n1 * g.Ng + (x + g.n1 * y + g.n1 * g.n1 * z)) = some w ∧
        ‖w‖ = profile LL R delta (grad2 g.n1 Φ x y (z + 1)) ∧ 0 < ‖w‖ ∧ ‖w‖ ≤ 1 ∧
        w * ‖Φ x y (z + 1)‖ = ‖w‖ * Φ x y (z + 1) ∧
        (low = true → h' (.v, x + g.n1 * y + g.n1 * g.n1 * z) = some w)) ∧
      (low = false → ∀ i, h' (.v, i) = h (.v, i)) := by
  set aux : ℕ → Buf × ℕ := if low then (fun i => (.v, i)) else (fun i => (.m2, i)) with haux
  have haux' : ∀ i, aux i = (if low then .v else .m2, i) := by
    intro i; rw [haux]; split_ifs <;> rfl
  have hauxm : ∀ i k, aux i ≠ (.m, k) := by
    intro i k; rw [haux' i]; split_ifs <;> simp
  have hauxi : ∀ i j, aux i = aux j → i = j := by
    intro i j hij; rw [haux' i, haux' j] at hij; injection hij
  obtain ⟨h1, e1, p1, q1, r1⟩ := foldlM_inv (f := coreSite g LL R delta aux)
    (P := fun pre (t : Mem) =>
      (∀ x < g.n1, ∀ y < g.n1, ∀ z < g.Lz, x + g.n1 * y + g.n1 * g.n1 * z ∈ pre →
        t (aux (x + g.n1 * y + g.n1 * g.n1 * z)) = some (newval g.n1 LL R delta Φ x y (z + 1))) ∧
      (∀ c, (∀ i, c ≠ aux i) → t c = h c) ∧
      (∀ c, (h c).isSome → (t c).isSome)) (s := h) order
    ⟨by simp, fun _ _ => rfl, fun _ h => h⟩ (by
      intro pre i post hL t ⟨t1, t2, t3⟩
      have hi : i < g.n1 * g.n1 * g.Lz := (ho i).1 (by rw [hL]; simp)
      obtain ⟨x, y, z, hx, hy, hz, rfl⟩ := site_of_idx hn hi
      have hHt : Holds g t Φ := by
        intro x' hx' y' hy' k hk
        rw [t2 _ (fun i h => hauxm i _ h.symm)]
        exact hH x' hx' y' hy' k hk
      refine ⟨_, by
        rw [coreSite_eq g LL R delta aux t Φ x y z hn hHt hx hy hz (hne _ _ _)]
        exact write_eq _ _ _ (t3 _ (by rw [haux']; exact hA _ hi)), ?_, ?_, ?_⟩
      · intro x' hx' y' hy' z' hz' hm
        by_cases hc : x' + g.n1 * y' + g.n1 * g.n1 * z' = x + g.n1 * y + g.n1 * g.n1 * z
        · have hxx : x' = x := by
            rw [← (site_idx (z := z') hx' hy').1, ← (site_idx (z := z) hx hy).1, hc]
          have hyy : y' = y := by
            rw [← (site_idx (z := z') hx' hy').2, ← (site_idx (z := z) hx hy).2, hc]
          subst hxx hyy
          have hzz : z' = z := by
            have h1 : g.n1 * g.n1 * z' = g.n1 * g.n1 * z := by omega
            exact Nat.eq_of_mul_eq_mul_left (by positivity) h1
          subst hzz
          simp
        · rw [if_neg (fun hh => hc (hauxi _ _ hh))]
          refine t1 x' hx' y' hy' z' hz' ?_
          rcases List.mem_append.1 hm with h | h
          · exact h
          · exact absurd (List.mem_singleton.1 h) hc
      · intro c hc
        rw [if_neg (hc _)]; exact t2 c hc
      · intro c hc
        split_ifs
        · rfl
        · exact t3 c hc)
  obtain ⟨h2, e2, p2, q2⟩ := memcpy_spec (fun i => (.m, g.S * g.Ng + i)) aux g.V h1
    (fun i hi => r1 _ (by rw [haux']; exact hA i hi))
    (fun i hi => by
      refine r1 _ ?_
      obtain ⟨x, y, z, hx, hy, hz, rfl⟩ := site_of_idx hn hi
      have := hH x hx y hy (z + 1) (by omega)
      have e : g.n1 * g.n1 * g.Ng + (x + g.n1 * y + g.n1 * g.n1 * (z + 1)) - g.n1 * g.n1 =
          g.S * g.Ng + (x + g.n1 * y + g.n1 * g.n1 * z) := by
        unfold Geo.S
        rw [Nat.mul_succ]; omega
      rw [e] at this
      rw [this]; rfl)
    (by intro i _ j _ h; injection h with _ h; omega)
    (by intro i _ j _ h; exact hauxm j _ h.symm)
  refine ⟨h2, ?_, ?_, ?_⟩
  · show (order.foldlM (coreSite g LL R delta aux) h).bind _ = _
    rw [e1]; simp only [Option.bind_some]; exact e2
  · intro x hx y hy z hz
    have hi : x + g.n1 * y + g.n1 * g.n1 * z < g.V := by
      have h1 : g.n1 * y + g.n1 ≤ g.n1 * g.n1 := by
        rw [← Nat.mul_succ]; exact Nat.mul_le_mul_left _ hy
      have h2 : g.n1 * g.n1 * z + g.n1 * g.n1 ≤ g.V := by
        unfold Geo.V Geo.S; rw [← Nat.mul_succ]; exact Nat.mul_le_mul_left _ hz
      omega
    have hv := p1 x hx y hy z hz ((ho _).2 hi)
    have hm := p2 _ hi
    rw [hv] at hm
    unfold Geo.S at hm
    have hnn : ‖Φ x y (z + 1)‖ ≠ 0 := norm_ne_zero_iff.2 (hne _ _ _)
    have hpr := profile_range (G := grad2 g.n1 Φ x y (z + 1)) hL hR hd
    have hnorm : ‖newval g.n1 LL R delta Φ x y (z + 1)‖ =
        profile LL R delta (grad2 g.n1 Φ x y (z + 1)) := by
      unfold newval
      rw [Complex.norm_div, Complex.norm_mul, Complex.norm_real, Complex.norm_real, norm_norm,
        Real.norm_of_nonneg hpr.1.le]
      field_simp
    refine ⟨_, hm, hnorm, by rw [hnorm]; exact hpr.1, by rw [hnorm]; exact hpr.2, ?_, ?_⟩
    · rw [hnorm]
      unfold newval
      have : (‖Φ x y (z + 1)‖ : ℂ) ≠ 0 := by exact_mod_cast hnn
      field_simp
    · intro hlow
      rw [q2 _ (by intro j _ hc; simp at hc)]
      have : aux (x + g.n1 * y + g.n1 * g.n1 * z) = (.v, x + g.n1 * y + g.n1 * g.n1 * z) := by
        rw [haux', if_pos hlow]
      rw [← this]; exact hv
  · intro hlow i
    rw [q2 _ (by intro j _ hc; simp at hc), q1 _ (by
      intro j hc; rw [haux', if_neg (by simp [hlow])] at hc; simp at hc)]

/-- **C56.**  Turning the whole field by one angle turns the result by the same angle: the gradient
does not change. -/
theorem C56_turn (n : ℕ) (Φ : ℕ → ℕ → ℕ → ℂ) (u : ℂ) (hu : u ≠ 0) (x y k : ℕ) :
    grad2 n (fun x y k => u * Φ x y k) x y k = grad2 n Φ x y k := by
  unfold grad2 turn
  simp only [mul_div_mul_left _ _ hu]

/-- Two sites in a row, one slice: the field `1` with one site turned to `i`; in double precision and
backwards.  Every site comes out with modulus at most one and the velocity is kept. -/
example : ∃ h', normCore ⟨2, 1, 1⟩ 1 1 1 false [3, 2, 1, 0]
      (fun a => match a with
        | (.m, k) => some (if k = 4 then 2 * Complex.I else 3)
        | (.v, _) => some 7
        | (.m2, _) => some 0) = some h' ∧
      (∃ w, h' (.m, 4) = some w ∧ 0 < ‖w‖ ∧ ‖w‖ ≤ 1 ∧ w * 2 = ‖w‖ * (2 * Complex.I)) ∧
      h' (.v, 0) = some 7 := by
  obtain ⟨h', e, p, q⟩ := C56_core ⟨2, 1, 1⟩ 1 1 1 false [3, 2, 1, 0]
      (fun a => match a with
        | (.m, k) => some (if k = 4 then 2 * Complex.I else 3)
        | (.v, _) => some 7
        | (.m2, _) => some 0)
      (fun x y k => if x + 2 * y + 4 * k = 4 then 2 * Complex.I else 3) (by decide) (by decide)
      one_pos one_pos one_pos (by intro i; simp; omega)
      (by
        intro x _ y _ k _
        dsimp only
        congr 1
        rw [show 2 * 2 * 1 + (x + 2 * y + 2 * 2 * k) - 2 * 2 = x + 2 * y + 4 * k by omega])
      (by intro x y k; split_ifs <;> simp) (by intro i _; rfl)
  obtain ⟨w, w1, _, w3, w4, w5, _⟩ := p 0 (by decide) 0 (by decide) 0 (by decide)
  refine ⟨h', e, ⟨w, w1, w3, w4, ?_⟩, q rfl 0⟩
  simpa using w5

/-- Four sites of modulus five become points of the circle. -/
example : ∃ h', norm false ⟨2, 1, 1⟩ .fM false [2, 0, 3, 1] (fun _ => some (5 * Complex.I)) =
    some h' ∧ ∃ w, h' (.m, 4) = some w ∧ ‖w‖ = 1 := by
  obtain ⟨h', e, p, _⟩ := C56_normalise false false ⟨2, 1, 1⟩ [2, 0, 3, 1]
    (fun _ => some (5 * Complex.I)) (fun _ => 5 * Complex.I) (by intro i; simp; omega) (by decide)
    (fun _ _ => rfl) (by simp)
  obtain ⟨w, w1, w2, _⟩ := p 0 (by decide)
  exact ⟨h', e, w, w1, w2⟩

end Jaxions.Norm
