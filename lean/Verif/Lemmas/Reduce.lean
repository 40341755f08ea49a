import Verif.Spec.Reduce
import Mathlib.Data.Rat.Floor
import Mathlib.Data.Rat.Cast.CharZero
import Mathlib.Data.Rat.Cast.Order
import Mathlib.Tactic.Ring
import Mathlib.Tactic.Linarith
import Mathlib.Tactic.FieldSimp
import Mathlib.Tactic.Push

/-!
# Lemmas about the reduction
-/

namespace Jaxions
namespace Reduce

variable {K : Type} [Field K] [CharZero K]

/-- Neighbours of the coordinate of a new site: both in the slab, not below the index of the site;
the upper one is the next site, or the coordinate is a site. -/
theorem coord (L n i : Nat) (hn : 0 < n) (hnL : n ≤ L) (hi : i < n) :
    ∃ a : Nat, (((i : ℚ) * ((L : ℚ) / n)).floor = a) ∧ i ≤ a ∧ a < L ∧
      ((((i : ℚ) * ((L : ℚ) / n)) = a ∧ above L ((i : ℚ) * ((L : ℚ) / n)) = a) ∨
        (above L ((i : ℚ) * ((L : ℚ) / n)) = a + 1 ∧ a + 1 < L)) := by
  have hn' : (0 : ℚ) < n := by exact_mod_cast hn
  obtain ⟨q, hq⟩ : ∃ q : ℚ, q = (i : ℚ) * ((L : ℚ) / n) := ⟨_, rfl⟩
  rw [← hq]
  have hq' : q * n = i * L := by rw [hq]; field_simp
  have hile : (i : ℚ) ≤ q := by
    rw [hq]
    have : (1 : ℚ) ≤ (L : ℚ) / n := by
      rw [le_div_iff₀ hn']
      simpa using (by exact_mod_cast hnL : (n : ℚ) ≤ L)
    have h0 : (0 : ℚ) ≤ i := by exact_mod_cast Nat.zero_le i
    nlinarith
  have hqL : q ≤ (L : ℚ) - 1 := by
    have h1 : ((i : ℚ) + 1) ≤ n := by exact_mod_cast hi
    have h2 : (n : ℚ) ≤ L := by exact_mod_cast hnL
    have h3 : q * n ≤ (L - 1) * n := by
      rw [hq']
      have h4 : (0 : ℚ) ≤ L := by exact_mod_cast Nat.zero_le L
      nlinarith
    exact le_of_mul_le_mul_right h3 hn'
  have hfl : (i : ℤ) ≤ q.floor := Rat.le_floor_iff.2 (by exact_mod_cast hile)
  obtain ⟨a, ha⟩ : ∃ a : Nat, q.floor = a := ⟨q.floor.toNat, by omega⟩
  have ha1 : (a : ℚ) ≤ q := by
    have := (Rat.le_floor_iff (x := (a : ℤ)) (a := q)).1 (by omega)
    exact_mod_cast this
  have ha2 : q < (a : ℚ) + 1 := by
    have := (Rat.floor_lt_iff (a := q) (x := (a : ℤ) + 1)).1 (by omega)
    exact_mod_cast this
  have haL : a < L := by
    have : (a : ℚ) + 1 ≤ L := by linarith
    exact_mod_cast this
  refine ⟨a, ha, by omega, haL, ?_⟩
  by_cases he : q = a
  · left
    refine ⟨he, ?_⟩
    have hc : q.ceil = a := by
      apply le_antisymm
      · exact Rat.ceil_le_iff.2 (by rw [he]; norm_num)
      · have := (Rat.lt_ceil_iff (x := q) (y := (a : ℤ) - 1)).2 (by rw [he]; push_cast; linarith)
        omega
    unfold above
    simp only [hc, Int.toNat_natCast]
    rw [if_neg (by omega)]
  · right
    have hlt : (a : ℚ) < q := lt_of_le_of_ne ha1 (Ne.symm he)
    have haL' : a + 1 < L := by
      have : (a : ℚ) + 1 < L := by linarith
      exact_mod_cast this
    have hc : q.ceil = a + 1 := by
      apply le_antisymm
      · exact Rat.ceil_le_iff.2 (by push_cast; exact ha2.le)
      · have := (Rat.lt_ceil_iff (x := q) (y := (a : ℤ))).2 (by push_cast; exact hlt)
        omega
    refine ⟨?_, haL'⟩
    unfold above
    have : (q.ceil).toNat = a + 1 := by omega
    simp only [this]
    rw [if_neg (by omega)]

/-- The eight point formula is the interpolation. -/
theorem average_eq (h : Heap Nat K) (L Lz n nz ix iy iz : Nat) (hn : 0 < n) (hnL : n ≤ L)
    (hnz : 0 < nz) (hnzL : nz ≤ Lz) (hix : ix < n) (hiy : iy < n) (hiz : iz < nz)
    (f : Nat → Nat → Nat → K)
    (hf : ∀ x < L, ∀ y < L, ∀ z < Lz, ix + n * (iy + n * iz) ≤ x + L * (y + L * z) →
      h (x + L * (y + L * z)) = some (f x y z)) :
    average h L (below (ix * ((L : ℚ) / n))) (above L (ix * ((L : ℚ) / n)))
      (below (iy * ((L : ℚ) / n))) (above L (iy * ((L : ℚ) / n)))
      (below (iz * ((Lz : ℚ) / nz))) (above Lz (iz * ((Lz : ℚ) / nz)))
      (ix * ((L : ℚ) / n) - below (ix * ((L : ℚ) / n)))
      (iy * ((L : ℚ) / n) - below (iy * ((L : ℚ) / n)))
      (iz * ((Lz : ℚ) / nz) - below (iz * ((Lz : ℚ) / nz))) =
      some (trilinear f (ix * ((L : ℚ) / n)) (iy * ((L : ℚ) / n)) (iz * ((Lz : ℚ) / nz))) := by
  obtain ⟨a, fa, ia, aL, ca⟩ := coord L n ix hn hnL hix
  obtain ⟨b, fb, ib, bL, cb⟩ := coord L n iy hn hnL hiy
  obtain ⟨c, fc, ic, cL, cc⟩ := coord Lz nz iz hnz hnzL hiz
  generalize (ix : ℚ) * ((L : ℚ) / n) = p at *
  generalize (iy : ℚ) * ((L : ℚ) / n) = q at *
  generalize (iz : ℚ) * ((Lz : ℚ) / nz) = r at *
  have key : ∀ x y z, a ≤ x → x < L → b ≤ y → y < L → c ≤ z → z < Lz →
      h (x + L * (y + L * z)) = some (f x y z) := by
    intro x y z h1 h2 h3 h4 h5 h6
    refine hf x h2 y h4 z h6 ?_
    have e1 : n * iz ≤ L * z := Nat.mul_le_mul hnL (by omega)
    have e2 : n * (iy + n * iz) ≤ L * (y + L * z) := Nat.mul_le_mul hnL (by omega)
    omega
  have ba : below p = a := by simp [below, fa]
  have bb : below q = b := by simp [below, fb]
  have bc : below r = c := by simp [below, fc]
  unfold average trilinear lin
  rw [ba, bb, bc, fa, fb, fc]
  simp only [Int.toNat_natCast]
  rcases ca with ⟨ea, ca⟩ | ⟨ca, la⟩ <;> rcases cb with ⟨eb, cb⟩ | ⟨cb, lb⟩ <;>
    rcases cc with ⟨ec, cc⟩ | ⟨cc, lc⟩ <;> rw [ca, cb, cc]
  all_goals
    simp (disch := omega) only [key, Option.bind_eq_bind, Option.bind_some]
    congr 1
  · rw [ea, eb, ec]; push_cast; simp
  · rw [ea, eb]; push_cast; simp; ring
  · rw [ea, ec]; push_cast; simp; ring
  · rw [ea]; push_cast; simp; ring
  · rw [eb, ec]; push_cast; simp; ring
  · rw [eb]; push_cast; simp; ring
  · rw [ec]; push_cast; simp; ring
  · push_cast; ring

/-- Interpolated value of the site stored at `x`. -/
def value (L Lz n nz : Nat) (f : Nat → Nat → Nat → K) (x : Nat) : K :=
  trilinear f ((x % n : Nat) * ((L : ℚ) / n)) ((x / n % n : Nat) * ((L : ℚ) / n))
    ((x / n / n : Nat) * ((Lz : ℚ) / nz))

/-- The first `k` numbers are new, the others old. -/
def Upto (L Lz n nz : Nat) (f : Nat → Nat → Nat → K) (h0 : Heap Nat K) (k : Nat) (h : Heap Nat K) :
    Prop := ∀ x, h x = if x < k then some (value L Lz n nz f x) else h0 x

theorem site_mod {n ix k : Nat} (h : ix < n) : (ix + n * k) % n = ix := by
  rw [Nat.add_mul_mod_self_left, Nat.mod_eq_of_lt h]

theorem site_div {n ix k : Nat} (h : ix < n) : (ix + n * k) / n = k := by
  rw [Nat.add_mul_div_left _ _ (by omega), Nat.div_eq_of_lt h, Nat.zero_add]

theorem loopX_spec (L Lz n nz iy iz : Nat) (hn : 0 < n) (hnL : n ≤ L) (hnz : 0 < nz)
    (hnzL : nz ≤ Lz) (hiy : iy < n) (hiz : iz < nz) (f : Nat → Nat → Nat → K) (h0 h : Heap Nat K)
    (hf : Holds h0 L Lz f) (hU : Upto L Lz n nz f h0 (n * (iy + n * iz)) h) :
    ∃ h' fX, loopX L Lz n iy iz (h, 0, iy * ((L : ℚ) / n), iz * ((Lz : ℚ) / nz)) =
        some (h', fX, iy * ((L : ℚ) / n), iz * ((Lz : ℚ) / nz)) ∧
      Upto L Lz n nz f h0 (n * (iy + 1 + n * iz)) h' := by
  obtain ⟨s', e, hP⟩ := loop_inv (n := n)
    (P := fun ix (s : St K) => Upto L Lz n nz f h0 (ix + n * (iy + n * iz)) s.1 ∧
      s.2 = (ix * ((L : ℚ) / n), iy * ((L : ℚ) / n), iz * ((Lz : ℚ) / nz)))
    (body := fun ix s => do
      let (h, fX, fY, fZ) := s
      let v ← average h L (below fX) (above L fX) (below fY) (above L fY) (below fZ) (above Lz fZ)
        (fX - below fX) (fY - below fY) (fZ - below fZ)
      let h ← h.write (ix + n * (iy + n * iz)) v
      some (h, fX + (L : ℚ) / n, fY, fZ))
    (s := (h, 0, iy * ((L : ℚ) / n), iz * ((Lz : ℚ) / nz)))
    ⟨by simpa using hU, by simp⟩
    (by
      rintro ix hix ⟨g, r⟩ ⟨hg, rfl⟩
      dsimp only at hg
      have hin : ix + n * (iy + n * iz) < L * (L * Lz) := by
        have e1 : n * (iz + 1) ≤ L * Lz := Nat.mul_le_mul hnL (by omega)
        have e2 : n * (iy + n * iz + 1) ≤ L * (L * Lz) :=
          Nat.mul_le_mul hnL (by rw [Nat.mul_add] at e1; omega)
        rw [Nat.mul_add] at e2
        omega
      have hal : (g (ix + n * (iy + n * iz))).isSome := by
        rw [hg, if_neg (by omega)]
        have hL : 0 < L := by omega
        have := hf ((ix + n * (iy + n * iz)) % L) (Nat.mod_lt _ hL)
          ((ix + n * (iy + n * iz)) / L % L) (Nat.mod_lt _ hL)
          ((ix + n * (iy + n * iz)) / L / L) (by
            rw [Nat.div_div_eq_div_mul, Nat.div_lt_iff_lt_mul (Nat.mul_pos hL hL)]
            calc _ < _ := hin
              _ = _ := by ring)
        rw [Nat.mod_add_div, Nat.mod_add_div] at this
        rw [this]; rfl
      have hav := average_eq g L Lz n nz ix iy iz hn hnL hnz hnzL hix hiy hiz f (by
        intro x hx y hy z hz hle
        rw [hg, if_neg (by omega)]
        exact hf x hx y hy z hz)
      refine ⟨(fun b => if b = ix + n * (iy + n * iz) then
          some (trilinear f (ix * ((L : ℚ) / n)) (iy * ((L : ℚ) / n)) (iz * ((Lz : ℚ) / nz)))
          else g b, ix * ((L : ℚ) / n) + (L : ℚ) / n, iy * ((L : ℚ) / n), iz * ((Lz : ℚ) / nz)), by
        dsimp only
        rw [hav]
        simp only [Option.bind_eq_bind, Option.bind_some, write_eq g _ _ hal], ?_, ?_⟩
      · intro x
        dsimp only
        by_cases hx : x = ix + n * (iy + n * iz)
        · subst hx
          rw [if_pos rfl, if_pos (by omega)]
          unfold value
          rw [site_mod hix, site_div hix, site_mod hiy, site_div hiy]
        · rw [if_neg hx, hg]
          by_cases hlt : x < ix + n * (iy + n * iz)
          · rw [if_pos hlt, if_pos (by omega)]
          · rw [if_neg hlt, if_neg (by omega)]
      · dsimp only
        refine Prod.ext ?_ rfl
        dsimp only
        push_cast
        ring)
  obtain ⟨g, r⟩ := s'
  obtain ⟨hg, hr⟩ := hP
  dsimp only at hg hr
  subst hr
  refine ⟨g, _, e, ?_⟩
  have : n * (iy + 1 + n * iz) = n + n * (iy + n * iz) := by ring
  rwa [this]

theorem loopY_spec (L Lz n nz iz : Nat) (hn : 0 < n) (hnL : n ≤ L) (hnz : 0 < nz)
    (hnzL : nz ≤ Lz) (hiz : iz < nz) (f : Nat → Nat → Nat → K) (h0 h : Heap Nat K)
    (hf : Holds h0 L Lz f) (hU : Upto L Lz n nz f h0 (n * (n * iz)) h) :
    ∃ h' fY, loopY L Lz n iz (h, 0, 0, iz * ((Lz : ℚ) / nz)) =
        some (h', 0, fY, iz * ((Lz : ℚ) / nz)) ∧
      Upto L Lz n nz f h0 (n * (n * (iz + 1))) h' := by
  obtain ⟨s', e, hP⟩ := loop_inv (n := n)
    (P := fun iy (s : St K) => Upto L Lz n nz f h0 (n * (iy + n * iz)) s.1 ∧
      s.2 = (0, iy * ((L : ℚ) / n), iz * ((Lz : ℚ) / nz)))
    (body := fun iy s => do
      let (h, _, fY, fZ) ← loopX L Lz n iy iz s
      some (h, 0, fY + (L : ℚ) / n, fZ))
    (s := (h, 0, 0, iz * ((Lz : ℚ) / nz)))
    ⟨by simpa using hU, by simp⟩
    (by
      rintro iy hiy ⟨g, r⟩ ⟨hg, rfl⟩
      obtain ⟨h', fX, e1, hU'⟩ := loopX_spec L Lz n nz iy iz hn hnL hnz hnzL hiy hiz f h0 g hf hg
      refine ⟨(h', 0, iy * ((L : ℚ) / n) + (L : ℚ) / n, iz * ((Lz : ℚ) / nz)), by
        dsimp only
        rw [e1]
        simp only [Option.bind_eq_bind, Option.bind_some], hU', ?_⟩
      dsimp only
      refine Prod.ext rfl (Prod.ext ?_ rfl)
      dsimp only
      push_cast
      ring)
  obtain ⟨g, r⟩ := s'
  obtain ⟨hg, hr⟩ := hP
  dsimp only at hg hr
  subst hr
  refine ⟨g, _, e, ?_⟩
  have : n * (n * (iz + 1)) = n * (n + n * iz) := by ring
  rwa [this]

theorem reduce_spec (L Lz n nz : Nat) (hn : 0 < n) (hnL : n ≤ L) (hnz : 0 < nz)
    (hnzL : nz ≤ Lz) (f : Nat → Nat → Nat → K) (h0 : Heap Nat K) (hf : Holds h0 L Lz f) :
    ∃ h', reduce L Lz n nz h0 = some h' ∧ Upto L Lz n nz f h0 (n * (n * nz)) h' := by
  obtain ⟨s', e, hP⟩ := loop_inv (n := nz)
    (P := fun iz (s : St K) => Upto L Lz n nz f h0 (n * (n * iz)) s.1 ∧
      s.2 = (0, 0, iz * ((Lz : ℚ) / nz)))
    (body := fun iz s => do
      let (h, fX, _, fZ) ← loopY L Lz n iz s
      some (h, fX, 0, fZ + (Lz : ℚ) / nz))
    (s := (h0, 0, 0, 0))
    ⟨by intro x; simp, by simp⟩
    (by
      rintro iz hiz ⟨g, r⟩ ⟨hg, rfl⟩
      obtain ⟨h', fY, e1, hU'⟩ := loopY_spec L Lz n nz iz hn hnL hnz hnzL hiz f h0 g hf hg
      refine ⟨(h', 0, 0, iz * ((Lz : ℚ) / nz) + (Lz : ℚ) / nz), by
        dsimp only
        rw [e1]
        simp only [Option.bind_eq_bind, Option.bind_some], hU', ?_⟩
      dsimp only
      refine Prod.ext rfl (Prod.ext rfl ?_)
      dsimp only
      push_cast
      ring)
  exact ⟨s'.1, by unfold reduce; rw [e]; rfl, hP.1⟩

end Reduce
end Jaxions
