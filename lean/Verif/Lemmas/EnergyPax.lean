import Verif.Model.EnergyPax
import Verif.Spec.EnergyPax
import Verif.Props.EnergyTheta
import Verif.Basic.Writes
import Mathlib.Tactic.IntervalCases
/-
Result of the energy kernel of the Paxion for any field and build.
-/
noncomputable section

namespace Jaxions.Energy

open Stencil Simd

variable {Y S NN Lz : ℕ}

/-! ### What a lane computes -/

/-- The lower neighbour of the imaginary part `b` as the code reads it; `a` is the real part. -/
def lowV (i : Isa) (p : Prec) (Y S : ℕ) (a b : ℤ → ℤ → ℤ → ℝ) (x y : ℕ) (z : ℤ) : ℝ :=
  if y % Y = 0 then b x ((backV i p S (y / Y) * Y + (Y - 1) : ℕ) : ℤ) z + extra i p (a x (y + 1) z)
  else b x (y - 1) z

/-- The upper one. -/
def highV (i : Isa) (p : Prec) (Y : ℕ) (a b : ℤ → ℤ → ℤ → ℝ) (x y : ℕ) (z : ℤ) : ℝ :=
  b x (y + 1) z + if y % Y + 1 = Y then extra i p (a x (y - 1) z) else 0

/-- Lanes of the neighbour exist: the only build with a fixed table has eight lanes. -/
theorem backV_lt {i : Isa} {p : Prec} (hS : 0 < S) (h8 : i = .avx → p = .single → S = 8) {l : ℕ}
    (hl : l < S) : backV i p S l < S := by
  by_cases h : i = .avx ∧ p = .single
  · obtain ⟨rfl, rfl⟩ := h
    have h8' := h8 rfl rfl
    subst h8'
    interval_cases l <;> decide
  · cases i <;> cases p <;> first | exact Nat.mod_lt _ hS | exact absurd ⟨rfl, rfl⟩ h

theorem enYv_eq (i : Isa) (p : Prec) (hb : ¬ (i = .avx512 ∧ p = .single))
    (h8 : i = .avx → p = .single → S = 8) (hS : 0 < S) (v : Heap Nat ℝ)
    (a b : ℤ → ℤ → ℤ → ℝ) {nz : Nat}
    (hper : Periodic (Y * S) b) (hm : Holds (Y * S) S nz v b) {x y z : Nat} (hx : x < Y * S)
    (hy : y < Y * S) (h2 : 2 ≤ Y) (hz : 1 ≤ z) (hz' : z + 1 < nz) {mY : ℝ × ℝ}
    (hm1 : y % Y = 0 → mY.1 = a x (y + 1) z) (hm2 : y % Y + 1 = Y → mY.2 = a x (y - 1) z) :
    enYv i p (shape Y S NN) v mY (y % Y) (vec Y S x (y % Y) z) (y / Y) =
      some (highV i p Y a b x y z, lowV i p Y S a b x y z) := by
  obtain ⟨-, -, -, hp, hn, -, -⟩ := reads (NN := NN) hS v b hper hm hx hy h2 hz hz'
  have hYC : (shape Y S NN).YC = Y := shape_YC hS
  by_cases h0 : y % Y = 0
  · have h1 : ¬ (y % Y + 1 = Y) := by omega
    simp only [Shape.yPlus, if_pos (show y % Y < 1 by omega), Nat.one_mul] at hp
    have hlow : load v ((sub? (vec Y S x (y % Y) z + (shape Y S NN).Sf) (shape Y S NN).XC).map
        (· + backV i p (shape Y S NN).step (y / Y))) =
        some (b x ((backV i p S (y / Y) * Y + (Y - 1) : ℕ) : ℤ) z) := by
      have hbl : backV i p S (y / Y) < S := backV_lt hS h8 (lane_lt hy)
      have hlt : Y - 1 < Y := by omega
      have hy' : backV i p S (y / Y) * Y + (Y - 1) < Y * S := by
        have := pair_lt hbl hlt
        rwa [Nat.mul_comm S Y] at this
      have := hm x (backV i p S (y / Y) * Y + (Y - 1)) z hx hy' (by omega)
      rw [cell_eq hS, mod_of hlt, div_of hlt] at this
      have e : sub? (vec Y S x (y % Y) z + (shape Y S NN).Sf) (shape Y S NN).XC =
          some (vec Y S x (Y - 1) z) := by
        rw [shape_Sf, shape_XC, h0]
        obtain ⟨Y', rfl⟩ : ∃ Y', Y = Y' + 1 := ⟨Y - 1, by omega⟩
        have e1 : vec (Y' + 1) S x 0 z + (Y' + 1) * ((Y' + 1) * S * S) =
            vec (Y' + 1) S x Y' z + (Y' + 1) * S * S := by
          simp only [vec]; ring
        rw [e1, sub?, if_pos (by omega), Nat.add_sub_cancel, Nat.add_sub_cancel]
      rw [e]
      simpa [load, shape] using this
    have hlow' := hlow
    simp only [enYv, if_pos h0, highV, lowV, if_neg h1, add_zero, hp, hlow', Option.bind_eq_bind,
      Option.bind_some, Option.pure_def, hm1 h0]
    cases i <;> cases p <;> first | rfl | exact absurd ⟨rfl, rfl⟩ hb
  · simp only [Shape.yPlus, Shape.yMinus, if_neg (show ¬ (y % Y < 1) by omega), Nat.one_mul] at hp hn
    by_cases h1 : y % Y + 1 = Y
    · have h1' : y % Y + 1 = (shape Y S NN).YC := by rw [hYC]; exact h1
      simp only [if_pos (show y % Y + 1 ≥ (shape Y S NN).YC by rw [hYC]; omega)] at hp
      simp only [enYv, highV, lowV, if_neg h0, if_pos h1, if_pos h1', hp, hn, Option.bind_eq_bind,
        Option.bind_some, Option.pure_def, hm2 h1]
    · have hm := Nat.mod_lt y (show 0 < Y by omega)
      have h1' : ¬ (y % Y + 1 = (shape Y S NN).YC) := by rw [hYC]; exact h1
      simp only [if_neg (show ¬ (y % Y + 1 ≥ (shape Y S NN).YC) by rw [hYC]; omega)] at hp
      simp only [enYv, highV, lowV, if_neg h0, if_neg h1, if_neg h1', hp, hn, Option.bind_eq_bind,
        Option.bind_some, Option.pure_def, add_zero]

/-- Terms of a site from the components of the field. -/
def paxSiteTerms (i : Isa) (p : Prec) (Y S : ℕ) (a b : ℤ → ℤ → ℤ → ℝ) (x y : ℕ) (z : ℤ) :
    Terms ℝ := fun q => match q with
  | 0 => sq2 (a (x + 1) y z) (a x y z) (b (x + 1) y z) (b x y z) +
        sq2 (a (x - 1) y z) (a x y z) (b (x - 1) y z) (b x y z)
  | 1 => sq2 (a x (y + 1) z + if y % Y + 1 = Y then extra i p (a x (y - 1) z) else 0) (a x y z)
          (highV i p Y a b x y z) (b x y z) +
        sq2 (a x (y - 1) z + if y % Y = 0 then extra i p (a x (y + 1) z) else 0) (a x y z)
          (lowV i p Y S a b x y z) (b x y z)
  | 2 => sq2 (a x y (z + 1)) (a x y z) (b x y (z + 1)) (b x y z) +
        sq2 (a x y (z - 1)) (a x y z) (b x y (z - 1)) (b x y z)
  | 3 => a x y z * a x y z + b x y z * b x y z
  | 4 => (a x y z * a x y z + b x y z * b x y z) * (a x y z * a x y z + b x y z * b x y z)
  | _ => 0

theorem paxTerms_eq (i : Isa) (p : Prec) (hb : ¬ (i = .avx512 ∧ p = .single))
    (h8 : i = .avx → p = .single → S = 8) (hS : 0 < S) (m v : Heap Nat ℝ)
    (a b : ℤ → ℤ → ℤ → ℝ) (hN : 1 ≤ NN) (h2 : 2 ≤ Y)
    (hpa : Periodic (Y * S) a) (hpb : Periodic (Y * S) b)
    (hm : Holds (Y * S) S (Lz + 2 * NN) m a) (hv : Holds (Y * S) S (Lz + 2 * NN) v b) {x y z : ℕ}
    (hx : x < Y * S) (hy : y < Y * S) (hz : z < Lz) :
    paxTerms i p (shape Y S NN) m v (laneOf Y S NN x y z) =
      some (paxSiteTerms i p Y S a b x y ((z + NN : ℕ) : ℤ)) := by
  have hm0 : y % Y < Y := Nat.mod_lt _ (by omega)
  have z1 : 1 ≤ z + NN := by omega
  have z2 : z + NN + 1 < Lz + 2 * NN := by omega
  have hY := enY_eq (NN := NN) i p hS m a hpa hm hx hy h2 z1 z2
  have hYv := enYv_eq (NN := NN) i p hb h8 hS v a b hpb hv hx hy h2 z1 z2
    (mY := (a x (y + 1) (z + NN : ℕ) +
        (if y % Y + 1 = Y then extra i p (a x (y - 1) (z + NN : ℕ)) else 0),
      a x (y - 1) (z + NN : ℕ) + (if y % Y = 0 then extra i p (a x (y + 1) (z + NN : ℕ)) else 0)))
    (fun h => by dsimp only; rw [if_neg (by omega), add_zero])
    (fun h => by dsimp only; rw [if_neg (by omega), add_zero])
  obtain ⟨r0, rpx, rmx, -, -, rpz, rmz⟩ := reads (NN := NN) hS m a hpa hm hx hy h2 z1 z2
  obtain ⟨s0, spx, smx, -, -, spz, smz⟩ := reads (NN := NN) hS v b hpb hv hx hy h2 z1 z2
  rw [← enPx_eq hx] at rpx spx
  rw [← enMx_eq hS] at rmx smx
  have hX : vec Y S x (y % Y) (z + NN) % (shape Y S NN).XC = x * S := by
    rw [shape_XC]; exact vec_mod hS hx
  have hX1 : vec Y S x (y % Y) (z + NN) / (shape Y S NN).XC % (shape Y S NN).YC = y % Y := by
    rw [shape_XC, shape_YC hS]; exact vec_div hS hx hm0
  simp only [paxTerms, laneOf, hX, hX1, hY, hYv, rpx, rmx, rmz, spx, smx, smz, Option.bind_eq_bind,
    Option.bind_some, Option.pure_def]
  simp only [load, Option.bind_some, r0, rpz, s0, spz]
  rfl

/-! ### The maps -/

/-- Slices by which the maps are shifted. -/
def shift (p : Prec) (NN : ℕ) : ℕ := NN - ghostsOff p NN

theorem paxSite_eq (p : Prec) (hS : 0 < S) (hN : 1 ≤ NN) {x y z : ℕ} (hx : x < Y * S)
    (hy : y < Y * S) :
    paxSite p (shape Y S NN) (laneOf Y S NN x y z) =
      siteOf (shape Y S NN) (laneOf Y S NN x y z) + shift p NN * (Y * S * (Y * S)) := by
  have hY : 0 < Y := by
    rcases Nat.eq_zero_or_pos Y with h | h
    · subst h; simp at hy
    · exact h
  have hm : y % Y < Y := Nat.mod_lt _ hY
  have e : vec Y S x (y % Y) (z + NN) / (Y * S * S) / Y = z + NN := by
    have : vec Y S x (y % Y) (z + NN) = ((z + NN) * Y + y % Y) * (Y * S * S) + x * S := by
      simp only [vec]; ring
    rw [this, div_of (x_lt hS hx)]
    exact div_of hm
  simp only [paxSite, siteOf, laneOf, shape_XC, shape_YC hS, e]
  have h3 : z + NN - ghostsOff p NN = (z + NN - NN) + shift p NN := by
    cases p <;> simp only [shift, ghostsOff] <;> omega
  have h4 : (shape Y S NN).NN = NN := rfl
  have h5 : (shape Y S NN).Sf = Y * S * (Y * S) := rfl
  rw [h4, h5, h3]
  ring

theorem two_maps {α : Type} (ns : List ℕ) (hn : ns.Nodup) (o d V : ℕ) (hV : ∀ n ∈ ns, n < V)
    (hd : V ≤ d) (f g : ℕ → α) (h : Heap ℕ α) :
    ((writeAll (ns.flatMap fun n => [(n + o, f n), (n + o + d, g n)]) h).isSome ↔
      ∀ n ∈ ns, (h (n + o)).isSome ∧ (h (n + o + d)).isSome) ∧
    ∀ h', writeAll (ns.flatMap fun n => [(n + o, f n), (n + o + d, g n)]) h = some h' →
      (∀ n ∈ ns, h' (n + o) = some (f n) ∧ h' (n + o + d) = some (g n)) ∧
      ∀ c, (∀ n ∈ ns, c ≠ n + o ∧ c ≠ n + o + d) → h' c = h c := by
  have hkeys : ((ns.flatMap fun n => [(n + o, f n), (n + o + d, g n)]).map Prod.fst).Nodup := by
    rw [List.map_flatMap]
    simp only [List.map_cons, List.map_nil]
    rw [List.nodup_flatMap]
    refine ⟨fun n hn' => ?_, ?_⟩
    · have := hV n hn'
      simp
      omega
    · refine hn.imp_of_mem fun {a b} ha hb hab => ?_
      intro c hc hc'
      have h1 := hV a ha
      have h2 := hV b hb
      simp only [List.mem_cons, List.not_mem_nil, or_false] at hc hc'
      omega
  have hmem : ∀ q : ℕ × α, q ∈ (ns.flatMap fun n => [(n + o, f n), (n + o + d, g n)]) ↔
      ∃ n ∈ ns, q = (n + o, f n) ∨ q = (n + o + d, g n) := by
    intro q
    simp only [List.mem_flatMap, List.mem_cons, List.not_mem_nil, or_false]
  constructor
  · constructor
    · intro hs
      obtain ⟨h', e⟩ := Option.isSome_iff_exists.1 hs
      intro n hn'
      exact ⟨writeAll_dst _ e (n + o, f n) ((hmem _).2 ⟨n, hn', Or.inl rfl⟩),
        writeAll_dst _ e (n + o + d, g n) ((hmem _).2 ⟨n, hn', Or.inr rfl⟩)⟩
    · intro ha
      obtain ⟨h', e, -⟩ := writeAll_spec _ h (fun q hq => by
        obtain ⟨n, hn', rfl | rfl⟩ := (hmem q).1 hq
        · exact (ha n hn').1
        · exact (ha n hn').2) hkeys
      rw [e]
      rfl
  · intro h' e
    obtain ⟨h'', e', h1, h2⟩ := writeAll_spec _ h (writeAll_dst _ e) hkeys
    rw [e] at e'
    cases e'
    refine ⟨fun n hn' => ⟨h1 _ ((hmem _).2 ⟨n, hn', Or.inl rfl⟩),
      h1 _ ((hmem _).2 ⟨n, hn', Or.inr rfl⟩)⟩, fun c hc => h2 c ?_⟩
    intro hk
    obtain ⟨q, hq, rfl⟩ := List.mem_map.1 hk
    obtain ⟨n, hn', rfl | rfl⟩ := (hmem q).1 hq
    · exact (hc n hn').1 rfl
    · exact (hc n hn').2 rfl

theorem paxScale_sum (P : PaxPar ℝ) (N : ℕ) (T : ℕ → Terms ℝ) (q : ℕ) :
    paxScale P (fun q => ∑ n ∈ Finset.range N, T n q) q =
      ∑ n ∈ Finset.range N, paxScale P (T n) q := by
  match q with
  | 0 => exact Finset.sum_mul ..
  | 1 => exact Finset.sum_mul ..
  | 2 => exact Finset.sum_mul ..
  | 3 => rfl
  | 4 => exact Finset.sum_mul ..
  | q + 5 => simp [paxScale]

/-- Result of the kernel for any field. -/
theorem energyPaxion_eq (i : Isa) (p : Prec) (hb : ¬ (i = .avx512 ∧ p = .single))
    (h8 : i = .avx → p = .single → S = 8) (map : Bool) (P : PaxPar ℝ) (hS : 0 < S)
    (m v m2 : Heap Nat ℝ) (a b : ℤ → ℤ → ℤ → ℝ) (hN : 1 ≤ NN) (h2 : 2 ≤ Y)
    (hpa : Periodic (Y * S) a) (hpb : Periodic (Y * S) b)
    (hm : Holds (Y * S) S (Lz + 2 * NN) m a) (hv : Holds (Y * S) S (Lz + 2 * NN) v b)
    {order : List ℕ} (ho : order.Perm (visits (shape Y S NN) Lz)) :
    let T := fun n => paxSiteTerms i p Y S a b (xOf (Y * S) n) (yOf (Y * S) n)
      ((zOf (Y * S) n + NN : ℕ) : ℤ)
    let V := Lz * (Y * S * (Y * S))
    let o := shift p NN * (Y * S * (Y * S))
    let d := secondMap (shape Y S NN) Lz
    ((energyPaxion i p map P (shape Y S NN) Lz m v order m2).isSome ↔
      (map = true → ∀ n < V, (m2 (n + o)).isSome ∧ (m2 (n + o + d)).isSome)) ∧
    ∀ r, energyPaxion i p map P (shape Y S NN) Lz m v order m2 = some r →
      (∀ q, r.1 q = ∑ n ∈ Finset.range V, paxScale P (T n) q) ∧
      (map = true → (∀ n < V, r.2 (n + o) = some (T n 3) ∧
        r.2 (n + o + d) = some (paxDens P (T n))) ∧
        ∀ c, (∀ n < V, c ≠ n + o ∧ c ≠ n + o + d) → r.2 c = m2 c) ∧
      (map = false → r.2 = m2) := by
  intro T V o d
  have hY : 0 < Y := by omega
  have hYS : 0 < Y * S := Nat.mul_pos hY hS
  have hco : ∀ x y z : ℕ, x < Y * S → y < Y * S →
      xOf (Y * S) (z * (Y * S * (Y * S)) + y * (Y * S) + x) = x ∧
      yOf (Y * S) (z * (Y * S * (Y * S)) + y * (Y * S) + x) = y ∧
      zOf (Y * S) (z * (Y * S * (Y * S)) + y * (Y * S) + x) = z := by
    intro x y z hx hy
    have e : z * (Y * S * (Y * S)) + y * (Y * S) + x = (z * (Y * S) + y) * (Y * S) + x := by ring
    rw [e]
    refine ⟨mod_of hx, ?_, ?_⟩
    · rw [yOf, div_of hx, mod_of hy]
    · rw [zOf, div_of hx, div_of hy]
  have hT : ∀ c ∈ lanes (shape Y S NN) order,
      paxTerms i p (shape Y S NN) m v c = some (T (siteOf (shape Y S NN) c)) ∧
      paxSite p (shape Y S NN) c = siteOf (shape Y S NN) c + o := by
    intro c hc
    obtain ⟨x, y, z, hx, hy, hz, rfl⟩ := (mem_lanes hS hY ho c).1 hc
    refine ⟨?_, paxSite_eq p hS hN hx hy⟩
    rw [paxTerms_eq i p hb h8 hS m v a b hN h2 hpa hpb hm hv hx hy hz, siteOf_laneOf hS hx hy]
    obtain ⟨e1, e2, e3⟩ := hco x y z hx hy
    simp only [T, e1, e2, e3]
  have hfold := fold_eq (fun c => (paxTerms i p (shape Y S NN) m v c).map fun t =>
      (t, paxOut map P p (shape Y S NN) Lz c t))
    (fun c => (T (siteOf (shape Y S NN) c),
      paxOut map P p (shape Y S NN) Lz c (T (siteOf (shape Y S NN) c))))
    (lanes (shape Y S NN) order) (fun c hc => by simp only [(hT c hc).1, Option.map_some])
    (fun _ => 0) m2
  have hsum : ∀ q, ((lanes (shape Y S NN) order).map fun c => T (siteOf (shape Y S NN) c) q).sum =
      ∑ n ∈ Finset.range V, T n q := fun q =>
    sum_lanes hS hY ho _ (fun n => T n q) (fun _ _ => rfl)
  have hperm := sites_perm (NN := NN) hS hY ho
  have hrun : energyPaxion i p map P (shape Y S NN) Lz m v order m2 =
      (writeAll ((lanes (shape Y S NN) order).flatMap fun c =>
        paxOut map P p (shape Y S NN) Lz c (T (siteOf (shape Y S NN) c))) m2).map fun m2' =>
        (paxScale P fun q => ∑ n ∈ Finset.range V, T n q, m2') := by
    simp only [energyPaxion, run, hfold, hsum, zero_add]
    cases writeAll ((lanes (shape Y S NN) order).flatMap fun c =>
        paxOut map P p (shape Y S NN) Lz c (T (siteOf (shape Y S NN) c))) m2 <;> rfl
  cases map with
  | false =>
    have e : ((lanes (shape Y S NN) order).flatMap fun c =>
        paxOut false P p (shape Y S NN) Lz c (T (siteOf (shape Y S NN) c))) = [] := by
      simp [paxOut]
    rw [hrun, e]
    refine ⟨by simp [writeAll], ?_⟩
    rintro r hr
    have hr : r = (paxScale P fun q => ∑ n ∈ Finset.range V, T n q, m2) := by
      simpa [writeAll, eq_comm] using hr
    subst hr
    exact ⟨fun q => paxScale_sum P V T q, by simp, fun _ => rfl⟩
  | true =>
    have e : ((lanes (shape Y S NN) order).flatMap fun c =>
        paxOut true P p (shape Y S NN) Lz c (T (siteOf (shape Y S NN) c))) =
        ((lanes (shape Y S NN) order).map (siteOf (shape Y S NN))).flatMap
          fun n => [(n + o, T n 3), (n + o + d, paxDens P (T n))] := by
      rw [List.flatMap_map]
      refine List.flatMap_congr fun c hc => ?_
      simp only [paxOut, if_true, (hT c hc).2]
      rfl
    have hVd : V ≤ d := by
      show Lz * (Y * S * (Y * S)) ≤ NN * (Y * S * (Y * S)) + Lz * (Y * S * (Y * S)) + _
      omega
    have hlt : ∀ n, n ∈ (lanes (shape Y S NN) order).map (siteOf (shape Y S NN)) ↔ n < V :=
      fun n => by rw [hperm.mem_iff, List.mem_range]
    obtain ⟨k1, k2⟩ := two_maps ((lanes (shape Y S NN) order).map (siteOf (shape Y S NN)))
      (hperm.nodup_iff.2 List.nodup_range) o d V (fun n hn => (hlt n).1 hn) hVd (fun n => T n 3)
      (fun n => paxDens P (T n)) m2
    rw [hrun, e]
    constructor
    · rw [Option.isSome_map, k1]
      simp only [hlt, true_implies]
    · intro r hr
      obtain ⟨m2', hw, rfl⟩ := Option.map_eq_some_iff.1 hr
      obtain ⟨k3, k4⟩ := k2 m2' hw
      simp only [hlt] at k3 k4
      exact ⟨fun q => paxScale_sum P V T q, fun _ => ⟨k3, k4⟩, by simp⟩

end Jaxions.Energy
