import Verif.Lemmas.EnergyTheta
import Verif.Spec.Energy
import Mathlib.Algebra.BigOperators.Ring.Finset
import Mathlib.Algebra.Order.BigOperators.Group.Finset
/-
C51: energy of the axion angle, reported totals and map.
-/
noncomputable section

namespace Jaxions.Energy

open Stencil Simd

/-! ### Wrap of an angle difference -/

section wrap

variable {K : Type} [Field K] [LinearOrder K] [IsStrictOrderedRing K]

/-- **C51** The wrap of a difference returns the representative nearest to zero for every difference
smaller in size than three half turns, except at exactly half a turn. -/
theorem C51_wrap {x md : K} (h : 0 < md) (h3 : |x| < 3 * (md / 2)) (ht : |x| ≠ md / 2) :
    (∃ k : ℤ, modPd x md = x + k * md) ∧ |modPd x md| < md / 2 := by
  rw [abs_lt] at h3
  have n1 : x ≠ md / 2 := by rintro rfl; exact ht (abs_of_pos (by linarith))
  have n2 : x ≠ -(md / 2) := by
    rintro rfl; exact ht (by rw [abs_neg, abs_of_pos (by linarith)])
  rw [modPd_eq h, if_neg (by rintro (e | e) <;> contradiction)]
  split_ifs with a b
  · exact ⟨⟨-1, by push_cast; ring⟩, abs_lt.2 ⟨by linarith, by linarith⟩⟩
  · exact ⟨⟨1, by push_cast; ring⟩, abs_lt.2 ⟨by linarith, by linarith⟩⟩
  · refine ⟨⟨0, by push_cast; ring⟩, abs_lt.2 ⟨?_, ?_⟩⟩
    · exact lt_of_le_of_ne (not_lt.1 b) (Ne.symm n2)
    · exact lt_of_le_of_ne (not_lt.1 a) n1

/-- **C51** At exactly half a turn both representatives are selected and their sum, zero, is
returned: the largest possible difference counts as none. -/
theorem C51_wrap_half {md : K} (h : 0 < md) : modPd (md / 2) md = 0 ∧ modPd (-(md / 2)) md = 0 := by
  constructor <;> rw [modPd_eq h] <;> simp

/-- **C51** A difference of three half turns or more is not reduced to the nearest representative. -/
theorem C51_wrap_far {x md : K} (h : 0 < md) (h3 : 3 * (md / 2) ≤ |x|) :
    md / 2 ≤ |modPd x md| := by
  rw [modPd_eq h]
  rcases le_abs'.1 h3 with a | a
  · rw [if_neg (by rintro (e | e) <;> linarith), if_neg (by linarith), if_pos (by linarith)]
    exact le_abs'.2 (Or.inl (by linarith))
  · rw [if_neg (by rintro (e | e) <;> linarith), if_pos (by linarith)]
    exact le_abs'.2 (Or.inr (by linarith))

/-- 5/4 of a turn is wrapped to a quarter of a turn. -/
example : modPd (5 : ℚ) 4 = 1 := by rw [modPd_eq (by norm_num)]; norm_num

end wrap

/-! ### What a lane computes -/

variable {Y S NN Lz : ℕ}

theorem enY_eq (i : Isa) (p : Prec) (hS : 0 < S) (m : Heap Nat ℝ) (φ : Int → Int → Int → ℝ) {nz : Nat}
    (hper : Periodic (Y * S) φ) (hm : Holds (Y * S) S nz m φ) {x y z : Nat} (hx : x < Y * S)
    (hy : y < Y * S) (h2 : 2 ≤ Y) (hz : 1 ≤ z) (hz' : z + 1 < nz) :
    enY i p (shape Y S NN) m (y % Y) (vec Y S x (y % Y) z) (y / Y) =
      some (φ x (y + 1) z + (if y % Y + 1 = Y then extra i p (φ x (y - 1) z) else 0),
        φ x (y - 1) z + (if y % Y = 0 then extra i p (φ x (y + 1) z) else 0)) := by
  obtain ⟨-, -, -, hp, hn, -, -⟩ := reads (NN := NN) hS m φ hper hm hx hy h2 hz hz'
  have hYC : (shape Y S NN).YC = Y := shape_YC hS
  by_cases h0 : y % Y = 0
  · have h1 : ¬ (y % Y + 1 = Y) := by omega
    simp only [Shape.yPlus, Shape.yMinus, if_pos (show y % Y < 1 by omega), Nat.one_mul] at hp hn
    simp only [enY, if_pos h0, if_neg h1, hp, hn, Option.bind_eq_bind, Option.bind_some,
      Option.pure_def, add_zero]
  · simp only [Shape.yPlus, Shape.yMinus, if_neg (show ¬ (y % Y < 1) by omega), Nat.one_mul] at hp hn
    by_cases h1 : y % Y + 1 = Y
    · have h1' : y % Y + 1 = (shape Y S NN).YC := by rw [hYC]; exact h1
      simp only [if_pos (show y % Y + 1 ≥ (shape Y S NN).YC by rw [hYC]; omega)] at hp
      simp only [enY, if_neg h0, if_pos h1, if_pos h1', hp, hn, Option.bind_eq_bind,
        Option.bind_some, Option.pure_def, add_zero]
    · have hm := Nat.mod_lt y (show 0 < Y by omega)
      have h1' : ¬ (y % Y + 1 = (shape Y S NN).YC) := by rw [hYC]; exact h1
      simp only [if_neg (show ¬ (y % Y + 1 ≥ (shape Y S NN).YC) by rw [hYC]; omega)] at hp
      simp only [enY, if_neg h0, if_neg h1, if_neg h1', hp, hn, Option.bind_eq_bind,
        Option.bind_some, Option.pure_def, add_zero]

/-- Terms of a site, from the field and velocity values. -/
def siteTerms (i : Isa) (p : Prec) (Y : ℕ) (wMod : Bool) (P : ThetaPar ℝ)
    (ψ ν : ℤ → ℤ → ℤ → ℝ) (x y : ℕ) (z zv : ℤ) : Terms ℝ := fun q => match q with
  | 0 => sqDiff P wMod (ψ (x + 1) y z - ψ x y z) + sqDiff P wMod (ψ (x - 1) y z - ψ x y z)
  | 1 => sqDiff P wMod (ψ x (y + 1) z + (if y % Y + 1 = Y then extra i p (ψ x (y - 1) z) else 0)
          - ψ x y z) +
        sqDiff P wMod (ψ x (y - 1) z + (if y % Y = 0 then extra i p (ψ x (y + 1) z) else 0)
          - ψ x y z)
  | 2 => sqDiff P wMod (ψ x y (z + 1) - ψ x y z) + sqDiff P wMod (ψ x y (z - 1) - ψ x y z)
  | 3 => (ν x y zv - P.d1 * (ψ x y z * P.iz)) * (ν x y zv - P.d1 * (ψ x y z * P.iz))
  | 4 => P.sn (1 / 2 * (ψ x y z * P.iz)) * P.sn (1 / 2 * (ψ x y z * P.iz)) * 2
  | _ => 0

theorem thetaTerms_eq (i : Isa) (p : Prec) (wMod : Bool) (P : ThetaPar ℝ) (hS : 0 < S)
    (m v : Heap Nat ℝ) (ψ ν : ℤ → ℤ → ℤ → ℝ) (hN : 1 ≤ NN) (h2 : 2 ≤ Y)
    (hper : Periodic (Y * S) ψ) (hm : Holds (Y * S) S (Lz + 2 * NN) m ψ)
    (hv : Holds (Y * S) S Lz v ν) {x y z : ℕ} (hx : x < Y * S) (hy : y < Y * S) (hz : z < Lz) :
    thetaTerms i p wMod P (shape Y S NN) m v (laneOf Y S NN x y z) =
      some (siteTerms i p Y wMod P ψ ν x y ((z + NN : ℕ) : ℤ) z) := by
  have hm0 : y % Y < Y := Nat.mod_lt _ (by omega)
  have hY := enY_eq (NN := NN) i p hS m ψ hper hm hx hy h2 (show 1 ≤ z + NN by omega)
    (show z + NN + 1 < Lz + 2 * NN by omega)
  obtain ⟨r0, rpx, rmx, -, -, rpz, rmz⟩ := reads (NN := NN) hS m ψ hper hm hx hy h2
    (show 1 ≤ z + NN by omega) (show z + NN + 1 < Lz + 2 * NN by omega)
  have hvel : load v ((sub? (vec Y S x (y % Y) (z + NN)) ((shape Y S NN).NN * (shape Y S NN).Sf)).map
      (· + y / Y)) = some (ν x y z) := by
    have e : sub? (vec Y S x (y % Y) (z + NN)) ((shape Y S NN).NN * (shape Y S NN).Sf) =
        some (vec Y S x (y % Y) z) := by
      have hN' : (shape Y S NN).NN * (shape Y S NN).Sf = NN * (Y * (Y * S * S)) := by
        rw [shape_Sf]; rfl
      have hv' : vec Y S x (y % Y) (z + NN) = vec Y S x (y % Y) z + NN * (Y * (Y * S * S)) := by
        simp only [vec]; ring
      rw [hN', hv', sub?, if_pos (by omega), Nat.add_sub_cancel]
    rw [e]
    simp only [Option.map_some, load, Option.bind_some]
    rw [← cell_eq hS]
    exact hv x y z hx hy hz
  rw [← enPx_eq hx] at rpx
  rw [← enMx_eq hS] at rmx
  have hX : vec Y S x (y % Y) (z + NN) % (shape Y S NN).XC = x * S := by
    rw [shape_XC]; exact vec_mod hS hx
  have hX1 : vec Y S x (y % Y) (z + NN) / (shape Y S NN).XC % (shape Y S NN).YC = y % Y := by
    rw [shape_XC, shape_YC hS]; exact vec_div hS hx hm0
  simp only [thetaTerms, laneOf, hX, hX1, hY, hvel, rpx, rmx, rmz, Option.bind_eq_bind,
    Option.bind_some, Option.pure_def]
  simp only [load, Option.bind_some, r0, rpz]
  rfl

/-- Result of the kernel for any field. -/
theorem energyTheta_eq (i : Isa) (p : Prec) (wMod map : Bool) (P : ThetaPar ℝ) (hS : 0 < S)
    (m v m2 : Heap Nat ℝ) (ψ ν : ℤ → ℤ → ℤ → ℝ) (hN : 1 ≤ NN) (h2 : 2 ≤ Y)
    (hper : Periodic (Y * S) ψ) (hm : Holds (Y * S) S (Lz + 2 * NN) m ψ)
    (hv : Holds (Y * S) S Lz v ν) (hm2 : ∀ n, n < Lz * (Y * S * (Y * S)) → (m2 n).isSome)
    {order : List ℕ} (ho : order.Perm (visits (shape Y S NN) Lz)) :
    let T := fun n => siteTerms i p Y wMod P ψ ν (xOf (Y * S) n) (yOf (Y * S) n)
      ((zOf (Y * S) n + NN : ℕ) : ℤ) (zOf (Y * S) n)
    ∃ r, energyTheta i p wMod map P (shape Y S NN) m v order m2 = some r ∧
      (r.1 = thetaScale P fun q => ∑ n ∈ Finset.range (Lz * (Y * S * (Y * S))), T n q) ∧
      (∀ n, r.2 n = if map = true ∧ n < Lz * (Y * S * (Y * S)) then some (thetaDens P (T n))
        else m2 n) := by
  intro T
  have hY : 0 < Y := by omega
  have hYS : 0 < Y * S := Nat.mul_pos hY hS
  have hco : ∀ x y z : ℕ, x < Y * S → y < Y * S →
      xOf (Y * S) (z * (Y * S * (Y * S)) + y * (Y * S) + x) = x ∧
      yOf (Y * S) (z * (Y * S * (Y * S)) + y * (Y * S) + x) = y ∧
      zOf (Y * S) (z * (Y * S * (Y * S)) + y * (Y * S) + x) = z := by
    intro x y z hx hy
    have e : z * (Y * S * (Y * S)) + y * (Y * S) + x = (z * (Y * S) + y) * (Y * S) + x := by ring
    rw [e]
    refine ⟨mod_of hx, ?_, ?_⟩
    · rw [yOf, div_of hx, mod_of hy]
    · rw [zOf, div_of hx, div_of hy]
  have hT : ∀ c ∈ lanes (shape Y S NN) order,
      thetaTerms i p wMod P (shape Y S NN) m v c = some (T (siteOf (shape Y S NN) c)) := by
    intro c hc
    obtain ⟨x, y, z, hx, hy, hz, rfl⟩ := (mem_lanes hS hY ho c).1 hc
    rw [thetaTerms_eq i p wMod P hS m v ψ ν hN h2 hper hm hv hx hy hz, siteOf_laneOf hS hx hy]
    obtain ⟨e1, e2, e3⟩ := hco x y z hx hy
    simp only [T, e1, e2, e3]
  have hfold := fold_eq (fun c => (thetaTerms i p wMod P (shape Y S NN) m v c).map fun t =>
      (t, thetaOut map P (shape Y S NN) c t))
    (fun c => (T (siteOf (shape Y S NN) c),
      thetaOut map P (shape Y S NN) c (T (siteOf (shape Y S NN) c))))
    (lanes (shape Y S NN) order) (fun c hc => by simp only [hT c hc, Option.map_some])
    (fun _ => 0) m2
  have hsum : ∀ q, ((lanes (shape Y S NN) order).map fun c => T (siteOf (shape Y S NN) c) q).sum =
      ∑ n ∈ Finset.range (Lz * (Y * S * (Y * S))), T n q := fun q =>
    sum_lanes hS hY ho _ (fun n => T n q) (fun _ _ => rfl)
  -- the writes
  have hperm := sites_perm (NN := NN) hS hY ho
  have hw : ∃ m2', writeAll ((lanes (shape Y S NN) order).flatMap fun c =>
      thetaOut map P (shape Y S NN) c (T (siteOf (shape Y S NN) c))) m2 = some m2' ∧
      ∀ n, m2' n = if map = true ∧ n < Lz * (Y * S * (Y * S)) then some (thetaDens P (T n))
        else m2 n := by
    cases map with
    | false =>
      refine ⟨m2, ?_, by simp⟩
      have e : ((lanes (shape Y S NN) order).flatMap fun c =>
          thetaOut false P (shape Y S NN) c (T (siteOf (shape Y S NN) c))) = [] := by
        simp [thetaOut]
      rw [e]
      rfl
    | true =>
      have e : ((lanes (shape Y S NN) order).flatMap fun c =>
          thetaOut true P (shape Y S NN) c (T (siteOf (shape Y S NN) c))) =
          ((lanes (shape Y S NN) order).map (siteOf (shape Y S NN))).map
            fun n => (n, thetaDens P (T n)) := by
        rw [List.map_map]
        generalize lanes (shape Y S NN) order = cs
        induction cs with
        | nil => rfl
        | cons c cs ih => rw [List.flatMap_cons, ih]; rfl
      rw [e]
      have hfst : (((lanes (shape Y S NN) order).map (siteOf (shape Y S NN))).map
          fun n => (n, thetaDens P (T n))).map Prod.fst =
          (lanes (shape Y S NN) order).map (siteOf (shape Y S NN)) := by
        rw [List.map_map]
        exact List.map_id _
      obtain ⟨m2', h1, h2', h3⟩ := writeAll_spec (((lanes (shape Y S NN) order).map
          (siteOf (shape Y S NN))).map fun n => (n, thetaDens P (T n))) m2
        (by
          intro q hq
          have hq := List.mem_map_of_mem (f := Prod.fst) hq
          rw [hfst, hperm.mem_iff, List.mem_range] at hq
          exact hm2 _ hq)
        (by rw [hfst]; exact hperm.nodup_iff.2 List.nodup_range)
      refine ⟨m2', h1, fun n => ?_⟩
      rw [hfst] at h3
      by_cases hn : n < Lz * (Y * S * (Y * S))
      · rw [if_pos ⟨rfl, hn⟩]
        exact h2' (n, thetaDens P (T n)) (List.mem_map.2
          ⟨n, hperm.mem_iff.2 (List.mem_range.2 hn), rfl⟩)
      · rw [if_neg (fun h => hn h.2)]
        exact h3 n (fun h => hn (List.mem_range.1 (hperm.mem_iff.1 h)))
  obtain ⟨m2', hw1, hw2⟩ := hw
  rw [hw1] at hfold
  refine ⟨(thetaScale P fun q => ∑ n ∈ Finset.range (Lz * (Y * S * (Y * S))), T n q, m2'), ?_, rfl, hw2⟩
  simp only [energyTheta, run, hfold, Option.map_some, Option.bind_eq_bind, Option.bind_some,
    Option.pure_def, hsum, zero_add]

/-! ### C51 -/

/-- Parameters with which the kernel is called: `ood2 = 0.25/delta²`, `frw/z = R'/R`
(energyThetaXeon.cpp:494-497). -/
def params (U : Universe) (frw zz : ℝ) : ThetaPar ℝ :=
  ⟨U.R, zz, frw, 1 / 4 / U.δ ^ 2, U.m2, Real.pi, Real.sin⟩

theorem sqDiff_scale (U : Universe) (frw zz : ℝ) (hR : 0 < U.R) (wMod : Bool) (a b : ℝ) :
    sqDiff (params U frw zz) wMod (U.R * a - U.R * b) =
      U.R ^ 2 * (if wMod then modPd (a - b) (2 * Real.pi) else a - b) ^ 2 := by
  cases wMod with
  | false => simp only [sqDiff, Bool.false_eq_true, if_false]; ring
  | true =>
    have e : (params U frw zz).tV = U.R * (2 * Real.pi) := by
      simp only [ThetaPar.tV, params]; ring
    simp only [sqDiff, if_true, e]
    rw [show U.R * a - U.R * b = U.R * (a - b) by ring, modPd_scale hR (by positivity)]
    ring

/-- Scaling of the terms of one site to densities. -/
theorem scale_density (U : Universe) (frw zz : ℝ) (hR : 0 < U.R) (hH : frw / zz = U.H)
    (i : Isa) (p : Prec) (hb : ¬ (i = .avx512 ∧ p = .double)) (wMod : Bool)
    (θ θ' : ℤ → ℤ → ℤ → ℝ) (ofs : ℤ) (x y : ℕ) (z : ℤ) (q : ℕ) :
    thetaScale (params U frw zz) (siteTerms i p Y wMod (params U frw zz)
      (fun x y z => U.R * θ x y z)
      (fun x y z => U.R * (U.H * θ x y (z + ofs) + θ' x y (z + ofs))) x y (z + ofs) z) q =
    axionDensity U (fun d => if wMod then modPd d (2 * Real.pi) else d) θ θ' x y (z + ofs) q := by
  have hx : ∀ a : ℝ, extra i p a = 0 := by
    intro a
    cases i <;> cases p <;> first | rfl | exact absurd ⟨rfl, rfl⟩ hb
  have hr := hR.ne'
  match q with
  | 0 =>
    simp only [thetaScale, siteTerms, axionDensity, meanX, sqDiff_scale U frw zz hR]
    simp only [ThetaPar.o2, ThetaPar.iz2, ThetaPar.iz, params]
    field_simp
    ring
  | 1 =>
    simp only [thetaScale, siteTerms, axionDensity, meanY, hx, ite_self, add_zero,
      sqDiff_scale U frw zz hR]
    simp only [ThetaPar.o2, ThetaPar.iz2, ThetaPar.iz, params]
    field_simp
    ring
  | 2 =>
    simp only [thetaScale, siteTerms, axionDensity, meanZ, sqDiff_scale U frw zz hR]
    simp only [ThetaPar.o2, ThetaPar.iz2, ThetaPar.iz, params]
    field_simp
    ring
  | 3 =>
    have e : (params U frw zz).d1 = U.R * U.H := by
      simp only [ThetaPar.d1, params, ← hH]; ring
    simp only [thetaScale, siteTerms, axionDensity, e]
    simp only [ThetaPar.iz4, ThetaPar.iz2, ThetaPar.iz, params]
    field_simp
    ring
  | 4 =>
    simp only [thetaScale, siteTerms, axionDensity, ThetaPar.iz, ThetaPar.zQ, params]
    have e : 1 / 2 * (U.R * θ x y (z + ofs) * (1 / U.R)) = θ x y (z + ofs) / 2 := by
      field_simp
    rw [e]
    have h := Real.cos_sq (θ x y (z + ofs) / 2)
    have h' := Real.sin_sq_add_cos_sq (θ x y (z + ofs) / 2)
    rw [show 2 * (θ x y (z + ofs) / 2) = θ x y (z + ofs) by ring] at h
    have : Real.sin (θ x y (z + ofs) / 2) * Real.sin (θ x y (z + ofs) / 2) * 2 =
        1 - Real.cos (θ x y (z + ofs)) := by nlinarith
    rw [this]
    ring
  | q + 5 => rfl

theorem scale_sum (P : ThetaPar ℝ) (N : ℕ) (T : ℕ → Terms ℝ) (q : ℕ) :
    thetaScale P (fun q => ∑ n ∈ Finset.range N, T n q) q =
      ∑ n ∈ Finset.range N, thetaScale P (T n) q := by
  match q with
  | 0 => exact Finset.sum_mul ..
  | 1 => exact Finset.sum_mul ..
  | 2 => exact Finset.sum_mul ..
  | 3 => exact Finset.sum_mul ..
  | 4 => exact Finset.sum_mul ..
  | q + 5 => simp [thetaScale]

theorem dens_scale (P : ThetaPar ℝ) (t : Terms ℝ) :
    thetaDens P t = thetaScale P t 0 + thetaScale P t 1 + thetaScale P t 2 + thetaScale P t 3 +
      thetaScale P t 4 := by
  simp only [thetaDens, thetaScale]; ring

/-- **C51** Energy of the axion angle on a rank, for every build except double precision on AVX-512,
every lattice side that is a multiple of the vector length with at least two rows per block, every
ghost width, depth, field, time and order of the iterations: each of the five reported totals is the
sum over the sites of the physical density of that kind, a requested map holds at every site, in
unfolded order, the sum of the five densities of the site, and without a request the array is left
as it is. -/
theorem C51_axion {Lx : ℕ} (i : Isa) (p : Prec) (hb : ¬ (i = .avx512 ∧ p = .double))
    (wMod map : Bool) (hS : 0 < S) (hd : S ∣ Lx) (hrow : 2 ≤ Lx / S) (hN : 1 ≤ NN)
    (U : Universe) (frw zz : ℝ) (hR : 0 < U.R) (hH : frw / zz = U.H)
    (θ θ' : ℤ → ℤ → ℤ → ℝ) (hper : Periodic Lx θ) (m v m2 : Heap ℕ ℝ)
    (hm : Holds Lx S (Lz + 2 * NN) m fun x y z => U.R * θ x y z)
    (hv : Holds Lx S Lz v fun x y z => U.R * (U.H * θ x y (z + NN) + θ' x y (z + NN)))
    (hm2 : ∀ n, n < Lz * (Lx * Lx) → (m2 n).isSome)
    (order : List ℕ) (ho : order.Perm (visits ⟨Lx, S, NN⟩ Lz)) :
    let ε := fun n => axionDensity U (fun d => if wMod then modPd d (2 * Real.pi) else d) θ θ'
      (xOf Lx n) (yOf Lx n) (zOf Lx n + NN)
    ∃ r, energyTheta i p wMod map (params U frw zz) ⟨Lx, S, NN⟩ m v order m2 = some r ∧
      (∀ q, r.1 q = ∑ n ∈ Finset.range (Lz * (Lx * Lx)), ε n q) ∧
      (∀ n, r.2 n = if map = true ∧ n < Lz * (Lx * Lx) then
        some (ε n 0 + ε n 1 + ε n 2 + ε n 3 + ε n 4) else m2 n) := by
  obtain ⟨Y, rfl⟩ : ∃ Y, Lx = Y * S := by
    obtain ⟨Y, h⟩ := hd; exact ⟨Y, by rw [h, Nat.mul_comm]⟩
  rw [Nat.mul_div_cancel _ hS] at hrow
  intro ε
  have hper' : Periodic (Y * S) fun x y z => U.R * θ x y z := by
    intro x y z
    show U.R * θ x y z = _
    rw [hper x y z]
  obtain ⟨r, h1, h2, h3⟩ := energyTheta_eq i p wMod map (params U frw zz) hS m v m2 _ _ hN hrow
    hper' hm hv hm2 ho
  refine ⟨r, h1, ?_, ?_⟩
  · intro q
    rw [h2, scale_sum]
    refine Finset.sum_congr rfl fun n _ => ?_
    have := scale_density (Y := Y) U frw zz hR hH i p hb wMod θ θ' NN (xOf (Y * S) n)
      (yOf (Y * S) n) (zOf (Y * S) n) q
    simp only [Nat.cast_add]
    exact this
  · intro n
    rw [h3]
    have := fun q => scale_density (Y := Y) U frw zz hR hH i p hb wMod θ θ' NN (xOf (Y * S) n)
      (yOf (Y * S) n) (zOf (Y * S) n) q
    simp only [dens_scale, Nat.cast_add, this, ε]

/-- What a rank contributes: a run of the kernel with the map requested, on any field. -/
def RankRun (i : Isa) (p : Prec) (wMod : Bool) (S Lx NN Lz : ℕ) (U : Universe) (frw zz : ℝ)
    (res : Terms ℝ) (map : ℕ → ℝ) : Prop :=
  ∃ (θ θ' : ℤ → ℤ → ℤ → ℝ) (m v m2 m2' : Heap ℕ ℝ) (order : List ℕ), Periodic Lx θ ∧
    (Holds Lx S (Lz + 2 * NN) m fun x y z => U.R * θ x y z) ∧
    (Holds Lx S Lz v fun x y z => U.R * (U.H * θ x y (z + NN) + θ' x y (z + NN))) ∧
    (∀ n, n < Lz * (Lx * Lx) → (m2 n).isSome) ∧ order.Perm (visits ⟨Lx, S, NN⟩ Lz) ∧
    energyTheta i p wMod true (params U frw zz) ⟨Lx, S, NN⟩ m v order m2 = some (res, m2') ∧
    ∀ n, n < Lz * (Lx * Lx) → m2' n = some (map n)

/-- **C51** Over all ranks: the five averages reported by `energy` add up to the mean over the whole
lattice of the map that the ranks hold, for every number of ranks. -/
theorem C51_axion_mean {Lx : ℕ} (i : Isa) (p : Prec) (hb : ¬ (i = .avx512 ∧ p = .double))
    (wMod : Bool) (hS : 0 < S) (hd : S ∣ Lx) (hrow : 2 ≤ Lx / S) (hN : 1 ≤ NN)
    (U : Universe) (frw zz : ℝ) (hR : 0 < U.R) (hH : frw / zz = U.H)
    (ranks : List (Terms ℝ × (ℕ → ℝ)))
    (h : ∀ r ∈ ranks, RankRun i p wMod S Lx NN Lz U frw zz r.1 r.2) :
    let total := ranks.length * (Lz * (Lx * Lx))
    joined (ranks.map Prod.fst) total 0 + joined (ranks.map Prod.fst) total 1 +
      joined (ranks.map Prod.fst) total 2 + joined (ranks.map Prod.fst) total 3 +
      joined (ranks.map Prod.fst) total 4 =
    (ranks.map fun r => ∑ n ∈ Finset.range (Lz * (Lx * Lx)), r.2 n).sum / total := by
  intro total
  have h' : ∀ r ∈ ranks, r.1 0 + r.1 1 + r.1 2 + r.1 3 + r.1 4 =
      ∑ n ∈ Finset.range (Lz * (Lx * Lx)), r.2 n := by
    intro r hr
    obtain ⟨θ, θ', m, v, m2, m2', order, a1, a2, a3, a4, a5, a6, a7⟩ := h r hr
    obtain ⟨r', e1, e2, e3⟩ := C51_axion i p hb wMod true hS hd hrow hN U frw zz hR hH θ θ' a1 m v
      m2 a2 a3 a4 order a5
    rw [a6] at e1
    cases e1
    rw [e2, e2, e2, e2, e2, ← Finset.sum_add_distrib, ← Finset.sum_add_distrib,
      ← Finset.sum_add_distrib, ← Finset.sum_add_distrib]
    refine Finset.sum_congr rfl fun n hn => ?_
    have hn := Finset.mem_range.1 hn
    have := e3 n
    rw [if_pos ⟨rfl, hn⟩] at this
    exact (Option.some.inj ((a7 n hn).symm.trans this)).symm
  have e : ranks.map (fun r => ∑ n ∈ Finset.range (Lz * (Lx * Lx)), r.2 n) =
      ranks.map fun r => r.1 0 + r.1 1 + r.1 2 + r.1 3 + r.1 4 :=
    List.map_congr_left fun r hr => (h' r hr).symm
  rw [e]
  generalize total = t
  simp only [joined, List.map_map]
  clear h h' e
  induction ranks with
  | nil => simp
  | cons r rs ih =>
    simp only [List.map_cons, List.sum_cons, Function.comp] at ih ⊢
    have := ih
    rw [add_div, ← this]
    ring

/-- **C51** (violated by the double precision AVX-512 build) There the neighbour across the block
boundary is added to the opposite neighbour, so a constant angle, which has no gradient, is reported
with gradient energy `θ²/(4 δ² R²)` at every site of the first and the last row of every block. -/
theorem C51_axion_avx512 {Lx : ℕ} (hS : 0 < S) (hd : S ∣ Lx) (hrow : 2 ≤ Lx / S) (hN : 1 ≤ NN)
    (U : Universe) (frw zz : ℝ) (hR : 0 < U.R) (a : ℝ) (m v m2 : Heap ℕ ℝ)
    (hm : Holds Lx S (Lz + 2 * NN) m fun _ _ _ => U.R * a)
    (hv : Holds Lx S Lz v fun _ _ _ => U.R * (U.H * a))
    (hm2 : ∀ n, n < Lz * (Lx * Lx) → (m2 n).isSome)
    (order : List ℕ) (ho : order.Perm (visits ⟨Lx, S, NN⟩ Lz)) :
    ∃ r, energyTheta .avx512 .double false true (params U frw zz) ⟨Lx, S, NN⟩ m v order m2 = some r ∧
      r.1 1 = ∑ n ∈ Finset.range (Lz * (Lx * Lx)),
        if yOf Lx n % (Lx / S) = 0 ∨ yOf Lx n % (Lx / S) + 1 = Lx / S then
          a ^ 2 / (4 * U.δ ^ 2 * U.R ^ 2) else 0 := by
  obtain ⟨Y, rfl⟩ : ∃ Y, Lx = Y * S := by
    obtain ⟨Y, h⟩ := hd; exact ⟨Y, by rw [h, Nat.mul_comm]⟩
  rw [Nat.mul_div_cancel _ hS] at hrow ⊢
  obtain ⟨r, h1, h2, h3⟩ := energyTheta_eq .avx512 .double false true (params U frw zz) hS m v m2
    _ _ hN hrow (fun _ _ _ => rfl) hm hv hm2 ho
  refine ⟨r, h1, ?_⟩
  rw [h2, scale_sum]
  refine Finset.sum_congr rfl fun n _ => ?_
  have hr := hR.ne'
  simp only [thetaScale, siteTerms, sqDiff, extra, Bool.false_eq_true, if_false]
  simp only [ThetaPar.o2, ThetaPar.iz2, ThetaPar.iz, params]
  have hlt := Nat.mod_lt (yOf (Y * S) n) (show 0 < Y by omega)
  by_cases c : yOf (Y * S) n % Y = 0
  · have c' : ¬ (yOf (Y * S) n % Y + 1 = Y) := by omega
    simp only [c, if_true, true_or]
    rw [if_neg (by omega)]
    field_simp
    ring
  · by_cases c' : yOf (Y * S) n % Y + 1 = Y
    · simp only [c, c', if_true, if_false, false_or]
      field_simp
      ring
    · simp only [c, c', if_false, or_self]
      ring

/-- The result of the previous theorem is positive on every lattice with at least one site, so the
claim fails there. -/
theorem C51_axion_avx512_wrong {Lx : ℕ} (hS : 0 < S) (hd : S ∣ Lx) (hrow : 2 ≤ Lx / S) (hN : 1 ≤ NN)
    (hLz : 0 < Lz) (U : Universe) (frw zz : ℝ) (hR : 0 < U.R) (hδ : U.δ ≠ 0) (a : ℝ) (ha : a ≠ 0)
    (m v m2 : Heap ℕ ℝ) (hm : Holds Lx S (Lz + 2 * NN) m fun _ _ _ => U.R * a)
    (hv : Holds Lx S Lz v fun _ _ _ => U.R * (U.H * a))
    (hm2 : ∀ n, n < Lz * (Lx * Lx) → (m2 n).isSome)
    (order : List ℕ) (ho : order.Perm (visits ⟨Lx, S, NN⟩ Lz)) :
    ∃ r, energyTheta .avx512 .double false true (params U frw zz) ⟨Lx, S, NN⟩ m v order m2 = some r ∧
      (∑ n ∈ Finset.range (Lz * (Lx * Lx)), axionDensity U (fun d => d) (fun _ _ _ => a)
        (fun _ _ _ => 0) (xOf Lx n) (yOf Lx n) (zOf Lx n + NN) 1) < r.1 1 := by
  obtain ⟨r, h1, h2⟩ := C51_axion_avx512 hS hd hrow hN U frw zz hR a m v m2 hm hv hm2 order ho
  refine ⟨r, h1, ?_⟩
  have hL : 0 < Lx := by
    rcases Nat.eq_zero_or_pos Lx with h | h
    · subst h; simp at hrow
    · exact h
  have hV : 0 < Lz * (Lx * Lx) := Nat.mul_pos hLz (Nat.mul_pos hL hL)
  rw [h2]
  have hz : (∑ n ∈ Finset.range (Lz * (Lx * Lx)), axionDensity U (fun d => d) (fun _ _ _ => a)
      (fun _ _ _ => 0) (xOf Lx n) (yOf Lx n) (zOf Lx n + NN) 1) = 0 :=
    Finset.sum_eq_zero fun n _ => by simp [axionDensity, meanY]
  rw [hz]
  have hp : 0 < a ^ 2 / (4 * U.δ ^ 2 * U.R ^ 2) := by positivity
  refine Finset.sum_pos' (fun n _ => ?_) ⟨0, Finset.mem_range.2 hV, ?_⟩
  · split_ifs
    · exact hp.le
    · exact le_rfl
  · rw [if_pos (Or.inl (by simp [yOf]))]
    exact hp

/-! ### A concrete case -/

/-- A lattice of 4 x 4 sites and 1 slice on two-lane vectors, ghost width 1, with a field that is
not constant, allocated everywhere: the hypotheses are met. -/
example : ∃ (θ θ' : ℤ → ℤ → ℤ → ℝ) (m v m2 : Heap ℕ ℝ), θ 1 0 0 ≠ θ 0 0 0 ∧ Periodic 4 θ ∧
    (Holds 4 2 (1 + 2 * 1) m fun x y z => (2 : ℝ) * θ x y z) ∧
    (Holds 4 2 1 v fun x y z => (2 : ℝ) * (3 * θ x y (z + (1 : ℕ)) + θ' x y (z + (1 : ℕ)))) ∧
    (∀ n, n < 1 * (4 * 4) → (m2 n).isSome) ∧
    (visits ⟨4, 2, 1⟩ 1).reverse.Perm (visits ⟨4, 2, 1⟩ 1) := by
  refine ⟨fun x _ _ => ((x % 4 : ℤ) : ℝ), fun _ _ _ => 1,
    fun a => some (2 * (((a / 2 % 4 : ℕ) : ℤ) : ℝ)),
    fun a => some (2 * (3 * (((a / 2 % 4 : ℕ) : ℤ) : ℝ) + 1)), fun _ => some 0, by norm_num, ?_, ?_, ?_,
    fun _ _ => rfl, List.reverse_perm _⟩
  · intro x y z
    simp
  · intro x y z hx hy hz
    have e : cell 4 2 x y z / 2 % 4 = x := by
      have h1 : y % 2 = 0 ∨ y % 2 = 1 := by omega
      simp only [cell]
      rcases h1 with h | h <;> norm_num [h] <;> omega
    have e' : ((x : ℤ) % 4) = (x : ℤ) := by omega
    simp only [e, e']
  · intro x y z hx hy hz
    have e : cell 4 2 x y z / 2 % 4 = x := by
      have h1 : y % 2 = 0 ∨ y % 2 = 1 := by omega
      simp only [cell]
      rcases h1 with h | h <;> norm_num [h] <;> omega
    have e' : ((x : ℤ) % 4) = (x : ℤ) := by omega
    simp only [e, e']

end Jaxions.Energy
