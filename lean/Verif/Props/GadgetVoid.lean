/-
**C70** The N-body snapshot of the "void" kind: gradients, interpolation, masses, particles.
-/
import Verif.Lemmas.GadgetVoid
import Mathlib.Tactic.NormNum
import Mathlib.Tactic.Positivity
import Mathlib.Tactic.LinearCombination

namespace Jaxions
namespace Gadget

/-! ### Gradient of the phase -/

/-- **C70** The stored gradient of a field of modulus `r` and phase `φ` is half the difference of
the two phase steps, each brought to the interval around zero.  The modulus does not enter.  The
neighbours are periodic in x and y and are taken from the ghost slices in z. -/
theorem C70_gradient (ψ : Psi) (L Lz : ℕ) (hL : 2 ≤ L) (r φ : ℕ → ℕ → ℤ → ℝ)
    (h : Holds ψ L Lz r φ) (x y z : ℕ) (hx : x < L) (hy : y < L) (hz : z < Lz) :
    gradIdx ψ L (siteNo L x y z) = some
      ((turn (φ ((x + 1) % L) y z - φ x y z) - turn (φ ((x + L - 1) % L) y z - φ x y z)) / 2,
       (turn (φ x ((y + 1) % L) z - φ x y z) - turn (φ x ((y + L - 1) % L) z - φ x y z)) / 2,
       (turn (φ x y (z + 1) - φ x y z) - turn (φ x y (z - 1) - φ x y z)) / 2) := by
  have hO := (C03_neighbours L x y z hL hx hy).2
  have hm : ∀ t, t % L < L := fun t => Nat.mod_lt t (by omega)
  have at' : ∀ x' < L, ∀ y' < L, 0 < r x' y' z ∧ ψ (siteNo L x' y' z : ℕ) =
      some (r x' y' z * Real.cos (φ x' y' z), r x' y' z * Real.sin (φ x' y' z)) := by
    intro x' hx' y' hy'
    rw [siteNo_int]
    exact h x' hx' y' hy' z (by omega) (by omega)
  obtain ⟨c0, c1⟩ := at' x hx y hy
  obtain ⟨a0, a1⟩ := at' ((x + 1) % L) (hm _) y hy
  obtain ⟨b0, b1⟩ := at' ((x + L - 1) % L) (hm _) y hy
  obtain ⟨d0, d1⟩ := at' x hx ((y + 1) % L) (hm _)
  obtain ⟨e0, e1⟩ := at' x hx ((y + L - 1) % L) (hm _)
  obtain ⟨p0, p1⟩ := h x hx y hy (z + 1) (by omega) (by omega)
  obtain ⟨q0, q1⟩ := h x hx y hy (z - 1) (by omega) (by omega)
  have hp : (siteNo L x y z : ℕ) + (L : ℤ) * L = (((z : ℤ) + 1) * L + y) * L + x := by
    rw [siteNo_int]; ring
  have hq : (siteNo L x y z : ℕ) - (L : ℤ) * L = (((z : ℤ) - 1) * L + y) * L + x := by
    rw [siteNo_int]; ring
  unfold gradIdx
  dsimp only
  rw [hO]
  dsimp only
  rw [c1, a1, b1, d1, e1, hp, p1, hq, q1]
  simp only [Option.bind_eq_bind, Option.bind_some, Option.pure_def, dPhase_eq a0 c0, dPhase_eq b0 c0,
    dPhase_eq d0 c0, dPhase_eq e0 c0, dPhase_eq p0 c0, dPhase_eq q0 c0]
  congr 1
  refine Prod.ext ?_ (Prod.ext ?_ ?_) <;> dsimp only <;> ring

/-- **C70** Where the phase changes by less than half a turn from point to point, the stored
gradient is the central difference of the phase. -/
theorem C70_gradient_smooth (ψ : Psi) (L Lz : ℕ) (hL : 2 ≤ L) (r φ : ℕ → ℕ → ℤ → ℝ)
    (h : Holds ψ L Lz r φ) (x y z : ℕ) (hx : x < L) (hy : y < L) (hz : z < Lz)
    (hpx : |φ ((x + 1) % L) y z - φ x y z| < Real.pi)
    (hmx : |φ ((x + L - 1) % L) y z - φ x y z| < Real.pi)
    (hpy : |φ x ((y + 1) % L) z - φ x y z| < Real.pi)
    (hmy : |φ x ((y + L - 1) % L) z - φ x y z| < Real.pi)
    (hpz : |φ x y (z + 1) - φ x y z| < Real.pi) (hmz : |φ x y (z - 1) - φ x y z| < Real.pi) :
    gradIdx ψ L (siteNo L x y z) = some
      ((φ ((x + 1) % L) y z - φ ((x + L - 1) % L) y z) / 2,
       (φ x ((y + 1) % L) z - φ x ((y + L - 1) % L) z) / 2,
       (φ x y (z + 1) - φ x y (z - 1)) / 2) := by
  rw [C70_gradient ψ L Lz hL r φ h x y z hx hy hz, turn_small hpx, turn_small hmx, turn_small hpy,
    turn_small hmy, turn_small hpz, turn_small hmz]
  congr 1
  refine Prod.ext ?_ (Prod.ext ?_ ?_) <;> dsimp only <;> ring

/-- **C70** The stored velocity in each direction: the central difference of the phase over time
and mass, times the conversion. -/
theorem C70_velocity (ψ : Psi) (L Lz : ℕ) (hL : 2 ≤ L) (r φ : ℕ → ℕ → ℤ → ℝ)
    (h : Holds ψ L Lz r φ) (x y z : ℕ) (hx : x < L) (hy : y < L) (hz : z < Lz)
    (hpx : |φ ((x + 1) % L) y z - φ x y z| < Real.pi)
    (hmx : |φ ((x + L - 1) % L) y z - φ x y z| < Real.pi)
    (hpy : |φ x ((y + 1) % L) z - φ x y z| < Real.pi)
    (hmy : |φ x ((y + L - 1) % L) z - φ x y z| < Real.pi)
    (hpz : |φ x y (z + 1) - φ x y z| < Real.pi) (hmz : |φ x y (z - 1) - φ x y z| < Real.pi) (t mA conv : ℝ) :
    (gradIdx ψ L (siteNo L x y z)).map (velocity t mA conv) = some
      (conv * (φ ((x + 1) % L) y z - φ ((x + L - 1) % L) y z) / (2 * t * mA),
       conv * (φ x ((y + 1) % L) z - φ x ((y + L - 1) % L) z) / (2 * t * mA),
       conv * (φ x y (z + 1) - φ x y (z - 1)) / (2 * t * mA)) := by
  rw [C70_gradient_smooth ψ L Lz hL r φ h x y z hx hy hz hpx hmx hpy hmy hpz hmz, Option.map_some]
  unfold velocity
  congr 1
  have key : ∀ a : ℝ, a / 2 / (t * mA) * conv = conv * a / (2 * t * mA) := fun a => by
    rw [div_div, div_mul_eq_mul_div, mul_comm a, mul_assoc]
  exact Prod.ext (key _) (Prod.ext (key _) (key _))

/-- **C70** (negative) The lattice spacing `δ` is missing: for a plane wave `exp(i q z)` along z
the stored velocity is `δ` times the gradient `q` over time and mass, so it depends on the number
of points used for the same field. -/
theorem C70_velocity_spacing (ψ : Psi) (L Lz : ℕ) (hL : 2 ≤ L) (r : ℕ → ℕ → ℤ → ℝ)
    (q δ t mA conv : ℝ) (h : Holds ψ L Lz r fun _ _ z => q * (z * δ)) (hq : |q * δ| < Real.pi)
    (x y z : ℕ) (hx : x < L) (hy : y < L) (hz : z < Lz) :
    (gradIdx ψ L (siteNo L x y z)).map (velocity t mA conv) =
      some (0, 0, δ * (q / (t * mA) * conv)) := by
  have hp : |q * ((((z : ℤ) + 1 : ℤ) : ℝ) * δ) - q * (((z : ℤ) : ℝ) * δ)| < Real.pi := by
    push_cast; rw [show q * (((z : ℝ) + 1) * δ) - q * ((z : ℝ) * δ) = q * δ by ring]; exact hq
  have hm : |q * ((((z : ℤ) - 1 : ℤ) : ℝ) * δ) - q * (((z : ℤ) : ℝ) * δ)| < Real.pi := by
    push_cast; rw [show q * (((z : ℝ) - 1) * δ) - q * ((z : ℝ) * δ) = -(q * δ) by ring, abs_neg]
    exact hq
  have h0 : |q * (((z : ℤ) : ℝ) * δ) - q * (((z : ℤ) : ℝ) * δ)| < Real.pi := by
    rw [sub_self, abs_zero]; exact Real.pi_pos
  rw [C70_gradient_smooth ψ L Lz hL r _ h x y z hx hy hz h0 h0 h0 h0 hp hm]
  rw [Option.map_some]
  unfold velocity
  push_cast
  congr 1
  refine Prod.ext ?_ (Prod.ext ?_ ?_) <;> dsimp only <;> ring

/-- **C70** Without a valid slice in front the gradient of a point of the first slice reads outside
the field. -/
theorem C70_gradient_outside (ψ : Psi) (L idx : ℕ)
    (h : ψ ((idx : ℤ) - L * L) = none ∨ ψ ((idx : ℤ) + L * L) = none) : gradIdx ψ L idx = none := by
  unfold gradIdx
  dsimp only
  rcases h with h | h
  · rw [h]
    cases ψ idx <;> simp only [Option.bind_eq_bind, Option.bind_none, Option.bind_some]
    repeat' (first | rfl | (cases ψ _ <;> simp only [Option.bind_none, Option.bind_some]))
  · rw [h]
    cases ψ idx <;> simp only [Option.bind_eq_bind, Option.bind_none, Option.bind_some]
    repeat' (first | rfl | (cases ψ _ <;> simp only [Option.bind_none, Option.bind_some]))

/-- A field that meets the hypotheses of the theorems above: a wave of two points per radian. -/
example : Holds (fun i => some (Real.cos (i / 16 / 2), Real.sin (i / 16 / 2))) 4 4
    (fun _ _ _ => 1) (fun x y z => ((z * 4 + y) * 4 + x : ℝ) / 16 / 2) := by
  intro x _ y _ z _ _
  refine ⟨one_pos, ?_⟩
  push_cast
  simp only [one_mul]

/-! ### Interpolation -/

/-- **C70** The eight points used for a displaced particle are the corners of its cell exactly
when the particle is not in the last column along x. -/
theorem C70_corners_iff (L x y z : ℕ) (hL : 2 ≤ L) (hx : x < L) (hy : y < L) :
    corners L (siteNo L x y z) = trueCorners L x y z ↔ x + 1 < L := by
  obtain ⟨hX, hO⟩ := C03_neighbours L x y z hL hx hy
  have mx : x % L = x := Nat.mod_eq_of_lt hx
  have my : y % L = y := Nat.mod_eq_of_lt hy
  constructor
  · intro h
    by_contra hlast
    have hx1 : x = L - 1 := by omega
    have h' := congrArg Corners.XyZ h
    have e0 : (x + 1) % L = 0 := by rw [show x + 1 = L by omega, Nat.mod_self]
    simp only [corners, hX, trueCorners, Nat.add_zero, my] at h'
    rw [if_neg (by omega)] at h'
    simp only [e0, siteNo_int] at h'
    push_cast at h'
    have e1 : (x : ℤ) = L - 1 := by omega
    rw [e1] at h'
    have : (L : ℤ) * L + L + L - 1 = L * L := by linear_combination h'
    omega
  · intro hlt
    have hx1 : x ≠ L - 1 := by omega
    have ex : (x + 1) % L = x + 1 := Nat.mod_eq_of_lt hlt
    unfold corners trueCorners
    simp only [hX, hO, Nat.add_zero, mx, my, ex, ne_eq, hx1, not_false_eq_true]
    by_cases hy1 : y = L - 1
    · have ey : (y + 1) % L = 0 := by rw [show y + 1 = L by omega, Nat.mod_self]
      simp only [hy1, not_true_eq_false, if_false]
      rw [← hy1, ey]
      simp only [siteNo_int]
      rw [Corners.mk.injEq]
      push_cast
      refine ⟨rfl, rfl, rfl, ?_, ?_, ?_, ?_, ?_⟩ <;> ring
    · have ey : (y + 1) % L = y + 1 := Nat.mod_eq_of_lt (by omega)
      simp only [hy1, not_false_eq_true, if_true, ey, siteNo_int]
      rw [Corners.mk.injEq]
      push_cast
      refine ⟨rfl, rfl, rfl, ?_, ?_, ?_, ?_, ?_⟩ <;> ring

example : corners 4 (siteNo 4 1 3 0) = trueCorners 4 1 3 0 := (C70_corners_iff 4 1 3 0 (by omega) (by omega) (by omega)).2 (by omega)

/-- **C70** The interpolation is exact for every function that is linear along each axis. -/
theorem C70_cic_linear (f : ℤ → Option ℝ) (C : Corners) (F : ℝ → ℝ → ℝ → ℝ)
    (a b c d e p q s : ℝ)
    (hF : ∀ u v w, F u v w = a + b * u + c * v + d * w + e * (u * v) + p * (v * w) + q * (u * w)
      + s * (u * v * w))
    (h0 : f C.xyz = some (F 0 0 0)) (h1 : f C.Xyz = some (F 1 0 0)) (h2 : f C.xYz = some (F 0 1 0))
    (h3 : f C.xyZ = some (F 0 0 1)) (h4 : f C.XYz = some (F 1 1 0)) (h5 : f C.XyZ = some (F 1 0 1))
    (h6 : f C.xYZ = some (F 0 1 1)) (h7 : f C.XYZ = some (F 1 1 1)) (x y z : ℝ) :
    cic f C x y z = some (F x y z) := by
  unfold cic
  rw [h0, h1, h2, h3, h4, h5, h6, h7]
  simp only [Option.bind_eq_bind, Option.bind_some, Option.pure_def, hF]
  congr 1
  ring

/-- **C70** With displacements between zero and one the interpolated value lies between the
smallest and the largest value at the corners: no density becomes negative. -/
theorem C70_cic_between (f : ℤ → Option ℝ) (C : Corners) (lo hi x y z v : ℝ)
    (hx : 0 ≤ x ∧ x ≤ 1) (hy : 0 ≤ y ∧ y ≤ 1) (hz : 0 ≤ z ∧ z ≤ 1)
    (hf : ∀ i w, f i = some w → lo ≤ w ∧ w ≤ hi) (h : cic f C x y z = some v) :
    lo ≤ v ∧ v ≤ hi := by
  unfold cic at h
  simp only [Option.bind_eq_bind, Option.pure_def, Option.bind_eq_some_iff, Option.some.injEq] at h
  obtain ⟨a, ha, b, hb, c, hc, d, hd, e, he, g, hg, q, hq, k, hk, h⟩ := h
  have w : ∀ (p q s : ℝ), 0 ≤ p → 0 ≤ q → 0 ≤ s → 0 ≤ p * q * s :=
    fun p q s hp hq hs => mul_nonneg (mul_nonneg hp hq) hs
  have x' : 0 ≤ 1 - x := by linarith [hx.2]
  have y' : 0 ≤ 1 - y := by linarith [hy.2]
  have z' : 0 ≤ 1 - z := by linarith [hz.2]
  have w0 := w _ _ _ x' y' z'
  have w1 := w _ _ _ hx.1 y' z'
  have w2 := w _ _ _ x' hy.1 z'
  have w3 := w _ _ _ hx.1 hy.1 z'
  have w4 := w _ _ _ x' y' hz.1
  have w5 := w _ _ _ hx.1 y' hz.1
  have w6 := w _ _ _ x' hy.1 hz.1
  have w7 := w _ _ _ hx.1 hy.1 hz.1
  have one : ∀ t : ℝ, t = t * ((1 - x) * (1 - y) * (1 - z)) + t * (x * (1 - y) * (1 - z))
      + t * ((1 - x) * y * (1 - z)) + t * (x * y * (1 - z)) + t * ((1 - x) * (1 - y) * z)
      + t * (x * (1 - y) * z) + t * ((1 - x) * y * z) + t * (x * y * z) := by intro t; ring
  have L := fun (i : ℤ) (u : ℝ) (hu : f i = some u) (W : ℝ) (hW : 0 ≤ W) =>
    mul_le_mul_of_nonneg_right (hf i u hu).1 hW
  have U := fun (i : ℤ) (u : ℝ) (hu : f i = some u) (W : ℝ) (hW : 0 ≤ W) =>
    mul_le_mul_of_nonneg_right (hf i u hu).2 hW
  rw [← h]
  constructor
  · rw [one lo]
    linarith [L _ _ ha _ w0, L _ _ hb _ w1, L _ _ hc _ w2, L _ _ hd _ w3, L _ _ he _ w4,
      L _ _ hg _ w5, L _ _ hq _ w6, L _ _ hk _ w7]
  · rw [one hi]
    linarith [U _ _ ha _ w0, U _ _ hb _ w1, U _ _ hc _ w2, U _ _ hd _ w3, U _ _ he _ w4,
      U _ _ hg _ w5, U _ _ hq _ w6, U _ _ hk _ w7]

example : cic (fun i => some (i : ℝ)) (corners 4 0) 0.5 0.5 0.5 = some 10.5 := by
  have h := (C70_corners_iff 4 0 0 0 (by omega) (by omega) (by omega)).2 (by omega)
  rw [show siteNo 4 0 0 0 = 0 from rfl] at h
  rw [h]
  unfold cic trueCorners siteNo
  norm_num

/-! ### Densities and masses -/

/-- **C70** The mean density is the sum over all points of all ranks divided by their number,
whatever the order of the threads.  The number of points of a rank has to be even, which the
constructor of the field ensures through its alignment. -/
theorem C70_mean (g : Grid) (e : ℕ → ℕ → ℝ) (order : ℕ → List ℕ) (heven : 2 ∣ g.n3)
    (ho : ∀ r, (order r).Perm (List.range (g.n3 / 2))) :
    eMean g.n3 ((List.range g.ranks).map fun r => pairSum (e r) (order r)) =
      sumAll g e / (g.n3 * g.ranks) := by
  rw [eMean_eq]
  unfold sumAll
  congr 1
  refine Finset.sum_congr rfl fun r _ => ?_
  rw [pairSum_eq (e r) _ _ (ho r), Nat.mul_div_cancel' heven]

/-- **C70** With an odd number of points the last one of each rank would be left out. -/
theorem C70_mean_odd (e : ℕ → ℝ) (n : ℕ) (order : List ℕ)
    (ho : order.Perm (List.range ((2 * n + 1) / 2))) :
    pairSum e order = (∑ i ∈ Finset.range (2 * n + 1), e i) - e (2 * n) := by
  rw [pairSum_eq e _ _ ho, show (2 * n + 1) / 2 = n by omega, Finset.sum_range_succ]
  ring

/-- **C70** With as many particles as points, every point gets one particle exactly when the
number of points fits in 32 bits.  Otherwise it gets several, or the program divides by zero. -/
theorem C70_one_each_iff (L Tz : ℕ) (hpos : 0 < L * L * Tz) :
    ppGrid L Tz (L * L * Tz) = some 1 ↔ L * L * Tz < 2 ^ 32 := by
  unfold ppGrid cells32
  generalize L * L * Tz = n at *
  constructor
  · intro h
    by_contra hge
    split at h
    · exact absurd h (by simp)
    · next hne =>
      rw [Option.some.injEq] at h
      have hm : n % 2 ^ 32 < 2 ^ 32 := Nat.mod_lt _ (by norm_num)
      have hd : 2 ^ 32 * (n / 2 ^ 32) + n % 2 ^ 32 = n := Nat.div_add_mod n _
      have hq : 1 ≤ n / 2 ^ 32 := (Nat.one_le_div_iff (by norm_num)).2 (by omega)
      have : 2 ≤ n / (n % 2 ^ 32) := by
        rw [Nat.le_div_iff_mul_le (by omega)]
        omega
      omega
  · intro h
    have hm : n % 2 ^ 32 = n := Nat.mod_eq_of_lt h
    rw [hm, if_neg (by omega), Nat.div_self (by omega)]

/-- **C70** (negative) On a grid of 2048 points per side the program divides by zero; on one of
1632 it makes over eighty particles out of each point. -/
theorem C70_wide_grids : ppGrid 2048 2048 (2048 * 2048 * 2048) = none ∧
    ppGrid 1632 1632 (1632 * 1632 * 1632) = some 84 := by
  unfold ppGrid cells32
  constructor <;> norm_num

/-- **C70** The masses in the file add up to the number of particles per point times the mass of
the box: each of the points has `pp` particles of the same mass.  The mass of the box is that of
matter of density `Omega0` times the critical density. -/
theorem C70_total_mass (g : Grid) (e : ℕ → ℕ → ℝ) (order : ℕ → List ℕ) (pp : ℕ)
    (Omega0 b H0 G : ℝ) (heven : 2 ∣ g.n3)
    (ho : ∀ r, (order r).Perm (List.range (g.n3 / 2))) (hpp : 0 < pp)
    (hcells : g.L * g.L * g.Tz < 2 ^ 32) (hsum : sumAll g e ≠ 0) :
    let mean := eMean g.n3 ((List.range g.ranks).map fun r => pairSum (e r) (order r))
    let nPrt := pp * (g.L * g.L * g.Tz)
    ppGrid g.L g.Tz nPrt = some pp ∧
    ∃ m : ℕ → ℕ → ℝ,
      (∀ r i, mass (totalMass Omega0 b H0 G) mean g.L g.Tz nPrt (e r i) = some (m r i)) ∧
      sumAll g (fun r i => pp * m r i) =
        pp * (Omega0 * (3 * H0 ^ 2 / (8 * Real.pi * G)) * b ^ 3) := by
  intro mean nPrt
  have hc : cells32 g.L g.Tz = g.L * g.L * g.Tz := Nat.mod_eq_of_lt hcells
  have hn : g.n3 * g.ranks = g.L * g.L * g.Tz := by
    unfold Grid.n3 Grid.S Grid.Tz; ring
  have hpos : 0 < g.L * g.L * g.Tz := by
    rcases Nat.eq_zero_or_pos (g.L * g.L * g.Tz) with h | h
    · exfalso
      apply hsum
      rw [← hn] at h
      unfold sumAll
      rcases Nat.mul_eq_zero.1 h with h | h <;> simp [h]
    · exact h
  have hmean : mean = sumAll g e / (g.n3 * g.ranks) := C70_mean g e order heven ho
  have hN : ((g.n3 : ℝ) * g.ranks) = ((g.L * g.L * g.Tz : ℕ) : ℝ) := by exact_mod_cast hn
  have hNne : ((g.L * g.L * g.Tz : ℕ) : ℝ) ≠ 0 := by exact_mod_cast hpos.ne'
  have hppne : (pp : ℝ) ≠ 0 := by exact_mod_cast hpp.ne'
  have hP : ((nPrt : ℕ) : ℝ) = pp * ((g.L * g.L * g.Tz : ℕ) : ℝ) := by
    show ((pp * (g.L * g.L * g.Tz) : ℕ) : ℝ) = _
    push_cast; ring
  have hnew : newMean mean g.L g.Tz nPrt = sumAll g e / ((g.L * g.L * g.Tz : ℕ) * pp) := by
    unfold newMean
    rw [hc, hmean, hN, hP]
    generalize ((g.L * g.L * g.Tz : ℕ) : ℝ) = N at *
    field_simp
  have hnew0 : newMean mean g.L g.Tz nPrt ≠ 0 := by
    rw [hnew]
    exact div_ne_zero hsum (mul_ne_zero hNne hppne)
  have hP0 : ((nPrt : ℕ) : ℝ) ≠ 0 := by rw [hP]; exact mul_ne_zero hppne hNne
  refine ⟨?_, fun r i => e r i * (1 / newMean mean g.L g.Tz nPrt) *
    (totalMass Omega0 b H0 G / nPrt), ?_, ?_⟩
  · unfold ppGrid
    rw [hc, if_neg hpos.ne', Nat.mul_div_cancel _ hpos]
  · intro r i
    unfold mass
    rw [if_neg (by push Not; exact ⟨hnew0, hP0⟩)]
  · have hsplit : sumAll g (fun r i => (pp : ℝ) * (e r i * (1 / newMean mean g.L g.Tz nPrt) *
        (totalMass Omega0 b H0 G / nPrt))) =
        sumAll g e * (pp * (1 / newMean mean g.L g.Tz nPrt) *
          (totalMass Omega0 b H0 G / nPrt)) := by
      unfold sumAll
      rw [Finset.sum_mul]
      refine Finset.sum_congr rfl fun r _ => ?_
      rw [Finset.sum_mul]
      refine Finset.sum_congr rfl fun i _ => ?_
      ring
    rw [hsplit, hnew, hP]
    have ht : totalMass Omega0 b H0 G = Omega0 * (3 * H0 ^ 2 / (8 * Real.pi * G)) * b ^ 3 := by
      unfold totalMass; ring
    rw [ht]
    generalize Omega0 * (3 * H0 ^ 2 / (8 * Real.pi * G)) * b ^ 3 = M
    generalize sumAll g e = s at *
    generalize ((g.L * g.L * g.Tz : ℕ) : ℝ) = N at *
    field_simp

/-- **C70** So the masses in the file add up to the mass of the box exactly when there is one
particle per point.  With twice as many points per side as the field has (eight particles per
point) the file has eight times the mass. -/
theorem C70_total_mass_iff (g : Grid) (e : ℕ → ℕ → ℝ) (order : ℕ → List ℕ) (pp : ℕ)
    (Omega0 b H0 G : ℝ) (heven : 2 ∣ g.n3)
    (ho : ∀ r, (order r).Perm (List.range (g.n3 / 2))) (hpp : 0 < pp)
    (hcells : g.L * g.L * g.Tz < 2 ^ 32) (hsum : sumAll g e ≠ 0)
    (hM : Omega0 * (3 * H0 ^ 2 / (8 * Real.pi * G)) * b ^ 3 ≠ 0) (m : ℕ → ℕ → ℝ)
    (hm : ∀ r i, mass (totalMass Omega0 b H0 G)
      (eMean g.n3 ((List.range g.ranks).map fun r => pairSum (e r) (order r))) g.L g.Tz
      (pp * (g.L * g.L * g.Tz)) (e r i) = some (m r i)) :
    sumAll g (fun r i => pp * m r i) = Omega0 * (3 * H0 ^ 2 / (8 * Real.pi * G)) * b ^ 3 ↔
      pp = 1 := by
  obtain ⟨_, m', hm', hs⟩ :=
    C70_total_mass g e order pp Omega0 b H0 G heven ho hpp hcells hsum
  have : m' = m := by
    funext r i
    have := (hm' r i).symm.trans (hm r i)
    exact Option.some.inj this
  rw [← this, hs]
  constructor
  · intro h
    have : (pp : ℝ) = 1 := mul_right_cancel₀ hM (by rw [h, one_mul])
    exact_mod_cast this
  · rintro rfl
    simp

/-- The hypotheses of `C70_total_mass` are met by a grid of four points per side on two ranks. -/
example : 2 ∣ (⟨4, 2, 1, 2⟩ : Grid).n3 ∧ (⟨4, 2, 1, 2⟩ : Grid).L * (⟨4, 2, 1, 2⟩ : Grid).L *
    (⟨4, 2, 1, 2⟩ : Grid).Tz < 2 ^ 32 ∧ sumAll ⟨4, 2, 1, 2⟩ (fun _ _ => 1) ≠ 0 := by
  refine ⟨⟨16, rfl⟩, by norm_num [Grid.Tz], ?_⟩
  norm_num [sumAll, Grid.n3, Grid.S]

/-- **C70** The density at a point is the square of the modulus of the field. -/
theorem C70_density (p : ℝ × ℝ) : newEn p = ‖(⟨p.1, p.2⟩ : ℂ)‖ ^ 2 := by
  rw [← Complex.normSq_eq_norm_sq, Complex.normSq_mk]
  rfl

end Gadget
end Jaxions
