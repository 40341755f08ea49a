import Verif.Model.Weights
import Verif.Model.Stencil
import Verif.Spec.Laplacian
import Mathlib.Algebra.Polynomial.Taylor
import Mathlib.Tactic.Ring
import Mathlib.Tactic.NormNum
import Mathlib.Tactic.LinearCombination
import Mathlib.Tactic.FieldSimp
import Mathlib.Algebra.BigOperators.Intervals
/-
C13: the finite difference weights are exact on polynomials.
-/
namespace Jaxions.Weights

open Polynomial

variable {K : Type} [Field K]

/-- Discrete second derivative with weights `w` and spacing `h` at `x`, times `h²`. -/
def second (w : Nat → K) (N : Nat) (f : K → K) (h x : K) : K :=
  ∑ k ∈ Finset.range N,
    w k * (f (x + (k + 1 : Nat) * h) + f (x - (k + 1 : Nat) * h) - 2 * f x)

theorem eval_expand (p : K[X]) (n : Nat) (hp : p.natDegree < n) (x t : K) :
    p.eval (x + t) = ∑ i ∈ Finset.range n, (taylor x p).coeff i * t ^ i := by
  have h1 : p.eval (x + t) = (taylor x p).eval t := by
    rw [taylor_eval, add_comm]
  rw [h1, eval_eq_sum_range' (by rwa [natDegree_taylor])]

theorem coeff_two (p : K[X]) (x : K) :
    (derivative (derivative p)).eval x = 2 * (taylor x p).coeff 2 := by
  have h := factorial_smul_hasseDeriv (R := K) 2
  have h2 := congrArg (fun f => f p) h
  simp only [Nat.factorial, LinearMap.smul_apply, Function.iterate_succ, Function.iterate_zero] at h2
  rw [taylor_coeff]
  have h3 := congrArg (eval x) h2
  simp at h3
  rw [← h3]

/-- **C13** For the radii 1 to 5 the weights are exact on polynomials of degree up to `2N+1`: the
weighted differences give `h²` times the second derivative, at every point and for every spacing.
In particular they vanish on constants and linear functions. -/
theorem C13_exact [CharZero K] (N : Nat) (h1 : 1 ≤ N) (h5 : N ≤ 5) (w : Nat → K)
    (hw : ∀ k, k < N → (setCO N : List K)[k]? = some (w k))
    (p : K[X]) (hp : p.natDegree ≤ 2 * N + 1) (h x : K) :
    second w N (fun t => p.eval t) h x = h ^ 2 * (derivative (derivative p)).eval x := by
  have e := eval_expand p (2 * N + 2) (by omega) x
  have e' : ∀ t, p.eval (x - t) = ∑ i ∈ Finset.range (2 * N + 2), (taylor x p).coeff i * (-t) ^ i := by
    intro t; rw [sub_eq_add_neg]; exact e (-t)
  have e0 : p.eval x = (taylor x p).coeff 0 := by simp [taylor_coeff_zero]
  rw [coeff_two]
  simp only [second, e, e', e0]
  generalize taylor x p = q at *
  have cases : N = 1 ∨ N = 2 ∨ N = 3 ∨ N = 4 ∨ N = 5 := by omega
  rcases cases with rfl | rfl | rfl | rfl | rfl
  · have w0 := hw 0 (by omega)
    simp only [setCO, List.getElem?_cons_zero, Option.some.injEq] at w0
    simp only [Finset.sum_range_succ, Finset.sum_range_zero, ← w0]
    push_cast; ring
  · have w0 := hw 0 (by omega)
    have w1 := hw 1 (by omega)
    simp only [setCO, List.getElem?_cons_zero, List.getElem?_cons_succ, Option.some.injEq] at w0 w1
    simp only [Finset.sum_range_succ, Finset.sum_range_zero, ← w0, ← w1]
    push_cast; ring
  · have w0 := hw 0 (by omega)
    have w1 := hw 1 (by omega)
    have w2 := hw 2 (by omega)
    simp only [setCO, List.getElem?_cons_zero, List.getElem?_cons_succ, Option.some.injEq] at w0 w1 w2
    simp only [Finset.sum_range_succ, Finset.sum_range_zero, ← w0, ← w1, ← w2]
    push_cast; ring
  · have w0 := hw 0 (by omega)
    have w1 := hw 1 (by omega)
    have w2 := hw 2 (by omega)
    have w3 := hw 3 (by omega)
    simp only [setCO, List.getElem?_cons_zero, List.getElem?_cons_succ, Option.some.injEq] at w0 w1 w2 w3
    simp only [Finset.sum_range_succ, Finset.sum_range_zero, ← w0, ← w1, ← w2, ← w3]
    push_cast; ring
  · have w0 := hw 0 (by omega)
    have w1 := hw 1 (by omega)
    have w2 := hw 2 (by omega)
    have w3 := hw 3 (by omega)
    have w4 := hw 4 (by omega)
    simp only [setCO, List.getElem?_cons_zero, List.getElem?_cons_succ, Option.some.injEq] at w0 w1 w2 w3 w4
    simp only [Finset.sum_range_succ, Finset.sum_range_zero, ← w0, ← w1, ← w2, ← w3, ← w4]
    push_cast; ring

/-- The kernel Laplacian (C04) of a field that is a polynomial of degree at most `2N+1` along each
of the three lattice lines through a site is the sum of the three second derivatives divided by the
squared spacing contained in `ood2 = 1/δ²`. -/
theorem C13_laplacian_exact [CharZero K] (N : Nat) (h1 : 1 ≤ N) (h5 : N ≤ 5) (w : Nat → K)
    (hw : ∀ k, k < N → (setCO N : List K)[k]? = some (w k)) (φ : Int → Int → Int → K) (x y z : Int)
    (px py pz : K[X]) (hx : px.natDegree ≤ 2 * N + 1) (hy : py.natDegree ≤ 2 * N + 1)
    (hz : pz.natDegree ≤ 2 * N + 1) (δ : K) (hδ : δ ≠ 0)
    (ex : ∀ t : Int, φ (x + t) y z = px.eval (t * δ)) (ey : ∀ t : Int, φ x (y + t) z = py.eval (t * δ))
    (ez : ∀ t : Int, φ x y (z + t) = pz.eval (t * δ)) :
    Stencil.laplacian (fun k => w k * (1 / δ ^ 2)) N φ x y z =
      (derivative (derivative px)).eval 0 + (derivative (derivative py)).eval 0 +
        (derivative (derivative pz)).eval 0 := by
  have sx := C13_exact N h1 h5 w hw px hx δ 0
  have sy := C13_exact N h1 h5 w hw py hy δ 0
  have sz := C13_exact N h1 h5 w hw pz hz δ 0
  have hd : δ ^ 2 ≠ 0 := pow_ne_zero 2 hδ
  have key : δ ^ 2 * Stencil.laplacian (fun k => w k * (1 / δ ^ 2)) N φ x y z =
      second w N (fun t => px.eval t) δ 0 + second w N (fun t => py.eval t) δ 0 +
        second w N (fun t => pz.eval t) δ 0 := by
    simp only [Stencil.laplacian, second, Finset.mul_sum, ← Finset.sum_add_distrib]
    apply Finset.sum_congr rfl
    intro k _
    have x0 := ex 0; have y0 := ey 0; have z0 := ez 0
    simp only [add_zero, Int.cast_zero, zero_mul] at x0 y0 z0
    have xm := ex (-(k + 1 : Nat)); have ym := ey (-(k + 1 : Nat)); have zm := ez (-(k + 1 : Nat))
    rw [← sub_eq_add_neg] at xm ym zm
    rw [ex, ey, ez, xm, ym, zm, smul_eq_mul, smul_eq_mul]
    simp only [zero_add, zero_sub, Int.cast_neg, Int.cast_natCast, neg_mul, ← x0]
    rw [show eval 0 py = φ x y z from y0.symm, show eval 0 pz = φ x y z from z0.symm]
    field_simp
    ring
  rw [sx, sy, sz, ← mul_add, ← mul_add] at key
  exact mul_left_cancel₀ hd key

/-- Finding: radius 6 is accepted on the command line, but then the weight list has one entry only
and the kernels read it and their own table of five outside their bounds; same for any larger
ghost width. -/
theorem C13_radius_six_undefined (N : Nat) (h : 6 ≤ N) (Lx S : Nat) (ood2 : K)
    {α : Type} [AddCommGroup α] [Module K α] (m : Heap Nat α) (idx l : Nat) :
    lapAccepted 6 = true ∧ (setCO N : List K).length = 1 ∧
    Stencil.lap ⟨Lx, S, N⟩ (setCO N) ood2 m idx l = none := by
  have hco : (setCO N : List K) = [1] := by
    unfold setCO
    split <;> first | omega | rfl
  refine ⟨rfl, by rw [hco]; rfl, ?_⟩
  obtain ⟨n, rfl⟩ : ∃ n, N = n + 2 := ⟨N - 2, by omega⟩
  rw [hco]
  have hr : List.range (n + 2) = 0 :: 1 :: (List.range n).map (· + 2) := by
    rw [List.range_succ_eq_map, List.range_succ_eq_map]
    simp
  have hc1 : Stencil.cov [(1 : K)] ood2 1 = none := by simp [Stencil.cov]
  simp only [Stencil.lap, hr, List.foldlM_cons, hc1, Option.bind_eq_bind, Option.pure_def,
    Option.bind_none]
  cases Stencil.ring (K := K) ⟨Lx, S, n + 2⟩ m idx l (0 + 1) with
  | none => rfl
  | some t =>
    cases Stencil.cov [(1 : K)] ood2 0 with
    | none => rfl
    | some w0 =>
      cases Stencil.ring (K := K) ⟨Lx, S, n + 2⟩ m idx l (1 + 1) <;> rfl

-- concrete: radius 2 on t^5 at t = 3 with spacing 1/2
example : second (fun k => if k = 0 then (4/3 : Rat) else -1/12) 2 (fun t => t ^ 5) (1/2) 3 =
    (1/2) ^ 2 * (20 * 3 ^ 3) := by
  simp [second, Finset.sum_range_succ]; norm_num
-- the degree is sharp: radius 1 is not exact on t^4
example : second (fun _ => (1 : Rat)) 1 (fun t => t ^ 4) 1 0 ≠ 1 ^ 2 * (12 * 0 ^ 2) := by
  simp [second, Finset.sum_range_succ]; norm_num

end Jaxions.Weights
