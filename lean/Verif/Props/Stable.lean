import Verif.Spec.Stable
import Verif.Props.Reversible
import Verif.Props.TimeStep
import Verif.Props.AxionRun
import Mathlib.LinearAlgebra.BilinearMap
import Mathlib.Algebra.Module.Submodule.Basic

/-!
# C92: the steps of a leapfrog run are short enough

A free axion field (no potential or the quadratic one, no expansion, constant mass) moved by `tRunCpu`
with the tables of the leapfrog or the multiple leapfrog, in steps of one size.
-/

namespace Jaxions.Stable

open Integrator

/-! ### One leapfrog, for any linear acceleration -/

section Abstract
variable {X : Type} [AddCommGroup X] [Module ℝ X]

/-- The energy with the correction of second order in the step. -/
noncomputable def shadow (B : X →ₗ[ℝ] X →ₗ[ℝ] ℝ) (A : X →ₗ[ℝ] X) (h : ℝ) (s : X × X × ℝ) : ℝ :=
  B s.2.1 s.2.1 + h ^ 2 / 4 * B s.2.1 (A s.2.1) - B s.1 (A s.1)

/-- Drift, kick, drift. -/
noncomputable def frog (A : X →ₗ[ℝ] X) (dz c : ℝ) (s : X × X × ℝ) : X × X × ℝ :=
  [Move.drift (c / 2), .kick c, .drift (c / 2)].foldl (Move.act (fun _ => A) dz) s

theorem frog_shadow {B : X →ₗ[ℝ] X →ₗ[ℝ] ℝ} {A : X →ₗ[ℝ] X} {P : Submodule ℝ X}
    (hA : ∀ x ∈ P, A x ∈ P) (hS : ∀ x ∈ P, ∀ y ∈ P, B (A x) y = B x (A y))
    (dz c : ℝ) {s : X × X × ℝ} (h1 : s.1 ∈ P) (h2 : s.2.1 ∈ P) :
    shadow B A (dz * c) (frog A dz c s) = shadow B A (dz * c) s ∧ (frog A dz c s).1 ∈ P ∧
      (frog A dz c s).2.1 ∈ P := by
  obtain ⟨q, p, t⟩ := s
  dsimp only at h1 h2
  have m1 : q + (dz * (c / 2)) • p ∈ P := P.add_mem h1 (P.smul_mem _ h2)
  have m2 : p + (dz * c) • A (q + (dz * (c / 2)) • p) ∈ P := P.add_mem h2 (P.smul_mem _ (hA _ m1))
  refine ⟨?_, P.add_mem m1 (P.smul_mem _ m2), m2⟩
  simp only [frog, shadow, List.foldl_cons, List.foldl_nil, Move.act]
  generalize hq1 : q + (dz * (c / 2)) • p = r at *
  have hq : q = r - (dz * (c / 2)) • p := by rw [← hq1]; abel
  have f1 := hS r m1 p h2
  have f2 := hS r m1 (A r) (hA _ m1)
  subst hq
  simp only [map_add, map_sub, map_smul, LinearMap.add_apply, LinearMap.sub_apply, LinearMap.smul_apply,
    smul_eq_mul]
  linear_combination dz * c * f1 + (dz * c) ^ 2 / 2 * f2

/-- Two or four of them make a step. -/
theorem leap_moves (A : X →ₗ[ℝ] X) (dz : ℝ) (s : X × X × ℝ) :
    [Move.drift (1/4), .kick (1/2), .drift (1/2), .kick (1/2), .drift (1/4)].foldl
      (Move.act (fun _ => A) dz) s = frog A dz (1/2) (frog A dz (1/2) s) := by
  obtain ⟨q, p, t⟩ := s
  simp only [frog, List.foldl_cons, List.foldl_nil, Move.act, add_assoc, ← add_smul, ← mul_add]
  norm_num

theorem mleap_moves (A : X →ₗ[ℝ] X) (dz : ℝ) (s : X × X × ℝ) :
    [Move.drift (1/8), .kick (1/4), .drift (1/4), .kick (1/4), .drift (1/4), .kick (1/4),
      .drift (1/4), .kick (1/4), .drift (1/8)].foldl
      (Move.act (fun _ => A) dz) s = frog A dz (1/4) (frog A dz (1/4) (frog A dz (1/4) (frog A dz (1/4) s))) := by
  obtain ⟨q, p, t⟩ := s
  simp only [frog, List.foldl_cons, List.foldl_nil, Move.act, add_assoc, ← add_smul, ← mul_add]
  norm_num

/-- The leapfrogs in a step of the two integrators. -/
def hops : Name → ℕ
  | .leap => 2
  | .mleap => 4
  | _ => 0

theorem step_frogs (A : X →ₗ[ℝ] X) (i : Name) (hi : i = .leap ∨ i = .mleap) (dz : ℝ) (s : Arrays X × ℝ) :
    ∃ t, stepWith tRunCpu (table i) (fun _ _ => A) dz s = some t ∧
      (t.1.m, t.1.v, t.2) = (frog A dz (1 / hops i))^[hops i] (s.1.m, s.1.v, s.2) := by
  obtain ⟨a, z⟩ := s
  rcases hi with rfl | rfl
  · obtain ⟨acts, h1, h2⟩ : ∃ acts, tRunCpu (table .leap : Table ℝ) dz z = some (acts, timeAfter z dz acts) ∧
        acts.flatMap Act.moves = [.drift (1/4), .kick (1/2), .drift (1/2), .kick (1/2), .drift (1/4)] := by
      simp [table, leap, tRunCpu, tLoop, firstDrift, lastKick, timeAfter, Act.driftPart, Act.moves]
      ring
    refine ⟨_, by simp only [stepWith, h1, Option.map_some]; rfl, ?_⟩
    have f := tRunCpu_arrays (fun _ _ => (A : X → X)) _ dz z _ acts h1 a
    have tm := moves_time (fun _ => (A : X → X)) dz acts (a.m, a.v, z)
    rw [inPlace_moves_const _ dz z] at f
    rw [h2, leap_moves] at f tm
    refine Prod.ext f.1 (Prod.ext f.2 tm.symm) |>.trans ?_
    norm_num [hops]
  · obtain ⟨acts, h1, h2⟩ : ∃ acts, tRunCpu (table .mleap : Table ℝ) dz z = some (acts, timeAfter z dz acts) ∧
        acts.flatMap Act.moves = [.drift (1/8), .kick (1/4), .drift (1/4), .kick (1/4), .drift (1/4), .kick (1/4),
          .drift (1/4), .kick (1/4), .drift (1/8)] := by
      simp [table, mleap, tRunCpu, tLoop, firstDrift, lastKick, timeAfter, Act.driftPart, Act.moves]
      ring
    refine ⟨_, by simp only [stepWith, h1, Option.map_some]; rfl, ?_⟩
    have f := tRunCpu_arrays (fun _ _ => (A : X → X)) _ dz z _ acts h1 a
    have tm := moves_time (fun _ => (A : X → X)) dz acts (a.m, a.v, z)
    rw [inPlace_moves_const _ dz z] at f
    rw [h2, mleap_moves] at f tm
    refine Prod.ext f.1 (Prod.ext f.2 tm.symm) |>.trans ?_
    norm_num [hops]

/-- Any number of steps. -/
theorem steps_frogs (A : X →ₗ[ℝ] X) (i : Name) (hi : i = .leap ∨ i = .mleap) (dz : ℝ) (n : ℕ)
    (s : Arrays X × ℝ) :
    ∃ t, stepsWith tRunCpu (table i) (fun _ _ => A) (List.replicate n dz) s = some t ∧
      (t.1.m, t.1.v, t.2) = (frog A dz (1 / hops i))^[hops i * n] (s.1.m, s.1.v, s.2) := by
  induction n generalizing s with
  | zero => exact ⟨s, rfl, rfl⟩
  | succ n ih =>
    obtain ⟨u, h1, h2⟩ := step_frogs A i hi dz s
    obtain ⟨t, h3, h4⟩ := ih u
    refine ⟨t, by simp only [List.replicate_succ, stepsWith, h1, Option.bind_some, h3], ?_⟩
    rw [h4, h2, ← Function.iterate_add_apply, Nat.mul_succ]

theorem frogs_shadow {B : X →ₗ[ℝ] X →ₗ[ℝ] ℝ} {A : X →ₗ[ℝ] X} {P : Submodule ℝ X}
    (hA : ∀ x ∈ P, A x ∈ P) (hS : ∀ x ∈ P, ∀ y ∈ P, B (A x) y = B x (A y))
    (dz c : ℝ) (k : ℕ) {s : X × X × ℝ} (h1 : s.1 ∈ P) (h2 : s.2.1 ∈ P) :
    shadow B A (dz * c) ((frog A dz c)^[k] s) = shadow B A (dz * c) s ∧ ((frog A dz c)^[k] s).1 ∈ P ∧
      ((frog A dz c)^[k] s).2.1 ∈ P := by
  induction k with
  | zero => exact ⟨rfl, h1, h2⟩
  | succ k ih =>
    rw [Function.iterate_succ_apply']
    obtain ⟨e, m1, m2⟩ := frog_shadow hA hS dz c ih.2.1 ih.2.2
    exact ⟨e.trans ih.1, m1, m2⟩

end Abstract

/-! ### The lattice -/

open Paxion in
theorem pair_eq (Lx N : ℕ) (f g : Sites) : pair Lx N f g = total Lx N (fun x y z => f x y z * g x y z) := rfl

variable {Lx N NN : ℕ} {w : ℕ → ℝ} {δ M : ℝ}

/-- The pairing as a bilinear map. -/
noncomputable def dot (Lx N : ℕ) : Sites →ₗ[ℝ] Sites →ₗ[ℝ] ℝ :=
  LinearMap.mk₂ ℝ (pair Lx N)
    (fun f f' g => by simp only [pair, Pi.add_apply, add_mul, Finset.sum_add_distrib])
    (fun c f g => by simp only [pair, Pi.smul_apply, smul_eq_mul, mul_assoc, Finset.mul_sum])
    (fun f g g' => by simp only [pair, Pi.add_apply, mul_add, Finset.sum_add_distrib])
    (fun c f g => by simp only [pair, Pi.smul_apply, smul_eq_mul, mul_left_comm _ c, Finset.mul_sum])

theorem dot_apply (f g : Sites) : dot Lx N f g = pair Lx N f g := rfl

/-- The acceleration as a linear map. -/
noncomputable def pullL (w : ℕ → ℝ) (NN : ℕ) (δ M : ℝ) : Sites →ₗ[ℝ] Sites where
  toFun := pull w NN δ M
  map_add' f g := by
    funext x y z
    simp only [pull, Stencil.laplacian, Pi.add_apply, smul_eq_mul]
    rw [show ∀ a b c d : ℝ, a - c + (b - d) = a + b - (c + d) from fun _ _ _ _ => by ring,
      ← Finset.sum_add_distrib]
    congr 1
    · exact Finset.sum_congr rfl fun k _ => by ring
    · ring
  map_smul' c f := by
    funext x y z
    simp only [pull, Stencil.laplacian, Pi.smul_apply, smul_eq_mul, RingHom.id_apply]
    rw [mul_sub, Finset.mul_sum]
    congr 1
    · exact Finset.sum_congr rfl fun k _ => by ring
    · ring

theorem pullL_apply (f : Sites) : pullL w NN δ M f = pull w NN δ M f := rfl

/-- The periodic fields. -/
def rounds (Lx N : ℕ) : Submodule ℝ Sites where
  carrier := {φ | Round Lx N φ}
  add_mem' := fun {f g} hf hg => ⟨fun x y z => by simp only [Pi.add_apply, hf.1, hg.1],
    fun x y z => by simp only [Pi.add_apply, hf.2.1, hg.2.1], fun x y z => by simp only [Pi.add_apply, hf.2.2, hg.2.2]⟩
  zero_mem' := ⟨fun _ _ _ => rfl, fun _ _ _ => rfl, fun _ _ _ => rfl⟩
  smul_mem' := fun c f hf => ⟨fun x y z => by simp only [Pi.smul_apply, hf.1],
    fun x y z => by simp only [Pi.smul_apply, hf.2.1], fun x y z => by simp only [Pi.smul_apply, hf.2.2]⟩

theorem pull_round {φ : Sites} (h : Round Lx N φ) : Round Lx N (pull w NN δ M φ) := by
  refine ⟨fun x y z => ?_, fun x y z => ?_, fun x y z => ?_⟩ <;> simp only [pull, Stencil.laplacian] <;>
    congr 1 <;> first | refine Finset.sum_congr rfl fun k _ => ?_ | skip
  · simp only [add_right_comm x (Lx : ℤ), ← sub_add_eq_add_sub x, h.1]
  · simp only [h.1]
  · simp only [add_right_comm y (Lx : ℤ), ← sub_add_eq_add_sub y, h.2.1]
  · simp only [h.2.1]
  · simp only [add_right_comm z (N : ℤ), ← sub_add_eq_add_sub z, h.2.2]
  · simp only [h.2.2]

open Paxion in
theorem swap_x {f g : Sites} (hf : Round Lx N f) (hg : Round Lx N g) (k : ℕ) :
    total Lx N (fun x y z => f (x - k) y z * g x y z) = total Lx N (fun x y z => f x y z * g (x + k) y z) := by
  rw [← total_shift_x (f := fun x y z => f (x - k) y z * g x y z) (k := k)]
  · simp only [add_sub_cancel_right]
  · exact ⟨fun x y z => by simp only [hg.1, add_sub_right_comm, hf.1], fun x y z => by simp only [hf.2.1, hg.2.1],
      fun x y z => by simp only [hf.2.2, hg.2.2]⟩

open Paxion in
theorem swap_y {f g : Sites} (hf : Round Lx N f) (hg : Round Lx N g) (k : ℕ) :
    total Lx N (fun x y z => f x (y - k) z * g x y z) = total Lx N (fun x y z => f x y z * g x (y + k) z) := by
  rw [← total_shift_y (f := fun x y z => f x (y - k) z * g x y z) (k := k)]
  · simp only [add_sub_cancel_right]
  · exact ⟨fun x y z => by simp only [hg.1, hf.1], fun x y z => by simp only [add_sub_right_comm, hf.2.1, hg.2.1],
      fun x y z => by simp only [hf.2.2, hg.2.2]⟩

open Paxion in
theorem swap_z {f g : Sites} (hf : Round Lx N f) (hg : Round Lx N g) (k : ℕ) :
    total Lx N (fun x y z => f x y (z - k) * g x y z) = total Lx N (fun x y z => f x y z * g x y (z + k)) := by
  rw [← total_shift_z (f := fun x y z => f x y (z - k) * g x y z) (k := k)]
  · simp only [add_sub_cancel_right]
  · exact ⟨fun x y z => by simp only [hg.1, hf.1], fun x y z => by simp only [hf.2.1, hg.2.1],
      fun x y z => by simp only [add_sub_right_comm, hf.2.2, hg.2.2]⟩

open Paxion in
/-- The pairing with the acceleration, term by term. -/
theorem pair_pull (f g : Sites) : pair Lx N f (pull w NN δ M g) =
    ∑ k ∈ Finset.range NN, w k * (1 / δ ^ 2) *
      (total Lx N (fun x y z => f x y z * g (x + (k + 1 : ℕ)) y z) +
       total Lx N (fun x y z => f x y z * g (x - (k + 1 : ℕ)) y z) +
       total Lx N (fun x y z => f x y z * g x (y + (k + 1 : ℕ)) z) +
       total Lx N (fun x y z => f x y z * g x (y - (k + 1 : ℕ)) z) +
       total Lx N (fun x y z => f x y z * g x y (z + (k + 1 : ℕ))) +
       total Lx N (fun x y z => f x y z * g x y (z - (k + 1 : ℕ))) - 6 * pair Lx N f g) - M * pair Lx N f g := by
  have e : (fun x y z => f x y z * pull w NN δ M g x y z) = fun x y z =>
      (∑ k ∈ Finset.range NN, w k * (1 / δ ^ 2) * (f x y z * g (x + (k + 1 : ℕ)) y z +
        f x y z * g (x - (k + 1 : ℕ)) y z + f x y z * g x (y + (k + 1 : ℕ)) z + f x y z * g x (y - (k + 1 : ℕ)) z +
        f x y z * g x y (z + (k + 1 : ℕ)) + f x y z * g x y (z - (k + 1 : ℕ)) + (-6) * (f x y z * g x y z))) +
        (-M) * (f x y z * g x y z) := by
    funext x y z
    simp only [pull, Stencil.laplacian, smul_eq_mul]
    rw [mul_sub, Finset.mul_sum, sub_eq_add_neg]
    congr 1
    · exact Finset.sum_congr rfl fun k _ => by ring
    · ring
  rw [pair_eq, e, total_add, total_sum, total_mul, sub_eq_add_neg, ← neg_mul, pair_eq]
  congr 1
  refine Finset.sum_congr rfl fun k _ => ?_
  rw [total_mul, total_add, total_add, total_add, total_add, total_add, total_add, total_mul]
  ring

theorem pair_comm (f g : Sites) : pair Lx N f g = pair Lx N g f := by simp only [pair, mul_comm]

open Paxion in
theorem tot_comm (f g : Sites) : total Lx N (fun x y z => f x y z * g x y z) =
    total Lx N (fun x y z => g x y z * f x y z) := by simp only [mul_comm]

/-- The acceleration is symmetric. -/
theorem pull_symm {f g : Sites} (hf : Round Lx N f) (hg : Round Lx N g) :
    pair Lx N (pull w NN δ M f) g = pair Lx N f (pull w NN δ M g) := by
  rw [pair_comm (pull w NN δ M f) g, pair_pull, pair_pull, pair_comm g f]
  congr 1
  refine Finset.sum_congr rfl fun k _ => ?_
  have x1 := swap_x hf hg (k + 1)
  have x2 := swap_x hg hf (k + 1)
  have y1 := swap_y hf hg (k + 1)
  have y2 := swap_y hg hf (k + 1)
  have z1 := swap_z hf hg (k + 1)
  have z2 := swap_z hg hf (k + 1)
  rw [tot_comm (fun x y z => f (x - (k + 1 : ℕ)) y z) g] at x1
  rw [tot_comm (fun x y z => g (x - (k + 1 : ℕ)) y z) f] at x2
  rw [tot_comm (fun x y z => f x (y - (k + 1 : ℕ)) z) g] at y1
  rw [tot_comm (fun x y z => g x (y - (k + 1 : ℕ)) z) f] at y2
  rw [tot_comm (fun x y z => f x y (z - (k + 1 : ℕ))) g] at z1
  rw [tot_comm (fun x y z => g x y (z - (k + 1 : ℕ))) f] at z2
  rw [x1, x2, y1, y2, z1, z2]
  ring

/-- **C92** Any number of steps of one size: the energy with a correction of second order in the size
of a leapfrog does not change at all, for any periodic field, weights, spacing and mass, and the field
stays periodic. -/
theorem C92_energy (i : Name) (hi : i = .leap ∨ i = .mleap) (dz : ℝ) (n : ℕ) (s : Arrays Sites × ℝ)
    (hm : Round Lx N s.1.m) (hv : Round Lx N s.1.v) :
    let F := pull w NN δ M
    let h := if i = .leap then dz / 2 else dz / 4
    ∃ t, stepsWith tRunCpu (table i) (fun _ _ => F) (List.replicate n dz) s = some t ∧
      Round Lx N t.1.m ∧ Round Lx N t.1.v ∧
      energy Lx N F t.1.m t.1.v + h ^ 2 / 4 * pair Lx N t.1.v (F t.1.v) =
        energy Lx N F s.1.m s.1.v + h ^ 2 / 4 * pair Lx N s.1.v (F s.1.v) := by
  intro F h
  obtain ⟨t, h1, h2⟩ := steps_frogs (pullL w NN δ M) i hi dz n s
  obtain ⟨e, m1, m2⟩ := frogs_shadow (B := dot Lx N) (A := pullL w NN δ M) (P := rounds Lx N)
    (fun x hx => pull_round hx) (fun x hx y hy => pull_symm hx hy) dz (1 / hops i) (hops i * n)
    (s := (s.1.m, s.1.v, s.2)) hm hv
  rw [← h2] at e m1 m2
  refine ⟨t, h1, m1, m2, ?_⟩
  have hh : h = dz * (1 / hops i) := by
    rcases hi with rfl | rfl <;> simp [h, hops] <;> ring
  simp only [shadow, dot_apply, pullL_apply, ← hh] at e
  simp only [energy]
  linear_combination e

/-! ### Size of the acceleration -/

open Paxion in
/-- Sum of the squared differences at distance `k`. -/
noncomputable def rough (Lx N : ℕ) (φ : Sites) (k : ℕ) : ℝ :=
  total Lx N (fun x y z => (φ (x + k) y z - φ x y z) ^ 2) +
  total Lx N (fun x y z => (φ x (y + k) z - φ x y z) ^ 2) +
  total Lx N (fun x y z => (φ x y (z + k) - φ x y z) ^ 2)

open Paxion in
theorem total_mono {f g : Sites} (h : ∀ x y z, f x y z ≤ g x y z) : total Lx N f ≤ total Lx N g :=
  Finset.sum_le_sum fun _ _ => Finset.sum_le_sum fun _ _ => Finset.sum_le_sum fun _ _ => h _ _ _

open Paxion in
theorem total_nonneg {f : Sites} (h : ∀ x y z, 0 ≤ f x y z) : 0 ≤ total Lx N f :=
  Finset.sum_nonneg fun _ _ => Finset.sum_nonneg fun _ _ => Finset.sum_nonneg fun _ _ => h _ _ _

theorem rough_nonneg (φ : Sites) (k : ℕ) : 0 ≤ rough Lx N φ k :=
  add_nonneg (add_nonneg (total_nonneg fun _ _ _ => sq_nonneg _) (total_nonneg fun _ _ _ => sq_nonneg _))
    (total_nonneg fun _ _ _ => sq_nonneg _)

theorem pair_self_nonneg (φ : Sites) : 0 ≤ pair Lx N φ φ := total_nonneg fun _ _ _ => mul_self_nonneg _

theorem Round.sq {φ : Sites} (h : Round Lx N φ) : Round Lx N (fun x y z => φ x y z * φ x y z) :=
  ⟨fun x y z => by simp only [h.1], fun x y z => by simp only [h.2.1], fun x y z => by simp only [h.2.2]⟩

open Paxion in
theorem square_x {φ : Sites} (h : Round Lx N φ) (k : ℕ) :
    total Lx N (fun x y z => (φ (x + k) y z - φ x y z) ^ 2) =
      2 * pair Lx N φ φ - 2 * total Lx N (fun x y z => φ x y z * φ (x + k) y z) := by
  have e : (fun x y z => (φ (x + k) y z - φ x y z) ^ 2) = fun x y z =>
      (φ (x + k) y z * φ (x + k) y z + φ x y z * φ x y z) + (-2) * (φ x y z * φ (x + k) y z) := by
    funext x y z; ring
  rw [e, total_add, total_add, total_mul, total_shift_x (f := fun x y z => φ x y z * φ x y z) h.sq, pair_eq]
  ring

open Paxion in
theorem square_y {φ : Sites} (h : Round Lx N φ) (k : ℕ) :
    total Lx N (fun x y z => (φ x (y + k) z - φ x y z) ^ 2) =
      2 * pair Lx N φ φ - 2 * total Lx N (fun x y z => φ x y z * φ x (y + k) z) := by
  have e : (fun x y z => (φ x (y + k) z - φ x y z) ^ 2) = fun x y z =>
      (φ x (y + k) z * φ x (y + k) z + φ x y z * φ x y z) + (-2) * (φ x y z * φ x (y + k) z) := by
    funext x y z; ring
  rw [e, total_add, total_add, total_mul, total_shift_y (f := fun x y z => φ x y z * φ x y z) h.sq, pair_eq]
  ring

open Paxion in
theorem square_z {φ : Sites} (h : Round Lx N φ) (k : ℕ) :
    total Lx N (fun x y z => (φ x y (z + k) - φ x y z) ^ 2) =
      2 * pair Lx N φ φ - 2 * total Lx N (fun x y z => φ x y z * φ x y (z + k)) := by
  have e : (fun x y z => (φ x y (z + k) - φ x y z) ^ 2) = fun x y z =>
      (φ x y (z + k) * φ x y (z + k) + φ x y z * φ x y z) + (-2) * (φ x y z * φ x y (z + k)) := by
    funext x y z; ring
  rw [e, total_add, total_add, total_mul, total_shift_z (f := fun x y z => φ x y z * φ x y z) h.sq, pair_eq]
  ring

/-- The potential energy is that of springs between the sites. -/
theorem pull_rough {φ : Sites} (h : Round Lx N φ) :
    -pair Lx N φ (pull w NN δ M φ) =
      (1 / δ ^ 2) * ∑ k ∈ Finset.range NN, w k * rough Lx N φ (k + 1) + M * pair Lx N φ φ := by
  rw [pair_pull, neg_sub, sub_eq_add_neg, add_comm, ← Finset.sum_neg_distrib, Finset.mul_sum]
  congr 1
  refine Finset.sum_congr rfl fun k _ => ?_
  have x1 := swap_x h h (k + 1)
  have y1 := swap_y h h (k + 1)
  have z1 := swap_z h h (k + 1)
  rw [tot_comm (fun x y z => φ (x - (k + 1 : ℕ)) y z) φ] at x1
  rw [tot_comm (fun x y z => φ x (y - (k + 1 : ℕ)) z) φ] at y1
  rw [tot_comm (fun x y z => φ x y (z - (k + 1 : ℕ))) φ] at z1
  rw [x1, y1, z1, rough, square_x h, square_y h, square_z h]
  ring

open Paxion in
theorem rough_le {φ : Sites} (h : Round Lx N φ) (k : ℕ) : rough Lx N φ k ≤ 12 * pair Lx N φ φ := by
  have b : ∀ f : Sites, total Lx N (fun x y z => f x y z * f x y z) = pair Lx N φ φ →
      total Lx N (fun x y z => (f x y z - φ x y z) ^ 2) ≤ 4 * pair Lx N φ φ := by
    intro f hf
    have e := total_mono (Lx := Lx) (N := N) (f := fun x y z => (f x y z - φ x y z) ^ 2)
      (g := fun x y z => 2 * (f x y z * f x y z) + 2 * (φ x y z * φ x y z))
      (fun x y z => by nlinarith [sq_nonneg (f x y z + φ x y z)])
    rw [total_add, total_mul, total_mul, hf, ← pair_eq] at e
    linarith
  have h1 := b (fun x y z => φ (x + k) y z) (total_shift_x (f := fun x y z => φ x y z * φ x y z) h.sq k)
  have h2 := b (fun x y z => φ x (y + k) z) (total_shift_y (f := fun x y z => φ x y z * φ x y z) h.sq k)
  have h3 := b (fun x y z => φ x y (z + k)) (total_shift_z (f := fun x y z => φ x y z * φ x y z) h.sq k)
  unfold rough
  linarith

open Paxion in
theorem rough_double {φ : Sites} (h : Round Lx N φ) (k : ℕ) : rough Lx N φ (k + k) ≤ 4 * rough Lx N φ k := by
  have key : ∀ f g : Sites, total Lx N (fun x y z => (f x y z) ^ 2) = total Lx N (fun x y z => (g x y z) ^ 2) →
      total Lx N (fun x y z => (f x y z + g x y z) ^ 2) ≤ 4 * total Lx N (fun x y z => (g x y z) ^ 2) := by
    intro f g hf
    have e := total_mono (Lx := Lx) (N := N) (f := fun x y z => (f x y z + g x y z) ^ 2)
      (g := fun x y z => 2 * (f x y z) ^ 2 + 2 * (g x y z) ^ 2)
      (fun x y z => by nlinarith [sq_nonneg (f x y z - g x y z)])
    rw [total_add, total_mul, total_mul, hf] at e
    linarith
  have h1 := key (fun x y z => φ (x + k + k) y z - φ (x + k) y z) (fun x y z => φ (x + k) y z - φ x y z)
    (total_shift_x (f := fun x y z => (φ (x + k) y z - φ x y z) ^ 2)
      ⟨fun x y z => by simp only [add_right_comm x (Lx : ℤ), h.1], fun x y z => by simp only [h.2.1],
        fun x y z => by simp only [h.2.2]⟩ k)
  have h2 := key (fun x y z => φ x (y + k + k) z - φ x (y + k) z) (fun x y z => φ x (y + k) z - φ x y z)
    (total_shift_y (f := fun x y z => (φ x (y + k) z - φ x y z) ^ 2)
      ⟨fun x y z => by simp only [h.1], fun x y z => by simp only [add_right_comm y (Lx : ℤ), h.2.1],
        fun x y z => by simp only [h.2.2]⟩ k)
  have h3 := key (fun x y z => φ x y (z + k + k) - φ x y (z + k)) (fun x y z => φ x y (z + k) - φ x y z)
    (total_shift_z (f := fun x y z => (φ x y (z + k) - φ x y z) ^ 2)
      ⟨fun x y z => by simp only [h.1], fun x y z => by simp only [h.2.1],
        fun x y z => by simp only [add_right_comm z (N : ℤ), h.2.2]⟩ k)
  simp only [sub_add_sub_cancel, add_assoc] at h1 h2 h3
  unfold rough
  push_cast
  linarith

/-- The weights of the code: the springs never push apart, and are not stronger than `144/7` times those
between next neighbours of one axis. -/
theorem springs (h1 : 1 ≤ NN) (h5 : NN ≤ 5) (hw : ∀ k, k < NN → (Weights.setCO NN : List ℝ)[k]? = some (w k))
    {φ : Sites} (h : Round Lx N φ) :
    0 ≤ ∑ k ∈ Finset.range NN, w k * rough Lx N φ (k + 1) ∧
    ∑ k ∈ Finset.range NN, w k * rough Lx N φ (k + 1) ≤ 12 * (12 / 7) * pair Lx N φ φ := by
  have n1 := rough_nonneg (Lx := Lx) (N := N) φ 1
  have n2 := rough_nonneg (Lx := Lx) (N := N) φ 2
  have n3 := rough_nonneg (Lx := Lx) (N := N) φ 3
  have n4 := rough_nonneg (Lx := Lx) (N := N) φ 4
  have n5 := rough_nonneg (Lx := Lx) (N := N) φ 5
  have l1 := rough_le h 1
  have l3 := rough_le h 3
  have l5 := rough_le h 5
  have d2 := rough_double h 1
  have d4 := rough_double h 2
  have p0 := pair_self_nonneg (Lx := Lx) (N := N) φ
  norm_num at d2 d4
  obtain rfl | rfl | rfl | rfl | rfl : NN = 1 ∨ NN = 2 ∨ NN = 3 ∨ NN = 4 ∨ NN = 5 := by omega
  · have w0 := hw 0 (by omega)
    simp [Weights.setCO] at w0
    simp only [Finset.sum_range_succ, Finset.sum_range_zero, zero_add, ← w0]
    constructor <;> linarith
  · have w0 := hw 0 (by omega); have w1 := hw 1 (by omega)
    simp [Weights.setCO] at w0 w1
    simp only [Finset.sum_range_succ, Finset.sum_range_zero, zero_add, ← w0, ← w1, Nat.reduceAdd]
    constructor <;> linarith
  · have w0 := hw 0 (by omega); have w1 := hw 1 (by omega); have w2 := hw 2 (by omega)
    simp [Weights.setCO] at w0 w1 w2
    simp only [Finset.sum_range_succ, Finset.sum_range_zero, zero_add, ← w0, ← w1, ← w2, Nat.reduceAdd]
    constructor <;> linarith
  · have w0 := hw 0 (by omega); have w1 := hw 1 (by omega); have w2 := hw 2 (by omega)
    have w3 := hw 3 (by omega)
    simp [Weights.setCO] at w0 w1 w2 w3
    simp only [Finset.sum_range_succ, Finset.sum_range_zero, zero_add, ← w0, ← w1, ← w2, ← w3, Nat.reduceAdd]
    constructor <;> linarith
  · have w0 := hw 0 (by omega); have w1 := hw 1 (by omega); have w2 := hw 2 (by omega)
    have w3 := hw 3 (by omega); have w4 := hw 4 (by omega)
    simp [Weights.setCO] at w0 w1 w2 w3 w4
    simp only [Finset.sum_range_succ, Finset.sum_range_zero, zero_add, ← w0, ← w1, ← w2, ← w3, ← w4, Nat.reduceAdd]
    constructor <;> linarith

open Cosmo in
/-- In a universe that does not expand the step over the threshold is never shortened. -/
theorem dzSize_static {c : Cosmos} (hf : c.frw = 0) (n1 wDz hub m2 zNow : ℝ) :
    dzSize c .axion n1 wDz hub m2 zNow = dzBase c .axion n1 wDz hub m2 zNow := by
  unfold dzSize
  exact if_neg fun h => h.2.2 hf

open Cosmo in
/-- **C92** Steps of the size the code computes: whatever the periodic field and the number of steps,
the sums of the squared velocities and, if there is a mass, of the squared field stay below bounds given
by the energy at the start, as long as the safety factor `wDz` is at most three for the leapfrog and six
for the multiple leapfrog, with all five stencils. -/
theorem C92_bounded (h1 : 1 ≤ NN) (h5 : NN ≤ 5)
    (hw : ∀ k, k < NN → (Weights.setCO NN : List ℝ)[k]? = some (w k))
    (c : Cosmos) (n1 wDz hub m2 zNow : ℝ) (hs : Sane c n1 wDz m2 zNow) (hf : c.frw = 0)
    (i : Name) (hi : i = .leap ∧ wDz ≤ 3 ∨ i = .mleap ∧ wDz ≤ 6) (n : ℕ) (s : Arrays Sites × ℝ)
    (hm : Round Lx N s.1.m) (hv : Round Lx N s.1.v) :
    let F := pull w NN (c.lSize / n1) (m2 * c.R zNow ^ 2)
    ∃ t, stepsWith tRunCpu (table i) (fun _ _ => F)
        (List.replicate n (dzSize c .axion n1 wDz hub m2 zNow)) s = some t ∧
      1 / 28 * pair Lx N t.1.v t.1.v + m2 * c.R zNow ^ 2 * pair Lx N t.1.m t.1.m ≤
        energy Lx N F s.1.m s.1.v := by
  rw [dzSize_static hf]
  intro F
  set dz := dzBase c .axion n1 wDz hub m2 zNow with hdz
  set M := m2 * c.R zNow ^ 2 with hM
  set κ := n1 / c.lSize with hκ
  have hk : 0 < κ := div_pos hs.n1 hs.size
  have hM0 : 0 ≤ M := mul_nonneg hs.mass (sq_nonneg _)
  have hd : (1 / (c.lSize / n1) ^ 2 : ℝ) = κ ^ 2 := by
    rw [hκ]; have := hs.n1.ne'; have := hs.size.ne'; field_simp
  obtain ⟨t, e1, r1, r2, e2⟩ := C92_energy (w := w) (NN := NN) (δ := c.lSize / n1) (M := M) i
    (hi.imp (·.1) (·.1)) dz n s hm hv
  refine ⟨t, e1, ?_⟩
  have q0 := pull_rough (w := w) (NN := NN) (δ := c.lSize / n1) (M := M) hv
  have q1 := pull_rough (w := w) (NN := NN) (δ := c.lSize / n1) (M := M) r1
  have q2 := pull_rough (w := w) (NN := NN) (δ := c.lSize / n1) (M := M) r2
  rw [hd] at q0 q1 q2
  have s0 := springs h1 h5 hw hv
  have s1 := springs h1 h5 hw r1
  have s2 := springs h1 h5 hw r2
  have p0 := pair_self_nonneg (Lx := Lx) (N := N) s.1.v
  have p2 := pair_self_nonneg (Lx := Lx) (N := N) t.1.v
  have hdz2 : dz ^ 2 * (M + 12 * κ ^ 2) = wDz ^ 2 := by
    have e : M + 12 * κ ^ 2 = m2 * (c.R zNow * c.R zNow) + 12 * (n1 / c.lSize * (n1 / c.lSize)) := by
      rw [hM, hκ]; ring
    have hp : 0 < M + 12 * κ ^ 2 := by positivity
    rw [hdz]
    simp only [dzBase]
    rw [← e, div_pow, Real.sq_sqrt hp.le]
    field_simp
  have hwd := hs.wDz
  -- the correction is at most 27/28 of the kinetic energy
  have hh : ∀ h : ℝ, h ^ 2 * (M + 12 * κ ^ 2) ≤ 9 / 4 →
      energy Lx N F t.1.m t.1.v + h ^ 2 / 4 * pair Lx N t.1.v (F t.1.v) =
        energy Lx N F s.1.m s.1.v + h ^ 2 / 4 * pair Lx N s.1.v (F s.1.v) →
      1 / 28 * pair Lx N t.1.v t.1.v + M * pair Lx N t.1.m t.1.m ≤ energy Lx N F s.1.m s.1.v := by
    intro h hb he
    have h2 := sq_nonneg h
    have k2 : 0 ≤ κ ^ 2 := sq_nonneg _
    -- upper bound of the correction at the end
    have u2 : -pair Lx N t.1.v (F t.1.v) ≤ 12 / 7 * (M + 12 * κ ^ 2) * pair Lx N t.1.v t.1.v := by
      have a1 := mul_le_mul_of_nonneg_left s2.2 k2
      have a2 := mul_nonneg hM0 p2
      rw [q2]
      nlinarith
    have u3 : h ^ 2 / 4 * -pair Lx N t.1.v (F t.1.v) ≤ 27 / 28 * pair Lx N t.1.v t.1.v := by
      have a1 := mul_le_mul_of_nonneg_left u2 (by positivity : 0 ≤ h ^ 2 / 4)
      have a2 := mul_le_mul_of_nonneg_right hb p2
      nlinarith
    -- sign of the correction at the start
    have u0 : 0 ≤ h ^ 2 / 4 * -pair Lx N s.1.v (F s.1.v) := by
      refine mul_nonneg (by positivity) ?_
      rw [q0]
      exact add_nonneg (mul_nonneg k2 s0.1) (mul_nonneg hM0 p0)
    have u1 : M * pair Lx N t.1.m t.1.m ≤ -pair Lx N t.1.m (F t.1.m) := by
      rw [q1]
      linarith [mul_nonneg k2 s1.1]
    have e3 : energy Lx N F t.1.m t.1.v = pair Lx N t.1.v t.1.v - pair Lx N t.1.m (F t.1.m) := rfl
    linarith
  rcases hi with ⟨rfl, hi⟩ | ⟨rfl, hi⟩
  · refine hh (dz / 2) ?_ e2
    have : (dz / 2) ^ 2 * (M + 12 * κ ^ 2) = wDz ^ 2 / 4 := by rw [← hdz2]; ring
    rw [this]; nlinarith
  · refine hh (dz / 4) ?_ e2
    have : (dz / 4) ^ 2 * (M + 12 * κ ^ 2) = wDz ^ 2 / 16 := by rw [← hdz2]; ring
    rw [this]; nlinarith

/-! ### Longer steps -/

theorem zigzag_lin (a b c : ℝ) : zigzag a + c • zigzag b = zigzag (a + c * b) := by
  funext x y z
  simp only [zigzag, Pi.add_apply, Pi.smul_apply, smul_eq_mul]
  split_ifs <;> ring

theorem zigzag_pull (a : ℝ) : pull w NN δ M (zigzag a) =
    zigzag (-(12 * (∑ k ∈ Finset.range NN, if k % 2 = 0 then w k else 0) * (1 / δ ^ 2) + M) * a) := by
  have flip : ∀ (x y z : ℤ), zigzag a x y z = (if (x + y + z) % 2 = 0 then 1 else -1) * a := by
    intro x y z; simp only [zigzag]; split_ifs <;> ring
  have e : ∀ (k : ℕ) (s : ℤ), (if (s + (k + 1 : ℕ)) % 2 = 0 then (1 : ℝ) else -1) =
      (if k % 2 = 0 then -1 else 1) * (if s % 2 = 0 then 1 else -1) := by
    intro k s
    split_ifs <;> first | (exfalso; omega) | norm_num
  have e' : ∀ (k : ℕ) (s : ℤ), (if (s - (k + 1 : ℕ)) % 2 = 0 then (1 : ℝ) else -1) =
      (if k % 2 = 0 then -1 else 1) * (if s % 2 = 0 then 1 else -1) := by
    intro k s
    split_ifs <;> first | (exfalso; omega) | norm_num
  funext x y z
  have hz : ∀ b : ℝ, zigzag b x y z = (if (x + y + z) % 2 = 0 then 1 else -1) * b := by
    intro b; simp only [zigzag]; split_ifs <;> ring
  rw [hz]
  simp only [pull, Stencil.laplacian, flip, smul_eq_mul]
  have sums : ∀ k : ℕ, w k * (1 / δ ^ 2) *
      ((if (x + (k + 1 : ℕ) + y + z) % 2 = 0 then (1 : ℝ) else -1) * a +
       (if (x - (k + 1 : ℕ) + y + z) % 2 = 0 then (1 : ℝ) else -1) * a +
       (if (x + (y + (k + 1 : ℕ)) + z) % 2 = 0 then (1 : ℝ) else -1) * a +
       (if (x + (y - (k + 1 : ℕ)) + z) % 2 = 0 then (1 : ℝ) else -1) * a +
       (if (x + y + (z + (k + 1 : ℕ))) % 2 = 0 then (1 : ℝ) else -1) * a +
       (if (x + y + (z - (k + 1 : ℕ))) % 2 = 0 then (1 : ℝ) else -1) * a -
       6 * ((if (x + y + z) % 2 = 0 then (1 : ℝ) else -1) * a)) =
      (if k % 2 = 0 then w k else 0) * (-(12 * (1 / δ ^ 2)) * ((if (x + y + z) % 2 = 0 then (1 : ℝ) else -1) * a)) := by
    intro k
    rw [show x + (k + 1 : ℕ) + y + z = x + y + z + (k + 1 : ℕ) by ring,
      show x - (k + 1 : ℕ) + y + z = x + y + z - (k + 1 : ℕ) by ring,
      show x + (y + (k + 1 : ℕ)) + z = x + y + z + (k + 1 : ℕ) by ring,
      show x + (y - (k + 1 : ℕ)) + z = x + y + z - (k + 1 : ℕ) by ring,
      show x + y + (z + (k + 1 : ℕ)) = x + y + z + (k + 1 : ℕ) by ring,
      show x + y + (z - (k + 1 : ℕ)) = x + y + z - (k + 1 : ℕ) by ring, e, e']
    generalize (if (x + y + z) % 2 = 0 then (1 : ℝ) else -1) = σ
    split_ifs <;> ring
  rw [Finset.sum_congr rfl fun k _ => sums k, ← Finset.sum_mul]
  ring

theorem frog_zigzag {l : ℝ} (hl : ∀ a, pull w NN δ M (zigzag a) = zigzag (-l * a)) (dz c q p t : ℝ) :
    frog (pullL w NN δ M) dz c (zigzag q, zigzag p, t) =
      (zigzag ((1 - (dz * c) ^ 2 * l / 2) * q + dz * c * (1 - (dz * c) ^ 2 * l / 4) * p),
       zigzag (-(dz * c * l) * q + (1 - (dz * c) ^ 2 * l / 2) * p), t + dz * (c / 2) + dz * (c / 2)) := by
  simp only [frog, List.foldl_cons, List.foldl_nil, Move.act, zigzag_lin, pullL_apply, hl]
  refine Prod.ext ?_ (Prod.ext ?_ rfl) <;> dsimp only <;> congr 1 <;> ring

theorem frogs_grow {l : ℝ} (hl : ∀ a, pull w NN δ M (zigzag a) = zigzag (-l * a)) {dz c : ℝ} (hp : 0 < dz * c)
    (hb : 4 < (dz * c) ^ 2 * l) (a t : ℝ) (ha : 0 < a) (k : ℕ) :
    ∃ q p t', (frog (pullL w NN δ M) dz c)^[k] (zigzag a, zigzag 0, t) = (zigzag ((-1) ^ k * q), zigzag ((-1) ^ k * p), t') ∧
      ((dz * c) ^ 2 * l / 2 - 1) ^ k * a ≤ q ∧ 0 ≤ p := by
  induction k with
  | zero => exact ⟨a, 0, t, by simp, by simp, le_rfl⟩
  | succ k ih =>
    obtain ⟨q, p, t', e, h1, h2⟩ := ih
    set r := (dz * c) ^ 2 * l with hr
    have hl0 : 0 < l := by
      by_contra hn
      have := mul_nonpos_of_nonneg_of_nonpos (sq_nonneg (dz * c)) (not_lt.1 hn)
      linarith
    have hq : 0 ≤ q := le_trans (mul_nonneg (pow_nonneg (by linarith) _) ha.le) h1
    refine ⟨(r / 2 - 1) * q + dz * c * (r / 4 - 1) * p, dz * c * l * q + (r / 2 - 1) * p,
      t' + dz * (c / 2) + dz * (c / 2), ?_, ?_, ?_⟩
    · rw [Function.iterate_succ_apply', e, frog_zigzag hl]
      refine Prod.ext ?_ (Prod.ext ?_ rfl) <;> dsimp only <;> congr 1 <;> rw [pow_succ] <;> ring
    · have h3 : 0 ≤ dz * c * (r / 4 - 1) * p := mul_nonneg (mul_nonneg hp.le (by linarith)) h2
      have h4 := mul_le_mul_of_nonneg_left h1 (by linarith : 0 ≤ r / 2 - 1)
      rw [pow_succ]
      linarith
    · exact add_nonneg (mul_nonneg (mul_pos hp hl0).le hq) (mul_nonneg (by linarith) h2)

open Cosmo in
/-- **C92** With a safety factor above four for the leapfrog, above eight for the multiple leapfrog, the
steps are too long, with all five stencils: the field that changes sign from site to site grows beyond
all bounds. -/
theorem C92_too_long (h1 : 1 ≤ NN) (h5 : NN ≤ 5)
    (hw : ∀ k, k < NN → (Weights.setCO NN : List ℝ)[k]? = some (w k))
    (c : Cosmos) (n1 wDz hub m2 zNow : ℝ) (hs : Sane c n1 wDz m2 zNow) (hf : c.frw = 0)
    (i : Name) (hi : i = .leap ∧ 4 < wDz ∨ i = .mleap ∧ 8 < wDz) (a : ℝ) (ha : 0 < a) (m : Sites) (z C : ℝ) :
    ∃ n t, stepsWith tRunCpu (table i) (fun _ _ => pull w NN (c.lSize / n1) (m2 * c.R zNow ^ 2))
        (List.replicate n (dzSize c .axion n1 wDz hub m2 zNow)) (⟨zigzag a, m, zigzag 0⟩, z) = some t ∧
      ∃ b, t.1.m = zigzag b ∧ C ≤ |b| := by
  rw [dzSize_static hf]
  set dz := dzBase c .axion n1 wDz hub m2 zNow with hdz
  set M := m2 * c.R zNow ^ 2 with hM
  set κ := n1 / c.lSize with hκ
  set S := ∑ k ∈ Finset.range NN, if k % 2 = 0 then w k else 0 with hS
  have hS1 : 1 ≤ S := by
    rcases Nat.eq_or_lt_of_le h1 with h | h
    · subst h
      have w0 := hw 0 (by omega)
      simp [Weights.setCO] at w0
      simp [hS, ← w0]
    · exact (oddSum_gt NN h h5 w hw).le
  have hk : 0 < κ := div_pos hs.n1 hs.size
  have hM0 : 0 ≤ M := mul_nonneg hs.mass (sq_nonneg _)
  have hd : (1 / (c.lSize / n1) ^ 2 : ℝ) = κ ^ 2 := by
    rw [hκ]; have := hs.n1.ne'; have := hs.size.ne'; field_simp
  have hp : 0 < M + 12 * κ ^ 2 := by positivity
  have e : M + 12 * κ ^ 2 = m2 * (c.R zNow * c.R zNow) + 12 * (n1 / c.lSize * (n1 / c.lSize)) := by
    rw [hM, hκ]; ring
  have hdz2 : dz ^ 2 * (M + 12 * κ ^ 2) = wDz ^ 2 := by
    rw [hdz]
    simp only [dzBase]
    rw [← e, div_pow, Real.sq_sqrt hp.le]
    field_simp
  have hdz0 : 0 < dz := by
    rw [hdz]
    simp only [dzBase]
    rw [← e]
    exact div_pos hs.wDz (Real.sqrt_pos.2 hp)
  have hl := zigzag_pull (w := w) (NN := NN) (δ := c.lSize / n1) (M := M)
  rw [hd, ← hS] at hl
  set l := 12 * S * κ ^ 2 + M with hldef
  have hll : M + 12 * κ ^ 2 ≤ l := by
    have := mul_le_mul_of_nonneg_right hS1 (sq_nonneg κ)
    rw [hldef]; linarith
  have hi' : i = .leap ∨ i = .mleap := hi.imp (·.1) (·.1)
  have hpos : 0 < dz * (1 / hops i) := by
    rcases hi with ⟨rfl, _⟩ | ⟨rfl, _⟩ <;> simp only [hops] <;> positivity
  have hb : 4 < (dz * (1 / hops i)) ^ 2 * l := by
    have h3 := mul_le_mul_of_nonneg_left hll (sq_nonneg (dz * (1 / (hops i : ℝ))))
    refine lt_of_lt_of_le ?_ h3
    rw [mul_pow, mul_right_comm, hdz2]
    rcases hi with ⟨rfl, h⟩ | ⟨rfl, h⟩ <;> simp only [hops] <;> norm_num <;> nlinarith
  obtain ⟨n, hn⟩ := pow_unbounded_of_one_lt (C / a) (by linarith : 1 < (dz * (1 / hops i)) ^ 2 * l / 2 - 1)
  obtain ⟨t, g1, g2⟩ := steps_frogs (pullL w NN (c.lSize / n1) M) i hi' dz n (⟨zigzag a, m, zigzag 0⟩, z)
  obtain ⟨q, p, t', g3, g4, -⟩ := frogs_grow hl hpos hb a z ha (hops i * n)
  rw [g3] at g2
  refine ⟨n, t, g1, _, congrArg Prod.fst g2, ?_⟩
  have h1' : 1 ≤ (dz * (1 / hops i)) ^ 2 * l / 2 - 1 := by linarith
  have g5 : ((dz * (1 / hops i)) ^ 2 * l / 2 - 1) ^ n ≤ ((dz * (1 / hops i)) ^ 2 * l / 2 - 1) ^ (hops i * n) := by
    refine pow_le_pow_right₀ h1' ?_
    rcases hi' with rfl | rfl <;> simp only [hops] <;> omega
  have g6 : C ≤ q := by
    rw [div_lt_iff₀ ha] at hn
    have := mul_le_mul_of_nonneg_right g5 ha.le
    linarith
  rw [abs_mul, abs_pow, abs_neg, abs_one, one_pow, one_mul]
  exact g6.trans (le_abs_self q)

/-! ### The acceleration is the kernel's -/

open AxionRun Run in
/-- **C92** What the kernel does to a lattice without expansion, with plain differences and no potential
or the quadratic one, is a kick with this acceleration and a drift. -/
theorem C92_kernel {q : Call} (hq : Linear q) (hR : q.2.2.2.Rpp = 0) (hδ : q.2.2.2.ood2 = 1 / δ ^ 2) (G : Lat ℝ)
    (t : ℝ) :
    (((ruleOf NN w q).step G).φ, ((ruleOf NN w q).step G).ν) =
      let s := [Move.kick q.2.2.2.c, .drift q.2.2.2.d].foldl
        (Move.act (fun _ => pull w NN δ (mass2 q)) q.2.2.2.dz) (G.φ, G.ν, t)
      (s.1, s.2.1) := by
  have hL : (ruleOf NN w q).lap G.φ = fun x y z => Stencil.laplacian (fun k => w k * (1 / δ ^ 2)) NN G.φ x y z := by
    rw [lap_linear hq, hδ]
    funext x y z
    simp only [ThetaKernel.lapW, Stencil.laplacian, id, smul_eq_mul]
    exact Finset.sum_congr rfl fun k _ => by ring
  simp only [Rule.step, law_linear hq, hL, hR, List.foldl_cons, List.foldl_nil, Move.act]
  refine Prod.ext ?_ ?_ <;> funext x y z <;>
    simp only [pull, Pi.add_apply, Pi.smul_apply, smul_eq_mul] <;> ring

/-! ### Examples -/

/-- The hypotheses are met: leapfrog with safety factor 0.8, two neighbours, the zigzag field on a box of
four sites a side. -/
example : (∃ w : ℕ → ℝ, ∀ k, k < 2 → (Weights.setCO 2 : List ℝ)[k]? = some (w k)) ∧ Round 4 4 (zigzag 1) ∧
    Cosmo.Sane ⟨1, 1, 0, 1, 7, 0, 3, 100, 0, 0, .pq1, false, id, id⟩ 4 0.8 0.5 2 ∧ pair 4 4 (zigzag 1) (zigzag 1) = 64 := by
  refine ⟨⟨fun k => if k = 0 then 4/3 else -1/12, ?_⟩, ⟨?_, ?_, ?_⟩, ⟨by norm_num, by norm_num, by norm_num, by norm_num, by simp [Cosmo.Cosmos.R], by simp [Cosmo.Cosmos.lambdaP]⟩, ?_⟩
  · intro k hk
    obtain rfl | rfl : k = 0 ∨ k = 1 := by omega
    · simp [Weights.setCO]
    · simp [Weights.setCO]
  · intro x y z; simp only [zigzag]; congr 1; apply propext; push_cast; omega
  · intro x y z; simp only [zigzag]; congr 1; apply propext; push_cast; omega
  · intro x y z; simp only [zigzag]; congr 1; apply propext; push_cast; omega
  · have : ∀ x y z : ℤ, zigzag 1 x y z * zigzag 1 x y z = 1 := by
      intro x y z; simp only [zigzag]; split_ifs <;> norm_num
    simp only [pair, this]
    norm_num

end Jaxions.Stable
