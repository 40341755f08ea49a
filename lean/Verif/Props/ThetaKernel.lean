import Verif.Model.ThetaKernel
import Verif.Spec.ThetaKernel
import Verif.Props.Stencil
import Verif.Props.EnergyTheta
import Verif.Basic.Fold
import Mathlib.Analysis.SpecialFunctions.Trigonometric.Basic
import Mathlib.Analysis.Calculus.Deriv.Mul
import Mathlib.Analysis.Calculus.Deriv.Add
import Mathlib.Analysis.Calculus.Deriv.Basic
/-
C58: the kick of the axion angle.
-/
namespace Jaxions.ThetaKernel

open Stencil Simd Energy

section kernel

variable {K : Type} [Field K] [LinearOrder K]

/-- How a difference is treated. -/
def wrapOf (wMod : Bool) (tV : K) : K → K := if wMod then fun d => modPd d tV else id

theorem ringT_eq {Y S NN : Nat} (hS : 0 < S) (wMod : Bool) (tV : K) (m : Heap Nat K)
    (φ : Int → Int → Int → K) (nz : Nat)
    (hper : Periodic (Y * S) φ) (hm : Holds (Y * S) S nz m φ) {x y z nv : Nat} (hx : x < Y * S)
    (hy : y < Y * S) (h2 : 2 * nv ≤ Y) (hz : nv ≤ z) (hz' : z + nv < nz) :
    ringT wMod tV (shape Y S NN) m (vec Y S x (y % Y) z) (y / Y) nv =
      some (wrapOf wMod tV (φ (x + nv) y z - φ x y z) + wrapOf wMod tV (φ (x - nv) y z - φ x y z) +
        wrapOf wMod tV (φ x (y + nv) z - φ x y z) + wrapOf wMod tV (φ x (y - nv) z - φ x y z) +
        wrapOf wMod tV (φ x y (z + nv) - φ x y z) + wrapOf wMod tV (φ x y (z - nv) - φ x y z)) := by
  rw [ringT, six_eq hS m φ nz hper hm hx hy h2 hz hz']
  cases wMod
  · simp only [Option.bind_eq_bind, Option.bind_some, Option.pure_def, Option.some.injEq, wrapOf,
      Bool.false_eq_true, if_false, id]
    ring
  · simp only [Option.bind_eq_bind, Option.bind_some, Option.pure_def, Option.some.injEq, wrapOf,
      if_true]
    ring

theorem lapT_eq {Lx S NN : Nat} (hS : 0 < S) (hdvd : S ∣ Lx) (hrow : 2 * NN ≤ Lx / S)
    (wMod : Bool) (P : Par K) (w : Nat → K) (hPC : ∀ k, k < NN → P.PC[k]? = some (w k))
    (h5 : NN ≤ 5) (m : Heap Nat K) (φ : Int → Int → Int → K) (nz : Nat)
    (hper : Periodic Lx φ) (hm : Holds Lx S nz m φ) {x y z : Nat} (hx : x < Lx)
    (hy : y < Lx) (hz : NN ≤ z) (hz' : z + NN < nz) :
    lapT wMod P ⟨Lx, S, NN⟩ m (cell Lx S x y z - y / (Lx / S)) (y / (Lx / S)) =
      some (lapW (wrapOf wMod P.tV) (fun k => w k * P.ood2) NN φ x y z) := by
  obtain ⟨Y, rfl⟩ : ∃ Y, Lx = Y * S := by
    obtain ⟨Y, h⟩ := hdvd; exact ⟨Y, by rw [h, Nat.mul_comm]⟩
  rw [Nat.mul_div_cancel _ hS] at hrow ⊢
  rw [cell_eq hS, Nat.add_sub_cancel]
  have key : ∀ k ∈ List.range NN, (do
      let t ← ringT wMod P.tV (shape Y S NN) m (vec Y S x (y % Y) z) (y / Y) (k + 1)
      let w ← cov P.PC P.ood2 k
      return t * w : Option K) = some ((w k * P.ood2) *
        (wrapOf wMod P.tV (φ (x + (k + 1 : Nat)) y z - φ x y z) +
         wrapOf wMod P.tV (φ (x - (k + 1 : Nat)) y z - φ x y z) +
         wrapOf wMod P.tV (φ x (y + (k + 1 : Nat)) z - φ x y z) +
         wrapOf wMod P.tV (φ x (y - (k + 1 : Nat)) z - φ x y z) +
         wrapOf wMod P.tV (φ x y (z + (k + 1 : Nat)) - φ x y z) +
         wrapOf wMod P.tV (φ x y (z - (k + 1 : Nat)) - φ x y z))) := by
    intro k hk
    rw [List.mem_range] at hk
    rw [ringT_eq hS wMod P.tV m φ nz hper hm hx hy (show 2 * (k + 1) ≤ Y by omega) (by omega)
      (by omega)]
    simp only [cov, hPC k hk, show k < 5 by omega, if_true, Option.map_some, Option.bind_eq_bind,
      Option.bind_some, Option.pure_def]
    rw [mul_comm]
  have h := foldlM_sum _ _ _ key (0 : K)
  rw [zero_add, sum_list_range] at h
  rw [lapW, ← h, lapT]
  congr 1
  funext acc k
  simp only [shape, Option.bind_eq_bind, Option.pure_def, Option.bind_assoc, Option.bind_some]

/-- What the arrays of a rank and the loops over them have to satisfy before a substep; as in
`C04_substep`. -/
structure Ready (Lx S NN Lz bY bZ : Nat) (PC : List K) (w : Nat → K) (order : List Nat)
    (m : Heap Nat K) (o : Out K) (φ ν : Int → Int → Int → K) : Prop where
  hL : 0 < Lx
  hS : 0 < S
  dvd : S ∣ Lx
  rows : 2 * NN ≤ Lx / S
  hby : 0 < bY
  hbz : 0 < bZ
  depth : 2 * NN ≤ Lz ∨ Lz = NN
  weights : ∀ k, k < NN → PC[k]? = some (w k)
  five : NN ≤ 5
  order : order.Perm (substepVisits true Lx S bY bZ Lz NN)
  per : Periodic Lx φ
  field : Holds Lx S (Lz + 2 * NN) m φ
  vel : Holds Lx S Lz o.v ν
  room : ∀ a, a < (Lz + 2 * NN) * (Lx * Lx) → (o.m2 a).isSome

variable {Lx S NN Lz bY bZ : Nat} {w : Nat → K} {order : List Nat} {m : Heap Nat K} {o : Out K}
  {φ ν : Int → Int → Int → K} {P : Par K}

theorem call_eq (p : Prec) (wMod : Bool) {vq : Nat} {pot : Pot} (hr : route vq = some pot)
    (h : Ready Lx S NN Lz bY bZ P.PC w order m o φ ν) :
    ∃ o', call p wMod vq P ⟨Lx, S, NN⟩ m order o = some o' ∧
      Kicked Lx S NN Lz P.dzc P.dzd (wrapOf wMod P.tV)
        (fun x y z => accel pot p P
          (lapW (wrapOf wMod P.tV) (fun k => w k * P.ood2) NN φ x y z) (φ x y z)) φ ν
        o.m2 o.v o'.m2 o'.v := by
  obtain ⟨o', h1, h2, h3⟩ := substep_rule h.hL h.hS h.dvd h.hby h.hbz h.depth
    (lapT wMod P ⟨Lx, S, NN⟩ m)
    (fun x y z => lapW (wrapOf wMod P.tV) (fun k => w k * P.ood2) NN φ x y (z + NN : Nat))
    (kick pot p wMod P) order h.order m o φ ν
    (fun x y z hx hy hz => lapT_eq h.hS h.dvd h.rows wMod P w h.weights h.five m φ _ h.per h.field
      hx hy (by omega) (by omega)) h.field h.vel h.room
  refine ⟨o', ?_, ⟨fun x y z hx hy hz => (h2 x y z hx hy hz).2, fun x y z hx hy hz => ?_, h3⟩⟩
  · simp only [call, hr]
    exact h1
  · rw [(h2 x y z hx hy hz).1]
    cases wMod <;> simp [kick, wrapOf]

omit [LinearOrder K] in
theorem kicked_congr {dzc dzd : K} {wrap : K → K} {a a' : Int → Int → Int → K}
    {m2 v m2' v' : Nat → Option K} (e : ∀ x y z, a' x y z = a x y z)
    (h : Kicked Lx S NN Lz dzc dzd wrap a φ ν m2 v m2' v') :
    Kicked Lx S NN Lz dzc dzd wrap a' φ ν m2 v m2' v' := by
  have : a' = a := by funext x y z; exact e x y z
  rw [this]; exact h

/-- **C58** One substep of the axion propagator on a rank with a cosine potential (any of the
options `V_QCD1`, `V_QCDV`, `V_QCDC`): for every block size, every order of the threads, both
precisions, every grid and stencil radius up to five, each site receives the velocity
`v + dz c (∇²ψ - mA² R³ sin(ψ/R) + R''/R ψ)` and the field `ψ + dz d v'`, with the periodic Laplacian
of the lattice; with `wMod` the differences and the new field are wrapped.  Ghost slices are
untouched. -/
theorem C58_cosine (p : Prec) (wMod : Bool) {vq : Nat}
    (hvq : vq &&& 63 = 2 ∨ vq &&& 63 = 4 ∨ vq &&& 63 = 32)
    (h : Ready Lx S NN Lz bY bZ P.PC w order m o φ ν) :
    ∃ o', call p wMod vq P ⟨Lx, S, NN⟩ m order o = some o' ∧
      Kicked Lx S NN Lz (P.dz * P.c) (P.dz * P.d)
        (if wMod then fun t => modPd t (2 * P.pi * P.R) else id)
        (fun x y z => lapW (if wMod then fun t => modPd t (2 * P.pi * P.R) else id)
            (fun k => w k * P.ood2) NN φ x y z
          - P.mA2 * P.R ^ 3 * P.sn (φ x y z / P.R) + P.Rpp * φ x y z) φ ν
        o.m2 o.v o'.m2 o'.v := by
  have hr : route vq = some .qcdC := by
    unfold route
    rcases hvq with e | e | e <;> rw [e] <;> rfl
  obtain ⟨o', h1, h2⟩ := call_eq p wMod hr h
  refine ⟨o', h1, ?_⟩
  refine kicked_congr ?_ h2
  intro x y z
  simp only [accel, Par.zQ, Par.iz, wrapOf, Par.tV]
  rw [mul_one_div]
  ring

/-- **C58** The same without a potential (`V_QCD0`, `V_NONE`). -/
theorem C58_free (p : Prec) (wMod : Bool) {vq : Nat} (hvq : vq &&& 63 = 0 ∨ vq &&& 63 = 1)
    (h : Ready Lx S NN Lz bY bZ P.PC w order m o φ ν) :
    ∃ o', call p wMod vq P ⟨Lx, S, NN⟩ m order o = some o' ∧
      Kicked Lx S NN Lz (P.dz * P.c) (P.dz * P.d)
        (if wMod then fun t => modPd t (2 * P.pi * P.R) else id)
        (fun x y z => lapW (if wMod then fun t => modPd t (2 * P.pi * P.R) else id)
            (fun k => w k * P.ood2) NN φ x y z + P.Rpp * φ x y z) φ ν
        o.m2 o.v o'.m2 o'.v := by
  have hr : route vq = some .qcd0 := by
    unfold route
    rcases hvq with e | e <;> rw [e] <;> rfl
  exact call_eq p wMod hr h

/-- **C58** The same with the quadratic potential `V_QCDL`, double precision: the force is linear. -/
theorem C58_linear_double (wMod : Bool) {vq : Nat} (hvq : vq &&& 63 = 16)
    (h : Ready Lx S NN Lz bY bZ P.PC w order m o φ ν) :
    ∃ o', call .double wMod vq P ⟨Lx, S, NN⟩ m order o = some o' ∧
      Kicked Lx S NN Lz (P.dz * P.c) (P.dz * P.d)
        (if wMod then fun t => modPd t (2 * P.pi * P.R) else id)
        (fun x y z => lapW (if wMod then fun t => modPd t (2 * P.pi * P.R) else id)
            (fun k => w k * P.ood2) NN φ x y z
          - P.mA2 * P.R ^ 3 * (φ x y z / P.R) + P.Rpp * φ x y z) φ ν
        o.m2 o.v o'.m2 o'.v := by
  have hr : route vq = some .qcdL := by unfold route; rw [hvq]; rfl
  obtain ⟨o', h1, h2⟩ := call_eq .double wMod hr h
  refine ⟨o', h1, ?_⟩
  refine kicked_congr ?_ h2
  intro x y z
  simp only [accel, Par.zQ, Par.iz, wrapOf, Par.tV]
  rw [mul_one_div]
  ring

/-- **C58** The same with `V_QCDL`, single precision: the force is a polynomial of degree five in
the angle that depends on the option `beta`. -/
theorem C58_linear_single (wMod : Bool) {vq : Nat} (hvq : vq &&& 63 = 16)
    (h : Ready Lx S NN Lz bY bZ P.PC w order m o φ ν) :
    ∃ o', call .single wMod vq P ⟨Lx, S, NN⟩ m order o = some o' ∧
      Kicked Lx S NN Lz (P.dz * P.c) (P.dz * P.d)
        (if wMod then fun t => modPd t (2 * P.pi * P.R) else id)
        (fun x y z => lapW (if wMod then fun t => modPd t (2 * P.pi * P.R) else id)
            (fun k => w k * P.ood2) NN φ x y z
          - P.mA2 * P.R ^ 3 * (φ x y z / P.R - 1666667 / 10000000 * P.beta * (φ x y z / P.R) ^ 3
              + 3 / 10 * (1666667 / 10000000 * P.beta) ^ 2 * (φ x y z / P.R) ^ 5)
          + P.Rpp * φ x y z) φ ν
        o.m2 o.v o'.m2 o'.v := by
  have hr : route vq = some .qcdL := by unfold route; rw [hvq]; rfl
  obtain ⟨o', h1, h2⟩ := call_eq .single wMod hr h
  refine ⟨o', h1, ?_⟩
  refine kicked_congr ?_ h2
  intro x y z
  simp only [accel, Par.zQ, Par.iz, wrapOf, Par.tV]
  rw [mul_one_div]
  ring

/-- **C58** For every other value of the potential option (in particular the `N = 2` potential
`V_QCD2`) the kernel changes nothing: neither the velocities nor the destination array are written.
And these are exactly the values for which that happens without a routine being chosen. -/
theorem C58_not_evolved (p : Prec) (wMod : Bool) (P : Par K) (s : Shape) (m : Heap Nat K)
    (order : List Nat) (o : Out K) {vq : Nat}
    (hvq : ∀ b ∈ [0, 1, 2, 4, 16, 32], vq &&& 63 ≠ b) :
    call p wMod vq P s m order o = some o := by
  have hr : route vq = none := by
    unfold route
    simp only [List.mem_cons, List.not_mem_nil, or_false, forall_eq_or_imp, forall_eq] at hvq
    obtain ⟨h0, h1, h2, h4, h16, h32⟩ := hvq
    split <;> first | rfl | contradiction
  simp only [call, hr]

/-- The hypotheses hold for the field of the concrete case of C04: 8 x 8 sites, two lanes, radius
two, two slices and two ghost slices on each side. -/
example : Ready 8 2 2 2 3 1 [(4 / 3 : ℚ), -1 / 12] (fun k => if k = 0 then 4 / 3 else -1 / 12)
    (substepVisits true 8 2 3 1 2 2) demoArray
    ⟨fun _ => some 1, fun _ => some 0⟩ demoField (fun _ _ _ => 1) := by
  have hd : Periodic 8 demoField ∧ Holds 8 2 6 demoArray demoField := by
    constructor
    · intro x y z
      simp [demoField]
    · intro x y z hx hy hz
      obtain ⟨l, y0, hl, hy0, rfl⟩ : ∃ l y0, l < 2 ∧ y0 < 4 ∧ y = l * 4 + y0 :=
        ⟨y / 4, y % 4, by omega, by omega, by omega⟩
      have e : cell 8 2 x (l * 4 + y0) z = z * 64 + (y0 * 8 + x) * 2 + l := by
        have h1 : (l * 4 + y0) % (8 / 2) = y0 := by omega
        have h2 : (l * 4 + y0) / (8 / 2) = l := by omega
        rw [cell, h1, h2]
      have h1 : (cell 8 2 x (l * 4 + y0) z) / 2 % 8 = x := by rw [e]; omega
      have h2 : (cell 8 2 x (l * 4 + y0) z) % 2 * 4 + (cell 8 2 x (l * 4 + y0) z) / 16 % 4 =
        l * 4 + y0 := by rw [e]; omega
      have h3 : (cell 8 2 x (l * 4 + y0) z) / 64 = z := by rw [e]; omega
      have h4 : cell 8 2 x (l * 4 + y0) z < 6 * 64 := by rw [e]; omega
      rw [demoArray, if_pos h4, h1, h2, h3]
  exact ⟨by norm_num, by norm_num, by norm_num, by norm_num, by norm_num, by norm_num, by norm_num,
    by intro k hk; obtain rfl | rfl : k = 0 ∨ k = 1 := by omega
       all_goals simp,
    by norm_num, List.Perm.refl _, hd.1, hd.2, fun _ _ _ _ _ _ => rfl, fun _ _ => rfl⟩

example : ∀ b ∈ [0, 1, 2, 4, 16, 32], (8 + 1024) &&& 63 ≠ b := by decide

end kernel

/-! ### The equation that is solved -/

/-- **C58** With `Rpp = R''/R` the kicks solve the field equation of the axion angle in an expanding
universe.  Let `θ` be any field of angles on the lattice, twice differentiable in conformal time,
`R` any twice differentiable positive scale factor and `ψ = R θ`, the stored field.  Then the
velocity `ψ'` changes at the rate the kernel uses if and only if
`θ'' + 2 (R'/R) θ' = ∇²θ - mA² R² sin θ`. -/
theorem C58_motion (w : Nat → ℝ) (NN : Nat) (θ θ1 : Int → Int → Int → ℝ → ℝ) (R R1 : ℝ → ℝ)
    (θ2 R2 mA2 t : ℝ) (x y z : Int) (hR : 0 < R t)
    (dR : ∀ s, HasDerivAt R (R1 s) s) (dR1 : HasDerivAt R1 R2 t)
    (dθ : ∀ s, HasDerivAt (θ x y z) (θ1 x y z s) s) (dθ1 : HasDerivAt (θ1 x y z) θ2 t) :
    HasDerivAt (deriv fun s => R s * θ x y z s)
        (lapW id w NN (fun x y z => R t * θ x y z t) x y z
          - mA2 * R t ^ 3 * Real.sin (R t * θ x y z t / R t) + R2 / R t * (R t * θ x y z t)) t ↔
      θ2 + 2 * (R1 t / R t) * θ1 x y z t =
        lapW id w NN (fun x y z => θ x y z t) x y z - mA2 * R t ^ 2 * Real.sin (θ x y z t) := by
  have d1 : (deriv fun s => R s * θ x y z s) = fun s => R1 s * θ x y z s + R s * θ1 x y z s := by
    funext s
    exact ((dR s).mul (dθ s)).deriv
  have d2 : HasDerivAt (deriv fun s => R s * θ x y z s)
      ((R2 * θ x y z t + R1 t * θ1 x y z t) + (R1 t * θ1 x y z t + R t * θ2)) t := by
    rw [d1]
    exact (dR1.mul (dθ t)).add ((dR t).mul dθ1)
  have hl : lapW id w NN (fun x y z => R t * θ x y z t) x y z =
      R t * lapW id w NN (fun x y z => θ x y z t) x y z := by
    unfold lapW
    rw [Finset.mul_sum]
    refine Finset.sum_congr rfl fun k _ => ?_
    simp only [id]
    ring
  have hne := hR.ne'
  rw [hl, mul_div_cancel_left₀ _ hne]
  have e1 : R2 / R t * (R t * θ x y z t) = R2 * θ x y z t := by field_simp
  rw [e1]
  have e2 : 2 * (R1 t / R t) * θ1 x y z t * R t = 2 * R1 t * θ1 x y z t := by field_simp
  constructor
  · intro h
    have e := d2.unique h
    refine mul_right_cancel₀ hne ?_
    rw [add_mul, e2]
    linear_combination e
  · intro h
    convert d2 using 1
    have h' := congrArg (· * R t) h
    simp only [add_mul, e2] at h'
    linear_combination -h'

/-- `R(t) = t`, a constant angle, no mass: both sides hold. -/
example : HasDerivAt (deriv fun s : ℝ => s * 3)
    (lapW id (fun _ => (1 : ℝ)) 1 (fun _ _ _ => (2 : ℝ) * 3) 0 0 0
      - 0 * 2 ^ 3 * Real.sin (2 * 3 / 2) + 0 / 2 * (2 * 3)) 2 :=
  (C58_motion (fun _ => 1) 1 (fun _ _ _ _ => 3) (fun _ _ _ _ => 0) (fun s => s) (fun _ => 1) 0 0 0 2
    0 0 0 (by norm_num) (fun s => hasDerivAt_id s) (hasDerivAt_const _ _)
    (fun s => hasDerivAt_const _ _) (hasDerivAt_const _ _)).2 (by simp [lapW])

/-! ### The wrapped field -/

section wrap

variable {K : Type} [Field K] [LinearOrder K] [IsStrictOrderedRing K]

theorem modPd_shift {d md : K} (hmd : 0 < md) (hd : |d| < md / 2) {n : ℤ}
    (hr : |d + n * md| ≤ md) : modPd (d + n * md) md = d := by
  rw [abs_lt] at hd
  rw [abs_le] at hr
  have hn1 : (n : K) < 2 := by
    by_contra h
    have := mul_le_mul_of_nonneg_right (not_lt.1 h) hmd.le
    linarith
  have hn2 : (-2 : K) < n := by
    by_contra h
    have := mul_le_mul_of_nonneg_right (not_lt.1 h) hmd.le
    linarith
  have h1 : n < 2 := by exact_mod_cast hn1
  have h2 : -2 < n := by exact_mod_cast hn2
  rw [modPd_eq hmd]
  obtain rfl | rfl | rfl : n = -1 ∨ n = 0 ∨ n = 1 := by omega
  · push_cast
    rw [if_neg (by rintro (e | e) <;> linarith), if_neg (by linarith), if_pos (by linarith)]
    ring
  · push_cast
    rw [if_neg (by rintro (e | e) <;> linarith), if_neg (by linarith), if_neg (by linarith)]
    ring
  · push_cast
    rw [if_neg (by rintro (e | e) <;> linarith), if_pos (by linarith)]
    ring

/-- **C58** The wrapped Laplacian does not see the representative that is stored: let `φ` differ
from `ψ` at every site by a whole number of turns and be stored within half a turn of zero; if
neighbours of `ψ` within the stencil differ by less than half a turn, the wrapped Laplacian of `φ`
is the plain Laplacian of `ψ`. -/
theorem C58_wrapped_laplacian {tV : K} (htV : 0 < tV) (w : Nat → K) (NN : Nat)
    (φ ψ : Int → Int → Int → K) (n : Int → Int → Int → ℤ)
    (hn : ∀ x y z, φ x y z = ψ x y z + n x y z * tV) (hb : ∀ x y z, |φ x y z| ≤ tV / 2)
    {x y z : Int}
    (hd : ∀ k, k < NN →
      |ψ (x + (k + 1 : Nat)) y z - ψ x y z| < tV / 2 ∧ |ψ (x - (k + 1 : Nat)) y z - ψ x y z| < tV / 2 ∧
      |ψ x (y + (k + 1 : Nat)) z - ψ x y z| < tV / 2 ∧ |ψ x (y - (k + 1 : Nat)) z - ψ x y z| < tV / 2 ∧
      |ψ x y (z + (k + 1 : Nat)) - ψ x y z| < tV / 2 ∧ |ψ x y (z - (k + 1 : Nat)) - ψ x y z| < tV / 2) :
    lapW (fun d => modPd d tV) w NN φ x y z = lapW id w NN ψ x y z := by
  have key : ∀ x' y' z', |ψ x' y' z' - ψ x y z| < tV / 2 →
      modPd (φ x' y' z' - φ x y z) tV = ψ x' y' z' - ψ x y z := by
    intro x' y' z' h
    have e : φ x' y' z' - φ x y z =
        (ψ x' y' z' - ψ x y z) + ((n x' y' z' - n x y z : ℤ) : K) * tV := by
      rw [hn x' y' z', hn x y z]; push_cast; ring
    have hb1 := abs_le.1 (hb x' y' z')
    have hb2 := abs_le.1 (hb x y z)
    rw [e]
    refine modPd_shift htV h ?_
    rw [← e, abs_le]
    constructor <;> linarith
  unfold lapW
  refine Finset.sum_congr rfl fun k hk => ?_
  obtain ⟨h1, h2, h3, h4, h5, h6⟩ := hd k (Finset.mem_range.1 hk)
  simp only [key _ _ _ h1, key _ _ _ h2, key _ _ _ h3, key _ _ _ h4, key _ _ _ h5, key _ _ _ h6, id]

/-- Neighbours alternate between 3/2 and 5/2, turn of length 4: stored as 3/2 and -3/2. -/
example : lapW (fun d => modPd d (4 : ℚ)) (fun _ => 1) 1
    (fun x _ _ => if x % 2 = 0 then 3 / 2 else -3 / 2) 0 0 0 =
    lapW id (fun _ => 1) 1 (fun x _ _ => if x % 2 = 0 then 3 / 2 else 5 / 2) 0 0 0 := by
  refine C58_wrapped_laplacian (by norm_num) _ _ _ _ (fun x _ _ => if x % 2 = 0 then 0 else -1)
    ?_ ?_ ?_
  · intro x y z
    by_cases h : x % 2 = 0 <;> simp [h]
    norm_num
  · intro x y z
    by_cases h : x % 2 = 0 <;> simp [h, abs_le] <;> norm_num
  · intro k hk
    obtain rfl : k = 0 := by omega
    norm_num [abs_lt]

end wrap

/-- **C58** The rate of change of the velocity, wrapped field against plain field: the cosine force
does not see the stored representative either, but the term `R''/R ψ` does, by `R''/R` times the
turns removed.  So the wrapped kicks are those of the plain field where `R'' = 0`. -/
theorem C58_wrapped_rate {R : ℝ} (hR : 0 < R) (Rpp mA2 : ℝ) (w : Nat → ℝ) (NN : Nat)
    (φ ψ : Int → Int → Int → ℝ) (n : Int → Int → Int → ℤ)
    (hn : ∀ x y z, φ x y z = ψ x y z + n x y z * (2 * Real.pi * R))
    (hb : ∀ x y z, |φ x y z| ≤ 2 * Real.pi * R / 2) {x y z : Int}
    (hd : ∀ k, k < NN →
      |ψ (x + (k + 1 : Nat)) y z - ψ x y z| < 2 * Real.pi * R / 2 ∧
      |ψ (x - (k + 1 : Nat)) y z - ψ x y z| < 2 * Real.pi * R / 2 ∧
      |ψ x (y + (k + 1 : Nat)) z - ψ x y z| < 2 * Real.pi * R / 2 ∧
      |ψ x (y - (k + 1 : Nat)) z - ψ x y z| < 2 * Real.pi * R / 2 ∧
      |ψ x y (z + (k + 1 : Nat)) - ψ x y z| < 2 * Real.pi * R / 2 ∧
      |ψ x y (z - (k + 1 : Nat)) - ψ x y z| < 2 * Real.pi * R / 2) :
    lapW (fun d => modPd d (2 * Real.pi * R)) w NN φ x y z
        - mA2 * R ^ 3 * Real.sin (φ x y z / R) + Rpp * φ x y z =
      (lapW id w NN ψ x y z - mA2 * R ^ 3 * Real.sin (ψ x y z / R) + Rpp * ψ x y z)
        + Rpp * (n x y z * (2 * Real.pi * R)) := by
  have htV : 0 < 2 * Real.pi * R := by have := Real.pi_pos; positivity
  rw [C58_wrapped_laplacian htV w NN φ ψ n hn hb hd, hn x y z]
  have e : (ψ x y z + n x y z * (2 * Real.pi * R)) / R = ψ x y z / R + n x y z * (2 * Real.pi) := by
    field_simp
  rw [e, Real.sin_add_int_mul_two_pi]
  ring

/-- **C58** Wrapping the stored field changes the motion.  The physical angular velocity is
`θ' = (v - R' ψ/R)/R`, as the velocity that is stored is `v = (R θ)'`.  A wrap by `n` turns leaves
`v` as it is, hence changes `θ'` by `-2π n R'/R`: it is unchanged only in a static universe or where
nothing was wrapped. -/
theorem C58_wrap_velocity {R : ℝ} (hR : 0 < R) (R1 v ψ : ℝ) (n : ℤ) :
    (v - R1 * ((ψ + n * (2 * Real.pi * R)) / R)) / R = (v - R1 * (ψ / R)) / R
        - 2 * Real.pi * n * (R1 / R) ∧
    ((v - R1 * ((ψ + n * (2 * Real.pi * R)) / R)) / R = (v - R1 * (ψ / R)) / R ↔ R1 = 0 ∨ n = 0) := by
  have e : (v - R1 * ((ψ + n * (2 * Real.pi * R)) / R)) / R = (v - R1 * (ψ / R)) / R
        - 2 * Real.pi * n * (R1 / R) := by
    field_simp
    ring
  refine ⟨e, ?_⟩
  rw [e, sub_eq_self, mul_eq_zero, mul_eq_zero, mul_eq_zero, div_eq_zero_iff]
  have h1 := Real.pi_pos.ne'
  have h2 := hR.ne'
  constructor
  · rintro ((h | h) | h)
    · rcases h with h | h
      · norm_num at h
      · contradiction
    · exact Or.inr (by exact_mod_cast h)
    · rcases h with h | h
      · exact Or.inl h
      · contradiction
  · rintro (h | h)
    · exact Or.inr (Or.inl h)
    · exact Or.inl (Or.inr (by exact_mod_cast h))

/-- **C58** A site that arrives at exactly half a turn is stored as zero, the opposite side of the
potential. -/
theorem C58_half_turn {K : Type} [Field K] [LinearOrder K] [IsStrictOrderedRing K] (pot : Pot)
    (p : Prec) (P : Par K) (hR : 0 < P.tV) (lap mel vel : K)
    (h : mel + (vel + accel pot p P lap mel * P.dzc) * P.dzd = P.tV / 2) :
    (kick pot p true P lap mel vel).1 = 0 := by
  simp only [kick, if_true, h]
  exact (C51_wrap_half hR).1

/-- A particle of the free potential that drifts from 0 to half a turn in one step. -/
example : (kick .qcd0 .double true
    (⟨[], 1, 1, 0, 0, 0, 1, 1, 1, 3, id⟩ : Par ℚ) 0 0 3).1 = 0 :=
  C58_half_turn .qcd0 .double _ (by norm_num [Par.tV]) 0 0 3
    (by norm_num [Par.tV, accel, Par.dzc, Par.dzd])

/-- **C58** The same run in the two precisions obeys different equations for `V_QCDL`: where the
field is positive and `beta` is between zero and one with the angle between zero and one, single
precision has a strictly weaker force.  (Not a matter of rounding.) -/
theorem C58_linear_precisions {P : Par ℚ} (hR : 0 < P.R) (hm : 0 < P.mA2) (hb : 0 < P.beta)
    (hb1 : P.beta ≤ 1) (lap : ℚ) {mel : ℚ} (h0 : 0 < mel) (h1 : mel ≤ P.R) :
    accel .qcdL .double P lap mel < accel .qcdL .single P lap mel := by
  have ht0 : 0 < mel * P.iz := by unfold Par.iz; positivity
  have ht1 : mel * P.iz ≤ 1 := by
    unfold Par.iz; rw [mul_one_div]; exact (div_le_one hR).2 h1
  have hQ : 0 < P.zQ := by unfold Par.zQ; positivity
  simp only [accel]
  have hu0 : 0 < mel * P.iz * (mel * P.iz) * (1666667 / 10000000 * P.beta) := by positivity
  have htt : mel * P.iz * (mel * P.iz) ≤ 1 := by nlinarith
  have hu1 : mel * P.iz * (mel * P.iz) * (1666667 / 10000000 * P.beta) ≤ 1 := by nlinarith
  generalize mel * P.iz * (mel * P.iz) * (1666667 / 10000000 * P.beta) = u at hu0 hu1
  have hf : 0 < u - u * u * (3 / 10) := by nlinarith
  have := mul_pos (mul_pos hQ ht0) hf
  nlinarith

/-! ### The drift -/

section drift

variable {K : Type} [Field K]

theorem driftSite_eq (Vo : Nat) (dzd : K) (v m : Heap Nat K) (c : Nat × Nat) {x y : K}
    (hc : Vo ≤ c.1) (hv : v (c.1 - Vo + c.2) = some x) (hm : m (c.1 + c.2) = some y) :
    driftSite Vo dzd v m c =
      some (fun b => if b = c.1 + c.2 then some (y + dzd * x) else m b) := by
  simp [driftSite, sub?, hc, hv, hm, Heap.write]

/-- Any list of distinct lanes. -/
theorem drift_fold (Vo : Nat) (dzd : K) (v : Heap Nat K) (L : List (Nat × Nat)) (m : Heap Nat K)
    (hnd : (L.map fun c => c.1 + c.2).Nodup) (hc : ∀ c ∈ L, Vo ≤ c.1)
    (hv : ∀ c ∈ L, (v (c.1 - Vo + c.2)).isSome) (hm : ∀ c ∈ L, (m (c.1 + c.2)).isSome) :
    ∃ m', L.foldlM (driftSite Vo dzd v) m = some m' ∧
      (∀ c ∈ L, ∀ x y, v (c.1 - Vo + c.2) = some x → m (c.1 + c.2) = some y →
        m' (c.1 + c.2) = some (y + dzd * x)) ∧
      (∀ a, a ∉ L.map (fun c => c.1 + c.2) → m' a = m a) := by
  induction L generalizing m with
  | nil => exact ⟨m, rfl, by simp, fun _ _ => rfl⟩
  | cons c L ih =>
    simp only [List.map_cons, List.nodup_cons] at hnd
    obtain ⟨x, hx⟩ := Option.isSome_iff_exists.1 (hv c (by simp))
    obtain ⟨y, hy⟩ := Option.isSome_iff_exists.1 (hm c (by simp))
    have hne : ∀ c' ∈ L, c'.1 + c'.2 ≠ c.1 + c.2 :=
      fun c' hc' e => hnd.1 (List.mem_map.2 ⟨c', hc', e⟩)
    obtain ⟨m', h1, h2, h3⟩ := ih (fun b => if b = c.1 + c.2 then some (y + dzd * x) else m b) hnd.2
      (fun c' h => hc c' (by simp [h])) (fun c' h => hv c' (by simp [h]))
      (fun c' h => by rw [if_neg (hne c' h)]; exact hm c' (by simp [h]))
    refine ⟨m', ?_, ?_, ?_⟩
    · rw [List.foldlM_cons, driftSite_eq Vo dzd v m c (hc c (by simp)) hx hy]
      exact h1
    · intro c' hc' x' y' ex ey
      rcases List.mem_cons.1 hc' with rfl | hc'
      · rw [h3 _ hnd.1, if_pos rfl]
        rw [hx] at ex; rw [hy] at ey
        cases ex; cases ey; rfl
      · refine h2 c' hc' x' y' ex ?_
        rw [if_neg (hne c' hc')]
        exact ey
    · intro a ha
      simp only [List.map_cons, List.mem_cons, not_or] at ha
      rw [h3 a ha.2, if_neg ha.1]

/-- **C58** The drift before the first kick (`PROP_FIRST`), for every build whose row shift divides
the grid length: every site of the `Lz` physical slices becomes `ψ + dz d v`, the ghost slices are
untouched, whatever the block sizes and the order. -/
theorem C58_drift {mult step Lx bY bZ NN Lz : Nat} (hL : 0 < Lx) (hs : 0 < step)
    (hms : step ∣ mult) (hmL : mult ∣ Lx) (hby : 0 < bY) (hbz : 0 < bZ) (dzd : K) (v m : Heap Nat K)
    (order : List Nat)
    (horder : order.Perm
      (driftVisits mult step Lx bY bZ (NN * (Lx * Lx)) (Lz * (Lx * Lx) + NN * (Lx * Lx))))
    (hv : ∀ a, a < Lz * (Lx * Lx) → (v a).isSome)
    (hm : ∀ a, a < (Lz + NN) * (Lx * Lx) → (m a).isSome) :
    ∃ m', drift step (NN * (Lx * Lx)) dzd v order m = some m' ∧
      (∀ a x y, a < Lz * (Lx * Lx) → v a = some x → m (NN * (Lx * Lx) + a) = some y →
        m' (NN * (Lx * Lx) + a) = some (y + dzd * x)) ∧
      (∀ a, a < NN * (Lx * Lx) ∨ (NN + Lz) * (Lx * Lx) ≤ a → m' a = m a) := by
  have hSf : 0 < Lx * Lx := Nat.mul_pos hL hL
  have hsl : Lx / mult * (Lx * mult) = Lx * Lx := by
    obtain ⟨q, rfl⟩ := hmL
    have hq : 0 < mult := Nat.pos_of_mul_pos_right hL
    rw [Nat.mul_div_cancel_left _ hq]; ring
  have hstep : step ∣ Lx * mult := Dvd.dvd.mul_left hms _
  have hSs : step ∣ Lx * Lx := Dvd.dvd.mul_left (hms.trans hmL) _
  have hmem : ∀ i, i ∈ order ↔ NN * (Lx * Lx) ≤ i ∧ i < (Lz + NN) * (Lx * Lx) ∧ step ∣ i := by
    intro i
    rw [horder.mem_iff, driftVisits, Tile.mem_visits _ hs hstep hby hbz]
    simp only [hsl]
    rw [Nat.mul_div_cancel _ hSf, ← Nat.add_mul, Nat.mul_div_cancel _ hSf]
  have hnd : order.Nodup := horder.nodup_iff.2 (Tile.nodup_visits _ hs hstep)
  have hbase : ∀ i, i ∈ order → i + step ≤ (Lz + NN) * (Lx * Lx) := by
    intro i hi
    obtain ⟨_, h2, ⟨k, hk⟩⟩ := (hmem i).1 hi
    obtain ⟨q, hq⟩ := hSs
    have e : (Lz + NN) * (Lx * Lx) = step * ((Lz + NN) * q) := by rw [hq]; ring
    rw [e, hk] at h2 ⊢
    have := Nat.lt_of_mul_lt_mul_left h2
    calc step * k + step = step * (k + 1) := by ring
      _ ≤ _ := Nat.mul_le_mul_left _ this
  set L := order.flatMap fun idx => (List.range step).map fun l => (idx, l) with hLdef
  have hLm : ∀ c, c ∈ L ↔ c.1 ∈ order ∧ c.2 < step := by
    rintro ⟨i, l⟩
    simp only [hLdef, List.mem_flatMap, List.mem_map, List.mem_range, Prod.mk.injEq]
    constructor
    · rintro ⟨i', h1, l', h2, rfl, rfl⟩; exact ⟨h1, h2⟩
    · rintro ⟨h1, h2⟩; exact ⟨i, h1, l, h2, rfl, rfl⟩
  have hLnd : (L.map fun c => c.1 + c.2).Nodup := by
    refine List.Nodup.map_on ?_ ?_
    · rintro ⟨i, l⟩ hc ⟨i', l'⟩ hc' e
      obtain ⟨h1, h2⟩ := (hLm _).1 hc
      obtain ⟨h3, h4⟩ := (hLm _).1 hc'
      obtain ⟨_, _, ⟨k, hk⟩⟩ := (hmem i).1 h1
      obtain ⟨_, _, ⟨k', hk'⟩⟩ := (hmem i').1 h3
      simp only at e h2 h4
      rw [hk, hk', Nat.mul_comm step k, Nat.mul_comm step k'] at e
      have := pair_inj h2 h4 e
      rw [hk, hk', this.1, this.2]
    · rw [hLdef, List.nodup_flatMap]
      refine ⟨fun i _ => List.Nodup.map (fun a b h => (Prod.mk.inj h).2) List.nodup_range, ?_⟩
      refine hnd.imp ?_
      intro a b hab
      simp only [Function.onFun, List.Disjoint, List.mem_map]
      rintro _ ⟨_, _, rfl⟩ ⟨_, _, e⟩
      exact hab (Prod.mk.inj e).1.symm
  obtain ⟨m', h1, h2, h3⟩ := drift_fold (NN * (Lx * Lx)) dzd v L m hLnd
    (fun c hc => ((hmem _).1 ((hLm c).1 hc).1).1)
    (fun c hc => by
      have a1 := (hLm c).1 hc
      have a2 := hbase _ a1.1
      have a3 := (hmem _).1 a1.1
      rw [Nat.add_mul] at a2
      exact hv _ (by omega))
    (fun c hc => by
      have a1 := (hLm c).1 hc
      have a2 := hbase _ a1.1
      exact hm _ (by omega))
  refine ⟨m', h1, ?_, ?_⟩
  · intro a x y ha hx hy
    obtain ⟨q, hq⟩ := hSs
    have hmod := Nat.mod_lt (NN * (Lx * Lx) + a) hs
    have hdm := div_mul_add_mod (NN * (Lx * Lx) + a) step
    have hle : NN * (Lx * Lx) ≤ (NN * (Lx * Lx) + a) / step * step := by
      have : NN * (Lx * Lx) = NN * q * step := by rw [hq]; ring
      rw [this]
      refine Nat.mul_le_mul_right _ ?_
      rw [Nat.le_div_iff_mul_le hs]
      omega
    have hin : ((NN * (Lx * Lx) + a) / step * step, (NN * (Lx * Lx) + a) % step) ∈ L := by
      rw [hLm]
      refine ⟨(hmem _).2 ⟨hle, ?_, ⟨_, Nat.mul_comm _ _⟩⟩, hmod⟩
      rw [Nat.add_mul]; omega
    have := h2 _ hin x y
    simp only at this
    rw [hdm] at this
    refine this ?_ hy
    rw [show (NN * (Lx * Lx) + a) / step * step - NN * (Lx * Lx) + (NN * (Lx * Lx) + a) % step = a by
      omega]
    exact hx
  · intro a ha
    refine h3 a ?_
    intro hin
    obtain ⟨c, hc, e⟩ := List.mem_map.1 hin
    have a1 := (hLm c).1 hc
    have a2 := hbase _ a1.1
    have a3 := (hmem _).1 a1.1
    rw [Nat.add_comm NN Lz] at ha
    omega

/-- The condition of `C58_drift` for the builds: with AVX-512 in double precision the grid length
has to be a multiple of sixteen although the vectors, and every other kernel, ask for eight. -/
theorem C58_drift_builds (p : Prec) (i : Isa) :
    sites .axion p i ∣ driftMult p i ∧
      (driftMult p i = sites .axion p i ∨ (p = .double ∧ i = .avx512 ∧ driftMult p i = 16)) := by
  cases p <;> cases i <;> decide

/-- **C58** With AVX-512 in double precision and a grid length that is an odd multiple of eight,
larger than eight, and at least one ghost slice, the drift accesses memory outside the velocity
array (its index underflows). -/
theorem C58_drift_avx512 {Lx bY bZ NN Lz : Nat} (h16 : ¬ 16 ∣ Lx) (hbig : 16 < Lx)
    (hby : 0 < bY) (hbz : 0 < bZ) (hNN : 0 < NN) (hLz : 0 < Lz) (dzd : K) (v m : Heap Nat K)
    (order : List Nat)
    (horder : order.Perm
      (driftVisits (driftMult .double .avx512) (sites .axion .double .avx512) Lx bY bZ
        (NN * (Lx * Lx)) (Lz * (Lx * Lx) + NN * (Lx * Lx)))) :
    drift (sites .axion .double .avx512) (NN * (Lx * Lx)) dzd v order m = none := by
  have hSf : 0 < Lx * Lx := Nat.mul_pos (by omega) (by omega)
  have hlt : Lx / 16 * (Lx * 16) < Lx * Lx := by
    have h1 : Lx / 16 * 16 < Lx := by omega
    calc Lx / 16 * (Lx * 16) = Lx / 16 * 16 * Lx := by ring
      _ < Lx * Lx := Nat.mul_lt_mul_of_pos_right h1 (by omega)
  have hpos : 0 < Lx / 16 * (Lx * 16) := Nat.mul_pos (by omega) (by omega)
  have hin : NN * (Lx / 16 * (Lx * 16)) ∈ order := by
    rw [horder.mem_iff]
    show _ ∈ driftVisits 16 8 Lx bY bZ _ _
    rw [driftVisits, Tile.mem_visits _ (by norm_num) ⟨Lx * 2, by ring⟩ hby hbz]
    simp only
    rw [Nat.mul_div_cancel _ hSf, ← Nat.add_mul, Nat.mul_div_cancel _ hSf]
    refine ⟨Nat.le_refl _, Nat.mul_lt_mul_of_pos_right (by omega) hpos, ?_⟩
    exact ⟨NN * (Lx / 16 * (Lx * 2)), by ring⟩
  have hbad : ∀ t : Heap Nat K, driftSite (NN * (Lx * Lx)) dzd v t
      (NN * (Lx / 16 * (Lx * 16)), 0) = none := by
    intro t
    have : ¬ NN * (Lx * Lx) ≤ NN * (Lx / 16 * (Lx * 16)) :=
      Nat.not_le.2 (Nat.mul_lt_mul_of_pos_left hlt hNN)
    simp [driftSite, sub?, this]
  have gen : ∀ (L : List (Nat × Nat)) (t : Heap Nat K), (NN * (Lx / 16 * (Lx * 16)), 0) ∈ L →
      L.foldlM (driftSite (NN * (Lx * Lx)) dzd v) t = none := by
    intro L
    induction L with
    | nil => intro t h; exact absurd h List.not_mem_nil
    | cons c L ih =>
      intro t h
      rw [List.foldlM_cons]
      rcases List.mem_cons.1 h with h | h
      · rw [← h, hbad t]; rfl
      · cases driftSite (NN * (Lx * Lx)) dzd v t c with
        | none => rfl
        | some t' => exact ih t' h
  refine gen _ m ?_
  simp only [List.mem_flatMap, List.mem_map, List.mem_range, Prod.mk.injEq]
  exact ⟨_, hin, 0, by decide, rfl, rfl⟩

/-- Grid length 24. -/
example (v m : Heap Nat ℚ) : drift 8 (2 * (24 * 24)) 1 v
    (driftVisits 16 8 24 1 1 (2 * (24 * 24)) (24 * (24 * 24) + 2 * (24 * 24))) m = none :=
  C58_drift_avx512 (by norm_num) (by norm_num) (by norm_num) (by norm_num) (by norm_num)
    (by norm_num) 1 v m _ (List.Perm.refl _)

/-- **C58** With that build and a grid length of eight the drift does nothing. -/
theorem C58_drift_eight {bY bZ NN Lz : Nat} (dzd : K) (v m : Heap Nat K) :
    drift (sites .axion .double .avx512) (NN * (8 * 8)) dzd v
      (driftVisits (driftMult .double .avx512) (sites .axion .double .avx512) 8 bY bZ
        (NN * (8 * 8)) (Lz * (8 * 8) + NN * (8 * 8))) m = some m := by
  have h : driftVisits (driftMult .double .avx512) (sites .axion .double .avx512) 8 bY bZ
        (NN * (8 * 8)) (Lz * (8 * 8) + NN * (8 * 8)) = [] := by
    rw [List.eq_nil_iff_forall_not_mem]
    intro i hi
    simp only [driftVisits, driftMult, Tile.visits, List.mem_map, List.mem_filter] at hi
    obtain ⟨c, ⟨_, hc⟩, _⟩ := hi
    simp at hc
  rw [h]
  rfl

end drift

end Jaxions.ThetaKernel
