import Verif.Lemmas.EnergyPax
import Verif.Props.NonrelLaw
/-
C65: energy of the Paxion, reported totals and maps.
-/
noncomputable section

namespace Jaxions.Energy

open Stencil Simd

variable {S NN Lz : ℕ}

/-- Builds whose neighbours of the imaginary part are right. -/
def Sound (i : Isa) (p : Prec) : Prop := i ≠ .avx512 ∧ ¬ (i = .avx ∧ p = .single)

theorem Sound.extra {i : Isa} {p : Prec} (h : Sound i p) (a : ℝ) : extra i p a = 0 := by
  cases i <;> first | rfl | exact absurd rfl h.1

theorem Sound.back {i : Isa} {p : Prec} (h : Sound i p) (S l : ℕ) :
    backV i p S l = (l + S - 1) % S := by
  cases i <;> cases p <;> first | rfl | exact absurd rfl h.1 | exact absurd ⟨rfl, rfl⟩ h.2

theorem back_row {Y S y : ℕ} (hy : y < Y * S) (h2 : 2 ≤ Y) (h0 : y % Y = 0) :
    (y / Y + S - 1) % S * Y + (Y - 1) = (y + Y * S - 1) % (Y * S) := by
  have hd := Nat.div_add_mod y Y
  have hS : 0 < S := by
    rcases Nat.eq_zero_or_pos S with h | h
    · subst h; simp at hy
    · exact h
  have hl := lane_lt hy
  generalize y / Y = l at *
  have hYl : Y * (l + 1) ≤ Y * S := Nat.mul_le_mul_left Y hl
  have hYl' : Y * (l + 1) = Y * l + Y := by ring
  rcases Nat.eq_zero_or_pos l with h | h
  · subst h
    have : (0 + S - 1) % S = S - 1 := by rw [Nat.mod_eq_of_lt] <;> omega
    have h5 : (S - 1) * Y = Y * S - Y := by rw [Nat.sub_mul, Nat.mul_comm S Y, Nat.one_mul]
    rw [this, Nat.mod_eq_of_lt (by omega), h5]
    omega
  · have h6 : (l + S - 1) % S = l - 1 := by
      rw [show l + S - 1 = (l - 1) + S by omega, Nat.add_mod_right, Nat.mod_eq_of_lt (by omega)]
    have h7 : (l - 1) * Y = Y * l - Y := by rw [Nat.sub_mul, Nat.mul_comm l Y, Nat.one_mul]
    have h8 : Y * 1 ≤ Y * l := Nat.mul_le_mul_left Y h
    rw [h6, h7, show y + Y * S - 1 = (y - 1) + Y * S by omega, Nat.add_mod_right,
      Nat.mod_eq_of_lt (by omega)]
    omega

/-- What the code does to the documented density: the gradients are divided by `R²` once more. -/
def paxFactor (R : ℝ) (q : ℕ) : ℝ := if q < 3 then 1 / R ^ 2 else 1

theorem pax_scale {Y : ℕ} {i : Isa} {p : Prec} (hb : Sound i p) (R mA δ : ℝ) (ψ : ℤ → ℤ → ℤ → ℂ)
    (hper : Periodic (Y * S) ψ) (h2 : 2 ≤ Y) (x y : ℕ) (hx : x < Y * S) (hy : y < Y * S) (z : ℤ)
    (q : ℕ) :
    paxScale ⟨R, mA, δ⟩ (paxSiteTerms i p Y S (fun x y z => (ψ x y z).re)
      (fun x y z => (ψ x y z).im) x y z) q = paxFactor R q * paxDensity R mA δ ψ x y z q := by
  have hlow : lowV i p Y S (fun x y z => (ψ x y z).re) (fun x y z => (ψ x y z).im) x y z =
      (ψ x (y - 1) z).im := by
    unfold lowV
    split_ifs with h0
    · rw [hb.extra, hb.back, back_row hy h2 h0, add_zero]
      have e : ((((y + Y * S - 1) % (Y * S) : ℕ) : ℤ)) = ((y : ℤ) - 1) % ((Y * S : ℕ) : ℤ) := by
        have : ((y + Y * S - 1 : Nat) : Int) = ((y : Int) - 1) + ((Y * S : Nat) : Int) := by omega
        rw [Int.natCast_emod, this, Int.add_emod_right]
      rw [e, hper x (y - 1) z, ← Int.natCast_emod, Nat.mod_eq_of_lt hx]
    · rfl
  have hhigh : highV i p Y (fun x y z => (ψ x y z).re) (fun x y z => (ψ x y z).im) x y z =
      (ψ x (y + 1) z).im := by
    unfold highV
    simp only [hb.extra, ite_self, add_zero]
  have hsq : ∀ u w : ℂ, sq2 u.re w.re u.im w.im = Complex.normSq (u - w) := by
    intro u w
    rw [Complex.normSq_apply]
    simp only [sq2, Complex.sub_re, Complex.sub_im]
  match q with
  | 0 =>
    simp only [paxScale, paxSiteTerms, hsq, paxFactor, paxDensity, meanXc, PaxPar.o2, PaxPar.ood2a]
    norm_num
    ring
  | 1 =>
    simp only [paxScale, paxSiteTerms, hlow, hhigh, hb.extra, ite_self, add_zero, hsq, paxFactor,
      paxDensity, meanYc, PaxPar.o2, PaxPar.ood2a]
    norm_num
    ring
  | 2 =>
    simp only [paxScale, paxSiteTerms, hsq, paxFactor, paxDensity, meanZc, PaxPar.o2, PaxPar.ood2a]
    norm_num
    ring
  | 3 =>
    simp only [paxScale, paxSiteTerms, paxFactor, paxDensity, Complex.normSq_apply]
    norm_num
  | 4 =>
    simp only [paxScale, paxSiteTerms, paxFactor, paxDensity, Complex.normSq_apply, PaxPar.beta]
    norm_num
    ring
  | q + 5 => simp [paxScale, paxDensity]

/-- **C65** Energy of the Paxion on a rank, for the builds without AVX-512 (and in single precision
with AVX only if AVX2 is there), every lattice side that is a multiple of the vector length with at
least two rows per block, every ghost width, depth, field, time and order of the iterations.  The
reported totals are the sums over the sites of the documented densities, the three gradients divided
by `R²`.  With a map requested the call stays inside an array that has the cells named in the last
hypothesis, writes at every site, `shift` slices late, the number density and, `secondMap` cells
further, the energy density, and leaves the rest of the array; without a request it leaves the whole
array. -/
theorem C65_energy {Lx : ℕ} {i : Isa} {p : Prec} (hb : Sound i p) (map : Bool) (hS : 0 < S)
    (hd : S ∣ Lx) (hrow : 2 ≤ Lx / S) (hN : 1 ≤ NN) (R mA δ : ℝ)
    (ψ : ℤ → ℤ → ℤ → ℂ) (hper : Periodic Lx ψ) (m v m2 : Heap ℕ ℝ)
    (hm : Holds Lx S (Lz + 2 * NN) m fun x y z => (ψ x y z).re)
    (hv : Holds Lx S (Lz + 2 * NN) v fun x y z => (ψ x y z).im)
    (order : List ℕ) (ho : order.Perm (visits ⟨Lx, S, NN⟩ Lz)) :
    let ε := fun n => paxDensity R mA δ ψ (xOf Lx n) (yOf Lx n) (zOf Lx n + NN)
    let V := Lz * (Lx * Lx)
    let o := (if p = .double then NN - 1 else 0) * (Lx * Lx)
    let d := (NN + Lz + NN * NN) * (Lx * Lx)
    ((energyPaxion i p map ⟨R, mA, δ⟩ ⟨Lx, S, NN⟩ Lz m v order m2).isSome ↔
      (map = true → ∀ n < V, (m2 (n + o)).isSome ∧ (m2 (n + o + d)).isSome)) ∧
    ∀ r, energyPaxion i p map ⟨R, mA, δ⟩ ⟨Lx, S, NN⟩ Lz m v order m2 = some r →
      (∀ q, r.1 q = paxFactor R q * ∑ n ∈ Finset.range V, ε n q) ∧
      (map = true → (∀ n < V, r.2 (n + o) = some (ε n 3) ∧
        r.2 (n + o + d) = some ((ε n 0 + ε n 1 + ε n 2) / R ^ 2 + ε n 4)) ∧
        ∀ c, (∀ n < V, c ≠ n + o ∧ c ≠ n + o + d) → r.2 c = m2 c) ∧
      (map = false → r.2 = m2) := by
  obtain ⟨Y, rfl⟩ : ∃ Y, Lx = Y * S := by
    obtain ⟨Y, h⟩ := hd; exact ⟨Y, by rw [h, Nat.mul_comm]⟩
  rw [Nat.mul_div_cancel _ hS] at hrow
  intro ε V o d
  have hYS : 0 < Y * S := Nat.mul_pos (by omega) hS
  have hp1 : Periodic (Y * S) fun x y z => (ψ x y z).re := by
    intro x y z
    show (ψ x y z).re = _
    rw [hper x y z]
  have hp2 : Periodic (Y * S) fun x y z => (ψ x y z).im := by
    intro x y z
    show (ψ x y z).im = _
    rw [hper x y z]
  have main := energyPaxion_eq i p (fun h => hb.1 h.1) (fun h h' => absurd ⟨h, h'⟩ hb.2) map
    ⟨R, mA, δ⟩ hS m v m2 _ _ hN hrow hp1 hp2 hm hv ho
  have ho' : shift p NN * (Y * S * (Y * S)) = o := by
    cases p <;> simp [shift, ghostsOff, o]
  have hd' : secondMap (shape Y S NN) Lz = d := by
    show NN * (Y * S * (Y * S)) + Lz * (Y * S * (Y * S)) + NN * (NN * (Y * S * (Y * S))) =
      (NN + Lz + NN * NN) * (Y * S * (Y * S))
    ring
  simp only [ho', hd'] at main
  obtain ⟨k1, k2⟩ := main
  refine ⟨k1, fun r hr => ?_⟩
  obtain ⟨k3, k4, k5⟩ := k2 r hr
  have hq : ∀ n, ∀ q, paxScale ⟨R, mA, δ⟩ (paxSiteTerms i p Y S (fun x y z => (ψ x y z).re)
      (fun x y z => (ψ x y z).im) (xOf (Y * S) n) (yOf (Y * S) n) ((zOf (Y * S) n + NN : ℕ) : ℤ)) q =
      paxFactor R q * ε n q := by
    intro n q
    have := pax_scale hb R mA δ ψ hper hrow (xOf (Y * S) n) (yOf (Y * S) n) (Nat.mod_lt _ hYS)
      (Nat.mod_lt _ hYS) ((zOf (Y * S) n + NN : ℕ) : ℤ) q
    rw [this]
    simp only [ε, Nat.cast_add]
  refine ⟨fun q => ?_, fun hmap => ⟨fun n hn => ?_, (k4 hmap).2⟩, k5⟩
  · rw [k3, Finset.mul_sum]
    exact Finset.sum_congr rfl fun n _ => hq n q
  · obtain ⟨a1, a2⟩ := (k4 hmap).1 n hn
    have h0 := hq n 0
    have h1 := hq n 1
    have h2 := hq n 2
    have h3 := hq n 3
    have h4 := hq n 4
    simp only [paxScale, paxFactor] at h0 h1 h2 h3 h4
    norm_num at h0 h1 h2 h3 h4
    refine ⟨?_, ?_⟩
    · rw [a1]
      congr 1
    · rw [a2]
      congr 1
      simp only [paxDens]
      have e : ∀ t : ℝ, t / R ^ 2 = (R ^ 2)⁻¹ * t := fun t => by rw [div_eq_mul_inv, mul_comm]
      rw [e, mul_add, mul_add]
      push_cast at h0 h1 h2 h4 ⊢
      linarith

/-- **C65** (violated away from `R = 1`) A reported gradient energy is the documented one exactly at
scale factor one or if it vanishes. -/
theorem C65_gradient {Lx : ℕ} {i : Isa} {p : Prec} (hb : Sound i p) (map : Bool) (hS : 0 < S)
    (hd : S ∣ Lx) (hrow : 2 ≤ Lx / S) (hN : 1 ≤ NN) {R : ℝ} (hR : 0 < R) (mA δ : ℝ)
    (ψ : ℤ → ℤ → ℤ → ℂ) (hper : Periodic Lx ψ) (m v m2 : Heap ℕ ℝ)
    (hm : Holds Lx S (Lz + 2 * NN) m fun x y z => (ψ x y z).re)
    (hv : Holds Lx S (Lz + 2 * NN) v fun x y z => (ψ x y z).im)
    (order : List ℕ) (ho : order.Perm (visits ⟨Lx, S, NN⟩ Lz)) {r : Terms ℝ × Heap ℕ ℝ}
    (hr : energyPaxion i p map ⟨R, mA, δ⟩ ⟨Lx, S, NN⟩ Lz m v order m2 = some r) {q : ℕ} (hq : q < 3) :
    let tot := ∑ n ∈ Finset.range (Lz * (Lx * Lx)),
      paxDensity R mA δ ψ (xOf Lx n) (yOf Lx n) (zOf Lx n + NN) q
    r.1 q = tot ↔ R = 1 ∨ tot = 0 := by
  intro tot
  have := (C65_energy hb map hS hd hrow hN R mA δ ψ hper m v m2 hm hv order ho).2 r hr
  rw [this.1 q, paxFactor, if_pos hq]
  change 1 / R ^ 2 * tot = tot ↔ _
  have hR2 : R ^ 2 ≠ 0 := by positivity
  constructor
  · intro h
    by_cases ht : tot = 0
    · exact Or.inr ht
    · left
      have h1 : 1 / R ^ 2 = 1 := mul_right_cancel₀ ht (by rw [h, one_mul])
      have h2 : R ^ 2 = 1 := by
        rw [div_eq_iff hR2, one_mul] at h1
        exact h1.symm
      nlinarith
  · rintro (h | h)
    · rw [h]; ring
    · rw [h]; ring

/-- **C65** The maps fit in the array allocated for them, twice the field with its ghosts
(scalarField.cpp:294-302), exactly for ghost width at most 3 in single and 2 in double precision. -/
theorem C65_map_fits {Lx : ℕ} {i : Isa} {p : Prec} (hb : Sound i p) (hS : 0 < S)
    (hd : S ∣ Lx) (hrow : 2 ≤ Lx / S) (hN : 1 ≤ NN) (hLz : 0 < Lz) (R mA δ : ℝ)
    (ψ : ℤ → ℤ → ℤ → ℂ) (hper : Periodic Lx ψ) (m v m2 : Heap ℕ ℝ)
    (hm : Holds Lx S (Lz + 2 * NN) m fun x y z => (ψ x y z).re)
    (hv : Holds Lx S (Lz + 2 * NN) v fun x y z => (ψ x y z).im)
    (hm2 : ∀ c, (m2 c).isSome ↔ c < 2 * ((Lz + 2 * NN) * (Lx * Lx)))
    (order : List ℕ) (ho : order.Perm (visits ⟨Lx, S, NN⟩ Lz)) :
    (energyPaxion i p true ⟨R, mA, δ⟩ ⟨Lx, S, NN⟩ Lz m v order m2).isSome ↔
      NN ≤ if p = .double then 2 else 3 := by
  have h := (C65_energy hb true hS hd hrow hN R mA δ ψ hper m v m2 hm hv order ho).1
  rw [h]
  have hL : 0 < Lx := by
    rcases Nat.eq_zero_or_pos Lx with h | h
    · subst h; simp at hrow
    · exact h
  have hA : 0 < Lx * Lx := Nat.mul_pos hL hL
  generalize Lx * Lx = A at *
  simp only [true_implies, hm2]
  have key : (∀ n < Lz * A, n + (if p = Prec.double then NN - 1 else 0) * A <
        2 * ((Lz + 2 * NN) * A) ∧
      n + (if p = Prec.double then NN - 1 else 0) * A + (NN + Lz + NN * NN) * A <
        2 * ((Lz + 2 * NN) * A)) ↔
      (if p = Prec.double then NN - 1 else 0) + NN * NN ≤ 3 * NN := by
    generalize (if p = Prec.double then NN - 1 else 0) = k
    constructor
    · intro h
      have hpos : 0 < Lz * A := Nat.mul_pos hLz hA
      have := (h (Lz * A - 1) (by omega)).2
      by_contra hc
      have h1 : (3 * NN + 1) * A ≤ (k + NN * NN) * A := Nat.mul_le_mul_right A (by omega)
      have e1 : (NN + Lz + NN * NN) * A = NN * A + Lz * A + NN * NN * A := by ring
      have e2 : 2 * ((Lz + 2 * NN) * A) = 2 * (Lz * A) + 4 * (NN * A) := by ring
      have e3 : (3 * NN + 1) * A = 3 * (NN * A) + A := by ring
      have e4 : (k + NN * NN) * A = k * A + NN * NN * A := by ring
      omega
    · intro h n hn
      have h1 : (k + NN * NN) * A ≤ 3 * NN * A := Nat.mul_le_mul_right A h
      have e1 : (NN + Lz + NN * NN) * A = NN * A + Lz * A + NN * NN * A := by ring
      have e2 : 2 * ((Lz + 2 * NN) * A) = 2 * (Lz * A) + 4 * (NN * A) := by ring
      have e3 : 3 * NN * A = 3 * (NN * A) := by ring
      have e4 : (k + NN * NN) * A = k * A + NN * NN * A := by ring
      omega
  refine key.trans ?_
  cases p with
  | double =>
    simp only [if_true]
    constructor
    · intro h
      by_contra hc
      have : 3 * NN ≤ NN * NN := Nat.mul_le_mul_right NN (by omega)
      omega
    · intro h
      interval_cases NN <;> norm_num
  | single =>
    simp only [reduceCtorEq, if_false]
    constructor
    · intro h
      by_contra hc
      have : 4 * NN ≤ NN * NN := Nat.mul_le_mul_right NN (by omega)
      omega
    · intro h
      interval_cases NN <;> norm_num

/-! ### The other builds -/

/-- **C65** (violated by the single precision AVX-512 build) At the first row of a block the lower
neighbour of the imaginary part is never loaded; no run has a defined result. -/
theorem C65_avx512_single {Lx : ℕ} (map : Bool) (hS : 0 < S) (hd : S ∣ Lx) (hrow : 2 ≤ Lx / S)
    (hLz : 0 < Lz) (P : PaxPar ℝ) (m v m2 : Heap ℕ ℝ) (order : List ℕ)
    (ho : order.Perm (visits ⟨Lx, S, NN⟩ Lz)) :
    energyPaxion .avx512 .single map P ⟨Lx, S, NN⟩ Lz m v order m2 = none := by
  obtain ⟨Y, rfl⟩ : ∃ Y, Lx = Y * S := by
    obtain ⟨Y, h⟩ := hd; exact ⟨Y, by rw [h, Nat.mul_comm]⟩
  rw [Nat.mul_div_cancel _ hS] at hrow
  have hY : 0 < Y := by omega
  have hYS : 0 < Y * S := Nat.mul_pos hY hS
  have hc : laneOf Y S NN 0 0 0 ∈ lanes (shape Y S NN) order :=
    (mem_lanes hS hY ho _).2 ⟨0, 0, 0, hYS, hYS, hLz, rfl⟩
  have hnone : paxTerms .avx512 .single (shape Y S NN) m v (laneOf Y S NN 0 0 0) = none := by
    have hX1 : vec Y S 0 (0 % Y) (0 + NN) / (shape Y S NN).XC % (shape Y S NN).YC = 0 := by
      rw [shape_XC, shape_YC hS]
      have := vec_div (z := 0 + NN) hS hYS (Nat.mod_lt 0 hY)
      rwa [Nat.zero_mod] at this ⊢
    have hv : ∀ mY idx l, enYv .avx512 .single (shape Y S NN) v mY 0 idx l = none := by
      intro mY idx l
      simp only [enYv, if_true, Option.bind_eq_bind]
      cases load v (some (idx + (shape Y S NN).XC + l)) with
      | none => rfl
      | some _ =>
        cases load v ((sub? (idx + (shape Y S NN).Sf) (shape Y S NN).XC).map
            (· + backV .avx512 .single (shape Y S NN).step l)) <;> rfl
    unfold paxTerms
    dsimp only [laneOf]
    rw [hX1]
    cases enY Isa.avx512 Prec.single (shape Y S NN) m 0 (vec Y S 0 (0 % Y) (0 + NN)) (0 / Y) with
    | none => rfl
    | some y =>
      rw [Option.bind_eq_bind, Option.bind_some, hv]
      rfl
  have hfold : ∀ (cs : List (ℕ × ℕ)) st, laneOf Y S NN 0 0 0 ∈ cs →
      cs.foldlM (step fun c => (paxTerms .avx512 .single (shape Y S NN) m v c).map fun t =>
        (t, paxOut map P .single (shape Y S NN) Lz c t)) st = none := by
    intro cs
    induction cs with
    | nil => intro st h; simp at h
    | cons c cs ih =>
      intro st h
      rw [List.foldlM_cons]
      rcases List.mem_cons.1 h with rfl | h
      · simp [step, hnone]
      · cases step (fun c => (paxTerms .avx512 .single (shape Y S NN) m v c).map fun t =>
            (t, paxOut map P .single (shape Y S NN) Lz c t)) st c with
        | none => rfl
        | some st' => exact ih st' h
  show energyPaxion .avx512 .single map P (shape Y S NN) Lz m v order m2 = none
  simp only [energyPaxion, run, hfold _ _ hc]
  rfl

/-- **C65** (violated by the double precision AVX-512 build) A constant field, which has no gradient,
is reported with the y gradient `(Re ψ)²/(2 m δ² R⁷)` at every site of the first and the last row of
every block. -/
theorem C65_avx512_double {Lx : ℕ} (map : Bool) (hS : 0 < S) (hd : S ∣ Lx) (hrow : 2 ≤ Lx / S)
    (hN : 1 ≤ NN) (R mA δ : ℝ) (w : ℂ) (m v m2 : Heap ℕ ℝ)
    (hm : Holds Lx S (Lz + 2 * NN) m fun _ _ _ => w.re)
    (hv : Holds Lx S (Lz + 2 * NN) v fun _ _ _ => w.im)
    (order : List ℕ) (ho : order.Perm (visits ⟨Lx, S, NN⟩ Lz)) {r : Terms ℝ × Heap ℕ ℝ}
    (hr : energyPaxion .avx512 .double map ⟨R, mA, δ⟩ ⟨Lx, S, NN⟩ Lz m v order m2 = some r) :
    r.1 1 = ∑ n ∈ Finset.range (Lz * (Lx * Lx)),
      if yOf Lx n % (Lx / S) = 0 ∨ yOf Lx n % (Lx / S) + 1 = Lx / S then
        w.re ^ 2 / (2 * mA * δ ^ 2 * R ^ 7) else 0 := by
  obtain ⟨Y, rfl⟩ : ∃ Y, Lx = Y * S := by
    obtain ⟨Y, h⟩ := hd; exact ⟨Y, by rw [h, Nat.mul_comm]⟩
  rw [Nat.mul_div_cancel _ hS] at hrow ⊢
  have main := (energyPaxion_eq .avx512 .double (by simp) (by simp) map ⟨R, mA, δ⟩ hS m v m2 _ _ hN
    hrow (fun _ _ _ => rfl) (fun _ _ _ => rfl) hm hv ho).2 r hr
  rw [main.1]
  refine Finset.sum_congr rfl fun n _ => ?_
  have hlt := Nat.mod_lt (yOf (Y * S) n) (show 0 < Y by omega)
  simp only [paxScale, paxSiteTerms, highV, lowV, extra, sq2, PaxPar.o2, PaxPar.ood2a]
  by_cases c : yOf (Y * S) n % Y = 0
  · have c' : ¬ (yOf (Y * S) n % Y + 1 = Y) := by omega
    simp only [if_neg c', if_pos c, if_pos (show _ ∨ yOf (Y * S) n % Y + 1 = Y from Or.inl c)]
    ring
  · by_cases c' : yOf (Y * S) n % Y + 1 = Y
    · simp only [if_pos c', if_neg c, if_pos (show yOf (Y * S) n % Y = 0 ∨ _ from Or.inr c')]
      ring
    · simp only [if_neg c', if_neg c, if_neg (show ¬ (yOf (Y * S) n % Y = 0 ∨ yOf (Y * S) n % Y + 1 = Y)
        from fun h => h.elim c c')]
      ring

/-- The result of the previous theorem is not zero. -/
theorem C65_avx512_double_wrong {Lx : ℕ} (map : Bool) (hS : 0 < S) (hd : S ∣ Lx)
    (hrow : 2 ≤ Lx / S) (hN : 1 ≤ NN) (hLz : 0 < Lz) {R mA δ : ℝ} (hR : 0 < R) (hmA : 0 < mA)
    (hδ : δ ≠ 0) {w : ℂ} (hw : w.re ≠ 0) (m v m2 : Heap ℕ ℝ)
    (hm : Holds Lx S (Lz + 2 * NN) m fun _ _ _ => w.re)
    (hv : Holds Lx S (Lz + 2 * NN) v fun _ _ _ => w.im)
    (order : List ℕ) (ho : order.Perm (visits ⟨Lx, S, NN⟩ Lz)) {r : Terms ℝ × Heap ℕ ℝ}
    (hr : energyPaxion .avx512 .double map ⟨R, mA, δ⟩ ⟨Lx, S, NN⟩ Lz m v order m2 = some r) :
    (∑ n ∈ Finset.range (Lz * (Lx * Lx)), paxDensity R mA δ (fun _ _ _ => w) (xOf Lx n) (yOf Lx n)
      (zOf Lx n + NN) 1) = 0 ∧ 0 < r.1 1 := by
  constructor
  · exact Finset.sum_eq_zero fun n _ => by simp [paxDensity, meanYc]
  rw [C65_avx512_double map hS hd hrow hN R mA δ w m v m2 hm hv order ho hr]
  have hL : 0 < Lx := by
    rcases Nat.eq_zero_or_pos Lx with h | h
    · subst h; simp at hrow
    · exact h
  have hV : 0 < Lz * (Lx * Lx) := Nat.mul_pos hLz (Nat.mul_pos hL hL)
  have hp : 0 < w.re ^ 2 / (2 * mA * δ ^ 2 * R ^ 7) := by positivity
  refine Finset.sum_pos' (fun n _ => ?_) ⟨0, Finset.mem_range.2 hV, ?_⟩
  · split_ifs
    · exact hp.le
    · exact le_rfl
  · rw [if_pos (Or.inl (by simp [yOf]))]
    exact hp

/-- A field with imaginary part one on a single plane, the last row of the third block. -/
def plane (Lx : ℕ) : ℤ → ℤ → ℤ → ℂ := fun _ y _ =>
  if y % Lx = (3 * (Lx / 8) - 1 : ℕ) then Complex.I else 0

/-- **C65** (violated by the single precision AVX build without AVX2) The lanes of the lower
neighbour of the imaginary part are mixed up at the first row of a block: the reported y gradient of
`plane` is smaller than `1/R²` times the documented one. -/
theorem C65_avx_single {Lx : ℕ} (map : Bool) (hd : 8 ∣ Lx) (hrow : 2 ≤ Lx / 8) (hN : 1 ≤ NN)
    (hLz : 0 < Lz) {R mA δ : ℝ} (hR : 0 < R) (hmA : 0 < mA) (hδ : δ ≠ 0) (m v m2 : Heap ℕ ℝ)
    (hm : Holds Lx 8 (Lz + 2 * NN) m fun x y z => (plane Lx x y z).re)
    (hv : Holds Lx 8 (Lz + 2 * NN) v fun x y z => (plane Lx x y z).im)
    (order : List ℕ) (ho : order.Perm (visits ⟨Lx, 8, NN⟩ Lz)) {r : Terms ℝ × Heap ℕ ℝ}
    (hr : energyPaxion .avx .single map ⟨R, mA, δ⟩ ⟨Lx, 8, NN⟩ Lz m v order m2 = some r) :
    r.1 1 < 1 / R ^ 2 * ∑ n ∈ Finset.range (Lz * (Lx * Lx)),
      paxDensity R mA δ (plane Lx) (xOf Lx n) (yOf Lx n) (zOf Lx n + NN) 1 := by
  obtain ⟨Y, rfl⟩ : ∃ Y, Lx = Y * 8 := by
    obtain ⟨Y, h⟩ := hd; exact ⟨Y, by rw [h, Nat.mul_comm]⟩
  rw [Nat.mul_div_cancel _ (by norm_num)] at hrow
  have hper : Periodic (Y * 8) (plane (Y * 8)) := by
    intro x y z
    simp only [plane, Int.emod_emod_of_dvd _ (dvd_refl _)]
  have hp1 : Periodic (Y * 8) fun x y z => (plane (Y * 8) x y z).re := by
    intro x y z
    show (plane (Y * 8) x y z).re = _
    rw [hper x y z]
  have hp2 : Periodic (Y * 8) fun x y z => (plane (Y * 8) x y z).im := by
    intro x y z
    show (plane (Y * 8) x y z).im = _
    rw [hper x y z]
  have main := (energyPaxion_eq .avx .single (by simp) (fun _ _ => rfl) map ⟨R, mA, δ⟩ (by norm_num)
    m v m2 _ _ hN hrow hp1 hp2 hm hv ho).2 r hr
  rw [main.1, Finset.mul_sum]
  have hY8 : 0 < Y * 8 := by omega
  have hre : ∀ x y z, (plane (Y * 8) x y z).re = 0 := by
    intro x y z
    unfold plane
    split_ifs <;> simp
  have him : ∀ x y z, (plane (Y * 8) x y z).im =
      if y % ((Y * 8 : ℕ) : ℤ) = (3 * Y - 1 : ℕ) then 1 else 0 := by
    intro x y z
    unfold plane
    rw [Nat.mul_div_cancel _ (by norm_num)]
    split_ifs <;> simp
  have hhigh : ∀ x y z, highV .avx .single Y (fun x y z => (plane (Y * 8) x y z).re)
      (fun x y z => (plane (Y * 8) x y z).im) x y z = (plane (Y * 8) x (y + 1) z).im := by
    intro x y z
    simp [highV, extra]
  -- at the first row of a block the code finds nothing on either side
  have hlow : ∀ (x y : ℕ) (z : ℤ), y < Y * 8 → y % Y = 0 → lowV .avx .single Y 8
      (fun x y z => (plane (Y * 8) x y z).re) (fun x y z => (plane (Y * 8) x y z).im) x y z = 0 := by
    intro x y z hy h0
    have hl : y / Y < 8 := lane_lt hy
    simp only [lowV, if_pos h0, extra, add_zero, him]
    rw [if_neg]
    have hb : backV .avx .single 8 (y / Y) < 8 ∧ backV .avx .single 8 (y / Y) ≠ 2 := by
      generalize y / Y = l at hl
      interval_cases l <;> decide
    generalize backV .avx .single 8 (y / Y) = k at hb
    have hk : k * Y + (Y - 1) < Y * 8 := by
      have := pair_lt hb.1 (show Y - 1 < Y by omega)
      rwa [Nat.mul_comm 8 Y] at this
    rw [← Int.natCast_emod, Nat.mod_eq_of_lt hk]
    intro h
    have h' : k * Y + (Y - 1) = 2 * Y + (Y - 1) := by omega
    exact hb.2 (pair_inj (show Y - 1 < Y by omega) (show Y - 1 < Y by omega) h').1
  have hhere : ∀ (x y : ℕ) (z : ℤ), y < Y * 8 → y % Y = 0 → (plane (Y * 8) x y z).im = 0 := by
    intro x y z hy h0
    rw [him, if_neg]
    rw [← Int.natCast_emod, Nat.mod_eq_of_lt hy]
    intro h
    have h1 : y = 3 * Y - 1 := by omega
    have h2 : y = 2 * Y + (Y - 1) := by omega
    rw [h2, mod_of (show Y - 1 < Y by omega)] at h0
    omega
  have hc : 0 < 1 / 4 / mA / δ ^ 2 / R ^ 5 / R / R := by positivity
  have hden : ∀ n, 1 / R ^ 2 * paxDensity R mA δ (plane (Y * 8)) (xOf (Y * 8) n) (yOf (Y * 8) n)
      (zOf (Y * 8) n + NN) 1 =
      (((plane (Y * 8) (xOf (Y * 8) n) (yOf (Y * 8) n + 1) (zOf (Y * 8) n + NN)).im -
        (plane (Y * 8) (xOf (Y * 8) n) (yOf (Y * 8) n) (zOf (Y * 8) n + NN)).im) ^ 2 +
      ((plane (Y * 8) (xOf (Y * 8) n) (yOf (Y * 8) n - 1) (zOf (Y * 8) n + NN)).im -
        (plane (Y * 8) (xOf (Y * 8) n) (yOf (Y * 8) n) (zOf (Y * 8) n + NN)).im) ^ 2) *
      (1 / 4 / mA / δ ^ 2 / R ^ 5 / R / R) := by
    intro n
    simp only [paxDensity, meanYc, Complex.normSq_apply, Complex.sub_re, Complex.sub_im, hre]
    ring
  have hrep : ∀ n, paxScale ⟨R, mA, δ⟩ (paxSiteTerms .avx .single Y 8
      (fun x y z => (plane (Y * 8) x y z).re) (fun x y z => (plane (Y * 8) x y z).im)
      (xOf (Y * 8) n) (yOf (Y * 8) n) ((zOf (Y * 8) n + NN : ℕ) : ℤ)) 1 =
      (((plane (Y * 8) (xOf (Y * 8) n) (yOf (Y * 8) n + 1) (zOf (Y * 8) n + NN)).im -
        (plane (Y * 8) (xOf (Y * 8) n) (yOf (Y * 8) n) (zOf (Y * 8) n + NN)).im) ^ 2 +
      (lowV .avx .single Y 8
        (fun x y z => (plane (Y * 8) x y z).re) (fun x y z => (plane (Y * 8) x y z).im)
        (xOf (Y * 8) n) (yOf (Y * 8) n) (zOf (Y * 8) n + NN) -
        (plane (Y * 8) (xOf (Y * 8) n) (yOf (Y * 8) n) (zOf (Y * 8) n + NN)).im) ^ 2) *
      (1 / 4 / mA / δ ^ 2 / R ^ 5 / R / R) := by
    intro n
    simp only [paxScale, paxSiteTerms, hhigh, Nat.cast_add]
    generalize lowV .avx .single Y 8 (fun x y z => (plane (Y * 8) x y z).re)
      (fun x y z => (plane (Y * 8) x y z).im) (xOf (Y * 8) n) (yOf (Y * 8) n)
      (zOf (Y * 8) n + NN) = low
    simp only [sq2, hre, extra, ite_self, PaxPar.o2, PaxPar.ood2a]
    ring
  refine Finset.sum_lt_sum (fun n _ => ?_) ⟨3 * Y * (Y * 8), ?_, ?_⟩
  · rw [hden, hrep]
    refine mul_le_mul_of_nonneg_right ?_ hc.le
    have hy : yOf (Y * 8) n < Y * 8 := Nat.mod_lt _ hY8
    by_cases h0 : yOf (Y * 8) n % Y = 0
    · rw [hlow _ _ _ hy h0, hhere _ _ _ hy h0]
      nlinarith [sq_nonneg ((plane (Y * 8) (xOf (Y * 8) n) (yOf (Y * 8) n - 1)
        (zOf (Y * 8) n + NN)).im - 0)]
    · simp only [lowV, if_neg h0]
      exact le_refl _
  · rw [Finset.mem_range]
    have h1 : 3 * Y * (Y * 8) < Y * 8 * (Y * 8) := Nat.mul_lt_mul_of_pos_right (by omega) hY8
    have h2 : 1 * (Y * 8 * (Y * 8)) ≤ Lz * (Y * 8 * (Y * 8)) := Nat.mul_le_mul_right _ hLz
    omega
  · rw [hden, hrep]
    refine mul_lt_mul_of_pos_right ?_ hc
    have hyv : yOf (Y * 8) (3 * Y * (Y * 8)) = 3 * Y := by
      rw [yOf, Nat.mul_div_cancel _ hY8, Nat.mod_eq_of_lt (by omega)]
    rw [hyv]
    have h0 : 3 * Y % Y = 0 := Nat.mul_mod_left 3 Y
    have hy : 3 * Y < Y * 8 := by omega
    rw [hlow _ _ _ hy h0, hhere _ _ _ hy h0]
    have hone : (plane (Y * 8) (xOf (Y * 8) (3 * Y * (Y * 8))) ((3 * Y : ℕ) - 1 : ℤ)
        (zOf (Y * 8) (3 * Y * (Y * 8)) + NN)).im = 1 := by
      rw [him, if_pos]
      have e : ((3 * Y : ℕ) : ℤ) - 1 = ((3 * Y - 1 : ℕ) : ℤ) := by omega
      rw [e, ← Int.natCast_emod, Nat.mod_eq_of_lt (by omega)]
    rw [hone]
    nlinarith

/-! ### The documented densities are those of the axion, averaged over the phase -/

open Nonrel (average average_linear average_cubic average_add average_const_mul average_conj re_turn
  continuous_wave)

theorem cont_turn (A : ℂ) (k : ℕ) : Continuous fun τ : ℝ => Complex.exp (Complex.I * τ) *
    (((A * Complex.exp (-(Complex.I * τ))).re ^ k : ℝ)) :=
  (Complex.continuous_exp.comp (continuous_const.mul Complex.continuous_ofReal)).mul
    (Complex.continuous_ofReal.comp ((continuous_wave A).pow k))

theorem split_power (A : ℂ) (k : ℕ) (τ : ℝ) :
    ((((A * Complex.exp (-(Complex.I * τ))).re ^ (k + 1) : ℝ)) : ℂ) =
      (starRingEnd ℂ) A / 2 * (Complex.exp (Complex.I * τ) *
        (((A * Complex.exp (-(Complex.I * τ))).re ^ k : ℝ))) +
      (starRingEnd ℂ) ((starRingEnd ℂ) A / 2 * (Complex.exp (Complex.I * τ) *
        (((A * Complex.exp (-(Complex.I * τ))).re ^ k : ℝ)))) := by
  have e : (starRingEnd ℂ) (Complex.exp (Complex.I * τ)) = Complex.exp (-(Complex.I * τ)) := by
    rw [← Complex.exp_conj]
    congr 1
    simp
  rw [map_mul, map_mul, map_div₀, Complex.conj_conj, map_ofNat, Complex.conj_ofReal, e, pow_succ,
    Complex.ofReal_mul, re_turn]
  ring

theorem average_power (A c : ℂ) (k : ℕ) (h : average (fun τ => Complex.exp (Complex.I * τ) *
      (((A * Complex.exp (-(Complex.I * τ))).re ^ k : ℝ))) = c) :
    average (fun τ => ((((A * Complex.exp (-(Complex.I * τ))).re ^ (k + 1) : ℝ)) : ℂ)) =
      (starRingEnd ℂ) A / 2 * c + (starRingEnd ℂ) ((starRingEnd ℂ) A / 2 * c) := by
  have c1 : Continuous fun τ : ℝ => (starRingEnd ℂ) A / 2 * (Complex.exp (Complex.I * τ) *
      (((A * Complex.exp (-(Complex.I * τ))).re ^ k : ℝ))) := continuous_const.mul (cont_turn A k)
  have c2 : Continuous fun τ : ℝ => (starRingEnd ℂ) ((starRingEnd ℂ) A / 2 *
      (Complex.exp (Complex.I * τ) * (((A * Complex.exp (-(Complex.I * τ))).re ^ k : ℝ)))) :=
    Complex.continuous_conj.comp c1
  simp only [split_power]
  rw [average_add c1 c2, average_conj, average_const_mul, h]

theorem average_sq (A : ℂ) :
    average (fun τ => ((((A * Complex.exp (-(Complex.I * τ))).re ^ 2 : ℝ)) : ℂ)) =
      ((Complex.normSq A / 2 : ℝ) : ℂ) := by
  rw [average_power A (A / 2) 1 (by simpa using average_linear A)]
  have e : (starRingEnd ℂ) A / 2 * (A / 2) = ((Complex.normSq A / 4 : ℝ) : ℂ) := by
    push_cast
    rw [Complex.normSq_eq_conj_mul_self]
    ring
  rw [e, Complex.conj_ofReal]
  push_cast
  ring

theorem average_fourth (A : ℂ) :
    average (fun τ => ((((A * Complex.exp (-(Complex.I * τ))).re ^ 4 : ℝ)) : ℂ)) =
      ((3 / 8 * Complex.normSq A ^ 2 : ℝ) : ℂ) := by
  rw [average_power A _ 3 (average_cubic A)]
  have e : (starRingEnd ℂ) A / 2 * (3 / 8 * Complex.normSq A * A) =
      ((3 / 16 * Complex.normSq A ^ 2 : ℝ) : ℂ) := by
    push_cast
    rw [Complex.normSq_eq_conj_mul_self]
    ring
  rw [e, Complex.conj_ofReal]
  push_cast
  ring

/-- The angle of which `ψ` is the slow amplitude, at phase `τ`: the inverse of the conversion of C64
divided by the scale factor. -/
def angle (R mA : ℝ) (ψ : ℤ → ℤ → ℤ → ℂ) (τ : ℝ) (x y z : ℤ) : ℝ :=
  Real.sqrt (2 / (mA * R)) * (ψ x y z * Complex.exp (-(Complex.I * τ))).re / R

/-- Its change with conformal time; the phase advances by `m R` per unit of it. -/
def angleRate (R mA : ℝ) (ψ : ℤ → ℤ → ℤ → ℂ) (τ : ℝ) (x y z : ℤ) : ℝ :=
  mA * R * (Real.sqrt (2 / (mA * R)) *
    (-Complex.I * ψ x y z * Complex.exp (-(Complex.I * τ))).re / R)

theorem average_real_const (c : ℝ) (f : ℝ → ℝ) :
    average (fun τ => ((c * f τ : ℝ) : ℂ)) = c * average fun τ => ((f τ : ℝ) : ℂ) := by
  rw [← average_const_mul]
  congr 1
  funext τ
  push_cast
  rfl

theorem average_diff (R mA : ℝ) (hR : 0 < R) (hm : 0 < mA) (A B c : ℂ) (hc : c = A - B) :
    average (fun τ => (((Real.sqrt (2 / (mA * R)) * (A * Complex.exp (-(Complex.I * τ))).re / R -
      Real.sqrt (2 / (mA * R)) * (B * Complex.exp (-(Complex.I * τ))).re / R) ^ 2 : ℝ) : ℂ)) =
      ((Complex.normSq c / (mA * R ^ 3) : ℝ) : ℂ) := by
  have hs : Real.sqrt (2 / (mA * R)) ^ 2 = 2 / (mA * R) := Real.sq_sqrt (by positivity)
  have e : ∀ τ : ℝ, (Real.sqrt (2 / (mA * R)) * (A * Complex.exp (-(Complex.I * τ))).re / R -
      Real.sqrt (2 / (mA * R)) * (B * Complex.exp (-(Complex.I * τ))).re / R) ^ 2 =
      2 / (mA * R) / R ^ 2 * (c * Complex.exp (-(Complex.I * τ))).re ^ 2 := by
    intro τ
    rw [hc, sub_mul, Complex.sub_re]
    generalize Real.sqrt (2 / (mA * R)) = s at hs ⊢
    rw [← hs]
    ring
  simp only [e]
  rw [average_real_const, average_sq, ← Complex.ofReal_mul]
  congr 1
  field_simp

theorem cont_diff (R mA : ℝ) (A B : ℂ) : Continuous fun τ : ℝ =>
    (((Real.sqrt (2 / (mA * R)) * (A * Complex.exp (-(Complex.I * τ))).re / R -
      Real.sqrt (2 / (mA * R)) * (B * Complex.exp (-(Complex.I * τ))).re / R) ^ 2 : ℝ) : ℂ) :=
  Complex.continuous_ofReal.comp ((((continuous_const.mul (continuous_wave A)).div_const R).sub
    ((continuous_const.mul (continuous_wave B)).div_const R)).pow 2)

theorem average_pair (R mA δ : ℝ) (hR : 0 < R) (hm : 0 < mA) (A B C : ℂ) :
    average (fun τ => (((((Real.sqrt (2 / (mA * R)) * (A * Complex.exp (-(Complex.I * τ))).re / R -
      Real.sqrt (2 / (mA * R)) * (C * Complex.exp (-(Complex.I * τ))).re / R) ^ 2 +
      (Real.sqrt (2 / (mA * R)) * (B * Complex.exp (-(Complex.I * τ))).re / R -
      Real.sqrt (2 / (mA * R)) * (C * Complex.exp (-(Complex.I * τ))).re / R) ^ 2) / 2 / δ ^ 2 /
        (2 * R ^ 2) : ℝ)) : ℂ)) =
      (((Complex.normSq (A - C) + Complex.normSq (B - C)) / 2 / δ ^ 2 / (2 * mA * R ^ 5) : ℝ) : ℂ) := by
  have e : ∀ u w : ℝ, (u + w) / 2 / δ ^ 2 / (2 * R ^ 2) = 1 / (4 * δ ^ 2 * R ^ 2) * (u + w) :=
    fun u w => by ring
  simp only [e]
  rw [average_real_const]
  have s : (fun τ : ℝ => (((Real.sqrt (2 / (mA * R)) * (A * Complex.exp (-(Complex.I * τ))).re / R -
      Real.sqrt (2 / (mA * R)) * (C * Complex.exp (-(Complex.I * τ))).re / R) ^ 2 +
      (Real.sqrt (2 / (mA * R)) * (B * Complex.exp (-(Complex.I * τ))).re / R -
      Real.sqrt (2 / (mA * R)) * (C * Complex.exp (-(Complex.I * τ))).re / R) ^ 2 : ℝ) : ℂ)) =
      fun τ : ℝ => (((Real.sqrt (2 / (mA * R)) * (A * Complex.exp (-(Complex.I * τ))).re / R -
      Real.sqrt (2 / (mA * R)) * (C * Complex.exp (-(Complex.I * τ))).re / R) ^ 2 : ℝ) : ℂ) +
      (((Real.sqrt (2 / (mA * R)) * (B * Complex.exp (-(Complex.I * τ))).re / R -
      Real.sqrt (2 / (mA * R)) * (C * Complex.exp (-(Complex.I * τ))).re / R) ^ 2 : ℝ) : ℂ) :=
    funext fun τ => Complex.ofReal_add _ _
  rw [s, average_add (cont_diff R mA A C) (cont_diff R mA B C),
    average_diff R mA hR hm A C _ rfl, average_diff R mA hR hm B C _ rfl, ← Complex.ofReal_add,
    ← Complex.ofReal_mul]
  congr 1
  have := hR.ne'
  have := hm.ne'
  ring_nf

/-- **C65** The documented gradient energies of `ψ` are the physical gradient energies of the axion
(C51, without wrap) averaged over the phase. -/
theorem C65_average_gradient {R mA : ℝ} (hR : 0 < R) (hm : 0 < mA) (U : Universe) (hU : U.R = R)
    (ψ : ℤ → ℤ → ℤ → ℂ) (θ' : ℝ → ℤ → ℤ → ℤ → ℝ) (x y z : ℤ) {q : ℕ} (hq : q < 3) :
    average (fun τ => ((axionDensity U (fun d => d) (angle R mA ψ τ) (θ' τ) x y z q : ℝ) : ℂ)) =
      ((paxDensity R mA U.δ ψ x y z q : ℝ) : ℂ) := by
  interval_cases q
  · simp only [axionDensity, paxDensity, meanX, meanXc, angle, hU]
    exact average_pair R mA U.δ hR hm _ _ _
  · simp only [axionDensity, paxDensity, meanY, meanYc, angle, hU]
    exact average_pair R mA U.δ hR hm _ _ _
  · simp only [axionDensity, paxDensity, meanZ, meanZc, angle, hU]
    exact average_pair R mA U.δ hR hm _ _ _

/-- **C65** The documented self interaction is the average of the quartic term `-m² θ⁴/24` of the
potential `m²(1 - cos θ)`. -/
theorem C65_average_quartic {R mA : ℝ} (hR : 0 < R) (hm : 0 < mA) (δ : ℝ) (ψ : ℤ → ℤ → ℤ → ℂ)
    (x y z : ℤ) :
    average (fun τ => ((-(mA ^ 2 * angle R mA ψ τ x y z ^ 4 / 24) : ℝ) : ℂ)) =
      ((paxDensity R mA δ ψ x y z 4 : ℝ) : ℂ) := by
  have hs : Real.sqrt (2 / (mA * R)) ^ 2 = 2 / (mA * R) := Real.sq_sqrt (by positivity)
  have e : ∀ τ : ℝ, -(mA ^ 2 * angle R mA ψ τ x y z ^ 4 / 24) =
      -(mA ^ 2 * (2 / (mA * R)) ^ 2 / R ^ 4 / 24) *
        (ψ x y z * Complex.exp (-(Complex.I * τ))).re ^ 4 := by
    intro τ
    rw [← hs]
    simp only [angle]
    ring
  simp only [e]
  rw [average_real_const, average_fourth, ← Complex.ofReal_mul]
  congr 1
  simp only [paxDensity]
  field_simp
  ring

/-- **C65** The density of the mass: kinetic energy and quadratic term of the potential average to
`m |ψ|²/R³`, so the number density of the result is comoving. -/
theorem C65_average_mass {R mA : ℝ} (hR : 0 < R) (hm : 0 < mA) (δ : ℝ) (ψ : ℤ → ℤ → ℤ → ℂ)
    (x y z : ℤ) :
    average (fun τ => ((angleRate R mA ψ τ x y z ^ 2 / (2 * R ^ 2) +
      mA ^ 2 * angle R mA ψ τ x y z ^ 2 / 2 : ℝ) : ℂ)) =
      ((mA * paxDensity R mA δ ψ x y z 3 / R ^ 3 : ℝ) : ℂ) := by
  have hs : Real.sqrt (2 / (mA * R)) ^ 2 = 2 / (mA * R) := Real.sq_sqrt (by positivity)
  have e : ∀ τ : ℝ, ((angleRate R mA ψ τ x y z ^ 2 / (2 * R ^ 2) +
      mA ^ 2 * angle R mA ψ τ x y z ^ 2 / 2 : ℝ) : ℂ) =
      ((mA ^ 2 * (2 / (mA * R)) / (2 * R ^ 2) : ℝ) : ℂ) *
        (((-Complex.I * ψ x y z * Complex.exp (-(Complex.I * τ))).re ^ 2 : ℝ) : ℂ) +
      ((mA ^ 2 * (2 / (mA * R)) / (2 * R ^ 2) : ℝ) : ℂ) *
        (((ψ x y z * Complex.exp (-(Complex.I * τ))).re ^ 2 : ℝ) : ℂ) := by
    intro τ
    rw [← Complex.ofReal_mul, ← Complex.ofReal_mul, ← Complex.ofReal_add, ← hs]
    congr 1
    simp only [angle, angleRate]
    have := hR.ne'
    field_simp
  have c0 : ∀ A : ℂ, Continuous fun τ : ℝ =>
      (((A * Complex.exp (-(Complex.I * τ))).re ^ 2 : ℝ) : ℂ) := fun A =>
    Complex.continuous_ofReal.comp ((continuous_wave A).pow 2)
  have c1 : ∀ (k A : ℂ), Continuous fun τ : ℝ => k *
      (((A * Complex.exp (-(Complex.I * τ))).re ^ 2 : ℝ) : ℂ) := fun k A =>
    continuous_const.mul (c0 A)
  simp only [e]
  rw [average_add (c1 _ _) (c1 _ _), average_const_mul, average_const_mul, average_sq, average_sq,
    ← Complex.ofReal_mul, ← Complex.ofReal_mul, ← Complex.ofReal_add]
  congr 1
  simp only [paxDensity, map_mul, Complex.normSq_neg, Complex.normSq_I, one_mul]
  field_simp
  ring

/-! ### A concrete case -/

/-- A lattice of 4 x 4 sites and 1 slice on two-lane vectors, ghost width 1, with a field that is
not constant in either component: the hypotheses are met, and the array of the maps has the size of
`C65_map_fits`. -/
example : ∃ (ψ : ℤ → ℤ → ℤ → ℂ) (m v m2 : Heap ℕ ℝ), ψ 1 0 0 ≠ ψ 0 0 0 ∧ Periodic 4 ψ ∧
    (Holds 4 2 (1 + 2 * 1) m fun x y z => (ψ x y z).re) ∧
    (Holds 4 2 (1 + 2 * 1) v fun x y z => (ψ x y z).im) ∧ Sound .sse .double ∧
    (∀ c, (m2 c).isSome ↔ c < 2 * ((1 + 2 * 1) * (4 * 4))) ∧
    (visits ⟨4, 2, 1⟩ 1).reverse.Perm (visits ⟨4, 2, 1⟩ 1) := by
  refine ⟨fun x _ _ => ⟨((x % 4 : ℤ) : ℝ), 2 * ((x % 4 : ℤ) : ℝ)⟩,
    fun a => some (((a / 2 % 4 : ℕ) : ℤ) : ℝ), fun a => some (2 * (((a / 2 % 4 : ℕ) : ℤ) : ℝ)),
    fun c => if c < 96 then some 0 else none, ?_, ?_, ?_, ?_, ?_, ?_, List.reverse_perm _⟩
  · intro h
    have := congrArg Complex.re h
    norm_num at this
  · intro x y z
    simp
  · intro x y z hx hy hz
    have e' : ((x : ℤ) % 4) = (x : ℤ) := by omega
    have e : cell 4 2 x y z / 2 % 4 = x := by
      have h1 : y % 2 = 0 ∨ y % 2 = 1 := by omega
      simp only [cell]
      rcases h1 with h | h <;> norm_num [h] <;> omega
    simp only [e, e']
  · intro x y z hx hy hz
    have e' : ((x : ℤ) % 4) = (x : ℤ) := by omega
    have e : cell 4 2 x y z / 2 % 4 = x := by
      have h1 : y % 2 = 0 ∨ y % 2 = 1 := by omega
      simp only [cell]
      rcases h1 with h | h <;> norm_num [h] <;> omega
    simp only [e, e']
  · exact ⟨by simp, by simp⟩
  · intro c
    by_cases h : c < 96
    · simp [h]
    · simp only [if_neg h]
      simp
      omega

end Jaxions.Energy
