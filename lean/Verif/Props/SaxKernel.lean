import Verif.Lemmas.SaxKernel
import Mathlib.Algebra.Order.Ring.Rat
import Mathlib.Tactic.NormNum
import Mathlib.Tactic.Linarith
/-
C42: damping and projection act only on the intended part of the velocity.
-/
namespace Jaxions.SaxKernel
open Jaxions.Simd

section
variable {K : Type _} [Field K] [LinearOrder K]

/-- **C42.**  At every site where the exchanges of real and imaginary part are right (`SiteOk`), for
every field value different from zero, every velocity, every acceleration and every choice of
damping and projection, the stored velocity has the radial and the angular part it should have, and
the stored field is the old one moved with that velocity.  Radial and angular part determine the
velocity. -/
theorem C42_parts (sq : K → K) (q : Par K) (p : Prec) (i : Isa) (pot : Pot)
    (mel lap vel : Vec (W p i) K) (s : Fin (sites .saxion p i))
    (hm : radial (at' mel s) (at' mel s) ≠ 0) (hh : 1 + half q ≠ 0) (hs : SiteOk p i pot s) :
    let o := kernel sq q p i pot mel lap vel
    let m := at' mel s
    let a := at' (accel sq q p i pot mel lap) s
    radial m (at' o.1 s) = newRadial q pot m a (at' vel s) ∧
    angular m (at' o.1 s) = newAngular q pot m a (at' vel s) ∧
    at' o.2 s = (re mel s + q.dz * q.d * re o.1 s, im mel s + q.dz * q.d * im o.1 s) := by
  have hm' : re mel s ^ 2 + im mel s ^ 2 ≠ 0 := by
    simpa [radial, at', pow_two] using hm
  have hr : radial (at' mel s) (at' mel s) = re mel s ^ 2 + im mel s ^ 2 := by
    simp [radial, at', pow_two]
  have h := newVel_parts s q pot mel (accel sq q p i pot mel lap) vel hm' hh (swaps_damp hs) (swaps_rho hs)
  refine ⟨h.1, h.2, ?_⟩
  change (re mel s + re _ s * q.dzd, im mel s + im _ s * q.dzd) = _
  rw [Par.dzd, mul_comm _ (q.dz * q.d), mul_comm _ (q.dz * q.d)]
  rfl

/-- **C42.**  Radial damping: where the exchanges are right the angular part is that of the undamped
kick, and without radial force the radial velocity relative to the expansion never grows and shrinks
strictly if there is damping and something to damp. -/
theorem C42_rho [IsStrictOrderedRing K] (q : Par K) (p : Prec) (i : Isa) (pot : Pot)
    (mel acc vel : Vec (W p i) K) (s : Fin (sites .saxion p i))
    (hd : pot.damp = .rho) (het : pot.evolTheta = false) (her : pot.evolRho = false)
    (hm : radial (at' mel s) (at' mel s) ≠ 0) (hh : 0 ≤ half q)
    (hs : p = .single ∨ i = .sse ∨ s.1 = 0) :
    let m := at' mel s
    let v := at' vel s
    let v' := at' (newVel q p i pot mel acc vel) s
    let free := at' (newVel q p i { pot with damp := .none } mel acc vel) s
    let rest := radial m m * q.Rp
    angular m v' = angular m free ∧
    (radial m (at' acc s) = 0 →
      |radial m v' - rest| ≤ |radial m v - rest| ∧
      (0 < half q → radial m v ≠ rest → |radial m v' - rest| < |radial m v - rest|)) := by
  have hm' : re mel s ^ 2 + im mel s ^ 2 ≠ 0 := by
    simpa [radial, at', pow_two] using hm
  have h1 : 0 < 1 + half q := by linarith
  have hsw : SwapsAt (K := K) (swMV p i) s ∧ SwapsAt (K := K) (swMA p i) s := by
    refine ⟨swMV_ok p i s ?_, swMA_ok p i s hs⟩
    rcases hs with h | h | h
    · exact Or.inl h
    · exact Or.inr (Or.inl (by rw [h]; decide))
    · exact Or.inr (Or.inr (by omega))
  have h := newVel_parts s q pot mel acc vel hm' h1.ne' (fun _ => hsw) (by rw [her]; simp)
  have hf := newVel_parts s q { pot with damp := .none } mel acc vel hm' h1.ne' (by simp)
    (by rw [her]; simp)
  obtain ⟨pq, qcd, damp, et, er⟩ := pot
  subst hd het her
  simp only [newRadial, newAngular, Bool.false_eq_true, if_false] at h hf
  intro m v v' free rest
  refine ⟨by rw [h.2, hf.2], fun ha => ?_⟩
  have he : radial m v' - rest = (1 - half q) / (1 + half q) * (radial m v - rest) := by
    rw [h.1, show radial m (at' acc s) = 0 from ha]
    simp only [m, v, rest]
    ring
  rw [he, abs_mul]
  have hle : |(1 - half q) / (1 + half q)| ≤ 1 := by
    rw [abs_le, le_div_iff₀ h1, div_le_iff₀ h1]
    constructor <;> linarith
  refine ⟨mul_le_of_le_one_left (abs_nonneg _) hle, fun hp hne => ?_⟩
  have hlt : |(1 - half q) / (1 + half q)| < 1 := by
    rw [abs_lt, lt_div_iff₀ h1, div_lt_iff₀ h1]
    constructor <;> linarith
  exact mul_lt_of_lt_one_left (abs_pos.2 (sub_ne_zero.2 hne)) hlt

end

/-- A step with half damping one, for the witnesses. -/
def wrongPar : Par ℚ := ⟨1, 0, 1, 0, 0, 2, 0, 1, 1, 1⟩

theorem wrong_eval (p : Prec) (i : Isa) (pot : Pot) (s : Fin (sites .saxion p i))
    (hs : ¬ SiteOk p i pot s) :
    radial (1, 0) (at' (newVel wrongPar p i pot (pairs 1 0) (pairs 1 0) 0) s) ≠
      newRadial wrongPar pot (1, 0) (1, 0) (0, 0) := by
  obtain ⟨pq, qcd, damp, et, er⟩ := pot
  change ¬ SiteOk p i ⟨.pq1, .qcd0, damp, et, er⟩ s at hs
  change radial (1, 0) (at' (newVel wrongPar p i ⟨.pq1, .qcd0, damp, et, er⟩ (pairs 1 0) (pairs 1 0)
    0) s) ≠ newRadial wrongPar ⟨.pq1, .qcd0, damp, et, er⟩ (1, 0) (1, 0) (0, 0)
  cases p
  · cases i <;> revert hs <;> cases damp <;> cases et <;> cases er <;> fin_cases s <;>
      decide +kernel
  · exact absurd (Or.inl rfl) hs

/-- **C42.**  The sites of `SiteOk` are exactly those where the kick is right for all values: at any
other site of a vector radial damping (or the projection on the radius) gives a wrong velocity. -/
theorem C42_exact (p : Prec) (i : Isa) (pot : Pot) (s : Fin (sites .saxion p i)) :
    (∀ (q : Par ℚ) (mel acc vel : Vec (W p i) ℚ),
      radial (at' mel s) (at' mel s) ≠ 0 → 1 + half q ≠ 0 →
      radial (at' mel s) (at' (newVel q p i pot mel acc vel) s) =
        newRadial q pot (at' mel s) (at' acc s) (at' vel s) ∧
      angular (at' mel s) (at' (newVel q p i pot mel acc vel) s) =
        newAngular q pot (at' mel s) (at' acc s) (at' vel s)) ↔ SiteOk p i pot s := by
  constructor
  · intro h
    by_contra hs
    refine wrong_eval p i pot s hs ?_
    have hz : at' (p := p) (i := i) (0 : Vec (W p i) ℚ) s = (0, 0) := rfl
    have hp : at' (p := p) (i := i) (pairs (1 : ℚ) 0) s = (1, 0) := by simp [at']
    have := (h wrongPar (pairs 1 0) (pairs 1 0) 0 (by simp [hp, radial])
      (by simp [half, wrongPar])).1
    rwa [hp, hz] at this
  · intro hs q mel acc vel hm hh
    have hm' : re mel s ^ 2 + im mel s ^ 2 ≠ 0 := by
      simpa [radial, at', pow_two] using hm
    refine newVel_parts s q pot mel acc vel hm' hh ?_ ?_
    · exact swaps_damp hs
    · exact swaps_rho hs

/-- Radial damping with doubles and AVX: field (1, 0) everywhere, outward acceleration.  The first
site of the vector gets half of the kick, as it should; the second gets nothing. -/
example :
    at' (newVel wrongPar .double .avx ⟨.pq1, .qcd0, .rho, false, false⟩ (pairs 1 0) (pairs 1 0) 0)
      (0 : Fin 2) = (1 / 2, 0) ∧
    at' (newVel wrongPar .double .avx ⟨.pq1, .qcd0, .rho, false, false⟩ (pairs 1 0) (pairs 1 0) 0)
      (1 : Fin 2) = (0, 0) := by decide +kernel

/-- A case of the theorems: single precision, AVX-512, site 5, radial damping. -/
example :
    at' (newVel ⟨1, 0, 0, 0, 0, 1, 0, 1, 1, 1⟩ .single .avx512 ⟨.pq1, .qcd0, .rho, false, false⟩
      (pairs (3 : ℚ) 4) 0 (pairs 7 1)) (5 : Fin 8) = (5, -5 / 3) := by decide +kernel

end Jaxions.SaxKernel
