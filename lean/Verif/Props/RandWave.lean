import Verif.Props.RandConf
/-
C67, continued: straight strings are vortices and antivortices in turn.
-/
noncomputable section

namespace Jaxions.RandConf

open scoped ComplexConjugate

/-- Place of the string in column `i` and row `j` of the array. -/
def wavePlace (b : Box) (ic : Ic) (i j : ℕ) : ℂ :=
  ⟨((i : ℝ) - ic.kMax + 1 / 2) * ((b.Lx : ℝ) / ic.kMax),
   ((j : ℝ) - ic.kMax + 1 / 2) * ((b.Lx : ℝ) / ic.kMax)⟩

theorem unit_exp (θ : ℝ) : unit θ = Complex.exp (θ * Complex.I) := by
  apply Complex.ext
  · rw [Complex.exp_ofReal_mul_I_re]; rfl
  · rw [Complex.exp_ofReal_mul_I_im]; rfl

theorem unit_add (s t : ℝ) : unit (s + t) = unit s * unit t := by
  rw [unit_exp, unit_exp, unit_exp, ← Complex.exp_add]
  push_cast
  ring_nf

theorem unit_neg (s : ℝ) : unit (-s) = conj (unit s) := by
  apply Complex.ext <;> simp [unit]

theorem unit_sum (l : List ℕ) (f : ℕ → ℝ) : unit (l.map f).sum = (l.map fun i => unit (f i)).prod := by
  induction l with
  | nil => apply Complex.ext <;> simp [unit]
  | cons a l ih => rw [List.map_cons, List.sum_cons, unit_add, ih, List.map_cons, List.prod_cons]

theorem unit_arg {w : ℂ} (hw : w ≠ 0) : unit (Complex.arg w) = w / ‖w‖ := by
  have h := Complex.norm_mul_exp_arg_mul_I w
  have hn : (‖w‖ : ℂ) ≠ 0 := by exact_mod_cast norm_ne_zero_iff.2 hw
  rw [unit_exp, eq_div_iff hn, mul_comm]
  exact h

/-- **C67 (vortices).** At a point where there is no string, the factor of the straight strings is
the product over a square array of `(2 kMax + 2)²` strings at distance `Lx/kMax` of the phase of a
vortex, or of an antivortex, in the manner of a checkerboard. -/
theorem C67_vortices (b : Box) (ic : Ic) (x y : ℕ)
    (h : ∀ i < 2 * ic.kMax + 2, ∀ j < 2 * ic.kMax + 2, (⟨x, y⟩ : ℂ) ≠ wavePlace b ic i j) :
    unit (waveAngle b ic x y) =
      ∏ i ∈ Finset.range (2 * ic.kMax + 2), ∏ j ∈ Finset.range (2 * ic.kMax + 2),
        let w : ℂ := ⟨x, y⟩ - wavePlace b ic i j
        if Even (i + j) then w / ‖w‖ else conj (w / ‖w‖) := by
  unfold waveAngle
  dsimp only
  rw [unit_sum]
  show (∏ i ∈ Finset.range (2 * ic.kMax + 2), _) = _
  refine Finset.prod_congr rfl fun i hi => ?_
  rw [unit_sum]
  show (∏ j ∈ Finset.range (2 * ic.kMax + 2), _) = _
  refine Finset.prod_congr rfl fun j hj => ?_
  have hw : (⟨(x : ℝ) - (((i : ℤ) - ic.kMax : ℤ) + 0.5) * ((b.Lx : ℝ) / ic.kMax),
      (y : ℝ) - (((j : ℤ) - ic.kMax : ℤ) + 0.5) * ((b.Lx : ℝ) / ic.kMax)⟩ : ℂ) =
      ⟨x, y⟩ - wavePlace b ic i j := by
    unfold wavePlace
    apply Complex.ext
    · simp only [Complex.sub_re]; push_cast; norm_num
    · simp only [Complex.sub_im]; push_cast; norm_num
  rw [hw]
  have hne := sub_ne_zero.2 (h i (Finset.mem_range.1 hi) j (Finset.mem_range.1 hj))
  generalize (⟨x, y⟩ - wavePlace b ic i j : ℂ) = w at hne
  have hpar : Even ((i : ℤ) - ic.kMax + ((j : ℤ) - ic.kMax)) ↔ Even (i + j) := by
    rw [show (i : ℤ) - ic.kMax + ((j : ℤ) - ic.kMax) = ((i + j : ℕ) : ℤ) - 2 * ic.kMax by
      push_cast; ring, Int.even_sub, Int.even_coe_nat]
    simp
  by_cases he : Even (i + j)
  · rw [if_pos he, (hpar.2 he).neg_one_zpow, one_mul, unit_arg hne]
  · rw [if_neg he, Odd.neg_one_zpow (Int.not_even_iff_odd.1 (mt hpar.1 he)), neg_one_mul,
      unit_neg, unit_arg hne]

-- one string per lattice length: the origin is not on a string
example (i j : ℕ) : (⟨(0 : ℕ), (0 : ℕ)⟩ : ℂ) ≠ wavePlace ⟨4, 4, 1, 1⟩ ⟨1, 1, 1, 1, 0, 0, 1⟩ i j := by
  intro h
  have := congrArg Complex.re h
  unfold wavePlace at this
  dsimp only at this
  have h2 : ((2 * i - 1 : ℤ) : ℝ) = 0 := by
    push_cast at this ⊢
    linarith
  have h3 : (2 * i - 1 : ℤ) = 0 := by exact_mod_cast h2
  omega

end Jaxions.RandConf
