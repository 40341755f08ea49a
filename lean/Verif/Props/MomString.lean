import Verif.Props.MomConf
import Mathlib.LinearAlgebra.CrossProduct
/-
C66, continued: what a mode of the string initial condition is summed from.
-/
noncomputable section

namespace Jaxions.MomConf

open scoped Matrix

theorem sum_segments {f : ℕ → Option ℂ} {t : ℕ → ℂ} (m : ℕ) (h : ∀ i < m, f i = some (t i)) :
    (List.range m).foldlM (addSegment f) 0 = some (∑ i ∈ Finset.range m, t i) := by
  induction m with
  | zero => rfl
  | succ m ih =>
    rw [List.range_succ, List.foldlM_append, ih fun i hi => h i (by omega), Finset.sum_range_succ]
    simp [addSegment, h m (by omega)]

/-- A vector from its coordinates. -/
abbrev vec (x y z : ℕ → ℝ) (i : ℕ) : Fin 3 → ℝ := ![x i, y i, z i]

/-- **C66 (string terms).** A mode `p` with first component not zero gets, from every segment `dl` of
the string starting at a point `r`, the first component of `p × dl` over `px |p|²` in unsigned
arithmetic, times `exp(-i k0 p·r)`, times a factor of `k0 p·dl`. -/
theorem C66_string_terms (k0N : ℝ) (p : ℤ × ℤ × ℤ) (hp : p.1 ≠ 0) (n : ℕ) (x y z : ℕ → ℝ) :
    let k : Fin 3 → ℝ := ![p.1, p.2.1, p.2.2]
    let r := vec x y z
    stringSum k0N p ((List.range n).map x) ((List.range n).map y) ((List.range n).map z) =
      some (∑ i ∈ Finset.range (n - 1),
        (((k ⨯₃ (r (i + 1) - r i)) 0 / (wrapMul p.1 (modP p) : ℝ) : ℝ) : ℂ) *
          Complex.exp (-(Complex.I * ((k0N * (k ⬝ᵥ r i) : ℝ) : ℂ))) *
          aux (k0N * (k ⬝ᵥ (r (i + 1) - r i)))) := by
  intro k r
  unfold stringSum
  dsimp only
  rw [if_pos hp, List.length_map, List.length_range]
  refine sum_segments _ fun i hi => ?_
  have hg : ∀ f : ℕ → ℝ, ((List.range n).map f)[i]? = some (f i) ∧
      ((List.range n).map f)[i + 1]? = some (f (i + 1)) := by
    intro f
    rw [List.getElem?_map, List.getElem?_map, List.getElem?_range (by omega),
      List.getElem?_range (by omega)]
    exact ⟨rfl, rfl⟩
  unfold segment
  rw [(hg x).1, (hg y).1, (hg z).1, (hg x).2, (hg y).2, (hg z).2]
  dsimp only
  have h1 : (k ⨯₃ (r (i + 1) - r i)) 0 =
      (p.2.1 : ℝ) * (z (i + 1) - z i) - p.2.2 * (y (i + 1) - y i) := by
    simp [k, r, crossProduct]
  have h2 : ∀ v : Fin 3 → ℝ, k ⬝ᵥ v = p.1 * v 0 + p.2.1 * v 1 + p.2.2 * v 2 := by
    intro v
    simp [k, dotProduct, Fin.sum_univ_three]
  rw [h1, h2, h2]
  simp only [r, vec, Pi.sub_apply, Matrix.cons_val_zero, Matrix.cons_val_one, Matrix.cons_val]
  rw [Complex.ofReal_neg, mul_neg]

/-- **C66 (string along a mode).** A string whose segments all point along `p` gives nothing in the
mode `p`. -/
theorem C66_string_along (k0N : ℝ) (p : ℤ × ℤ × ℤ) (hp : p.1 ≠ 0) (n : ℕ) (x y z : ℕ → ℝ)
    (h : ∀ i, i + 1 < n → ∃ c : ℝ, vec x y z (i + 1) - vec x y z i = c • ![(p.1 : ℝ), p.2.1, p.2.2]) :
    stringSum k0N p ((List.range n).map x) ((List.range n).map y) ((List.range n).map z) =
      some 0 := by
  rw [C66_string_terms k0N p hp]
  congr 1
  refine Finset.sum_eq_zero fun i hi => ?_
  obtain ⟨c, hc⟩ := h i (by have := Finset.mem_range.1 hi; omega)
  rw [hc, map_smul, cross_self]
  simp

-- a straight string along the diagonal and the mode (1,1,1)
example : stringSum 1 (1, 1, 1) ((List.range 5).map fun i => (i : ℝ))
    ((List.range 5).map fun i => (i : ℝ)) ((List.range 5).map fun i => (i : ℝ)) = some 0 := by
  refine C66_string_along 1 (1, 1, 1) (by norm_num) 5 _ _ _ fun i _ => ⟨1, ?_⟩
  funext j
  fin_cases j <;> simp

end Jaxions.MomConf
