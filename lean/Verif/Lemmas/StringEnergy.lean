import Verif.Model.StringEnergy
import Verif.Spec.StringEnergy
import Verif.Props.StringSpeed

/-!
# Energy of strings: lemmas
-/

namespace Jaxions
namespace StrEn

open Complex Finset StrLen

/-! ## Sums over the loops -/

theorem list_sum_range {M : Type} [AddCommMonoid M] (n : ℕ) (f : ℕ → M) :
    ((List.range n).map f).sum = ∑ i ∈ range n, f i := rfl

theorem sum_flatMap_range {M : Type} [AddCommMonoid M] (n : ℕ) (f : ℕ → List M) :
    ((List.range n).flatMap f).sum = ∑ i ∈ range n, (f i).sum := by
  induction n with
  | zero => simp
  | succ n ih => rw [List.range_succ, List.flatMap_append, List.sum_append, ih, sum_range_succ]; simp

theorem sum_cells {M : Type} [AddCommMonoid M] (Lx Lz : ℕ) (f : ℕ × ℕ × ℕ → M) :
    ((cells Lx Lz).map f).sum = ∑ z ∈ range Lz, ∑ y ∈ range Lx, ∑ x ∈ range Lx, f (x, y, z) := by
  unfold cells
  rw [List.map_flatMap, sum_flatMap_range]
  refine sum_congr rfl fun z _ => ?_
  rw [List.map_flatMap, sum_flatMap_range]
  refine sum_congr rfl fun y _ => ?_
  rw [List.map_map, list_sum_range]
  rfl

/-- Slices of ranks are slices of the box. -/
theorem sum_slabs {M : Type} [AddCommMonoid M] (n Lz : ℕ) (f : ℕ → M) :
    ∑ r ∈ range n, ∑ z ∈ range Lz, f (r * Lz + z) = ∑ z ∈ range (n * Lz), f z := by
  induction n with
  | zero => simp
  | succ n ih => rw [sum_range_succ, ih, Nat.succ_mul, sum_range_add]

variable {E : Env}

theorem plus_some (a b : ℝ) : plus (some a) (some b) = some (a + b) := rfl
theorem plus_none (a : Option ℝ) : plus a none = none := by cases a <;> rfl

/-- What a turn adds when the field is off the point `zaskaF`. -/
structure Turn where
  tot : ℝ
  k : ℝ
  g : ℝ
  w : ℝ
  out : Bool

theorem fold_turns (ma va : ℕ → ℂ) (sd : ℕ → ℕ) (Lx : ℕ) (f : ℕ × ℕ × ℕ → Turn) :
    ∀ (l : List (ℕ × ℕ × ℕ)), (∀ p ∈ l,
      let c := corner Lx p.1 p.2.1 p.2.2
      rhoakin E (ma c.o) (va c.o) = some (f p).k ∧
      saxion E (ma c.o) (va c.o) (ma c.x) (ma c.y) (ma c.z) = some (f p).g ∧
      (‖ma c.o - E.s‖ / E.R) ^ 2 = (f p).w ∧
      rhokin E (ma c.o) (va c.o) + rhograd E (ma c.o) (ma c.x) (ma c.y) (ma c.z) + rhopot E (ma c.o) =
        (f p).tot ∧ (sd c.o &&& STRING_MASK = 0 ↔ (f p).out = true)) →
    ∀ (t a s aV sV : ℝ) (o : ℕ), l.foldl (site E ma va sd Lx) ⟨t, some a, some s, some aV, some sV, o⟩ =
      ⟨t + (l.map fun p => (f p).tot).sum,
       some (a + (l.map fun p => if (f p).out then 2 * (f p).k else 0).sum),
       some (s + (l.map fun p => if (f p).out then (f p).g else 0).sum),
       some (aV + (l.map fun p => (f p).w * 2 * (f p).k).sum),
       some (sV + (l.map fun p => (f p).w * (f p).g).sum),
       o + (l.map fun p => if (f p).out then 1 else 0).sum⟩ := by
  intro l
  induction l with
  | nil => intros; simp
  | cons p l ih =>
    intro h t a s aV sV o
    obtain ⟨h1, h2, h3, h4, h5⟩ := h p List.mem_cons_self
    have ih := ih (fun q hq => h q (List.mem_cons_of_mem _ hq))
    rw [List.foldl_cons]
    have e : site E ma va sd Lx ⟨t, some a, some s, some aV, some sV, o⟩ p =
        ⟨t + (f p).tot, some (a + if (f p).out then 2 * (f p).k else 0),
          some (s + if (f p).out then (f p).g else 0), some (aV + (f p).w * 2 * (f p).k),
          some (sV + (f p).w * (f p).g), o + if (f p).out then 1 else 0⟩ := by
      unfold site
      simp only [h1, h2, h3, h4, Option.map_some, plus_some]
      by_cases ho : (f p).out = true
      · simp only [if_pos (h5.mpr ho), if_pos ho]
      · simp only [if_neg (fun k => ho (h5.mp k)), if_neg ho, add_zero]
    rw [e, ih]
    simp only [List.map_cons, List.sum_cons, add_assoc]

/-! ## A site -/

theorem exp_norm (t : ℝ) : ‖exp (t * I)‖ = 1 := Complex.norm_exp_ofReal_mul_I t

theorem norm_polar (r t : ℝ) (hr : 0 ≤ r) : ‖(r : ℂ) * exp (t * I)‖ = r := by
  rw [norm_mul, exp_norm, mul_one, Complex.norm_real, Real.norm_of_nonneg hr]

theorem ratio (r t a b : ℝ) (hr : r ≠ 0) :
    ((a + r * b * I) * exp (t * I)) / ((r : ℂ) * exp (t * I)) = (a / r : ℝ) + b * I := by
  have h1 : (r : ℂ) ≠ 0 := Complex.ofReal_ne_zero.mpr hr
  have h2 := Complex.exp_ne_zero (t * I)
  rw [mul_div_mul_right _ _ h2]
  push_cast
  field_simp

end StrEn
end Jaxions
