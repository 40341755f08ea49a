import Verif.Lemmas.SplineBand
import Verif.Spec.Spline
import Mathlib.Data.Finset.Max

/-!
# Splines: lemmas
-/

namespace Jaxions
namespace Spline

variable {K : Type} [Field K] [LinearOrder K]

/-! ## The system -/

/-- The diagonal element of an end row. -/
def edgeD (h : K) : End K → K
  | .second _ => 2
  | .first _ => 2 * h

/-- The other element of an end row. -/
def edgeO (h : K) : End K → K
  | .second _ => 0
  | .first _ => h

/-- Below the diagonal. -/
def lowC (n : ℕ) (x : ℕ → K) (right : End K) (i : ℕ) : K :=
  if i = n - 1 then (edgeO (x (n - 1) - x (n - 2)) right)
  else 1 / 3 * (x i - x (i - 1))

/-- On the diagonal. -/
def diaC (n : ℕ) (x : ℕ → K) (left right : End K) (i : ℕ) : K :=
  if i = 0 then (edgeD (x 1 - x 0) left)
  else if i = n - 1 then (edgeD (x (n - 1) - x (n - 2)) right)
  else 2 / 3 * (x (i + 1) - x (i - 1))

/-- Above the diagonal. -/
def uppC (x : ℕ → K) (left : End K) (i : ℕ) : K :=
  if i = 0 then (edgeO (x 1 - x 0) left)
  else 1 / 3 * (x (i + 1) - x i)

/-- The right hand side. -/
def rhsC (n : ℕ) (x y : ℕ → K) (left right : End K) (i : ℕ) : K :=
  if i = 0 then (match left with | .second v => v | .first v => 3 * ((y 1 - y 0) / (x 1 - x 0) - v))
  else if i = n - 1 then (match right with
    | .second v => v
    | .first v => 3 * (v - (y (n - 1) - y (n - 2)) / (x (n - 1) - x (n - 2))))
  else (y (i + 1) - y i) / (x (i + 1) - x i) - (y i - y (i - 1)) / (x i - x (i - 1))

omit [LinearOrder K] in
/-- An inner row. -/
theorem inner_spec {n : ℕ} {x y : ℕ → K} {s : Sys K} {l d u w : ℕ → K} (h : Tri s.A n l d u w) {i : ℕ}
    (hi : i + 2 < n) :
    ∃ s', s.inner x y (i + 1) = some s' ∧ Tri s'.A n (Function.update l (i + 1) (1 / 3 * (x (i + 1) - x i)))
      (Function.update d (i + 1) (2 / 3 * (x (i + 2) - x i)))
      (Function.update u (i + 1) (1 / 3 * (x (i + 2) - x (i + 1)))) w ∧
      s'.rhs = Function.update s.rhs (i + 1) ((y (i + 2) - y (i + 1)) / (x (i + 2) - x (i + 1)) -
        (y (i + 1) - y i) / (x (i + 1) - x i)) := by
  obtain ⟨A1, a1, a2⟩ := h.set_lo (by omega : i + 1 < n) (1 / 3 * (x (i + 1) - x i))
  obtain ⟨A2, b1, b2⟩ := a2.set_di (by omega : i + 1 < n) (2 / 3 * (x (i + 2) - x i))
  obtain ⟨A3, c1, c2⟩ := b2.set_up (by omega : i + 1 + 1 < n) (1 / 3 * (x (i + 2) - x (i + 1)))
  refine ⟨⟨A3, _⟩, ?_, c2, rfl⟩
  unfold Sys.inner
  simp only [Nat.add_sub_cancel, Option.bind_eq_bind, a1, Option.bind_some, b1, c1, pure]
  rfl

theorem rows_spec {n : ℕ} (hn : 2 < n) (x y : ℕ → K) (left right : End K) :
    ∃ s, rows n x y left right = some s ∧
      Tri s.A n (lowC n x right) (diaC n x left right) (uppC x left) (fun _ => 0) ∧
      ∀ i < n, s.rhs i = rhsC n x y left right i := by
  have start : Tri (⟨n, 1, 1, fun _ _ => 0, fun _ _ => 0⟩ : Band K) n (fun _ => 0) (fun _ => 0) (fun _ => 0)
      (fun _ => 0) := ⟨rfl, rfl, rfl, fun _ _ => rfl, fun _ _ => rfl, fun _ _ => rfl, fun _ _ => rfl⟩
  have lp := range_inv (s := (⟨⟨n, 1, 1, fun _ _ => 0, fun _ _ => 0⟩, fun _ => 0⟩ : Sys K))
    (f := fun s k => s.inner x y (1 + 1 * k))
    (P := fun m s =>
      Tri s.A n (fun i => if i < m + 1 then (if i = 0 then 0 else 1 / 3 * (x i - x (i - 1))) else 0)
        (fun i => if i < m + 1 then (if i = 0 then 0 else 2 / 3 * (x (i + 1) - x (i - 1))) else 0)
        (fun i => if i < m + 1 then (if i = 0 then 0 else 1 / 3 * (x (i + 1) - x i)) else 0) (fun _ => 0) ∧
      ∀ i, 0 < i → i < m + 1 →
        s.rhs i = (y (i + 1) - y i) / (x (i + 1) - x i) - (y i - y (i - 1)) / (x i - x (i - 1)))
    (n - 2) (by
      refine ⟨start.congr ?_ ?_ ?_ (fun _ _ => rfl), by omega⟩
      · intro i _; rw [if_neg (by omega)]
      · intro i _; by_cases e : i = 0
        · rw [if_pos (by omega), if_pos e]
        · rw [if_neg (by omega)]
      · intro i _; by_cases e : i = 0
        · rw [if_pos (by omega), if_pos e]
        · rw [if_neg (by omega)]) (by
      rintro k hk s ⟨h1, h2⟩
      obtain ⟨s', g1, g2, g3⟩ := inner_spec (x := x) (y := y) h1 (show k + 2 < n by omega)
      refine ⟨s', by rw [one_mul, add_comm 1 k]; exact g1, ?_, ?_⟩
      · rw [show 1 / 3 * (x (k + 1) - x k) =
            (fun i => if i = 0 then 0 else 1 / 3 * (x i - x (i - 1))) (k + 1) by simp,
          update_if (fun i => if i = 0 then 0 else 1 / 3 * (x i - x (i - 1))),
          show 2 / 3 * (x (k + 2) - x k) =
            (fun i => if i = 0 then 0 else 2 / 3 * (x (i + 1) - x (i - 1))) (k + 1) by simp,
          update_if (fun i => if i = 0 then 0 else 2 / 3 * (x (i + 1) - x (i - 1))),
          show 1 / 3 * (x (k + 2) - x (k + 1)) =
            (fun i => if i = 0 then 0 else 1 / 3 * (x (i + 1) - x i)) (k + 1) by simp,
          update_if (fun i => if i = 0 then 0 else 1 / 3 * (x (i + 1) - x i))] at g2
        exact g2
      · intro i hi0 hi
        rw [g3]
        by_cases e : i = k + 1
        · subst e; rw [Function.update_self, Nat.add_sub_cancel]
        · rw [Function.update_of_ne e]; exact h2 i hi0 (by omega))
  obtain ⟨s, e1, t1, r1⟩ := lp
  have hfold : (List.range' 1 (n - 2)).foldlM (Sys.inner x y)
      ⟨⟨n, 1, 1, fun _ _ => 0, fun _ _ => 0⟩, fun _ => 0⟩ = some s := by
    rw [List.range'_eq_map_range, List.foldlM_map]
    simpa using e1
  have hl : ∃ s1, s.left x y left = some s1 ∧ Tri s1.A n
      (fun i => if i < n - 2 + 1 then (if i = 0 then 0 else 1 / 3 * (x i - x (i - 1))) else 0)
      (Function.update (fun i => if i < n - 2 + 1 then (if i = 0 then 0 else 2 / 3 * (x (i + 1) - x (i - 1)))
        else 0) 0 (edgeD (x 1 - x 0) left))
      (Function.update (fun i => if i < n - 2 + 1 then (if i = 0 then 0 else 1 / 3 * (x (i + 1) - x i)) else 0)
        0 (edgeO (x 1 - x 0) left)) (fun _ => 0) ∧
      s1.rhs = Function.update s.rhs 0 (match left with
        | .second v => v | .first v => 3 * ((y 1 - y 0) / (x 1 - x 0) - v)) := by
    cases left with
    | second v =>
      obtain ⟨A1, a1, a2⟩ := t1.set_di (by omega : 0 < n) 2
      obtain ⟨A2, b1, b2⟩ := a2.set_up (by omega : 0 + 1 < n) 0
      refine ⟨⟨A2, _⟩, ?_, b2, rfl⟩
      unfold Sys.left
      simp only [Option.bind_eq_bind, a1, Option.bind_some, pure]
      rw [show A1.set 0 1 0 = some A2 from b1]
      rfl
    | first v =>
      obtain ⟨A1, a1, a2⟩ := t1.set_di (by omega : 0 < n) (2 * (x 1 - x 0))
      obtain ⟨A2, b1, b2⟩ := a2.set_up (by omega : 0 + 1 < n) (1 * (x 1 - x 0))
      refine ⟨⟨A2, _⟩, ?_, by rw [one_mul] at b2; exact b2, rfl⟩
      unfold Sys.left
      simp only [Option.bind_eq_bind, a1, Option.bind_some, pure]
      rw [show A1.set 0 1 (1 * (x 1 - x 0)) = some A2 from b1]
      rfl
  obtain ⟨s1, e2, t2, r2⟩ := hl
  obtain ⟨p, rfl⟩ : ∃ p, n = p + 3 := ⟨n - 3, by omega⟩
  have hr : ∃ s2, s1.right (p + 3) x y right = some s2 ∧
      Tri s2.A (p + 3) (lowC (p + 3) x right) (diaC (p + 3) x left right) (uppC x left) (fun _ => 0) ∧
      s2.rhs = Function.update s1.rhs (p + 2) (match right with
        | .second v => v
        | .first v => 3 * (v - (y (p + 2) - y (p + 1)) / (x (p + 2) - x (p + 1)))) := by
    have fin : ∀ (A : Band K) (dv lv : K),
        dv = (edgeD (x (p + 2) - x (p + 1)) right) →
        lv = (edgeO (x (p + 2) - x (p + 1)) right) →
        Tri A (p + 3) (Function.update (fun i => if i < p + 3 - 2 + 1 then
          (if i = 0 then 0 else 1 / 3 * (x i - x (i - 1))) else 0) (p + 1 + 1) lv)
          (Function.update (Function.update (fun i => if i < p + 3 - 2 + 1 then (if i = 0 then 0
            else 2 / 3 * (x (i + 1) - x (i - 1))) else 0) 0
            (edgeD (x 1 - x 0) left)) (p + 1 + 1) dv)
          (Function.update (fun i => if i < p + 3 - 2 + 1 then (if i = 0 then 0
            else 1 / 3 * (x (i + 1) - x i)) else 0) 0
            (edgeO (x 1 - x 0) left)) (fun _ => 0) →
        Tri A (p + 3) (lowC (p + 3) x right) (diaC (p + 3) x left right) (uppC x left) (fun _ => 0) := by
      intro A dv lv hdv hlv h
      refine h.congr ?_ ?_ ?_ (fun _ _ => rfl)
      · intro i hi
        unfold lowC
        by_cases e : i = p + 1
        · subst e
          rw [Function.update_self, if_pos (by omega), hlv]
          rfl
        · rw [Function.update_of_ne (by omega), if_pos (by omega), if_neg (by omega), if_neg (by omega)]
      · intro i hi
        unfold diaC
        by_cases e : i = p + 2
        · subst e
          rw [Function.update_self, if_neg (by omega), if_pos (by omega), hdv]
          rfl
        · rw [Function.update_of_ne (by omega)]
          by_cases e0 : i = 0
          · subst e0
            rw [Function.update_self, if_pos rfl]
          · rw [Function.update_of_ne e0, if_pos (by omega), if_neg e0, if_neg e0, if_neg (by omega)]
      · intro i hi
        unfold uppC
        by_cases e0 : i = 0
        · subst e0
          rw [Function.update_self, if_pos rfl]
        · rw [Function.update_of_ne e0, if_pos (by omega), if_neg e0, if_neg e0]
    cases right with
    | second v =>
      obtain ⟨A1, a1, a2⟩ := t2.set_di (by omega : p + 1 + 1 < p + 3) 2
      obtain ⟨A2, b1, b2⟩ := a2.set_lo (by omega : p + 1 + 1 < p + 3) 0
      refine ⟨⟨A2, _⟩, ?_, fin A2 2 0 rfl rfl b2, rfl⟩
      unfold Sys.right
      simp only [Option.bind_eq_bind, pure]
      rw [show s1.A.set (p + 3 - 1) (p + 3 - 1) 2 = some A1 from a1, Option.bind_some,
        show A1.set (p + 3 - 1) (p + 3 - 2) 0 = some A2 from b1]
      rfl
    | first v =>
      obtain ⟨A1, a1, a2⟩ := t2.set_di (by omega : p + 1 + 1 < p + 3) (2 * (x (p + 2) - x (p + 1)))
      obtain ⟨A2, b1, b2⟩ := a2.set_lo (by omega : p + 1 + 1 < p + 3) (1 * (x (p + 2) - x (p + 1)))
      refine ⟨⟨A2, _⟩, ?_, fin A2 _ _ rfl (one_mul _) b2, rfl⟩
      unfold Sys.right
      simp only [Option.bind_eq_bind, pure]
      rw [show s1.A.set (p + 3 - 1) (p + 3 - 1) (2 * (x (p + 3 - 1) - x (p + 3 - 2))) = some A1 from a1,
        Option.bind_some,
        show A1.set (p + 3 - 1) (p + 3 - 2) (1 * (x (p + 3 - 1) - x (p + 3 - 2))) = some A2 from b1]
      rfl
  obtain ⟨s2, e3, t3, r3⟩ := hr
  refine ⟨s2, ?_, t3, ?_⟩
  · unfold rows
    rw [hfold]
    simp only [Option.bind_eq_bind, Option.bind_some]
    rw [e2]
    exact e3
  · intro i hi
    rw [r3, r2]
    unfold rhsC
    by_cases e0 : i = 0
    · subst e0
      rw [Function.update_of_ne (by omega), Function.update_self, if_pos rfl]
    · by_cases e : i = p + 2
      · subst e
        rw [Function.update_self, if_neg e0, if_pos (by omega)]
        rfl
      · rw [Function.update_of_ne e, Function.update_of_ne e0, if_neg e0, if_neg (by omega)]
        exact r1 i (by omega) (by omega)

variable [IsStrictOrderedRing K]

theorem dominant {n : ℕ} {x : ℕ → K} (hn : 2 < n) (hx : Increasing n x) (left right : End K) :
    Dominant n (lowC n x right) (diaC n x left right) (uppC x left) := by
  intro i hi
  by_cases e0 : i = 0
  · subst e0
    rw [if_neg (lt_irrefl 0), if_pos (by omega), zero_add]
    unfold uppC diaC
    rw [if_pos rfl, if_pos rfl]
    have h := hx 0 (by omega)
    cases left with
    | second v => simp [edgeO, edgeD]
    | first v =>
      have : 0 < x 1 - x 0 := sub_pos.mpr h
      simp only [edgeO, edgeD]
      rw [abs_of_pos this]; linarith
  · rw [if_pos (by omega)]
    by_cases e : i = n - 1
    · subst e
      rw [if_neg (by omega), add_zero]
      unfold lowC diaC
      rw [if_pos rfl, if_neg e0, if_pos rfl]
      have h := hx (n - 2) (by omega)
      rw [show n - 2 + 1 = n - 1 by omega] at h
      cases right with
      | second v => simp [edgeO, edgeD]
      | first v =>
        have : 0 < x (n - 1) - x (n - 2) := sub_pos.mpr h
        simp only [edgeO, edgeD]
        rw [abs_of_pos this]; linarith
    · rw [if_pos (by omega)]
      unfold lowC diaC uppC
      rw [if_neg e, if_neg e0, if_neg e, if_neg e0]
      have h1 := hx (i - 1) (by omega)
      rw [show i - 1 + 1 = i by omega] at h1
      have h2 := hx i (by omega)
      have p1 : 0 < x i - x (i - 1) := sub_pos.mpr h1
      have p2 : 0 < x (i + 1) - x i := sub_pos.mpr h2
      rw [abs_of_pos (by positivity), abs_of_pos (by positivity)]
      linarith

/-- A system whose diagonal outweighs its rows has one solution at most. -/
theorem Dominant.unique {n : ℕ} {l d u b z w : ℕ → K} (h : Dominant n l d u) (hz : Solves n l d u b z)
    (hw : Solves n l d u b w) : ∀ i < n, z i = w i := by
  by_contra hne
  push Not at hne
  obtain ⟨i0, hi0, hne⟩ := hne
  obtain ⟨i, hi, hmax⟩ := Finset.exists_max_image (Finset.range n) (fun i => |z i - w i|)
    ⟨i0, Finset.mem_range.mpr hi0⟩
  rw [Finset.mem_range] at hi
  have hpos : 0 < |z i - w i| :=
    lt_of_lt_of_le (abs_pos.mpr (sub_ne_zero.mpr hne)) (hmax i0 (Finset.mem_range.mpr hi0))
  have hd := h.pos hi
  have e : d i * (z i - w i) = -((if 0 < i then l i * (z (i - 1) - w (i - 1)) else 0) +
      (if i + 1 < n then u i * (z (i + 1) - w (i + 1)) else 0)) := by
    have e1 := hz i hi
    have e2 := hw i hi
    split_ifs at e1 e2 ⊢ <;> linear_combination e1 - e2
  have b1 : |if 0 < i then l i * (z (i - 1) - w (i - 1)) else 0| ≤ (if 0 < i then |l i| else 0) * |z i - w i| := by
    split_ifs with c
    · rw [abs_mul]
      exact mul_le_mul_of_nonneg_left (hmax (i - 1) (Finset.mem_range.mpr (by omega))) (abs_nonneg _)
    · simp
  have b2 : |if i + 1 < n then u i * (z (i + 1) - w (i + 1)) else 0| ≤
      (if i + 1 < n then |u i| else 0) * |z i - w i| := by
    split_ifs with c
    · rw [abs_mul]
      exact mul_le_mul_of_nonneg_left (hmax (i + 1) (Finset.mem_range.mpr c)) (abs_nonneg _)
    · simp
  have k : d i * |z i - w i| ≤ ((if 0 < i then |l i| else 0) + (if i + 1 < n then |u i| else 0)) * |z i - w i| := by
    rw [← abs_of_pos hd, ← abs_mul, e, abs_neg, add_mul]
    exact (abs_add_le _ _).trans (add_le_add b1 b2)
  have := (mul_lt_mul_iff_left₀ hpos).mpr (h i hi)
  linarith

end Spline
end Jaxions
