import Verif.Lemmas.SplinePieces
import Verif.Spec.CosTable

/-!
# The cosmology read from a file: lemmas
-/

namespace Jaxions
namespace CosTable

open Spline

/-! ## Reading -/

section Read
variable {K : Type}

/-- The variables after a row. -/
def Row.vars (r : Row K) : Vars K := ⟨some r.eta, some r.R, some r.T, some r.Rpp, some r.chi, some r.pf⟩

theorem vars_row (r : Row K) : r.vars.row = some r := rfl

theorem scan_row (ends : Bool) (v : Vars K) (r : Row K) (ts : List (Tok K)) (h : ts ≠ [] ∨ ends = true) :
    scan ends 6 v (r.words ++ ts) 0 = ⟨r.vars, ts, false⟩ := by
  have : (ts.isEmpty && !ends) = false := by
    rcases h with h | h
    · cases ts with
      | nil => exact absurd rfl h
      | cons => rfl
    · rw [h]; simp
  simp [scan, Row.words, Vars.put, Row.vars, this]

theorem scan_last (v : Vars K) (r : Row K) : scan false 6 v r.words 0 = ⟨r.vars, [], true⟩ := by
  simp [scan, Row.words, Vars.put, Row.vars]

theorem scan_short (m k : ℕ) (v : Vars K) (xs : List K) (h : xs.length < m) :
    (scan true m v (xs.map .num) k).eof = true := by
  induction xs generalizing m k v with
  | nil =>
    cases m with
    | zero => simp at h
    | succ m => rfl
  | cons x xs ih =>
    cases m with
    | zero => simp at h
    | succ m =>
      simp only [List.map_cons, scan, Bool.not_true, Bool.and_false, Bool.false_eq_true, if_false]
      exact ih m _ _ (by simpa using h)

/-- From the first row on. -/
theorem loop_rows (ends : Bool) (tail : List (Tok K)) (ht : ∀ v : Vars K, (scan ends 6 v tail 0).eof = true)
    (hne : tail ≠ [] ∨ ends = true) (rows : List (Row K)) (r : Row K) (acc : List (Row K)) :
    loop ends r.vars (words rows ++ tail) acc = some (acc ++ r :: rows) := by
  induction rows generalizing r acc with
  | nil =>
    rw [loop]
    simp only [vars_row, words, List.flatMap_nil, List.nil_append, ht, if_true]
  | cons r' rows ih =>
    rw [loop]
    have e : words (r' :: rows) ++ tail = r'.words ++ (words rows ++ tail) := by
      simp [words]
    have hne' : words rows ++ tail ≠ [] ∨ ends = true := by
      rcases hne with h | h
      · exact Or.inl (by simp [h])
      · exact Or.inr h
    rw [e]
    simp only [vars_row, scan_row ends _ r' _ hne', Bool.false_eq_true, if_false]
    rw [if_pos (by simp [Row.words]; omega), ih]
    simp

theorem readRows_tail (ends : Bool) (tail : List (Tok K)) (ht : ∀ v : Vars K, (scan ends 6 v tail 0).eof = true)
    (hne : tail ≠ [] ∨ ends = true) (rows : List (Row K)) :
    readRows ends (words rows ++ tail) = some rows := by
  unfold readRows
  cases rows with
  | nil => simp [words, ht]
  | cons r rows =>
    have e : words (r :: rows) ++ tail = r.words ++ (words rows ++ tail) := by
      simp [words]
    have hne' : words rows ++ tail ≠ [] ∨ ends = true := by
      rcases hne with h | h
      · exact Or.inl (by simp [h])
      · exact Or.inr h
    rw [e]
    simp only [scan_row ends _ r _ hne', Bool.false_eq_true, if_false]
    rw [loop_rows ends tail ht hne]
    rfl

theorem scan_junk (ends : Bool) (m k : ℕ) (v : Vars K) (ts : List (Tok K)) (h : .junk ∈ ts) :
    (scan ends m v ts k).eof = false ∧ .junk ∈ (scan ends m v ts k).rest := by
  induction ts generalizing m k v with
  | nil => simp at h
  | cons t ts ih =>
    cases m with
    | zero => exact ⟨rfl, h⟩
    | succ m =>
      cases t with
      | junk => exact ⟨rfl, by simp [scan]⟩
      | num x =>
        have h' : .junk ∈ ts := by simpa using h
        have hne : (ts.isEmpty && !ends) = false := by
          cases ts with
          | nil => simp at h'
          | cons => rfl
        simp only [scan, hne, Bool.false_eq_true, if_false]
        exact ih _ _ _ h'

theorem loop_junk (ends : Bool) (L : ℕ) : ∀ (v : Vars K) (ts : List (Tok K)) (acc : List (Row K)), ts.length = L →
    .junk ∈ ts → loop ends v ts acc = none := by
  induction L using Nat.strong_induction_on with
  | _ L ih =>
    intro v ts acc hL h
    rw [loop]
    obtain ⟨e, m⟩ := scan_junk ends 6 0 v ts h
    cases hr : v.row with
    | none => rfl
    | some r =>
      simp only [e, Bool.false_eq_true, if_false]
      by_cases g : (scan ends 6 v ts 0).rest.length < ts.length
      · rw [if_pos g]
        exact ih _ (by omega) _ _ _ rfl m
      · rw [if_neg g]

end Read

/-! ## Scaling of a spline -/

theorem scale_cubic {n : ℕ} {x y a b c : ℕ → ℝ} {α β : ℝ} (hα : 0 < α) (hβ : β ≠ 0)
    (h : IsCubic n x y (.second 0) (.second 0) a b c) :
    IsCubic n (fun i => x i / α) (fun i => y i / β) (.second 0) (.second 0) (fun i => a i * α ^ 3 / β)
      (fun i => b i * α ^ 2 / β) (fun i => c i * α / β) := by
  have hα' := hα.ne'
  refine ⟨fun i hi => ?_, fun i hi => ?_, fun i hi => ?_, ?_, ?_⟩
  · have := h.value i hi
    field_simp
    linear_combination this
  · have := h.slope i hi
    field_simp
    linear_combination this
  · have := h.curv i hi
    field_simp
    linear_combination this
  · have : 2 * b 0 = 0 := h.left
    show 2 * (b 0 * α ^ 2 / β) = 0
    have : b 0 = 0 := by linarith
    rw [this]; simp
  · have : 2 * b (n - 1) = 0 := h.right
    show 2 * (b (n - 1) * α ^ 2 / β) = 0
    have : b (n - 1) = 0 := by linarith
    rw [this]; simp

/-- The spline of a table in other units is the spline in other units, everywhere. -/
theorem scale {n : ℕ} {x y : ℕ → ℝ} {α β : ℝ} (hα : 0 < α) (hβ : β ≠ 0) {S S' : Spl ℝ}
    (h : setPoints n x y true false (.second 0) (.second 0) = some S)
    (h' : setPoints n (fun i => x i / α) (fun i => y i / β) true false (.second 0) (.second 0) = some S') (t : ℝ) :
    S'.eval t = S.eval (α * t) / β := by
  obtain ⟨hn, hx, a, b, c, hs, rfl⟩ := setPoints_cubic h
  obtain ⟨_, hx', a', b', c', hs', rfl⟩ := setPoints_cubic h'
  have F := fits_cubic hn hx hs false
  have F' := fits_cubic hn hx' hs' false
  obtain ⟨u, v⟩ := hs'.unique hn hx' (scale_cubic hα hβ hs)
  have hα' := hα.ne'
  obtain ⟨p, rfl⟩ : ∃ p, n = p + 3 := ⟨n - 3, by omega⟩
  have ha : ∀ i, i < p + 2 → (finish (p + 3) x y false ⟨a, b, c⟩).a i = a i :=
    fun i hi => Function.update_of_ne (by show i ≠ p + 2; omega) _ _
  have hc : ∀ i, i < p + 2 → (finish (p + 3) x y false ⟨a, b, c⟩).c i = c i :=
    fun i hi => Function.update_of_ne (by show i ≠ p + 2; omega) _ _
  have ha' : ∀ i, i < p + 2 → (finish (p + 3) (fun i => x i / α) (fun i => y i / β) false ⟨a', b', c'⟩).a i = a' i :=
    fun i hi => Function.update_of_ne (by show i ≠ p + 2; omega) _ _
  have hc' : ∀ i, i < p + 2 → (finish (p + 3) (fun i => x i / α) (fun i => y i / β) false ⟨a', b', c'⟩).c i = c' i :=
    fun i hi => Function.update_of_ne (by show i ≠ p + 2; omega) _ _
  rcases F'.where_ t with g | ⟨i, hi, g1, g2⟩ | g
  · have k : α * t ≤ x 0 := by
      have : t ≤ x 0 / α := g
      rw [le_div_iff₀ hα] at this
      linarith
    rw [F'.evalL g, F.evalL k]
    show b' 0 * (t - x 0 / α) ^ 2 + c' 0 * (t - x 0 / α) + y 0 / β =
      (b 0 * (α * t - x 0) ^ 2 + c 0 * (α * t - x 0) + y 0) / β
    rw [u 0 (by omega), (v 0 (by omega)).2]
    field_simp
  · have hi' : i + 1 < p + 3 := hi
    have k1 : x i ≤ α * t := by
      have : x i / α < t := g1
      rw [div_lt_iff₀ hα] at this
      linarith
    have k2 : α * t ≤ x (i + 1) := by
      have : t ≤ x (i + 1) / α := g2
      rw [le_div_iff₀ hα] at this
      linarith
    rw [F'.evalI hi g1.le g2, F.evalI (i := i) hi' k1 k2, ha i (by omega), hc i (by omega), ha' i (by omega),
      hc' i (by omega)]
    show a' i * (t - x i / α) ^ 3 + b' i * (t - x i / α) ^ 2 + c' i * (t - x i / α) + y i / β =
      (a i * (α * t - x i) ^ 3 + b i * (α * t - x i) ^ 2 + c i * (α * t - x i) + y i) / β
    rw [u i (by omega), (v i hi').1, (v i hi').2]
    field_simp
  · have k : x (p + 2) ≤ α * t := by
      have : x (p + 2) / α < t := g
      rw [div_lt_iff₀ hα] at this
      linarith
    rw [F'.evalR g.le, F.evalR k]
    have e : ∀ (X Y A B C : ℕ → ℝ), (finish (p + 3) X Y false ⟨A, B, C⟩).c (p + 2) =
        3 * A (p + 1) * (X (p + 2) - X (p + 1)) * (X (p + 2) - X (p + 1)) +
          2 * B (p + 1) * (X (p + 2) - X (p + 1)) + C (p + 1) := by
      intro X Y A B C
      have : (finish (p + 3) X Y false ⟨A, B, C⟩).c (p + 2) =
          3 * (Function.update A (p + 2) 0) (p + 1) * (X (p + 2) - X (p + 1)) * (X (p + 2) - X (p + 1)) +
          2 * B (p + 1) * (X (p + 2) - X (p + 1)) + C (p + 1) := Function.update_self _ _ _
      rw [this, Function.update_of_ne (by omega)]
    show b' (p + 2) * (t - x (p + 2) / α) ^ 2 +
      (finish (p + 3) (fun i => x i / α) (fun i => y i / β) false ⟨a', b', c'⟩).c (p + 2) * (t - x (p + 2) / α) +
        y (p + 2) / β = (b (p + 2) * (α * t - x (p + 2)) ^ 2 +
      (finish (p + 3) x y false ⟨a, b, c⟩).c (p + 2) * (α * t - x (p + 2)) + y (p + 2)) / β
    rw [e, e, u (p + 2) (by omega), u (p + 1) (by omega), (v (p + 1) (by omega)).1, (v (p + 1) (by omega)).2]
    field_simp

/-! ## The search -/

theorem search_some {S : ℝ → ℝ} {lfA : ℝ} (fuel : ℕ) : ∀ {E : Ends} {F : Found},
    search S lfA fuel E = some F → F.lfA1 = S F.leta1 ∧ lfA ≠ 0 ∧ |1 - F.lfA1 / lfA| ≤ 0.00001 := by
  induction fuel with
  | zero => intro E F h; cases h
  | succ fuel ih =>
    intro E F h
    unfold search at h
    simp only [Option.bind_eq_bind] at h
    obtain ⟨⟨F', E'⟩, h1, h⟩ := Option.bind_eq_some_iff.mp h
    obtain ⟨q, h2, h⟩ := Option.bind_eq_some_iff.mp h
    by_cases g : |1 - q| > 0.00001
    · rw [if_pos g] at h
      exact ih h
    · rw [if_neg g] at h
      obtain rfl : F' = F := Option.some.inj h
      unfold Cosmo.quot at h2
      split_ifs at h2 with h0
      obtain rfl := Option.some.inj h2
      refine ⟨?_, h0, not_lt.mp g⟩
      unfold turn at h1
      simp only [Option.bind_eq_bind] at h1
      obtain ⟨l, _, h1⟩ := Option.bind_eq_some_iff.mp h1
      obtain ⟨q, _, h1⟩ := Option.bind_eq_some_iff.mp h1
      have : (⟨E.e0 + q, S (E.e0 + q)⟩ : Found) = F' := congrArg Prod.fst (Option.some.inj h1)
      rw [← this]

end CosTable
end Jaxions
