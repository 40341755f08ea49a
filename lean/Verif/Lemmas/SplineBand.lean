import Verif.Model.Spline
import Verif.Basic.Fold
import Mathlib.Tactic.Ring
import Mathlib.Tactic.LinearCombination
import Mathlib.Tactic.Linarith
import Mathlib.Tactic.FieldSimp

/-!
# Tridiagonal systems

What the band matrix routines of `spline.h` do to a matrix with one band above and one below.
-/

namespace Jaxions
namespace Spline

variable {K : Type}

/-- The matrix has `l` below the diagonal, `d` on it, `u` above it and `s` saved. -/
structure Tri (A : Band K) (n : ℕ) (l d u s : ℕ → K) : Prop where
  dim : A.dim = n
  nu : A.nu = 1
  nl : A.nl = 1
  lo : ∀ i, i + 1 < n → A.lo 1 (i + 1) = l (i + 1)
  di : ∀ i, i < n → A.up 0 i = d i
  up : ∀ i, i + 1 < n → A.up 1 i = u i
  sd : ∀ i, i < n → A.lo 0 i = s i

namespace Tri
variable {A : Band K} {n : ℕ} {l d u s : ℕ → K}

theorem congr {l' d' u' s' : ℕ → K} (h : Tri A n l d u s) (hl : ∀ i, i + 1 < n → l (i + 1) = l' (i + 1))
    (hd : ∀ i, i < n → d i = d' i) (hu : ∀ i, i + 1 < n → u i = u' i) (hs : ∀ i, i < n → s i = s' i) :
    Tri A n l' d' u' s' :=
  ⟨h.dim, h.nu, h.nl, fun i hi => (h.lo i hi).trans (hl i hi), fun i hi => (h.di i hi).trans (hd i hi),
    fun i hi => (h.up i hi).trans (hu i hi), fun i hi => (h.sd i hi).trans (hs i hi)⟩

theorem in_di (h : Tri A n l d u s) {i : ℕ} (hi : i < n) : A.Inside i i := by
  unfold Band.Inside; rw [h.dim]; omega

theorem in_lo (h : Tri A n l d u s) {i : ℕ} (hi : i + 1 < n) : A.Inside (i + 1) i := by
  unfold Band.Inside; rw [h.dim, h.nl, h.nu]; omega

theorem in_up (h : Tri A n l d u s) {i : ℕ} (hi : i + 1 < n) : A.Inside i (i + 1) := by
  unfold Band.Inside; rw [h.dim, h.nl, h.nu]; omega

theorem get_di (h : Tri A n l d u s) {i : ℕ} (hi : i < n) : A.get i i = some (d i) := by
  unfold Band.get
  rw [if_pos (h.in_di hi), if_pos le_rfl, Nat.sub_self, h.di i hi]

theorem get_lo (h : Tri A n l d u s) {i : ℕ} (hi : i + 1 < n) : A.get (i + 1) i = some (l (i + 1)) := by
  unfold Band.get
  rw [if_pos (h.in_lo hi), if_neg (show ¬ i + 1 ≤ i by omega), Nat.add_sub_cancel_left, h.lo i hi]

theorem get_up (h : Tri A n l d u s) {i : ℕ} (hi : i + 1 < n) : A.get i (i + 1) = some (u i) := by
  unfold Band.get
  rw [if_pos (h.in_up hi), if_pos (show i ≤ i + 1 by omega), Nat.add_sub_cancel_left, h.up i hi]

theorem set_di (h : Tri A n l d u s) {i : ℕ} (hi : i < n) (v : K) :
    ∃ A', A.set i i v = some A' ∧ Tri A' n l (Function.update d i v) u s := by
  unfold Band.set
  rw [if_pos (h.in_di hi), if_pos le_rfl, Nat.sub_self]
  refine ⟨_, rfl, h.dim, h.nu, h.nl, h.lo, ?_, ?_, h.sd⟩
  · intro j hj
    simp only [Function.update_self]
    by_cases e : j = i
    · subst e; simp
    · simp [Function.update_of_ne e, h.di j hj]
  · intro j hj
    simp only [Function.update_of_ne (show (1 : ℕ) ≠ 0 by omega), h.up j hj]

theorem set_lo (h : Tri A n l d u s) {i : ℕ} (hi : i + 1 < n) (v : K) :
    ∃ A', A.set (i + 1) i v = some A' ∧ Tri A' n (Function.update l (i + 1) v) d u s := by
  unfold Band.set
  rw [if_pos (h.in_lo hi), if_neg (show ¬ i + 1 ≤ i by omega), Nat.add_sub_cancel_left]
  refine ⟨_, rfl, h.dim, h.nu, h.nl, ?_, h.di, h.up, ?_⟩
  · intro j hj
    simp only [Function.update_self]
    by_cases e : j = i
    · subst e; simp
    · have : j + 1 ≠ i + 1 := by omega
      simp [Function.update_of_ne this, h.lo j hj]
  · intro j hj
    simp only [Function.update_of_ne (show (0 : ℕ) ≠ 1 by omega), h.sd j hj]

theorem set_up (h : Tri A n l d u s) {i : ℕ} (hi : i + 1 < n) (v : K) :
    ∃ A', A.set i (i + 1) v = some A' ∧ Tri A' n l d (Function.update u i v) s := by
  unfold Band.set
  rw [if_pos (h.in_up hi), if_pos (show i ≤ i + 1 by omega), Nat.add_sub_cancel_left]
  refine ⟨_, rfl, h.dim, h.nu, h.nl, h.lo, ?_, ?_, h.sd⟩
  · intro j hj
    simp only [Function.update_of_ne (show (0 : ℕ) ≠ 1 by omega), h.di j hj]
  · intro j hj
    simp only [Function.update_self]
    by_cases e : j = i
    · subst e; simp
    · simp [Function.update_of_ne e, h.up j hj]

theorem save (h : Tri A n l d u s) (i : ℕ) (v : K) :
    Tri (A.save i v) n l d u (Function.update s i v) := by
  refine ⟨h.dim, h.nu, h.nl, ?_, h.di, h.up, ?_⟩
  · intro j hj
    simp only [Band.save, Function.update_of_ne (show (1 : ℕ) ≠ 0 by omega), h.lo j hj]
  · intro j hj
    simp only [Band.save, Function.update_self]
    by_cases e : j = i
    · subst e; simp
    · simp [Function.update_of_ne e, h.sd j hj]

end Tri

theorem update_if (f g : ℕ → K) (m : ℕ) :
    Function.update (fun i => if i < m then f i else g i) m (f m) =
      fun i => if i < m + 1 then f i else g i := by
  funext i
  by_cases e : i = m
  · subst e; simp
  · rw [Function.update_of_ne e]
    by_cases h : i < m
    · rw [if_pos h, if_pos (by omega)]
    · rw [if_neg h, if_neg (by omega)]

variable [Field K] [LinearOrder K]

/-- The turn of the inner loop of `scaleRow`. -/
def mulAt (i : ℕ) (A : Band K) (j : ℕ) : Option (Band K) := do A.set i j ((← A.get i j) * A.lo 0 i)

namespace Tri
variable {A : Band K} {n : ℕ} {l d u s : ℕ → K}

omit [LinearOrder K] in
theorem mul_di (h : Tri A n l d u s) {i : ℕ} (hi : i < n) :
    ∃ A', mulAt i A i = some A' ∧ Tri A' n l (Function.update d i (d i * s i)) u s := by
  obtain ⟨A', h1, h2⟩ := h.set_di hi (d i * s i)
  refine ⟨A', ?_, h2⟩
  unfold mulAt
  rw [h.get_di hi, h.sd i hi]
  exact h1

omit [LinearOrder K] in
theorem mul_lo (h : Tri A n l d u s) {i : ℕ} (hi : i + 1 < n) :
    ∃ A', mulAt (i + 1) A i = some A' ∧ Tri A' n (Function.update l (i + 1) (l (i + 1) * s (i + 1))) d u s := by
  obtain ⟨A', h1, h2⟩ := h.set_lo hi (l (i + 1) * s (i + 1))
  refine ⟨A', ?_, h2⟩
  unfold mulAt
  rw [h.get_lo hi, h.sd _ hi]
  exact h1

omit [LinearOrder K] in
theorem mul_up (h : Tri A n l d u s) {i : ℕ} (hi : i + 1 < n) :
    ∃ A', mulAt i A (i + 1) = some A' ∧ Tri A' n l d (Function.update u i (u i * s i)) s := by
  obtain ⟨A', h1, h2⟩ := h.set_up hi (u i * s i)
  refine ⟨A', ?_, h2⟩
  unfold mulAt
  rw [h.get_up hi, h.sd i (by omega)]
  exact h1

/-- A row is divided by its diagonal. -/
theorem scaleRow (h : Tri A n l d u s) (hn : 2 ≤ n) {i : ℕ} (hi : i < n) (hd : d i ≠ 0) :
    ∃ A', A.scaleRow i = some A' ∧ Tri A' n (Function.update l i (l i / d i)) (Function.update d i 1)
      (Function.update u i (u i / d i)) (Function.update s i (1 / d i)) := by
  unfold Band.scaleRow
  simp only [h.get_di hi, Option.bind_eq_bind, Option.bind_some, if_neg hd]
  have h0 := h.save i (1 / d i)
  have e : ∀ l : List ℕ, l.foldlM (fun A j => do A.set i j ((← A.get i j) * A.lo 0 i)) (A.save i (1 / d i)) =
    l.foldlM (mulAt i) (A.save i (1 / d i)) := fun _ => rfl
  simp only [Option.bind_eq_bind] at e
  rw [e, h0.nl, h0.dim, h0.nu]
  -- the diagonal, whatever comes before and after
  have fin : ∀ {B : Band K} {l' u' : ℕ → K} {v : K},
      Tri B n l' (Function.update d i v) u' (Function.update s i (1 / d i)) →
      (∀ j, j + 1 < n → l' (j + 1) = Function.update l i (l i / d i) (j + 1)) →
      (∀ j, j + 1 < n → u' j = Function.update u i (u i / d i) j) →
      ∃ A', (some B).bind (fun A => A.set i i 1) = some A' ∧ Tri A' n (Function.update l i (l i / d i))
        (Function.update d i 1) (Function.update u i (u i / d i)) (Function.update s i (1 / d i)) := by
    intro B l' u' v hB hl hu
    obtain ⟨A', g1, g2⟩ := hB.set_di hi 1
    refine ⟨A', g1, g2.congr hl ?_ hu (fun _ _ => rfl)⟩
    intro j _
    rw [Function.update_idem]
  have si : Function.update s i (1 / d i) i = 1 / d i := Function.update_self ..
  cases i with
  | zero =>
    have : Band.upto (0 - 1) (min (n - 1) (0 + 1)) = [0, 1] := by
      rw [show min (n - 1) (0 + 1) = 1 by omega]; rfl
    rw [this]
    obtain ⟨A1, a1, a2⟩ := h0.mul_di hi
    obtain ⟨A2, b1, b2⟩ := a2.mul_up (by omega : 0 + 1 < n)
    simp only [List.foldlM_cons, List.foldlM_nil, Option.bind_eq_bind, a1, Option.bind_some, pure]
    rw [show mulAt 0 A1 1 = some A2 from b1]
    refine fin b2 ?_ ?_
    · intro j _; rw [Function.update_of_ne (by omega)]
    · intro j _; rw [si, mul_one_div]
  | succ i =>
    obtain ⟨A0, z1, z2⟩ := h0.mul_lo hi
    obtain ⟨A1, a1, a2⟩ := z2.mul_di hi
    by_cases hu : i + 1 + 1 < n
    · have : Band.upto (i + 1 - 1) (min (n - 1) (i + 1 + 1)) = [i, i + 1, i + 1 + 1] := by
        rw [show min (n - 1) (i + 1 + 1) = i + 2 by omega, Nat.add_sub_cancel]
        unfold Band.upto
        rw [show i + 2 + 1 - i = 3 by omega]; rfl
      rw [this]
      obtain ⟨A2, b1, b2⟩ := a2.mul_up hu
      simp only [List.foldlM_cons, List.foldlM_nil, Option.bind_eq_bind, z1, a1, b1, Option.bind_some, pure]
      refine fin b2 ?_ ?_
      · intro j _; rw [si, mul_one_div]
      · intro j _; rw [si, mul_one_div]
    · have : Band.upto (i + 1 - 1) (min (n - 1) (i + 1 + 1)) = [i, i + 1] := by
        rw [show min (n - 1) (i + 1 + 1) = i + 1 by omega, Nat.add_sub_cancel]
        unfold Band.upto
        rw [show i + 1 + 1 - i = 2 by omega]; rfl
      rw [this]
      simp only [List.foldlM_cons, List.foldlM_nil, Option.bind_eq_bind, z1, a1, Option.bind_some, pure]
      refine fin a2 ?_ ?_
      · intro j _; rw [si, mul_one_div]
      · intro j hj; rw [Function.update_of_ne (by omega)]

end Tri

namespace Tri
variable {A : Band K} {n : ℕ} {l d u s : ℕ → K}

theorem scale (h : Tri A n l d u s) (hn : 2 ≤ n) (hd : ∀ i < n, d i ≠ 0) :
    ∃ A', (List.range A.dim).foldlM Band.scaleRow A = some A' ∧
      Tri A' n (fun i => l i / d i) (fun _ => 1) (fun i => u i / d i) (fun i => 1 / d i) := by
  rw [h.dim]
  obtain ⟨A', h1, h2⟩ := range_inv (f := Band.scaleRow) (s := A)
    (P := fun m B => Tri B n (fun i => if i < m then l i / d i else l i) (fun i => if i < m then 1 else d i)
      (fun i => if i < m then u i / d i else u i) (fun i => if i < m then 1 / d i else s i)) n
    (by simpa using h) (by
      intro i hi B hB
      obtain ⟨B', g1, g2⟩ := hB.scaleRow hn hi (by rw [if_neg (lt_irrefl i)]; exact hd i hi)
      refine ⟨B', g1, ?_⟩
      simp only [lt_irrefl, if_false] at g2
      rw [update_if (fun i => l i / d i), update_if (fun _ => (1 : K)), update_if (fun i => u i / d i),
        update_if (fun i => 1 / d i)] at g2
      exact g2)
  refine ⟨A', h1, h2.congr ?_ ?_ ?_ ?_⟩
  · intro i hi; rw [if_pos hi]
  · intro i hi; rw [if_pos hi]
  · intro i hi; rw [if_pos (by omega)]
  · intro i hi; rw [if_pos hi]

/-- The elimination below one diagonal element. -/
theorem elim (h : Tri A n l d u s) {k : ℕ} (hk : k + 1 < n) (hd : d k ≠ 0) :
    ∃ A', A.elim k (k + 1) = some A' ∧ Tri A' n (Function.update l (k + 1) (l (k + 1) / d k))
      (Function.update d (k + 1) (d (k + 1) - l (k + 1) / d k * u k)) u s := by
  unfold Band.elim
  simp only [h.get_di (by omega : k < n), h.get_lo hk, Option.bind_eq_bind, Option.bind_some, if_neg hd]
  obtain ⟨A1, a1, a2⟩ := h.set_lo hk (-(-l (k + 1) / d k))
  rw [a1, Option.bind_some, a2.dim, a2.nu]
  have : Band.upto (k + 1) (min (n - 1) (k + 1)) = [k + 1] := by
    rw [show min (n - 1) (k + 1) = k + 1 by omega]
    unfold Band.upto
    rw [Nat.add_sub_cancel_left]; rfl
  rw [this]
  simp only [List.foldlM_cons, List.foldlM_nil, Option.bind_eq_bind, a2.get_di hk, a2.get_up hk, Option.bind_some,
    pure]
  obtain ⟨A2, b1, b2⟩ := a2.set_di hk (d (k + 1) + -l (k + 1) / d k * u k)
  rw [b1]
  refine ⟨A2, rfl, b2.congr ?_ ?_ (fun _ _ => rfl) (fun _ _ => rfl)⟩
  · intro i _
    rw [show -(-l (k + 1) / d k) = l (k + 1) / d k by rw [neg_div, neg_neg]]
  · intro i _
    rw [show d (k + 1) + -l (k + 1) / d k * u k = d (k + 1) - l (k + 1) / d k * u k by
      rw [neg_div]; ring]

end Tri

/-- The diagonal after the elimination. -/
def pivot (l u : ℕ → K) : ℕ → K
  | 0 => 1
  | i + 1 => 1 - l (i + 1) / pivot l u i * u i

namespace Tri
variable {A : Band K} {n : ℕ} {l u s : ℕ → K}

theorem gauss (h : Tri A n l (fun _ => 1) u s) (hn : 2 ≤ n) (hp : ∀ i < n, pivot l u i ≠ 0) :
    ∃ A', (List.range A.dim).foldlM
        (fun A k => (Band.upto (k + 1) (min (A.dim - 1) (k + A.nl))).foldlM (fun A i => A.elim k i) A) A =
        some A' ∧
      Tri A' n (fun i => l i / pivot l u (i - 1)) (pivot l u) u s := by
  rw [h.dim]
  obtain ⟨A', h1, h2⟩ := range_inv (s := A)
    (f := fun A k => (Band.upto (k + 1) (min (A.dim - 1) (k + A.nl))).foldlM (fun A i => A.elim k i) A)
    (P := fun m B => Tri B n (fun i => if i < m + 1 then l i / pivot l u (i - 1) else l i)
      (fun i => if i < m + 1 then pivot l u i else 1) u s) n
    (by
      refine h.congr ?_ ?_ (fun _ _ => rfl) (fun _ _ => rfl)
      · intro i _; rw [if_neg (by omega)]
      · intro i _
        by_cases e : i = 0
        · subst e; rfl
        · rw [if_neg (by omega)]) (by
      intro k hk B hB
      rw [hB.dim, hB.nl]
      by_cases hk' : k + 1 < n
      · have : Band.upto (k + 1) (min (n - 1) (k + 1)) = [k + 1] := by
          rw [show min (n - 1) (k + 1) = k + 1 by omega]
          unfold Band.upto
          rw [Nat.add_sub_cancel_left]; rfl
        rw [this]
        have hpk : (if k < k + 1 then pivot l u k else 1) ≠ 0 := by
          rw [if_pos (by omega)]; exact hp k hk
        obtain ⟨B', g1, g2⟩ := hB.elim hk' hpk
        simp only [List.foldlM_cons, List.foldlM_nil, Option.bind_eq_bind, g1, Option.bind_some, pure]
        refine ⟨B', rfl, ?_⟩
        simp only [lt_irrefl, if_false, Nat.lt_succ_self, if_true] at g2
        rw [show l (k + 1) / pivot l u k = (fun i => l i / pivot l u (i - 1)) (k + 1) by simp,
          update_if (fun i => l i / pivot l u (i - 1))] at g2
        rw [show 1 - (fun i => l i / pivot l u (i - 1)) (k + 1) * u k = pivot l u (k + 1) by
          simp [pivot], update_if (pivot l u)] at g2
        exact g2
      · have : Band.upto (k + 1) (min (n - 1) (k + 1)) = [] := by
          unfold Band.upto
          rw [show min (n - 1) (k + 1) + 1 - (k + 1) = 0 by omega]; rfl
        rw [this]
        refine ⟨B, rfl, hB.congr ?_ ?_ (fun _ _ => rfl) (fun _ _ => rfl)⟩
        · intro i hi; rw [if_pos (by omega), if_pos (by omega)]
        · intro i hi; rw [if_pos (by omega), if_pos (by omega)])
  refine ⟨A', h1, h2.congr ?_ ?_ (fun _ _ => rfl) (fun _ _ => rfl)⟩
  · intro i hi; rw [if_pos (by omega)]
  · intro i hi; rw [if_pos (by omega)]

variable {d : ℕ → K}

/-- Forward substitution. -/
theorem lSolve (h : Tri A n l d u s) (b : ℕ → K) :
    ∃ y, A.lSolve b = some y ∧ (0 < n → y 0 = b 0 * s 0) ∧
      ∀ i, i + 1 < n → y (i + 1) = b (i + 1) * s (i + 1) - l (i + 1) * y i := by
  unfold Band.lSolve
  rw [h.dim]
  obtain ⟨y, h1, h2, h3⟩ := range_inv (s := fun _ => (0 : K))
    (f := fun x i => do
      let sum ← (List.range' (i - A.nl) (i - (i - A.nl))).foldlM
        (fun s j => do return s + (← A.get i j) * x j) 0
      return Function.update x i (b i * A.lo 0 i - sum))
    (P := fun m y => (0 < m → y 0 = b 0 * s 0) ∧
      ∀ i, i + 1 < m → y (i + 1) = b (i + 1) * s (i + 1) - l (i + 1) * y i) n
    ⟨by omega, by omega⟩ (by
      rintro i hi y ⟨y1, y2⟩
      rw [h.nl]
      cases i with
      | zero =>
        refine ⟨Function.update y 0 (b 0 * A.lo 0 0 - 0), rfl, ?_, by omega⟩
        intro _
        rw [Function.update_self, h.sd 0 hi, sub_zero]
      | succ i =>
        have : List.range' (i + 1 - 1) (i + 1 - (i + 1 - 1)) = [i] := by
          rw [Nat.add_sub_cancel, Nat.add_sub_cancel_left]; rfl
        rw [this]
        simp only [List.foldlM_cons, List.foldlM_nil, Option.bind_eq_bind, h.get_lo hi, Option.bind_some, pure]
        refine ⟨_, rfl, ?_, ?_⟩
        · intro _
          rw [Function.update_of_ne (by omega)]
          exact y1 (by omega)
        · intro j hj
          by_cases e : j = i
          · subst e
            rw [Function.update_self, Function.update_of_ne (by omega), h.sd _ hi, zero_add]
          · rw [Function.update_of_ne (by omega), Function.update_of_ne (by omega)]
            exact y2 j (by omega))
  exact ⟨y, h1, h2, h3⟩

/-- Backward substitution. -/
theorem rSolve (h : Tri A n l d u s) (hd : ∀ i < n, d i ≠ 0) (b : ℕ → K) :
    ∃ z, A.rSolve b = some z ∧ (∀ i, i + 1 = n → d i * z i = b i) ∧
      ∀ i, i + 1 < n → d i * z i + u i * z (i + 1) = b i := by
  unfold Band.rSolve
  rw [h.dim]
  have hrev : (List.range n).reverse = (List.range n).map (fun k => n - 1 - k) := by
    apply List.ext_getElem
    · simp
    · intro i h1 h2
      simp
  rw [hrev, List.foldlM_map]
  obtain ⟨z, h1, h2⟩ := range_inv (s := fun _ => (0 : K))
    (f := fun x k => do
      let sum ← (Band.upto (n - 1 - k + 1) (min (n - 1) (n - 1 - k + A.nu))).foldlM
        (fun s j => do return s + (← A.get (n - 1 - k) j) * x j) 0
      let p ← A.get (n - 1 - k) (n - 1 - k)
      if p = 0 then none else return Function.update x (n - 1 - k) ((b (n - 1 - k) - sum) / p))
    (P := fun m z => ∀ i, n ≤ i + m → i < n → (i + 1 = n → d i * z i = b i) ∧
      (i + 1 < n → d i * z i + u i * z (i + 1) = b i)) n
    (by intros; omega) (by
      intro k hk z hz
      have hi : n - 1 - k < n := by omega
      obtain ⟨i, ei⟩ : ∃ i, i = n - 1 - k := ⟨_, rfl⟩
      rw [← ei] at hi ⊢
      rw [h.nu, h.get_di hi]
      have hdi := hd i hi
      by_cases hl : i + 1 < n
      · have : Band.upto (i + 1) (min (n - 1) (i + 1)) = [i + 1] := by
          rw [show min (n - 1) (i + 1) = i + 1 by omega]
          unfold Band.upto
          rw [Nat.add_sub_cancel_left]; rfl
        rw [this]
        simp only [List.foldlM_cons, List.foldlM_nil, Option.bind_eq_bind, h.get_up hl, Option.bind_some, pure,
          if_neg hdi, zero_add]
        refine ⟨_, rfl, ?_⟩
        intro j hj hjn
        by_cases e : j = i
        · subst e
          refine ⟨by omega, fun _ => ?_⟩
          rw [Function.update_self, Function.update_of_ne (by omega), mul_div_cancel₀ _ hdi]
          ring
        · rw [Function.update_of_ne e, Function.update_of_ne (by omega)]
          exact hz j (by omega) hjn
      · have : Band.upto (i + 1) (min (n - 1) (i + 1)) = [] := by
          unfold Band.upto
          rw [show min (n - 1) (i + 1) + 1 - (i + 1) = 0 by omega]; rfl
        rw [this]
        simp only [List.foldlM_nil, Option.bind_eq_bind, Option.bind_some, pure, if_neg hdi, sub_zero]
        refine ⟨_, rfl, ?_⟩
        intro j hj hjn
        have e : j = i := by omega
        subst e
        refine ⟨fun _ => ?_, by omega⟩
        rw [Function.update_self, mul_div_cancel₀ _ hdi])
  refine ⟨z, h1, ?_, ?_⟩
  · intro i hi; exact (h2 i (by omega) (by omega)).1 hi
  · intro i hi; exact (h2 i (by omega) (by omega)).2 hi

end Tri

/-- `z` solves the system with the right hand side `b`. -/
def Solves (n : ℕ) (l d u b z : ℕ → K) : Prop :=
  ∀ i < n, (if 0 < i then l i * z (i - 1) else 0) + d i * z i + (if i + 1 < n then u i * z (i + 1) else 0) = b i

/-- Each diagonal element outweighs its row. -/
def Dominant [IsStrictOrderedRing K] (n : ℕ) (l d u : ℕ → K) : Prop :=
  ∀ i < n, (if 0 < i then |l i| else 0) + (if i + 1 < n then |u i| else 0) < d i

variable [IsStrictOrderedRing K] {n : ℕ} {l d u : ℕ → K}

theorem Dominant.pos (h : Dominant n l d u) {i : ℕ} (hi : i < n) : 0 < d i := by
  refine lt_of_le_of_lt ?_ (h i hi)
  have : (0 : K) ≤ if 0 < i then |l i| else 0 := by split_ifs <;> simp
  have : (0 : K) ≤ if i + 1 < n then |u i| else 0 := by split_ifs <;> simp
  linarith

theorem Dominant.scaled (h : Dominant n l d u) :
    Dominant n (fun i => l i / d i) (fun _ => 1) (fun i => u i / d i) := by
  intro i hi
  have hd := h.pos hi
  have k := h i hi
  have e : (if 0 < i then |l i / d i| else 0) + (if i + 1 < n then |u i / d i| else 0) =
      ((if 0 < i then |l i| else 0) + (if i + 1 < n then |u i| else 0)) / d i := by
    rw [abs_div, abs_div, abs_of_pos hd]
    split_ifs <;> simp [add_div]
  rw [e, div_lt_one hd]
  exact k

theorem Dominant.pivot (h : Dominant n l (fun _ => 1) u) :
    ∀ i < n, 0 < Spline.pivot l u i ∧ (i + 1 < n → |u i| < Spline.pivot l u i) := by
  intro i
  induction i with
  | zero =>
    intro hi
    refine ⟨one_pos, fun h1 => ?_⟩
    have k := h 0 hi
    rw [if_neg (lt_irrefl 0), if_pos h1, zero_add] at k
    exact k
  | succ i ih =>
    intro hi
    obtain ⟨p, q⟩ := ih (by omega)
    have q := q hi
    have k := h (i + 1) hi
    rw [if_pos (by omega)] at k
    have bound : l (i + 1) / Spline.pivot l u i * u i ≤ |l (i + 1)| := by
      refine (le_abs_self _).trans ?_
      rw [abs_mul, abs_div, abs_of_pos p, div_mul_eq_mul_div, div_le_iff₀ p]
      exact mul_le_mul_of_nonneg_left q.le (abs_nonneg _)
    have e : Spline.pivot l u (i + 1) = 1 - l (i + 1) / Spline.pivot l u i * u i := rfl
    constructor
    · have : (0 : K) ≤ if i + 1 + 1 < n then |u (i + 1)| else 0 := by split_ifs <;> simp
      linarith
    · intro h1
      rw [if_pos h1] at k
      linarith

/-- The routines solve the system. -/
theorem Tri.luSolve {A : Band K} {s : ℕ → K} (h : Tri A n l d u s) (hn : 2 ≤ n) (hd : Dominant n l d u)
    (b : ℕ → K) : ∃ z, A.luSolve b = some z ∧ Solves n l d u b z := by
  obtain ⟨A1, a1, a2⟩ := h.scale hn (fun i hi => (hd.pos hi).ne')
  have hp := hd.scaled.pivot
  obtain ⟨A2, b1, b2⟩ := a2.gauss hn (fun i hi => (hp i hi).1.ne')
  obtain ⟨y, c1, c2, c3⟩ := b2.lSolve b
  obtain ⟨z, e1, e2, e3⟩ := b2.rSolve (fun i hi => (hp i hi).1.ne') y
  refine ⟨z, ?_, ?_⟩
  · unfold Band.luSolve Band.lu
    rw [a1]
    simp only [Option.bind_eq_bind, Option.bind_some]
    rw [b1]
    simp only [Option.bind_some]
    rw [c1]
    exact e1
  · -- the product of the two factors
    have upper : ∀ i < n, Spline.pivot (fun i => l i / d i) (fun i => u i / d i) i * z i +
        (if i + 1 < n then u i / d i * z (i + 1) else 0) = y i := by
      intro i hi
      by_cases h1 : i + 1 < n
      · rw [if_pos h1]; exact e3 i h1
      · rw [if_neg h1, add_zero]; exact e2 i (by omega)
    intro i hi
    have hdi := (hd.pos hi).ne'
    have k := upper i hi
    have main : (if 0 < i then l i / d i * z (i - 1) else 0) + z i +
        (if i + 1 < n then u i / d i * z (i + 1) else 0) = b i * (1 / d i) := by
      cases i with
      | zero =>
        rw [if_neg (lt_irrefl 0), zero_add]
        rw [c2 (by omega)] at k
        rw [← k]
        simp [Spline.pivot]
      | succ i =>
        rw [if_pos (by omega), Nat.add_sub_cancel]
        have k' := upper i (by omega)
        rw [if_pos hi] at k'
        have c := c3 i hi
        simp only [Nat.add_sub_cancel] at c
        have hpi := (hp i (by omega)).1.ne'
        rw [c, ← k'] at k
        have e : Spline.pivot (fun i => l i / d i) (fun i => u i / d i) (i + 1) =
          1 - l (i + 1) / d (i + 1) / Spline.pivot (fun i => l i / d i) (fun i => u i / d i) i * (u i / d i) := rfl
        rw [e] at k
        have hc : l (i + 1) / d (i + 1) / Spline.pivot (fun i => l i / d i) (fun i => u i / d i) i *
            Spline.pivot (fun i => l i / d i) (fun i => u i / d i) i = l (i + 1) / d (i + 1) :=
          div_mul_cancel₀ _ hpi
        linear_combination k - z i * hc
    have e : ∀ w : K, w / d i * d i = w := fun w => div_mul_cancel₀ _ hdi
    have := congrArg (· * d i) main
    simp only [add_mul] at this
    rw [mul_assoc (b i), one_div, inv_mul_cancel₀ hdi, mul_one] at this
    rw [← this]
    congr 1
    · congr 1
      · split_ifs
        · rw [mul_right_comm, e]
        · simp
      · ring
    · split_ifs
      · rw [mul_right_comm, e]
      · simp

end Spline
end Jaxions
