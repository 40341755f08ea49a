import Verif.Basic.Heap

/-!
Rules for programs that run over a list of iterations, in the given order, and may be undefined.
-/

namespace Jaxions

/-- Invariant over the iterations already done. -/
theorem foldlM_inv {σ ι : Type _} {f : σ → ι → Option σ} {P : List ι → σ → Prop} {s : σ}
    (L : List ι) (h0 : P [] s)
    (hstep : ∀ pre i post, L = pre ++ i :: post → ∀ t, P pre t →
      ∃ t', f t i = some t' ∧ P (pre ++ [i]) t') :
    ∃ s', L.foldlM f s = some s' ∧ P L s' := by
  suffices h : ∀ (post pre : List ι) (t : σ), L = pre ++ post → P pre t →
      ∃ s', post.foldlM f t = some s' ∧ P L s' by
    exact h L [] s rfl h0
  intro post
  induction post with
  | nil => intro pre t hL ht; exact ⟨t, rfl, by rw [hL, List.append_nil]; exact ht⟩
  | cons i post ih =>
    intro pre t hL ht
    obtain ⟨t', h1, h2⟩ := hstep pre i post hL t ht
    obtain ⟨s', h3, h4⟩ := ih (pre ++ [i]) t' (by rw [hL]; simp) h2
    exact ⟨s', by rw [List.foldlM_cons, h1]; exact h3, h4⟩

/-- Invariant of a counted loop. -/
theorem range_inv {σ : Type} {f : σ → Nat → Option σ} {P : Nat → σ → Prop} {s : σ} (n : Nat)
    (h0 : P 0 s) (hstep : ∀ i, i < n → ∀ t, P i t → ∃ t', f t i = some t' ∧ P (i + 1) t') :
    ∃ s', (List.range n).foldlM f s = some s' ∧ P n s' :=
  loop_inv (body := fun i s => f s i) h0 hstep

end Jaxions
