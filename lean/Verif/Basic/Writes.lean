import Verif.Basic.Heap
/-
A run of writes that succeeds found all its cells allocated.
-/
namespace Jaxions

theorem writeAll_dst {A α : Type} [DecidableEq A] (l : List (A × α)) {h h' : Heap A α}
    (e : writeAll l h = some h') : ∀ p ∈ l, (h p.1).isSome := by
  induction l generalizing h with
  | nil => simp
  | cons q l ih =>
    unfold writeAll at e
    rw [List.foldlM_cons] at e
    by_cases hq : (h q.1).isSome
    · rw [write_eq _ _ _ hq] at e
      intro p hp
      rcases List.mem_cons.1 hp with rfl | hp
      · exact hq
      · have := ih e p hp
        by_cases hc : p.1 = q.1
        · rw [hc]; exact hq
        · rwa [if_neg hc] at this
    · exfalso
      have : h.write q.1 q.2 = none := by
        unfold Heap.write
        exact if_neg hq
      rw [this] at e
      exact absurd e (by simp)

theorem memmove_dst {A α : Type} [DecidableEq A] {dst src : Nat → A} {n : Nat} {h h' : Heap A α}
    (e : memmove dst src n h = some h') : ∀ i < n, (h (dst i)).isSome := by
  unfold memmove at e
  cases hr : readAll ((List.range n).map src) h with
  | none => rw [hr] at e; exact absurd e (by simp)
  | some xs =>
    rw [hr] at e
    have hlen : xs.length = n := by
      have h0 : ∀ (as : List A) (ys : List α), readAll as h = some ys → ys.length = as.length := by
        intro as
        induction as with
        | nil => intro ys h0; simp [readAll] at h0; simp [← h0]
        | cons a as ih =>
          intro ys h0
          simp only [readAll, List.mapM_cons, Option.bind_eq_bind, Option.bind_eq_some_iff,
            Option.pure_def, Option.some.injEq] at h0
          obtain ⟨z, -, zs, h1, rfl⟩ := h0
          simp [ih zs h1]
      simpa using h0 _ _ hr
    intro i hi
    refine writeAll_dst _ e (dst i, xs[i]'(by omega)) ?_
    rw [List.mem_iff_getElem]
    exact ⟨i, by simp [hlen, hi], by simp⟩

end Jaxions
