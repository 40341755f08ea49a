import Verif.Basic.Fold
import Mathlib.Data.Nat.Notation
import Mathlib.Data.List.Nodup
import Mathlib.Data.List.Basic

/-
Whole array operations: a transform of a list of cells into another, and a factor on a
list of cells.
-/

namespace Jaxions

variable {A K : Type} [DecidableEq A]

/-- Read `n` cells, compute `n'` numbers from the list of their values, write them.  This
is the contract of a library call that transforms arrays. -/
def mapCells (T : List K → ℕ → K) (src : ℕ → A) (n : ℕ) (dst : ℕ → A) (n' : ℕ) (h : Heap A K) :
    Option (Heap A K) :=
  (readAll ((List.range n).map src) h).bind fun xs =>
    writeAll ((List.range n').map fun i => (dst i, T xs i)) h

/-- `*p = f(*p)` for `n` cells. -/
def updCell (f : K → K) (dst : ℕ → A) (h : Heap A K) (k : ℕ) : Option (Heap A K) :=
  (h (dst k)).bind fun x => h.write (dst k) (f x)

def updCells (f : K → K) (dst : ℕ → A) (n : ℕ) (h : Heap A K) : Option (Heap A K) :=
  (List.range n).foldlM (updCell f dst) h

omit [DecidableEq A] in
theorem readAll_map (n : ℕ) (src : ℕ → A) (X : ℕ → K)
    (h : Heap A K) (hs : ∀ i < n, h (src i) = some (X i)) :
    readAll ((List.range n).map src) h = some ((List.range n).map X) := by
  obtain ⟨xs, e1, e2⟩ := readAll_some ((List.range n).map src) h (by
    intro a ha
    obtain ⟨i, hi, rfl⟩ := List.mem_map.1 ha
    rw [hs i (List.mem_range.1 hi)]; rfl)
  rw [e1]
  congr 1
  have : xs.map some = ((List.range n).map X).map some := by
    rw [← e2, List.map_map, List.map_map]
    refine List.map_congr_left ?_
    intro i hi
    exact hs i (List.mem_range.1 hi)
  exact List.map_injective_iff.mpr (fun _ _ h => Option.some.inj h) this

theorem mapCells_spec (T : List K → ℕ → K) (src : ℕ → A) (n : ℕ) (dst : ℕ → A) (n' : ℕ)
    (h : Heap A K) (X : ℕ → K) (hs : ∀ i < n, h (src i) = some (X i))
    (hd : ∀ i < n', (h (dst i)).isSome) (hinj : ∀ i < n', ∀ j < n', dst i = dst j → i = j) :
    ∃ h', mapCells T src n dst n' h = some h' ∧
      (∀ i < n', h' (dst i) = some (T ((List.range n).map X) i)) ∧
      (∀ a, (∀ i < n', a ≠ dst i) → h' a = h a) := by
  unfold mapCells
  rw [readAll_map n src X h hs]
  have hmap : ((List.range n').map fun i => (dst i, T ((List.range n).map X) i)).map Prod.fst =
      (List.range n').map dst := by rw [List.map_map]; rfl
  obtain ⟨h', e1, e2, e3⟩ := writeAll_spec
    ((List.range n').map fun i => (dst i, T ((List.range n).map X) i)) h
    (by
      intro p hp
      obtain ⟨i, hi, rfl⟩ := List.mem_map.1 hp
      exact hd i (List.mem_range.1 hi))
    (by
      rw [hmap]
      refine List.Nodup.map_on ?_ List.nodup_range
      intro i hi j hj
      exact hinj i (List.mem_range.1 hi) j (List.mem_range.1 hj))
  refine ⟨h', e1, ?_, ?_⟩
  · intro i hi
    exact e2 (dst i, T ((List.range n).map X) i) (List.mem_map.2 ⟨i, List.mem_range.2 hi, rfl⟩)
  · intro a ha
    refine e3 a ?_
    rw [hmap]
    intro hm
    obtain ⟨i, hi, rfl⟩ := List.mem_map.1 hm
    exact ha i (List.mem_range.1 hi) rfl

theorem updCells_spec (f : K → K) (dst : ℕ → A) (n : ℕ) (h : Heap A K)
    (hd : ∀ i < n, (h (dst i)).isSome) (hinj : ∀ i < n, ∀ j < n, dst i = dst j → i = j) :
    ∃ h', updCells f dst n h = some h' ∧
      (∀ i < n, h' (dst i) = (h (dst i)).map f) ∧
      (∀ a, (∀ i < n, a ≠ dst i) → h' a = h a) := by
  have key := range_inv (f := updCell f dst) (s := h)
    (P := fun m t => (∀ i < m, t (dst i) = (h (dst i)).map f) ∧
      (∀ a, (∀ i < m, a ≠ dst i) → t a = h a)) n
    ⟨fun i hi => absurd hi (Nat.not_lt_zero i), fun _ _ => rfl⟩
    (by
      intro m hm t ⟨t1, t2⟩
      have hcur : t (dst m) = h (dst m) := t2 _ (by
        intro i hi hc
        have := hinj m hm i (by omega) hc
        omega)
      obtain ⟨x, hx⟩ := Option.isSome_iff_exists.1 (hd m hm)
      have hw : (t (dst m)).isSome := by rw [hcur, hx]; rfl
      refine ⟨fun b => if b = dst m then some (f x) else t b, ?_, ?_, ?_⟩
      · unfold updCell
        rw [hcur, hx]
        exact write_eq _ _ _ hw
      · intro i hi
        by_cases hc : dst i = dst m
        · dsimp only
          rw [if_pos hc, hc, hx]; rfl
        · dsimp only
          rw [if_neg hc]
          refine t1 i ?_
          have : i ≠ m := fun he => hc (by rw [he])
          omega
      · intro a ha
        dsimp only
        rw [if_neg (ha m (by omega))]
        exact t2 a (fun i hi => ha i (by omega)))
  obtain ⟨h', k1, k2, k3⟩ := key
  exact ⟨h', k1, k2, k3⟩

theorem updCells_none (f : K → K) (dst : ℕ → A) (n : ℕ) (h : Heap A K) {k : ℕ} (hk : k < n)
    (hbad : h (dst k) = none) : updCells f dst n h = none := by
  have aux : ∀ (l : List ℕ) (t : Heap A K), t (dst k) = none → k ∈ l →
      l.foldlM (updCell f dst) t = none := by
    intro l
    induction l with
    | nil => intro t _ hm; exact absurd hm List.not_mem_nil
    | cons j l ih =>
      intro t ht hm
      rw [List.foldlM_cons]
      cases hu : updCell f dst t j with
      | none => rfl
      | some t' =>
        have hne : dst k ≠ dst j := by
          intro hc
          unfold updCell at hu
          rw [← hc, ht] at hu
          exact absurd hu (by simp)
        have ht' : t' (dst k) = none := by
          unfold updCell at hu
          cases hx : t (dst j) with
          | none => rw [hx] at hu; exact absurd hu (by simp)
          | some x =>
            rw [hx] at hu
            have hu : t.write (dst j) (f x) = some t' := hu
            rw [write_eq _ _ _ (by rw [hx]; rfl), Option.some.injEq] at hu
            subst hu
            dsimp only
            rw [if_neg hne, ht]
        refine ih t' ht' ?_
        rcases List.mem_cons.1 hm with rfl | hm
        · exact absurd rfl hne
        · exact hm
  exact aux _ h hbad (List.mem_range.2 hk)

/-- Writing allocates and frees nothing. -/
theorem writeAll_isSome (l : List (A × K)) {h h' : Heap A K} (e : writeAll l h = some h') (a : A) :
    (h' a).isSome = (h a).isSome := by
  induction l generalizing h with
  | nil => cases e; rfl
  | cons p l ih =>
    unfold writeAll at e
    rw [List.foldlM_cons] at e
    by_cases hp : (h p.1).isSome
    · rw [write_eq _ _ _ hp] at e
      rw [ih e]
      by_cases hc : a = p.1
      · rw [if_pos hc, hc, hp]; rfl
      · rw [if_neg hc]
    · exfalso
      have : h.write p.1 p.2 = none := by
        unfold Heap.write
        exact if_neg hp
      rw [this] at e
      exact absurd e (by simp)

theorem mapCells_isSome {T : List K → ℕ → K} {src : ℕ → A} {n : ℕ} {dst : ℕ → A} {n' : ℕ}
    {h h' : Heap A K} (e : mapCells T src n dst n' h = some h') (a : A) :
    (h' a).isSome = (h a).isSome := by
  unfold mapCells at e
  cases hr : readAll ((List.range n).map src) h with
  | none => rw [hr] at e; exact absurd e (by simp)
  | some xs => rw [hr] at e; exact writeAll_isSome _ e a

end Jaxions
