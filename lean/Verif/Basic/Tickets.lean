import Verif.Basic.Fold
import Mathlib.Data.Nat.Notation
import Mathlib.Data.List.Perm.Basic
import Mathlib.Data.List.Nodup
import Mathlib.Tactic.Ring
/-
Parallel loops that fill an array with random numbers.  Every thread has its own generator; each
iteration takes `n` numbers from the generator of the thread that runs it.
-/

namespace Jaxions

variable {D K C : Type}

/-- Memory and how many numbers each thread has drawn. -/
structure Drawing (K : Type) where
  mem : Heap ℕ K
  used : ℕ → ℕ

/-- One iteration by thread `tc.1`: `val` gets the generator from its current position on. -/
def drawStep (n : ℕ) (val : C → (ℕ → D) → K) (addr : C → ℕ) (draws : ℕ → ℕ → D)
    (s : Drawing K) (tc : ℕ × C) : Option (Drawing K) :=
  (s.mem.write (addr tc.2) (val tc.2 fun i => draws tc.1 (s.used tc.1 + i))).map fun m =>
    ⟨m, Function.update s.used tc.1 (s.used tc.1 + n)⟩

/-- The loop; the list says which thread does which iteration and in what order. -/
def drawAll (n : ℕ) (val : C → (ℕ → D) → K) (addr : C → ℕ) (draws : ℕ → ℕ → D)
    (L : List (ℕ × C)) (s : Drawing K) : Option (Drawing K) :=
  L.foldlM (drawStep n val addr draws) s

/-- Iterations of thread `t` in a list. -/
def ofThread (a : List (ℕ × C)) (t : ℕ) : ℕ := (a.filter fun e => decide (e.1 = t)).length

theorem ofThread_append (a b : List (ℕ × C)) (t : ℕ) :
    ofThread (a ++ b) t = ofThread a t + ofThread b t := by
  unfold ofThread; rw [List.filter_append, List.length_append]

theorem drawAll_spec {n : ℕ} {val : C → (ℕ → D) → K} {addr : C → ℕ} {draws : ℕ → ℕ → D}
    {L : List (ℕ × C)} {s : Drawing K} (hnd : (L.map Prod.snd).Nodup)
    (hinj : ∀ e ∈ L, ∀ e' ∈ L, addr e.2 = addr e'.2 → e.2 = e'.2)
    (hal : ∀ e ∈ L, (s.mem (addr e.2)).isSome) :
    ∃ s', drawAll n val addr draws L s = some s' ∧
      (∃ ticket : C → ℕ × ℕ,
        (∀ c ∈ L.map Prod.snd, s'.mem (addr c) = some (val c fun i =>
          draws (ticket c).1 (s.used (ticket c).1 + n * (ticket c).2 + i))) ∧
        (∀ c ∈ L.map Prod.snd, ∀ c' ∈ L.map Prod.snd, ticket c = ticket c' → c = c')) ∧
      (∀ a, (∀ c ∈ L.map Prod.snd, addr c ≠ a) → s'.mem a = s.mem a) ∧
      (∀ a, (s'.mem a).isSome = (s.mem a).isSome) := by
  obtain ⟨s', e1, e2⟩ := foldlM_inv (f := drawStep n val addr draws) (s := s)
    (P := fun pre t =>
      (∀ a, (t.mem a).isSome = (s.mem a).isSome) ∧
      (∀ i, t.used i = s.used i + n * ofThread pre i) ∧
      (∀ a e b, pre = a ++ e :: b → t.mem (addr e.2) = some (val e.2 fun i =>
        draws e.1 (s.used e.1 + n * ofThread a e.1 + i))) ∧
      (∀ a, (∀ e ∈ pre, addr e.2 ≠ a) → t.mem a = s.mem a)) L
    ⟨fun _ => rfl, fun i => by simp [ofThread], fun a e b h => by simp at h, fun _ _ => rfl⟩
    (by
      rintro pre e post hL t ⟨t1, t2, t3, t4⟩
      have hmem : e ∈ L := by rw [hL]; simp
      have hM : (t.mem (addr e.2)).isSome := by rw [t1]; exact hal e hmem
      have hfresh : ∀ e' ∈ pre, addr e'.2 ≠ addr e.2 := by
        intro e' he' hc
        have h1 := hinj e' (by rw [hL]; simp [he']) e hmem hc
        have h0 := hnd
        rw [hL, List.map_append, List.map_cons] at h0
        exact (List.nodup_append.1 h0).2.2 e'.2 (List.mem_map_of_mem he') e.2 (by simp) h1
      refine ⟨⟨fun b => if b = addr e.2 then
          some (val e.2 fun i => draws e.1 (t.used e.1 + i)) else t.mem b,
        Function.update t.used e.1 (t.used e.1 + n)⟩, ?_, ?_, ?_, ?_, ?_⟩
      · unfold drawStep
        rw [write_eq _ _ _ hM]; rfl
      · intro a
        dsimp only
        by_cases ha : a = addr e.2
        · rw [if_pos ha, ha, hal e hmem]; rfl
        · rw [if_neg ha]; exact t1 a
      · intro i
        dsimp only
        rw [ofThread_append]
        by_cases hi : i = e.1
        · subst hi
          rw [Function.update_self, t2]
          have : ofThread [e] e.1 = 1 := by simp [ofThread]
          rw [this]; ring
        · rw [Function.update_of_ne hi, t2]
          have : ofThread [e] i = 0 := by simp [ofThread, Ne.symm hi]
          rw [this]; ring
      · intro a e' b hab
        dsimp only
        rcases List.eq_nil_or_concat b with rfl | ⟨b', j, rfl⟩
        · obtain ⟨h1, h2⟩ := List.append_inj' hab rfl
          injection h2 with h3
          subst h1; subst h3
          rw [if_pos rfl, t2]
        · rw [List.concat_eq_append, show a ++ e' :: (b' ++ [j]) = (a ++ e' :: b') ++ [j] by simp]
            at hab
          obtain ⟨h1, _⟩ := List.append_inj' hab rfl
          rw [if_neg (hfresh e' (by rw [h1]; simp))]
          exact t3 a e' b' h1
      · intro a ha
        have h1 : addr e.2 ≠ a := ha e (by simp)
        rw [← t4 a fun e' he' => ha e' (by simp [he'])]
        exact if_neg h1.symm)
  have hex : ∀ c, ∃ tk : ℕ × ℕ, c ∈ L.map Prod.snd → ∃ a b, L = a ++ (tk.1, c) :: b ∧
      tk.2 = ofThread a tk.1 := by
    intro c
    by_cases hc : c ∈ L.map Prod.snd
    · obtain ⟨e, he, rfl⟩ := List.mem_map.1 hc
      obtain ⟨a, b, hab⟩ := List.append_of_mem he
      exact ⟨(e.1, ofThread a e.1), fun _ => ⟨a, b, hab, rfl⟩⟩
    · exact ⟨(0, 0), fun h => absurd h hc⟩
  choose ticket htk using hex
  refine ⟨s', e1, ⟨ticket, ?_, ?_⟩, ?_, e2.1⟩
  · intro c hc
    obtain ⟨a, b, hab, ht⟩ := htk c hc
    rw [e2.2.2.1 a _ b hab, ← ht]
  · intro c hc c' hc' he
    obtain ⟨a, b, hab, ht⟩ := htk c hc
    obtain ⟨a', b', hab', ht'⟩ := htk c' hc'
    rw [← he] at ht' hab'
    have key : ∀ {a a' b b' : List (ℕ × C)} {c c' : C} {t : ℕ},
        a ++ (t, c) :: b = a' ++ (t, c') :: b' → a.length < a'.length →
        ofThread a t < ofThread a' t := by
      intro a a' b b' c c' t h hlt
      obtain ⟨m, hm⟩ : ∃ m, a' = a ++ (t, c) :: m := by
        rcases List.append_eq_append_iff.1 h with ⟨m, h1, h2⟩ | ⟨m, h1, h2⟩
        · cases m with
          | nil => rw [h1] at hlt; simp at hlt
          | cons x m =>
            rw [List.cons_append] at h2
            injection h2 with h3 h4
            exact ⟨m, by rw [h1, h3]⟩
        · rw [h1] at hlt; simp at hlt
      rw [hm, show a ++ (t, c) :: m = a ++ ([(t, c)] ++ m) by simp, ofThread_append,
        ofThread_append]
      have : ofThread [(t, c)] t = 1 := by simp [ofThread]
      omega
    rcases Nat.lt_trichotomy a.length a'.length with h | h | h
    · have := key (hab.symm.trans hab') h
      omega
    · obtain ⟨_, h2⟩ := List.append_inj (hab.symm.trans hab') h
      injection h2 with h3 _
      injection h3
    · have := key (hab'.symm.trans hab) h
      omega
  · intro a ha
    refine e2.2.2.2 a ?_
    intro e he hc
    exact ha e.2 (List.mem_map_of_mem he) hc

end Jaxions
