import Verif.Spec.MeasRun
import Mathlib.Data.Nat.Bitwise
import Mathlib.Data.List.Nodup
import Mathlib.Tactic.Tauto

/-
Bits, and the events of lists of calls.
-/

namespace Jaxions.MeasRun

variable {R : Type}

/-! ### Bits -/

theorem on_pow (w i : ℕ) : on w (2 ^ i) = w.testBit i := by
  unfold on
  rw [Nat.and_two_pow]
  cases w.testBit i <;> simp

theorem on_or (w b c : ℕ) : on w (b ||| c) = (on w b || on w c) := by
  unfold on
  rw [Nat.and_or_distrib_left, Bool.eq_iff_iff]
  simp [Nat.or_eq_zero_iff]
  tauto

theorem on_lit {w b i : ℕ} (h : b = 2 ^ i) : on w b = true ↔ Bit w i := by
  rw [h, on_pow, Bit]

theorem left_bit (q : Req R) {i : ℕ} (h : i ≠ 12) : Bit q.left i ↔ Bit q.meas i := by
  unfold Bit Req.left
  by_cases c : on q.meas CONF3D
  · rw [if_pos c, Nat.testBit_xor]
    have : (CONF3D).testBit i = false := by
      rw [show CONF3D = 2 ^ 12 from rfl, Nat.testBit_two_pow]; simp; omega
    rw [this]; simp
  · rw [if_neg c]

theorem left_bit12 (q : Req R) : ¬ Bit q.left 12 := by
  unfold Bit Req.left
  have h : on q.meas CONF3D = q.meas.testBit 12 := on_pow _ 12
  by_cases c : on q.meas CONF3D
  · rw [if_pos c, Nat.testBit_xor]
    rw [h] at c
    rw [c]; decide
  · rw [if_neg c]; rw [h] at c; exact c

theorem left_ne (q : Req R) : q.left ≠ 0 ↔ Something q := by
  constructor
  · intro h
    obtain ⟨i, hi⟩ := Nat.exists_testBit_of_ne_zero h
    have : i ≠ 12 := by rintro rfl; exact left_bit12 q hi
    exact ⟨i, this, (left_bit q this).1 hi⟩
  · rintro ⟨i, hi, h⟩ e
    have := (left_bit q hi).2 h
    rw [e] at this
    simp [Bit] at this

/-- Bits of `measa` in the words of the request. -/
theorem on_left {q : Req R} {b i : ℕ} (h : b = 2 ^ i) (hi : i ≠ 12) :
    on q.left b = true ↔ Bit q.meas i := by
  rw [on_lit h, left_bit q hi]

theorem eff_bit (q : Req R) (k : M) : on q.eff k.bit = true ↔ Used q k := by
  have e : k.bit = 2 ^ k.pos := by cases k <;> rfl
  rw [on_lit e]
  unfold Used Bit Req.eff
  cases hf : q.field <;> simp only [Fits]
  · rw [Nat.testBit_and]
    cases k <;> simp [M.pos, Nat.testBit_succ]
  · rw [Nat.testBit_and]
    cases k <;> simp [M.pos, Nat.testBit_succ]
  · simp
  · simp

theorem mul_iff (k : M) : k.mul = true ↔ ¬ Plain k := by
  cases k <;> simp [M.mul, Plain]

/-! ### Lists of calls -/

variable (F : Fmt R) (pos : R → Bool) (q : Req R)

theorem trace_append (a b : List Cmd) (s : St R) :
    trace F pos q (a ++ b) s = trace F pos q a s ++ trace F pos q b (after F pos q a s) := by
  induction a generalizing s with
  | nil => rfl
  | cons c cs ih => simp only [List.cons_append, trace, after, List.foldl_cons, List.append_assoc]
                    rw [ih]; rfl

theorem after_append (a b : List Cmd) (s : St R) :
    after F pos q (a ++ b) s = after F pos q b (after F pos q a s) := by
  simp [after, List.foldl_append]

theorem trace_when (b : Bool) (l : List Cmd) (s : St R) :
    trace F pos q (when b l) s = when b (trace F pos q l s) := by
  cases b <;> rfl

theorem after_when (b : Bool) (l : List Cmd) (s : St R) :
    after F pos q (when b l) s = if b then after F pos q l s else s := by
  cases b <;> rfl

theorem trace_nil (s : St R) : trace F pos q [] s = [] := rfl

theorem after_nil (s : St R) : after F pos q [] s = s := rfl

theorem trace_cons (c : Cmd) (cs : List Cmd) (s : St R) :
    trace F pos q (c :: cs) s = (step F pos q s c).2 ++ trace F pos q cs (step F pos q s c).1 := rfl

theorem after_cons (c : Cmd) (cs : List Cmd) (s : St R) :
    after F pos q (c :: cs) s = after F pos q cs (step F pos q s c).1 := rfl

/-- Events of a loop that keeps an invariant. -/
theorem trace_flatMap {β : Type} (g : β → List Cmd) (h : β → List (Ev R)) (I : St R → Prop)
    (l : List β)
    (H : ∀ x ∈ l, ∀ s, I s → trace F pos q (g x) s = h x ∧ I (after F pos q (g x) s)) :
    ∀ s, I s → trace F pos q (l.flatMap g) s = l.flatMap h ∧ I (after F pos q (l.flatMap g) s) := by
  induction l with
  | nil => intro s hs; exact ⟨rfl, hs⟩
  | cons x xs ih =>
    intro s hs
    obtain ⟨h1, h2⟩ := H x (by simp) s hs
    obtain ⟨h3, h4⟩ := ih (fun y hy => H y (by simp [hy])) _ h2
    rw [List.flatMap_cons, List.flatMap_cons, trace_append, after_append]
    exact ⟨by rw [h1, h3], h4⟩

theorem mem_when {α : Type} {b : Bool} {l : List α} {x : α} : x ∈ when b l ↔ b = true ∧ x ∈ l := by
  cases b <;> simp [when]

/-! ### The file -/

/-- Names given to `writeArray` and the like. -/
def puts : List (Ev R) → List Name
  | [] => []
  | .put n _ :: es => n :: puts es
  | _ :: es => puts es

/-- Names given to functions that end the program when they exist. -/
def hards : List (Ev R) → List Name
  | [] => []
  | .hard n _ :: es => n :: hards es
  | _ :: es => hards es

theorem puts_append (a b : List (Ev R)) : puts (a ++ b) = puts a ++ puts b := by
  induction a with
  | nil => rfl
  | cons e es ih => cases e <;> simp [puts, ih]

theorem hards_append (a b : List (Ev R)) : hards (a ++ b) = hards a ++ hards b := by
  induction a with
  | nil => rfl
  | cons e es ih => cases e <;> simp [hards, ih]

theorem mem_puts {es : List (Ev R)} {n : Name} : n ∈ puts es ↔ ∃ v, Ev.put n v ∈ es := by
  induction es with
  | nil => simp [puts]
  | cons e es ih => cases e <;> simp [puts, ih, exists_or]

theorem mem_hards {es : List (Ev R)} {n : Name} : n ∈ hards es ↔ ∃ v, Ev.hard n v ∈ es := by
  induction es with
  | nil => simp [hards]
  | cons e es ih => cases e <;> simp [hards, ih, exists_or]

theorem store_ub {es : List (Ev R)} {f g : File R} (h : store es f = .ok g) : Ev.ub ∉ es := by
  induction es generalizing f with
  | nil => simp
  | cons e es ih =>
    cases e with
    | put n v => simpa using ih h
    | hard n v =>
      rw [store] at h
      split at h
      · cases h
      · simpa using ih h
    | save => simpa using ih h
    | ub => simp [store] at h

theorem store_names {es : List (Ev R)} {f g : File R} (h : store es f = .ok g) (n : Name) :
    n ∈ g.map Prod.fst ↔ n ∈ f.map Prod.fst ∨ n ∈ puts es ∨ n ∈ hards es := by
  induction es generalizing f with
  | nil => simp only [store, Except.ok.injEq] at h; subst h; simp [puts, hards]
  | cons e es ih =>
    cases e with
    | put m v =>
      rw [ih h]
      split
      · rename_i hm
        simp only [puts, hards, List.mem_cons]
        constructor
        · tauto
        · rintro (a | (rfl | a) | a) <;> tauto
      · simp only [puts, hards, List.mem_cons, List.map_append, List.mem_append, List.map_cons,
          List.map_nil, List.not_mem_nil, or_false]
        tauto
    | hard m v =>
      rw [store] at h
      split at h
      · cases h
      · rw [ih h]
        simp only [puts, hards, List.mem_cons, List.map_append, List.mem_append, List.map_cons,
          List.map_nil, List.not_mem_nil, or_false]
        tauto
    | save => exact ih h
    | ub => simp [store] at h

theorem store_mem {es : List (Ev R)} {f g : File R} (h : store es f = .ok g) {n : Name} {v : Val R}
    (hm : (n, v) ∈ g) : (n, v) ∈ f ∨ Ev.put n v ∈ es ∨ Ev.hard n v ∈ es := by
  induction es generalizing f with
  | nil => simp only [store, Except.ok.injEq] at h; subst h; exact .inl hm
  | cons e es ih =>
    cases e with
    | put m w =>
      rcases ih h with a | a | a
      · split at a
        · exact .inl a
        · rcases List.mem_append.1 a with a | a
          · exact .inl a
          · simp only [List.mem_cons, Prod.mk.injEq, List.not_mem_nil, or_false] at a
            obtain ⟨rfl, rfl⟩ := a
            simp
      · simp [a]
      · simp [a]
    | hard m w =>
      rw [store] at h
      split at h
      · cases h
      · rcases ih h with a | a | a
        · rcases List.mem_append.1 a with a | a
          · exact .inl a
          · simp only [List.mem_cons, Prod.mk.injEq, List.not_mem_nil, or_false] at a
            obtain ⟨rfl, rfl⟩ := a
            simp
        · simp [a]
        · simp [a]
    | save => rcases ih h with a | a | a <;> simp [a]
    | ub => simp [store] at h

theorem store_ok_aux (es : List (Ev R)) (f : File R) (hd : ∀ n ∈ hards es, n ∉ puts es) :
    (∃ g, store es f = .ok g) ↔
      Ev.ub ∉ es ∧ (hards es).Nodup ∧ ∀ n ∈ hards es, n ∉ f.map Prod.fst := by
  induction es generalizing f with
  | nil => simp [store, hards]
  | cons e es ih =>
    cases e with
    | put m v =>
      have hd' : ∀ n ∈ hards es, n ∉ puts es := fun n hn hp => hd n hn (by simp [puts, hp])
      have hm : m ∉ hards es := fun h => hd m h (by simp [puts])
      rw [store, ih _ hd']
      have e : hards (Ev.put m v :: es) = hards es := rfl
      rw [e]
      have : (∀ n ∈ hards es, n ∉ List.map Prod.fst
          (if m ∈ List.map Prod.fst f then f else f ++ [(m, v)])) ↔
          ∀ n ∈ hards es, n ∉ List.map Prod.fst f := by
        split
        · rfl
        · constructor
          · intro h n hn hf; exact h n hn (by simp only [List.map_append, List.mem_append]; exact .inl hf)
          · intro h n hn hf
            simp only [List.map_append, List.mem_append, List.map_cons, List.map_nil,
              List.mem_singleton] at hf
            rcases hf with hf | rfl
            · exact h n hn hf
            · exact hm hn
      rw [this]
      simp
    | hard m v =>
      have hd' : ∀ n ∈ hards es, n ∉ puts es :=
        fun n hn hp => hd n (by simp [hards, hn]) hp
      have e : hards (Ev.hard m v :: es) = m :: hards es := rfl
      rw [e, store]
      by_cases c : m ∈ f.map Prod.fst
      · rw [if_pos c]
        constructor
        · rintro ⟨g, h⟩; cases h
        · rintro ⟨_, _, h⟩; exact absurd c (h m (by simp))
      · rw [if_neg c, ih _ hd', List.nodup_cons]
        constructor
        · rintro ⟨h1, h2, h3⟩
          refine ⟨by simpa using h1, ⟨?_, h2⟩, ?_⟩
          · intro hm; exact h3 m hm (by simp)
          · intro n hn
            rcases List.mem_cons.1 hn with rfl | hn
            · exact c
            · intro hf; exact h3 n hn (by simp only [List.map_append, List.mem_append]; exact .inl hf)
        · rintro ⟨h1, ⟨h2, h3⟩, h4⟩
          refine ⟨by simpa using h1, h3, ?_⟩
          intro n hn hf
          simp only [List.map_append, List.mem_append, List.map_cons, List.map_nil,
            List.mem_singleton] at hf
          rcases hf with hf | rfl
          · exact h4 n (by simp [hn]) hf
          · exact h2 hn
    | save =>
      rw [store, ih f hd]; simp [hards]
    | ub => simp [store]

theorem store_ok (es : List (Ev R)) (hd : ∀ n ∈ hards es, n ∉ puts es) :
    (∃ g, store es [] = .ok g) ↔ Ev.ub ∉ es ∧ (hards es).Nodup := by
  rw [store_ok_aux es [] hd]; simp

end Jaxions.MeasRun
