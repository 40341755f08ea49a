import Verif.Spec.Log
import Mathlib.Data.List.Perm.Basic
import Mathlib.Data.List.Flatten
import Mathlib.Data.List.Induction

namespace Jaxions.Log

variable {α : Type}

theorem levelOf_num (l : Level) : levelOf l.num = some l := by
  cases l <;> rfl

theorem shift_msgs (r : Option ℕ) (l : List (Slot α)) :
    (shift r l).map Slot.msg = l.map Slot.msg := by
  induction l generalizing r with
  | nil => rfl
  | cons t l ih => simp [shift, ih]

theorem passLoop_sub (done : ℕ → Bool) (l : List (Slot α)) (sent : List α) :
    (∃ new, (passLoop done l sent).2 = sent ++ new ∧ ∀ x ∈ new, x ∈ l.map Slot.msg) ∧
    ∀ x ∈ (passLoop done l sent).1.map Slot.msg, x ∈ l.map Slot.msg := by
  induction hn : l.length using Nat.strongRecOn generalizing l sent with
  | ind n ih =>
    cases l with
    | nil => exact ⟨⟨[], by simp [passLoop]⟩, by simp [passLoop]⟩
    | cons t l =>
      unfold passLoop
      simp only [List.length_cons] at hn
      cases hr : t.req with
      | none =>
        obtain ⟨⟨new, h1, h2⟩, h3⟩ := ih l.length (by omega) l (sent ++ [t.msg]) rfl
        dsimp only
        refine ⟨⟨t.msg :: new, by rw [h1]; simp, ?_⟩, ?_⟩
        · intro x hx
          rcases List.mem_cons.1 hx with hx | hx
          · simp [hx]
          · exact List.mem_cons_of_mem _ (h2 x hx)
        · intro x hx
          rcases List.mem_cons.1 hx with hx | hx
          · simp [hx]
          · exact List.mem_cons_of_mem _ (h3 x hx)
      | some r =>
        dsimp only
        cases done r with
        | true =>
          obtain ⟨⟨new, h1, h2⟩, h3⟩ := ih l.length (by omega) (shift none l) sent
            (length_shift _ _)
          rw [shift_msgs] at h2 h3
          refine ⟨⟨new, by simpa using h1, fun x hx => List.mem_cons_of_mem _ (h2 x hx)⟩, ?_⟩
          intro x hx
          exact List.mem_cons_of_mem _ (h3 x (by simpa using hx))
        | false =>
          obtain ⟨⟨new, h1, h2⟩, h3⟩ := ih l.length (by omega) l sent rfl
          refine ⟨⟨new, by simpa using h1, fun x hx => List.mem_cons_of_mem _ (h2 x hx)⟩, ?_⟩
          intro x hx
          simp only [Bool.false_eq_true, ↓reduceIte, List.map_cons, List.mem_cons] at hx
          rcases hx with hx | hx
          · simp [hx]
          · exact List.mem_cons_of_mem _ (h3 x hx)

theorem errorLoop_sub (l : List (Slot α)) (sent : List α) :
    ∃ new, errorLoop l sent = sent ++ new ∧ ∀ x ∈ new, x ∈ l.map Slot.msg := by
  induction hn : l.length using Nat.strongRecOn generalizing l sent with
  | ind n ih =>
    cases l with
    | nil => exact ⟨[], by simp [errorLoop]⟩
    | cons t l =>
      unfold errorLoop
      simp only [List.length_cons] at hn
      obtain ⟨new, h1, h2⟩ := ih l.length (by omega) (shift none l)
        (if t.req = none then sent ++ [t.msg] else sent) (length_shift _ _)
      rw [shift_msgs] at h2
      rw [h1]
      by_cases hr : t.req = none
      · rw [if_pos hr]
        refine ⟨t.msg :: new, by simp, ?_⟩
        intro x hx
        rcases List.mem_cons.1 hx with hx | hx
        · simp [hx]
        · exact List.mem_cons_of_mem _ (h2 x hx)
      · rw [if_neg hr]
        exact ⟨new, rfl, fun x hx => List.mem_cons_of_mem _ (h2 x hx)⟩

theorem push_msgs (m : α) (s : Sender α) :
    (push m s).slots.map Slot.msg = s.slots.map Slot.msg ++ [m] ∧ (push m s).sent = s.sent := by
  unfold push
  split_ifs
  · simp
  · simp [Function.comp_def]

/-- What a call can send or keep: what was there, and what it was asked. -/
theorem step_sub (s : Sender α) (c : Call α) :
    (∃ new, (step s c).sent = s.sent ++ new ∧
      ∀ x ∈ new, x ∈ s.slots.map Slot.msg ++ c.asked) ∧
    ∀ x ∈ (step s c).slots.map Slot.msg, x ∈ s.slots.map Slot.msg ++ c.asked := by
  cases c with
  | msg m done =>
    obtain ⟨p1, p2⟩ := push_msgs m s
    obtain ⟨⟨new, h1, h2⟩, h3⟩ := passLoop_sub done (push m s).slots (push m s).sent
    rw [p1] at h2 h3
    rw [p2] at h1
    unfold step
    dsimp only
    rw [p2] at h3 ⊢
    exact ⟨⟨new, h1, h2⟩, h3⟩
  | error place text =>
    obtain ⟨p1, p2⟩ := push_msgs place s
    obtain ⟨q1, q2⟩ := push_msgs text (push place s)
    obtain ⟨new, h1, h2⟩ := errorLoop_sub (push text (push place s)).slots
      (push text (push place s)).sent
    rw [q1, p1] at h2
    rw [q2, p2] at h1
    unfold step
    dsimp only
    rw [q2, p2]
    refine ⟨⟨new, h1, ?_⟩, by simp⟩
    intro x hx
    have := h2 x hx
    rw [List.append_assoc] at this
    exact this
  | flush => exact ⟨⟨[], by simp [step]⟩, by simp [step]⟩

theorem history_snoc (cs : List (Call α)) (c : Call α) :
    history (cs ++ [c]) = step (history cs) c := by
  unfold history
  rw [List.foldl_append]
  rfl

theorem logged_snoc (cs : List (Call α)) (c : Call α) :
    logged (cs ++ [c]) = logged cs ++ c.asked := by
  unfold logged
  rw [List.flatMap_append]
  simp

theorem history_sub (cs : List (Call α)) :
    (∀ x ∈ (history cs).sent, x ∈ logged cs) ∧
    ∀ x ∈ (history cs).slots.map Slot.msg, x ∈ logged cs := by
  induction cs using List.reverseRecOn with
  | nil => exact ⟨by simp [history, idle], by simp [history, idle]⟩
  | append_singleton cs c ih =>
    rw [history_snoc, logged_snoc]
    obtain ⟨⟨new, h1, h2⟩, h3⟩ := step_sub (history cs) c
    have key : ∀ x ∈ (history cs).slots.map Slot.msg ++ c.asked, x ∈ logged cs ++ c.asked := by
      intro x hx
      rcases List.mem_append.1 hx with hx | hx
      · exact List.mem_append_left _ (ih.2 x hx)
      · exact List.mem_append_right _ hx
    refine ⟨?_, fun x hx => key x (h3 x hx)⟩
    rw [h1]
    intro x hx
    rcases List.mem_append.1 hx with hx | hx
    · exact List.mem_append_left _ (ih.1 x hx)
    · exact key x (h2 x hx)

/-- The first slot has no request, or its message was sent. -/
def HeadOk (l : List (Slot α)) (sent : List α) : Prop :=
  ∀ t, l.head? = some t → t.req = none ∨ t.msg ∈ sent

theorem headOk_shift (l : List (Slot α)) (sent : List α) : HeadOk (shift none l) sent := by
  intro t ht
  cases l with
  | nil => simp [shift] at ht
  | cons u l =>
    simp only [shift, List.head?_cons, Option.some.injEq] at ht
    left
    rw [← ht]

theorem headOk_push (m : α) {s : Sender α} (h : HeadOk s.slots s.sent) :
    HeadOk (push m s).slots (push m s).sent := by
  rw [(push_msgs m s).2]
  unfold push
  split_ifs with hc
  · intro t ht
    cases hs : s.slots with
    | nil =>
      rw [hs] at ht
      simp only [List.nil_append, List.head?_cons, Option.some.injEq] at ht
      left; rw [← ht]
    | cons u l =>
      rw [hs] at ht
      exact h t (by rw [hs]; simpa using ht)
  · intro t ht
    left
    have := List.mem_of_head? ht
    simp only [List.mem_append, List.mem_map, List.mem_singleton] at this
    rcases this with ⟨u, -, hu⟩ | hu
    · rw [← hu]
    · rw [hu]

theorem passLoop_head (done : ℕ → Bool) (l : List (Slot α)) (sent : List α)
    (h : HeadOk l sent) :
    ∀ t, (passLoop done l sent).1.head? = some t → t.msg ∈ (passLoop done l sent).2 := by
  induction hn : l.length using Nat.strongRecOn generalizing l sent with
  | ind n ih =>
    cases l with
    | nil => intro t ht; simp [passLoop] at ht
    | cons u l =>
      simp only [List.length_cons] at hn
      unfold passLoop
      cases hr : u.req with
      | none =>
        dsimp only
        intro t ht
        rw [List.head?_cons, Option.some.injEq] at ht
        obtain ⟨⟨new, h1, -⟩, -⟩ := passLoop_sub done l (sent ++ [u.msg])
        rw [h1, ← ht]
        simp
      | some r =>
        dsimp only
        cases hd : done r with
        | true =>
          simpa using ih l.length (by omega) (shift none l) sent (headOk_shift l sent)
            (length_shift _ _)
        | false =>
          simp only [Bool.false_eq_true, ↓reduceIte]
          intro t ht
          rw [List.head?_cons, Option.some.injEq] at ht
          obtain ⟨⟨new, h1, -⟩, -⟩ := passLoop_sub done l sent
          rw [h1, ← ht]
          rcases h u rfl with hx | hx
          · rw [hr] at hx; cases hx
          · exact List.mem_append_left _ hx

theorem errorLoop_all (l : List (Slot α)) (sent : List α) (h : HeadOk l sent) :
    ∀ t ∈ l, t.msg ∈ errorLoop l sent := by
  induction hn : l.length using Nat.strongRecOn generalizing l sent with
  | ind n ih =>
    cases l with
    | nil => simp
    | cons u l =>
      simp only [List.length_cons] at hn
      intro t ht
      unfold errorLoop
      rcases List.mem_cons.1 ht with ht | ht
      · obtain ⟨new, h1, -⟩ := errorLoop_sub (shift none l)
          (if u.req = none then sent ++ [u.msg] else sent)
        rw [h1, ht]
        apply List.mem_append_left
        rcases h u rfl with hx | hx
        · rw [if_pos hx]; simp
        · split_ifs
          · exact List.mem_append_left _ hx
          · exact hx
      · have hm : t.msg ∈ (shift none l).map Slot.msg := by
          rw [shift_msgs]; exact List.mem_map_of_mem ht
        obtain ⟨t', ht', he⟩ := List.mem_map.1 hm
        rw [← he]
        exact ih l.length (by omega) (shift none l) _ (headOk_shift _ _) (length_shift _ _) t' ht'

theorem history_head (cs : List (Call α)) : HeadOk (history cs).slots (history cs).sent := by
  induction cs using List.reverseRecOn with
  | nil => intro t ht; simp [history, idle] at ht
  | append_singleton cs c ih =>
    rw [history_snoc]
    cases c with
    | msg m done =>
      intro t ht
      right
      exact passLoop_head done _ _ (headOk_push m ih) t ht
    | error place text => intro t ht; simp [step] at ht
    | flush => intro t ht; simp [step] at ht

end Jaxions.Log
