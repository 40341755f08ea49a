import Verif.Lemmas.Log

/-
C32: log messages are delivered exactly once, with their own text and level.
-/

namespace Jaxions.Log

variable {α : Type}

/-! ### Text and level -/

/-- The text of a message survives exactly when it has at most 2006 characters. -/
theorem C32_text (text : List α) :
    construct text = some (text.map .char) ↔ text.length ≤ 2006 := by
  unfold construct vsnprintf msgSize basePack
  simp only [List.length_append, List.length_map, List.length_take, List.length_singleton]
  constructor
  · intro h
    by_contra hn
    by_cases h2 : text.length = 2007
    · rw [if_pos (by omega), Option.some.injEq] at h
      have := congrArg (fun l => l[2006]?) h
      beta_reduce at this
      rw [List.getElem?_take_of_lt (by omega), List.getElem?_append_right (by simp; omega)] at this
      simp [h2] at this
    · rw [if_neg (by omega)] at h
      cases h
  · intro h
    have e : text.take (2048 - 1 - 40 - 1) = text := List.take_of_length_le (by omega)
    rw [if_pos (by omega), e, List.take_append_of_le_length (by simp),
      List.take_of_length_le (by simp)]

/-- A longer text reads bytes that were never set (2008 characters) or lie outside
the buffer. -/
theorem C32_text_long (text : List α) (h : 2008 ≤ text.length) : construct text = none := by
  unfold construct vsnprintf msgSize basePack
  simp only [List.length_append, List.length_map, List.length_take, List.length_singleton]
  rw [if_neg (by omega)]

/-- A message comes out of the packed form as it went in, for every text that the
constructor can produce. -/
theorem C32_pack (m : Msg α) (h : m.data.length ≤ 2008) :
    (pack m).bind unpack = some m := by
  unfold pack msgSize basePack
  rw [if_pos (by omega)]
  simp [unpack, levelOf_num]

/-- A longer one is written outside the buffer. -/
theorem C32_pack_long (m : Msg α) (h : 2008 < m.data.length) : pack m = none := by
  unfold pack msgSize basePack
  rw [if_neg (by omega)]

/-- The label printed is that of the level. -/
theorem C32_label :
    label .msg = some " Msg " ∧ label .debug = some "Debug" ∧ label .error = some "Error" :=
  ⟨rfl, rfl, rfl⟩

/-! ### Other ranks: what is sent was logged -/

/-- Whatever completes when, a rank sends only what it was asked to log. -/
theorem C32_sound (cs : List (Call α)) : ∀ x ∈ (history cs).sent, x ∈ logged cs :=
  (history_sub cs).1

/-! ### Errors -/

/-- After an error is logged, whatever happened before, the error, the line naming
its place and every message still waiting on that rank have been sent at least
once, and nothing is left waiting. -/
theorem C32_error_sent (cs : List (Call α)) (place text : α) :
    (history (cs ++ [.error place text])).slots = [] ∧
    place ∈ (history (cs ++ [.error place text])).sent ∧
    text ∈ (history (cs ++ [.error place text])).sent ∧
    ∀ t ∈ (history cs).slots, t.msg ∈ (history (cs ++ [.error place text])).sent := by
  rw [history_snoc]
  have h := headOk_push text (headOk_push place (history_head cs))
  have hall := errorLoop_all _ _ h
  have hm : (push text (push place (history cs))).slots.map Slot.msg =
      (history cs).slots.map Slot.msg ++ [place] ++ [text] := by
    rw [(push_msgs _ _).1, (push_msgs _ _).1]
  have key : ∀ x ∈ (history cs).slots.map Slot.msg ++ [place] ++ [text],
      x ∈ (step (history cs) (.error place text)).sent := by
    intro x hx
    rw [← hm] at hx
    obtain ⟨t, ht, rfl⟩ := List.mem_map.1 hx
    exact hall t ht
  refine ⟨rfl, key place (by simp), key text (by simp), ?_⟩
  intro t ht
  exact key t.msg (by simp only [List.mem_append]; exact Or.inl (Or.inl (List.mem_map_of_mem ht)))

/-- A rank that logs only errors, with flushes at any point, sends each line
exactly once and in order. -/
theorem C32_errors_once (cs : List (Call α))
    (h : ∀ c ∈ cs, c = .flush ∨ ∃ place text, c = .error place text) :
    (history cs).sent = logged cs ∧ (history cs).slots = [] := by
  induction cs using List.reverseRecOn with
  | nil => exact ⟨rfl, rfl⟩
  | append_singleton cs c ih =>
    obtain ⟨h1, h2⟩ := ih (fun c hc => h c (List.mem_append_left _ hc))
    rw [history_snoc, logged_snoc]
    generalize history cs = s at *
    rcases h c (by simp) with rfl | ⟨place, text, rfl⟩
    · simp [step, Call.asked, h1]
    · refine ⟨?_, rfl⟩
      unfold step
      dsimp only
      obtain ⟨slots, cap, sent⟩ := s
      dsimp only at h1 h2
      subst h1 h2
      unfold push
      simp only [Call.asked]
      split_ifs <;> simp [errorLoop, shift]

/-! ### Rank zero -/

/-- Rank zero writes each message it logged or received exactly once: at any moment
what is written and what is on the stack is what was put there, and every flush
writes in order of time. -/
theorem C32_zero {es : List (Event α)} {z : Zero α} (h : Zero.Run es z) :
    List.Perm (z.written ++ z.stack) (es.flatMap Event.put) := by
  induction h with
  | nil => simp
  | @snoc es z e z' _ hs ih =>
    rw [List.flatMap_append]
    cases hs with
    | own m =>
      simp only [List.flatMap_cons, List.flatMap_nil, Event.put, ← List.append_assoc, List.append_nil]
      exact ih.append_right _
    | receive m =>
      simp only [List.flatMap_cons, List.flatMap_nil, Event.put, ← List.append_assoc, List.append_nil]
      exact ih.append_right _
    | flush order hp _ =>
      simp only [List.flatMap_cons, List.flatMap_nil, Event.put, List.append_nil]
      exact (hp.append_left z.written).trans ih

/-- The whole log: when the other ranks log only errors and everything they sent
has been received, after a flush the file holds exactly what rank zero and the
others logged, each message once. -/
theorem C32_errors_delivered {n : ℕ} (calls : Fin n → List (Call (Msg α)))
    (h : ∀ r, ∀ c ∈ calls r, c = .flush ∨ ∃ place text, c = .error place text)
    {es : List (Event α)} {z : Zero α} (hz : Zero.Run es z) (hst : z.stack = [])
    {own : List (Msg α)}
    (hput : List.Perm (es.flatMap Event.put)
      (own ++ (List.finRange n).flatMap (fun r => (history (calls r)).sent))) :
    List.Perm z.written (own ++ (List.finRange n).flatMap (fun r => logged (calls r))) := by
  have h1 := C32_zero hz
  rw [hst, List.append_nil] at h1
  have h2 : (fun r => (history (calls r)).sent) = fun r => logged (calls r) :=
    funext fun r => (C32_errors_once (calls r) (h r)).1
  rw [← h2]
  exact h1.trans hput

/-! ### Where the code falls short -/

/-- The first two normal messages of a rank: whatever completes when, the first is
sent twice, because the vector is moved when it grows. -/
theorem C32_duplicate (a b : α) (done1 done2 : ℕ → Bool) :
    (history [.msg a done1, .msg b done2]).sent = [a, a, b] := by
  simp [history, step, push, idle, passLoop]

/-- A normal message logged while two earlier ones are on the stack and both have
completed is lost: it is erased in the place of the second, and no later call
sends it. -/
theorem C32_lost [DecidableEq α] (s : Sender α) {x y m : α} {i j : ℕ}
    (hs : s.slots = [⟨x, some i⟩, ⟨y, some j⟩]) (hcap : 2 < s.cap) (done : ℕ → Bool)
    (hi : done i = true) (hj : done j = true) (hm : m ∉ s.sent) (hy : m ≠ y)
    (cs : List (Call α)) (hcs : m ∉ logged cs) :
    m ∉ (cs.foldl step (step s (.msg m done))).sent := by
  have hstep : (step s (.msg m done)).slots = [⟨y, some s.sent.length⟩] ∧
      (step s (.msg m done)).sent = s.sent ++ [y] := by
    obtain ⟨slots, cap, sent⟩ := s
    dsimp only at hs hcap hm
    subst hs
    simp [step, push, hcap, passLoop, shift, hi, hj]
  have key : ∀ (cs : List (Call α)) (t : Sender α), m ∉ t.sent → m ∉ t.slots.map Slot.msg →
      m ∉ logged cs → m ∉ (cs.foldl step t).sent := by
    intro cs
    induction cs with
    | nil => intro t h1 _ _; exact h1
    | cons c cs ih =>
      intro t h1 h2 h3
      have h3' : m ∉ c.asked ∧ m ∉ logged cs := by
        unfold logged at h3 ⊢
        rw [List.flatMap_cons, List.mem_append, not_or] at h3
        exact h3
      obtain ⟨⟨new, e1, e2⟩, e3⟩ := step_sub t c
      have hnot : m ∉ t.slots.map Slot.msg ++ c.asked := by
        rw [List.mem_append, not_or]
        exact ⟨h2, h3'.1⟩
      rw [List.foldl_cons]
      refine ih _ ?_ (fun hx => hnot (e3 m hx)) h3'.2
      rw [e1, List.mem_append, not_or]
      exact ⟨h1, fun hx => hnot (e2 m hx)⟩
  refine key cs _ ?_ ?_ hcs
  · rw [hstep.2, List.mem_append, not_or]
    exact ⟨hm, by simpa using hy⟩
  · rw [hstep.1]
    simpa using hy

/-- The fifth message of a rank whose transfers complete at once is lost, and the
earlier ones were sent three, three, one and two times. -/
theorem C32_prompt :
    (history ([0, 1, 2, 3, 4].map fun m => Call.msg m (fun _ => true))).sent =
      [0, 0, 1, 0, 1, 2, 1, 3, 3] ∧
    (history ([0, 1, 2, 3].map fun m => Call.msg m (fun _ => true))).slots =
      [⟨1, some 6⟩, ⟨3, some 7⟩] ∧
    (history ([0, 1, 2, 3].map fun m => Call.msg m (fun _ => true))).cap = 4 := by
  decide +kernel

/-- That state meets the hypotheses of `C32_lost`. -/
example (cs : List (Call ℕ)) (h : 4 ∉ logged cs) :
    4 ∉ (cs.foldl step (step (history ([0, 1, 2, 3].map fun m => Call.msg m (fun _ => true)))
      (.msg 4 (fun _ => true)))).sent :=
  C32_lost _ C32_prompt.2.1 (by rw [C32_prompt.2.2]; decide) _ rfl rfl (by decide +kernel)
    (by decide) cs h

/-- A flush on such a rank drops messages that were never sent. -/
theorem C32_flush_lost :
    (history ([.msg 0 (fun _ => false), .msg 1 (fun _ => false), .msg 2 (fun _ => false),
      .msg 3 (fun r => r == 3), .flush, .error 5 6])).sent = [0, 0, 1, 0, 1, 2, 1, 5, 6] := by
  decide +kernel

end Jaxions.Log
