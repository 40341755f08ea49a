import Verif.Model.CheckTime

/-
Invariants of the check after every step.
-/

namespace Jaxions.CheckTime

variable {n : ℕ}

/-- The decision of check `k`, once every rank has contributed. -/
def dec (s : St n) (k : ℕ) : Option ℕ := ((List.finRange n).mapM (s.sent k)).map decision

structure Inv (s : St n) : Prop where
  len : ∀ r, (s.loc r).log.length = (s.loc r).round
  sent : ∀ k r, (s.sent k r).isSome ↔
    k < (s.loc r).round ∨ (k = (s.loc r).round ∧ (s.loc r).pc = .gather)
  log : ∀ r k d, (s.loc r).log[k]? = some d → dec s k = some d
  stay : ∀ r k d, (s.loc r).log[k]? = some d → ends d = true →
    k + 1 = (s.loc r).round ∧ (s.loc r).pc = .ended
  gone : ∀ r, (s.loc r).pc = .ended →
    ∃ k d, k + 1 = (s.loc r).round ∧ (s.loc r).log[k]? = some d ∧ ends d = true

theorem mapM_congr_some {α β : Type} {f g : α → Option β} :
    ∀ (l : List α) (out : List β), (∀ a ∈ l, ∀ b, f a = some b → g a = some b) →
      l.mapM f = some out → l.mapM g = some out := by
  intro l
  induction l with
  | nil => intro out _ h; simpa using h
  | cons a l ih =>
    intro out hfg h
    rw [List.mapM_cons] at h ⊢
    cases hfa : f a with
    | none => rw [hfa] at h; cases h
    | some b =>
      rw [hfa] at h
      cases hl : l.mapM f with
      | none => rw [hl] at h; cases h
      | some bs =>
        rw [hl] at h
        rw [hfg a (by simp) b hfa, ih bs (fun a ha => hfg a (by simp [ha])) hl]
        exact h

theorem mapM_some_iff {α β : Type} {f : α → Option β} :
    ∀ (l : List α), (∃ out, l.mapM f = some out) ↔ ∀ a ∈ l, (f a).isSome := by
  intro l
  induction l with
  | nil => simp
  | cons a l ih =>
    rw [List.mapM_cons]
    constructor
    · rintro ⟨out, h⟩
      cases hfa : f a with
      | none => rw [hfa] at h; cases h
      | some b =>
        rw [hfa] at h
        cases hl : l.mapM f with
        | none => rw [hl] at h; cases h
        | some bs =>
          intro c hc
          rcases List.mem_cons.1 hc with rfl | hc
          · rw [hfa]; rfl
          · exact ih.1 ⟨bs, hl⟩ c hc
    · intro h
      obtain ⟨b, hb⟩ := Option.isSome_iff_exists.1 (h a (by simp))
      obtain ⟨bs, hbs⟩ := ih.2 (fun c hc => h c (by simp [hc]))
      exact ⟨b :: bs, by rw [hb, hbs]; rfl⟩

theorem mapM_mem {α β : Type} {f : α → Option β} :
    ∀ (l : List α) (out : List β), l.mapM f = some out →
      (∀ a ∈ l, ∃ b ∈ out, f a = some b) ∧ ∀ b ∈ out, ∃ a ∈ l, f a = some b := by
  intro l
  induction l with
  | nil =>
    intro out h
    cases h
    simp
  | cons a l ih =>
    intro out h
    rw [List.mapM_cons] at h
    cases hfa : f a with
    | none => rw [hfa] at h; cases h
    | some b =>
      rw [hfa] at h
      cases hl : l.mapM f with
      | none => rw [hl] at h; cases h
      | some bs =>
        rw [hl] at h
        cases h
        obtain ⟨h1, h2⟩ := ih bs hl
        constructor
        · intro c hc
          rcases List.mem_cons.1 hc with rfl | hc
          · exact ⟨b, by simp, hfa⟩
          · obtain ⟨b', hb', e⟩ := h1 c hc
            exact ⟨b', by simp [hb'], e⟩
        · intro c hc
          rcases List.mem_cons.1 hc with rfl | hc
          · exact ⟨a, by simp, hfa⟩
          · obtain ⟨a', ha', e⟩ := h2 c hc
            exact ⟨a', by simp [ha'], e⟩

theorem dec_mono {s t : St n} (h : ∀ k r f, s.sent k r = some f → t.sent k r = some f)
    {k d : ℕ} (hd : dec s k = some d) : dec t k = some d := by
  unfold dec at hd ⊢
  cases hm : (List.finRange n).mapM (s.sent k) with
  | none => rw [hm] at hd; cases hd
  | some fl =>
    rw [hm] at hd
    rw [mapM_congr_some _ fl (fun a _ b => h k a b) hm]
    exact hd

/-- Steps that leave rounds, decisions and contributions alone. -/
structure Quiet (s t : St n) : Prop where
  sent : t.sent = s.sent
  round : ∀ r, (t.loc r).round = (s.loc r).round
  log : ∀ r, (t.loc r).log = (s.loc r).log
  gather : ∀ r, (t.loc r).pc = .gather ↔ (s.loc r).pc = .gather
  ended : ∀ r, (t.loc r).pc = .ended ↔ (s.loc r).pc = .ended

theorem Inv.quiet {s t : St n} (h : Inv s) (q : Quiet s t) : Inv t where
  len r := by rw [q.log, q.round]; exact h.len r
  sent k r := by rw [q.sent, q.round, q.gather]; exact h.sent k r
  log r k d hd := by
    rw [q.log] at hd
    have := h.log r k d hd
    unfold dec at this ⊢
    rw [q.sent]; exact this
  stay r k d hd he := by
    rw [q.log] at hd
    rw [q.round, q.ended]
    exact h.stay r k d hd he
  gone r hr := by
    rw [q.ended] at hr
    rw [q.round, q.log]
    exact h.gone r hr

theorem quiet_upd (s : St n) (r : Fin n) (l : Local) (h1 : l.round = (s.loc r).round)
    (h2 : l.log = (s.loc r).log) (h3 : l.pc ≠ .gather) (h4 : (s.loc r).pc ≠ .gather)
    (h5 : l.pc ≠ .ended) (h6 : (s.loc r).pc ≠ .ended) : Quiet s (s.upd r l) := by
  have key : ∀ r', (s.upd r l).loc r' = if r' = r then l else s.loc r' := by
    intro r'
    unfold St.upd
    dsimp only
    rw [Function.update_apply]
  constructor
  · rfl
  all_goals
    intro r'
    rw [key]
    by_cases e : r' = r
    · subst e
      rw [if_pos rfl]
      first
        | exact h1
        | exact h2
        | exact iff_of_false h3 h4
        | exact iff_of_false h5 h6
    · rw [if_neg e]

/-- A rank enters the gather. -/
def enter (s : St n) (r : Fin n) (files : File → Bool) : St n :=
  { s.upd r { s.loc r with pc := .gather } with
    files := files
    sent := Function.update s.sent (s.loc r).round
      (Function.update (s.sent (s.loc r).round) r (some (s.loc r).flag)) }

theorem enter_loc (s : St n) (r : Fin n) (files : File → Bool) (r' : Fin n) :
    (enter s r files).loc r' =
      if r' = r then { s.loc r with pc := .gather } else s.loc r' := by
  unfold enter St.upd
  dsimp only
  rw [Function.update_apply]

theorem enter_sent (s : St n) (r : Fin n) (files : File → Bool) (k : ℕ) (r' : Fin n) :
    (enter s r files).sent k r' =
      if k = (s.loc r).round ∧ r' = r then some (s.loc r).flag else s.sent k r' := by
  unfold enter
  dsimp only
  rw [Function.update_apply]
  by_cases hk : k = (s.loc r).round
  · subst hk
    rw [if_pos rfl, Function.update_apply]
    by_cases hr : r' = r
    · rw [if_pos hr, if_pos ⟨rfl, hr⟩]
    · rw [if_neg hr, if_neg (fun h => hr h.2)]
  · rw [if_neg hk, if_neg (fun h => hk h.1)]

theorem enter_sent_mono {s : St n} (h : Inv s) {r : Fin n} (h4 : (s.loc r).pc ≠ .gather)
    (files : File → Bool) (k : ℕ) (r' : Fin n) (f : ℕ) (hf : s.sent k r' = some f) :
    (enter s r files).sent k r' = some f := by
  rw [enter_sent]
  by_cases e : k = (s.loc r).round ∧ r' = r
  · exfalso
    obtain ⟨rfl, rfl⟩ := e
    have := (h.sent _ _).1 (by rw [hf]; rfl : (s.sent (s.loc r').round r').isSome)
    rcases this with h | h
    · omega
    · exact h4 h.2
  · rw [if_neg e]; exact hf

theorem Inv.enter {s : St n} (h : Inv s) {r : Fin n} (h4 : (s.loc r).pc ≠ .gather)
    (h6 : (s.loc r).pc ≠ .ended) (files : File → Bool) : Inv (enter s r files) where
  len r' := by
    rw [enter_loc]
    split
    · exact h.len r
    · exact h.len r'
  sent k r' := by
    rw [enter_sent, enter_loc]
    by_cases hr : r' = r
    · subst hr
      rw [if_pos rfl]
      dsimp only
      by_cases hk : k = (s.loc r').round
      · rw [if_pos ⟨hk, rfl⟩]
        simp [hk]
      · rw [if_neg (fun h => hk h.1), h.sent]
        simp [hk]
    · rw [if_neg (fun h => hr h.2), if_neg hr]
      exact h.sent k r'
  log r' k d hd := by
    refine dec_mono (enter_sent_mono h h4 files) (h.log r' k d ?_)
    rw [enter_loc] at hd
    split at hd
    · next e => rw [e]; exact hd
    · exact hd
  stay r' k d hd he := by
    rw [enter_loc] at hd ⊢
    by_cases e : r' = r
    · rw [if_pos e] at hd
      exact absurd (h.stay r k d hd he).2 h6
    · rw [if_neg e] at hd ⊢
      exact h.stay r' k d hd he
  gone r' hr := by
    rw [enter_loc] at hr ⊢
    by_cases e : r' = r
    · rw [if_pos e] at hr
      cases hr
    · rw [if_neg e] at hr ⊢
      exact h.gone r' hr

/-- A rank leaves the gather with the decision `d`. -/
def leaveWith (s : St n) (r : Fin n) (d : ℕ) : St n :=
  s.upd r { pc := if ends d then .ended else .clock, round := (s.loc r).round + 1, flag := 0,
            log := (s.loc r).log ++ [d] }

theorem leave_loc (s : St n) (r : Fin n) (d : ℕ) (r' : Fin n) :
    (leaveWith s r d).loc r' =
      if r' = r then
        { pc := if ends d then .ended else .clock, round := (s.loc r).round + 1, flag := 0,
          log := (s.loc r).log ++ [d] }
      else s.loc r' := by
  unfold leaveWith St.upd
  dsimp only
  rw [Function.update_apply]

theorem Inv.leave {s : St n} (h : Inv s) {r : Fin n} (h4 : (s.loc r).pc = .gather) {d : ℕ}
    (hd : dec s (s.loc r).round = some d) : Inv (leaveWith s r d) where
  len r' := by
    rw [leave_loc]
    split
    · simp [h.len r]
    · exact h.len r'
  sent k r' := by
    have e0 : (leaveWith s r d).sent = s.sent := rfl
    rw [e0, leave_loc]
    by_cases hr : r' = r
    · subst hr
      rw [if_pos rfl, h.sent, h4]
      dsimp only
      have : (if ends d = true then PC.ended else PC.clock) ≠ PC.gather := by
        split <;> exact fun h => by cases h
      simp only [this, and_false, and_true, or_false]
      omega
    · rw [if_neg hr]
      exact h.sent k r'
  log r' k e he := by
    have e0 : dec (leaveWith s r d) k = dec s k := rfl
    rw [e0]
    rw [leave_loc] at he
    by_cases hr : r' = r
    · rw [if_pos hr] at he
      dsimp only at he
      rw [List.getElem?_append] at he
      split at he
      · exact h.log r k e he
      · next hk =>
        have hl := h.len r
        have : k = (s.loc r).round := by
          by_contra hne
          rw [List.getElem?_eq_none (by simp; omega)] at he
          cases he
        subst this
        rw [hl, Nat.sub_self] at he
        rw [hd]
        exact he
    · rw [if_neg hr] at he
      exact h.log r' k e he
  stay r' k e he hend := by
    rw [leave_loc] at he ⊢
    by_cases hr : r' = r
    · rw [if_pos hr] at he ⊢
      dsimp only at he ⊢
      rw [List.getElem?_append] at he
      have hl := h.len r
      split at he
      · have := (h.stay r k e he hend).2
        rw [h4] at this
        cases this
      · have hk : k = (s.loc r).round := by
          by_contra hne
          rw [List.getElem?_eq_none (by simp; omega)] at he
          cases he
        subst hk
        rw [hl, Nat.sub_self] at he
        cases he
        exact ⟨rfl, by rw [if_pos hend]⟩
    · rw [if_neg hr] at he ⊢
      exact h.stay r' k e he hend
  gone r' hr' := by
    rw [leave_loc] at hr' ⊢
    by_cases hr : r' = r
    · rw [if_pos hr] at hr' ⊢
      dsimp only at hr' ⊢
      refine ⟨(s.loc r).round, d, rfl, ?_, ?_⟩
      · rw [List.getElem?_append_right (by rw [h.len r]), h.len r, Nat.sub_self]
        rfl
      · by_contra hne
        rw [if_neg hne] at hr'
        cases hr'
    · rw [if_neg hr] at hr' ⊢
      exact h.gone r' hr'

/-- What an event does, sorted into three kinds. -/
theorem step_kinds {s t : St n} {e : Ev n} (h : step s e = some t) :
    Quiet s t ∨
    (∃ r files, (s.loc r).pc ≠ .gather ∧ (s.loc r).pc ≠ .ended ∧ t = enter s r files) ∨
    (∃ r d, (s.loc r).pc = .gather ∧ dec s (s.loc r).round = some d ∧ t = leaveWith s r d) := by
  cases e with
  | user f b =>
    cases h
    exact Or.inl ⟨rfl, fun _ => rfl, fun _ => rfl, fun _ => Iff.rfl, fun _ => Iff.rfl⟩
  | clock r late =>
    dsimp only [step] at h
    split at h
    · next hpc =>
      cases h
      exact Or.inl (quiet_upd s r _ rfl rfl (by simp) (by simp [hpc]) (by simp) (by simp [hpc]))
    · cases h
  | stop r =>
    dsimp only [step] at h
    split at h
    · next hpc =>
      cases h
      exact Or.inl (quiet_upd s r _ rfl rfl (by simp) (by simp [hpc]) (by simp) (by simp [hpc]))
    · cases h
  | abort r =>
    dsimp only [step] at h
    split at h
    · next hpc =>
      cases h
      exact Or.inl (quiet_upd s r _ rfl rfl (by simp) (by simp [hpc]) (by simp) (by simp [hpc]))
    · cases h
  | save r =>
    dsimp only [step] at h
    split at h
    · next hpc =>
      split at h
      · cases h
        exact Or.inl (quiet_upd s r _ rfl rfl (by simp) (by simp [hpc]) (by simp) (by simp [hpc]))
      · cases h
        exact Or.inr (Or.inl ⟨r, s.files, by simp [hpc], by simp [hpc], rfl⟩)
    · cases h
  | remove r ok =>
    dsimp only [step] at h
    split at h
    · next hpc =>
      cases h
      exact Or.inr (Or.inl ⟨r, _, by simp [hpc], by simp [hpc], rfl⟩)
    · cases h
  | leave r =>
    dsimp only [step] at h
    split at h
    · next hpc =>
      split at h
      · cases h
      · next fl hfl =>
        cases h
        exact Or.inr (Or.inr ⟨r, decision fl, hpc, by unfold dec; rw [hfl]; rfl, rfl⟩)
    · cases h

theorem Inv.step {s t : St n} {e : Ev n} (h : Inv s) (hs : step s e = some t) : Inv t := by
  rcases step_kinds hs with q | ⟨r, files, h1, h2, rfl⟩ | ⟨r, d, h1, h2, rfl⟩
  · exact h.quiet q
  · exact h.enter h1 h2 files
  · exact h.leave h1 h2

theorem Inv.init (files : File → Bool) : Inv (init n files) where
  len _ := rfl
  sent k r := by simp [CheckTime.init]
  log r k d hd := by simp [CheckTime.init] at hd
  stay r k d hd := by simp [CheckTime.init] at hd
  gone r hr := by simp [CheckTime.init] at hr

theorem Inv.exec {s t : St n} {es : List (Ev n)} (h : Inv s) (he : Exec s es t) : Inv t := by
  induction he with
  | nil => exact h
  | snoc _ hs ih => exact ih.step hs

theorem sent_step {s t : St n} {e : Ev n} (h : Inv s) (hs : CheckTime.step s e = some t)
    (k : ℕ) (r : Fin n) (f : ℕ) (hf : s.sent k r = some f) : t.sent k r = some f := by
  rcases step_kinds hs with q | ⟨r, files, h1, h2, rfl⟩ | ⟨r, d, h1, h2, rfl⟩
  · rw [q.sent]; exact hf
  · exact enter_sent_mono h h1 files k _ f hf
  · exact hf

/-! ### Where the flags come from -/

/-- The flag of a rank that stays at its place, or any rank other than the acting one. -/
theorem upd_loc (s : St n) (r : Fin n) (l : Local) (r' : Fin n) :
    (s.upd r l).loc r' = if r' = r then l else s.loc r' := by
  unfold St.upd
  dsimp only
  rw [Function.update_apply]

theorem decision_pos {l : List ℕ} {d : ℕ} (h : decision l = d) (hd : 0 < d) : d ∈ l := by
  unfold decision at h
  cases hf : l.find? (fun val => decide (0 < val)) with
  | none => rw [hf] at h; simp at h; omega
  | some v =>
    rw [hf] at h
    simp only [Option.getD_some] at h
    subst h
    exact List.mem_of_find?_eq_some hf

theorem decision_zero {l : List ℕ} : decision l = 0 ↔ ∀ v ∈ l, v = 0 := by
  unfold decision
  cases hf : l.find? (fun val => decide (0 < val)) with
  | none =>
    rw [List.find?_eq_none] at hf
    simp only [Option.getD_none, true_iff]
    intro v hv
    have := hf v hv
    simp at this
    exact this
  | some v =>
    have h1 := List.mem_of_find?_eq_some hf
    have h2 := List.find?_some hf
    simp only [decide_eq_true_eq] at h2
    simp only [Option.getD_some]
    constructor
    · intro h; omega
    · intro h; exact h v h1

/-- What the decision of a finished check says about the contributions to it. -/
theorem dec_spec {s : St n} {k d : ℕ} (h : dec s k = some d) :
    (0 < d → ∃ r, s.sent k r = some d) ∧
    (d = 0 ↔ ∀ r, s.sent k r = some 0) ∧ ∀ r, (s.sent k r).isSome := by
  unfold dec at h
  cases hm : (List.finRange n).mapM (s.sent k) with
  | none => rw [hm] at h; cases h
  | some fl =>
    rw [hm] at h
    have h := Option.some.inj h
    obtain ⟨h1, h2⟩ := mapM_mem _ _ hm
    refine ⟨fun hd => ?_, ?_, fun r => ?_⟩
    · obtain ⟨r, _, hr⟩ := h2 d (decision_pos h hd)
      exact ⟨r, hr⟩
    · rw [← h, decision_zero]
      constructor
      · intro hz r
        obtain ⟨b, hb, e⟩ := h1 r (List.mem_finRange r)
        rw [hz b hb] at e
        exact e
      · intro hz v hv
        obtain ⟨r, _, e⟩ := h2 v hv
        rw [hz r] at e
        exact (Option.some.inj e).symm
    · obtain ⟨b, _, e⟩ := h1 r (List.mem_finRange r)
      rw [e]; rfl

end Jaxions.CheckTime
