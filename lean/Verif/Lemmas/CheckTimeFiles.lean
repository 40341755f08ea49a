import Verif.Lemmas.CheckTime
import Verif.Spec.CheckTime

/-
What the ranks see in the directory.
-/

namespace Jaxions.CheckTime

variable {n : ℕ}

theorem Saw.snoc {s : St n} {es : List (Ev n)} {r : Fin n} {f : ℕ} (h : Saw s es r f)
    (e : Ev n) : Saw s (es ++ [e]) r f := by
  rcases h with ⟨h1, h2⟩ | ⟨h1, a, b, u, h2, h3⟩ | ⟨h1, a, b, u, h2, h3⟩ | ⟨h1, a, b, u, h2, h3⟩
  · exact Or.inl ⟨h1, by simp [h2]⟩
  · exact Or.inr (Or.inl ⟨h1, a, b ++ [e], u, by rw [h2]; simp, h3⟩)
  · exact Or.inr (Or.inr (Or.inl ⟨h1, a, b ++ [e], u, by rw [h2]; simp, h3⟩))
  · exact Or.inr (Or.inr (Or.inr ⟨h1, a, b ++ [e], u, by rw [h2]; simp, h3⟩))

/-- Every flag has its reason. -/
structure Caused (s : St n) (es : List (Ev n)) (t : St n) : Prop where
  flag : ∀ r, 0 < (t.loc r).flag → Saw s es r (t.loc r).flag
  sent : ∀ k r f, 0 < f → t.sent k r = some f → Saw s es r f

theorem Caused.enter {s t : St n} {es : List (Ev n)} (h : Caused s es t) (r : Fin n)
    (files : File → Bool) (e : Ev n) : Caused s (es ++ [e]) (enter t r files) where
  flag r' hr' := by
    rw [enter_loc] at hr' ⊢
    by_cases hr : r' = r
    · rw [if_pos hr] at hr' ⊢
      rw [hr]
      exact (h.flag r hr').snoc e
    · rw [if_neg hr] at hr' ⊢
      exact (h.flag r' hr').snoc e
  sent k r' f hf hs := by
    rw [enter_sent] at hs
    split at hs
    · next hc =>
      cases hs
      rw [hc.2]
      exact (h.flag r hf).snoc e
    · exact (h.sent k r' f hf hs).snoc e

theorem Caused.upd {s t : St n} {es : List (Ev n)} (h : Caused s es t) (r : Fin n)
    (l : Local) (e : Ev n) (hl : 0 < l.flag → Saw s (es ++ [e]) r l.flag) :
    Caused s (es ++ [e]) (t.upd r l) where
  flag r' hr' := by
    rw [upd_loc] at hr' ⊢
    by_cases hr : r' = r
    · rw [if_pos hr] at hr' ⊢
      rw [hr]
      exact hl hr'
    · rw [if_neg hr] at hr' ⊢
      exact (h.flag r' hr').snoc e
  sent k r' f hf hs := (h.sent k r' f hf hs).snoc e

theorem Caused.step {s t u : St n} {es : List (Ev n)} {e : Ev n} (h : Caused s es t)
    (hex : Exec s es t) (hs : CheckTime.step t e = some u) : Caused s (es ++ [e]) u := by
  cases e with
  | user f b =>
    cases hs
    exact ⟨fun r hr => (h.flag r hr).snoc _, fun k r f hf hs => (h.sent k r f hf hs).snoc _⟩
  | clock r late =>
    dsimp only [CheckTime.step] at hs
    split at hs
    · cases hs
      refine h.upd r _ _ (fun hp => ?_)
      cases late with
      | false => exact absurd hp (by simp)
      | true => exact Or.inl ⟨rfl, by simp⟩
    · cases hs
  | stop r =>
    dsimp only [CheckTime.step] at hs
    split at hs
    · cases hs
      refine h.upd r _ _ (fun hp => ?_)
      dsimp only at hp ⊢
      by_cases hf : t.files .stop = true
      · rw [if_pos hf]
        exact Or.inr (Or.inl ⟨rfl, es, [], t, rfl, hex, hf⟩)
      · rw [if_neg hf] at hp ⊢
        exact (h.flag r hp).snoc _
    · cases hs
  | abort r =>
    dsimp only [CheckTime.step] at hs
    split at hs
    · cases hs
      refine h.upd r _ _ (fun hp => ?_)
      dsimp only at hp ⊢
      by_cases hf : t.files .abort = true
      · rw [if_pos hf]
        exact Or.inr (Or.inr (Or.inl ⟨rfl, es, [], t, rfl, hex, hf⟩))
      · rw [if_neg hf] at hp ⊢
        exact (h.flag r hp).snoc _
    · cases hs
  | save r =>
    dsimp only [CheckTime.step] at hs
    split at hs
    · split at hs
      · next hf =>
        cases hs
        exact h.upd r _ _ (fun _ => Or.inr (Or.inr (Or.inr ⟨rfl, es, [], t, rfl, hex, hf⟩)))
      · cases hs
        exact h.enter r t.files _
    · cases hs
  | remove r ok =>
    dsimp only [CheckTime.step] at hs
    split at hs
    · cases hs
      exact h.enter r _ _
    · cases hs
  | leave r =>
    dsimp only [CheckTime.step] at hs
    split at hs
    · split at hs
      · cases hs
      · cases hs
        exact h.upd r _ _ (fun hp => absurd hp (by simp))
    · cases hs

theorem caused {files : File → Bool} {es : List (Ev n)} {t : St n}
    (h : Exec (init n files) es t) : Caused (init n files) es t := by
  induction h with
  | nil =>
    exact ⟨fun r hr => absurd hr (by simp [init]), fun k r f _ hs => by simp [init] at hs⟩
  | snoc hex hs ih => exact ih.step hex hs

/-! ### The request to save -/

/-- A rank about to delete the file has noted the request. -/
def Noted (t : St n) : Prop := ∀ r, ((t.loc r).pc = .remove → (t.loc r).flag = 4) ∧
  ((t.loc r).pc = .stop → (t.loc r).flag ≤ 1) ∧ ((t.loc r).pc = .abort → (t.loc r).flag ≤ 2) ∧
  ((t.loc r).pc = .save → (t.loc r).flag ≤ 3)

theorem noted_step {t u : St n} {e : Ev n} (h : Noted t) (hs : step t e = some u) : Noted u := by
  have hupd : ∀ (r : Fin n) (l : Local), ((l.pc = .remove → l.flag = 4) ∧
      (l.pc = .stop → l.flag ≤ 1) ∧ (l.pc = .abort → l.flag ≤ 2) ∧ (l.pc = .save → l.flag ≤ 3)) →
      Noted (t.upd r l) := by
    intro r l hl r'
    rw [upd_loc]
    by_cases hr : r' = r
    · rw [if_pos hr]
      exact hl
    · rw [if_neg hr]
      exact h r'
  have hent : ∀ (r : Fin n) (files : File → Bool), Noted (enter t r files) := by
    intro r files r'
    rw [enter_loc]
    by_cases hr : r' = r
    · rw [if_pos hr]
      simp
    · rw [if_neg hr]
      exact h r'
  cases e with
  | user f b => cases hs; exact h
  | clock r late =>
    dsimp only [step] at hs
    split at hs
    · cases hs
      refine hupd _ _ ⟨by simp, fun _ => ?_, by simp, by simp⟩
      dsimp only
      split <;> omega
    · cases hs
  | stop r =>
    dsimp only [step] at hs
    split at hs
    · next hpc =>
      cases hs
      refine hupd _ _ ⟨by simp, by simp, fun _ => ?_, by simp⟩
      have := (h r).2.1 hpc
      dsimp only
      split <;> omega
    · cases hs
  | abort r =>
    dsimp only [step] at hs
    split at hs
    · next hpc =>
      cases hs
      refine hupd _ _ ⟨by simp, by simp, by simp, fun _ => ?_⟩
      have := (h r).2.2.1 hpc
      dsimp only
      split <;> omega
    · cases hs
  | save r =>
    dsimp only [step] at hs
    split at hs
    · split at hs
      · cases hs; exact hupd _ _ ⟨fun _ => rfl, by simp, by simp, by simp⟩
      · cases hs; exact hent _ _
    · cases hs
  | remove r ok =>
    dsimp only [step] at hs
    split at hs
    · cases hs; exact hent _ _
    · cases hs
  | leave r =>
    dsimp only [step] at hs
    split at hs
    · split at hs
      · cases hs
      · cases hs
        refine hupd _ _ ?_
        dsimp only
        split <;> simp
    · cases hs

theorem noted {files : File → Bool} {es : List (Ev n)} {t : St n}
    (h : Exec (init n files) es t) : Noted t := by
  induction h with
  | nil => intro r; simp [init]
  | snoc _ hs ih => exact noted_step ih hs

theorem Exec.trans {s t u : St n} {a b : List (Ev n)} (h1 : Exec s a t) (h2 : Exec t b u) :
    Exec s (a ++ b) u := by
  induction h2 with
  | nil => rw [List.append_nil]; exact h1
  | snoc _ hs ih => rw [← List.append_assoc]; exact .snoc ih hs

/-- The request is still in the directory, or some rank has handed it in. -/
theorem pending_step {t u : St n} {e : Ev n} (hinv : Inv t) (hn : Noted t)
    (hs : step t e = some u) (hu : e ≠ .user .save false) (K : ℕ)
    (hK : ∀ r, K ≤ (t.loc r).round)
    (h : t.files .save = true ∨ ∃ k r, K ≤ k ∧ t.sent k r = some 4) :
    u.files .save = true ∨ ∃ k r, K ≤ k ∧ u.sent k r = some 4 := by
  rcases h with h | ⟨k, r, hk, h⟩
  swap
  · exact Or.inr ⟨k, r, hk, sent_step hinv hs k r 4 h⟩
  cases e with
  | user f b =>
    cases hs
    refine Or.inl ?_
    dsimp only
    rw [Function.update_apply]
    by_cases hf : File.save = f
    · rw [if_pos hf]
      subst hf
      cases b with
      | true => rfl
      | false => exact absurd rfl hu
    · rw [if_neg hf]; exact h
  | clock r late =>
    dsimp only [step] at hs
    split at hs
    · cases hs; exact Or.inl h
    · cases hs
  | stop r =>
    dsimp only [step] at hs
    split at hs
    · cases hs; exact Or.inl h
    · cases hs
  | abort r =>
    dsimp only [step] at hs
    split at hs
    · cases hs; exact Or.inl h
    · cases hs
  | save r =>
    dsimp only [step] at hs
    split at hs
    · cases hs; exact Or.inl h
    · cases hs
  | remove r ok =>
    dsimp only [step] at hs
    split at hs
    · next hpc =>
      have e : some (enter t r (if ok = true then Function.update t.files .save false
          else t.files)) = some u := hs
      cases e
      refine Or.inr ⟨(t.loc r).round, r, hK r, ?_⟩
      rw [enter_sent, if_pos ⟨rfl, rfl⟩, (hn r).1 hpc]
    · cases hs
  | leave r =>
    dsimp only [step] at hs
    split at hs
    · split at hs
      · cases hs
      · cases hs; exact Or.inl h
    · cases hs

theorem round_step {t u : St n} {e : Ev n} (hs : step t e = some u) (r : Fin n) :
    (t.loc r).round ≤ (u.loc r).round := by
  rcases step_kinds hs with q | ⟨r', files, h1, h2, rfl⟩ | ⟨r', d, h1, h2, rfl⟩
  · rw [q.round]
  · rw [enter_loc]
    split
    · next e => rw [e]
    · exact Nat.le_refl _
  · rw [leave_loc]
    split
    · next e => rw [e]; exact Nat.le_succ _
    · exact Nat.le_refl _

/-- A rank that is behind has already contributed to the check it is in. -/
theorem Inv.behind {t : St n} (h : Inv t) {r r' : Fin n}
    (hlt : (t.loc r).round < (t.loc r').round) : (t.sent (t.loc r).round r).isSome := by
  have hd := List.getElem?_eq_getElem (l := (t.loc r').log) (i := (t.loc r).round)
    (by rw [h.len]; exact hlt)
  exact (dec_spec (h.log r' _ _ hd)).2.2 r

theorem Inv.not_behind {t : St n} (h : Inv t) {r r' : Fin n} (hr : (t.loc r).pc ≠ .gather) :
    (t.loc r').round ≤ (t.loc r).round := by
  by_contra hlt
  have := h.behind (r := r) (r' := r') (by omega)
  rw [h.sent] at this
  rcases this with h | h
  · omega
  · exact hr h.2

theorem Inv.sent_le {t : St n} (h : Inv t) {r r' : Fin n} (hr : (t.loc r).pc ≠ .gather)
    {k f : ℕ} (hs : t.sent k r' = some f) : k ≤ (t.loc r).round := by
  have := (h.sent k r').1 (by rw [hs]; rfl)
  have := h.not_behind (r := r) (r' := r') hr
  omega

/-- Ways in which a contribution appears. -/
theorem sent_new {t u : St n} {e : Ev n} (hs : step t e = some u) {k : ℕ} {r : Fin n} {f : ℕ}
    (h : u.sent k r = some f) : t.sent k r = some f ∨
    (k = (t.loc r).round ∧ f = (t.loc r).flag ∧
      (((t.loc r).pc = .save ∧ t.files .save = false) ∨
        ((t.loc r).pc = .remove ∧ ∃ ok, e = .remove r ok))) := by
  cases e with
  | user f b => cases hs; exact Or.inl h
  | clock r late =>
    dsimp only [step] at hs
    split at hs
    · cases hs; exact Or.inl h
    · cases hs
  | stop r =>
    dsimp only [step] at hs
    split at hs
    · cases hs; exact Or.inl h
    · cases hs
  | abort r =>
    dsimp only [step] at hs
    split at hs
    · cases hs; exact Or.inl h
    · cases hs
  | save r' =>
    dsimp only [step] at hs
    split at hs
    · next hpc =>
      split at hs
      · cases hs; exact Or.inl h
      · next hf =>
        have e : some (enter t r' t.files) = some u := hs
        cases e
        rw [enter_sent] at h
        split at h
        · next hc =>
          obtain ⟨hc1, rfl⟩ := hc
          exact Or.inr ⟨hc1, (Option.some.inj h).symm, Or.inl ⟨hpc, by simpa using hf⟩⟩
        · exact Or.inl h
    · cases hs
  | remove r' ok =>
    dsimp only [step] at hs
    split at hs
    · next hpc =>
      have e : some (enter t r' (if ok = true then Function.update t.files .save false
          else t.files)) = some u := hs
      cases e
      rw [enter_sent] at h
      split at h
      · next hc =>
        obtain ⟨hc1, rfl⟩ := hc
        exact Or.inr ⟨hc1, (Option.some.inj h).symm, Or.inr ⟨hpc, ok, rfl⟩⟩
      · exact Or.inl h
    · cases hs
  | leave r =>
    dsimp only [step] at hs
    split at hs
    · split at hs
      · cases hs
      · cases hs; exact Or.inl h
    · cases hs

/-- How the record of one rank changes. -/
theorem loc_new {t u : St n} {e : Ev n} (hs : step t e = some u) (r : Fin n) :
    u.loc r = t.loc r ∨
    ((t.loc r).pc = .clock ∧ ∃ late : Bool, u.loc r =
      { t.loc r with pc := .stop, flag := if late then 1 else 0 }) ∨
    ((t.loc r).pc = .stop ∧ u.loc r = { t.loc r with
        pc := .abort, flag := if t.files .stop then 2 else (t.loc r).flag }) ∨
    ((t.loc r).pc = .abort ∧ u.loc r = { t.loc r with
        pc := .save, flag := if t.files .abort then 3 else (t.loc r).flag }) ∨
    ((t.loc r).pc = .save ∧ t.files .save = true ∧
      u.loc r = { t.loc r with pc := .remove, flag := 4 }) ∨
    (u.loc r).pc = .gather ∨
    ((t.loc r).pc = .gather ∧ ((u.loc r).pc = .clock ∨ (u.loc r).pc = .ended)) := by
  have hupd : ∀ (r' : Fin n) (l : Local), (t.upd r' l).loc r = t.loc r ∨
      (r = r' ∧ (t.upd r' l).loc r = l) := by
    intro r' l
    rw [upd_loc]
    by_cases hr : r = r'
    · rw [if_pos hr]; exact Or.inr ⟨hr, rfl⟩
    · rw [if_neg hr]; exact Or.inl rfl
  have hent : ∀ (r' : Fin n) (files : File → Bool), (enter t r' files).loc r = t.loc r ∨
      ((enter t r' files).loc r).pc = .gather := by
    intro r' files
    rw [enter_loc]
    by_cases hr : r = r'
    · rw [if_pos hr]; exact Or.inr rfl
    · rw [if_neg hr]; exact Or.inl rfl
  cases e with
  | user f b => cases hs; exact Or.inl rfl
  | clock r' late =>
    dsimp only [step] at hs
    split at hs
    · next hpc =>
      cases hs
      rcases hupd r' { t.loc r' with pc := .stop, flag := if late then 1 else 0 } with h | ⟨rfl, h⟩
      · exact Or.inl h
      · exact Or.inr (Or.inl ⟨hpc, late, h⟩)
    · cases hs
  | stop r' =>
    dsimp only [step] at hs
    split at hs
    · next hpc =>
      cases hs
      rcases hupd r' { t.loc r' with
        pc := .abort, flag := if t.files .stop then 2 else (t.loc r').flag } with h | ⟨rfl, h⟩
      · exact Or.inl h
      · exact Or.inr (Or.inr (Or.inl ⟨hpc, h⟩))
    · cases hs
  | abort r' =>
    dsimp only [step] at hs
    split at hs
    · next hpc =>
      cases hs
      rcases hupd r' { t.loc r' with
        pc := .save, flag := if t.files .abort then 3 else (t.loc r').flag } with h | ⟨rfl, h⟩
      · exact Or.inl h
      · exact Or.inr (Or.inr (Or.inr (Or.inl ⟨hpc, h⟩)))
    · cases hs
  | save r' =>
    dsimp only [step] at hs
    split at hs
    · next hpc =>
      split at hs
      · next hf =>
        cases hs
        rcases hupd r' { t.loc r' with pc := .remove, flag := 4 } with h | ⟨rfl, h⟩
        · exact Or.inl h
        · exact Or.inr (Or.inr (Or.inr (Or.inr (Or.inl ⟨hpc, hf, h⟩))))
      · have e : some (enter t r' t.files) = some u := hs
        cases e
        rcases hent r' t.files with h | h
        · exact Or.inl h
        · exact Or.inr (Or.inr (Or.inr (Or.inr (Or.inr (Or.inl h)))))
    · cases hs
  | remove r' ok =>
    dsimp only [step] at hs
    split at hs
    · have e : some (enter t r' (if ok = true then Function.update t.files .save false
          else t.files)) = some u := hs
      cases e
      rcases hent r' (if ok = true then Function.update t.files .save false
          else t.files) with h | h
      · exact Or.inl h
      · exact Or.inr (Or.inr (Or.inr (Or.inr (Or.inr (Or.inl h)))))
    · cases hs
  | leave r' =>
    dsimp only [step] at hs
    split at hs
    · next hpc =>
      split at hs
      · cases hs
      · next fl hfl =>
        cases hs
        rcases hupd r'
          { pc := if ends (decision fl) then .ended else .clock, round := (t.loc r').round + 1,
            flag := 0, log := (t.loc r').log ++ [decision fl] } with h | ⟨rfl, h⟩
        · exact Or.inl h
        · refine Or.inr (Or.inr (Or.inr (Or.inr (Or.inr (Or.inr ⟨hpc, ?_⟩)))))
          rw [h]
          dsimp only
          split
          · exact Or.inr rfl
          · exact Or.inl rfl
    · cases hs

/-- How the directory changes. -/
theorem files_new {t u : St n} {e : Ev n} (hs : step t e = some u) :
    (∃ f b, e = .user f b ∧ u.files = Function.update t.files f b) ∨
    (∃ r, e = .remove r true ∧ u.files = Function.update t.files .save false) ∨
    (u.files = t.files ∧ ∀ r, e ≠ .remove r true) := by
  cases e with
  | user f b => cases hs; exact Or.inl ⟨f, b, rfl, rfl⟩
  | clock r late =>
    dsimp only [step] at hs
    split at hs
    · cases hs; exact Or.inr (Or.inr ⟨rfl, by simp⟩)
    · cases hs
  | stop r =>
    dsimp only [step] at hs
    split at hs
    · cases hs; exact Or.inr (Or.inr ⟨rfl, by simp⟩)
    · cases hs
  | abort r =>
    dsimp only [step] at hs
    split at hs
    · cases hs; exact Or.inr (Or.inr ⟨rfl, by simp⟩)
    · cases hs
  | save r =>
    dsimp only [step] at hs
    split at hs
    · split at hs
      · cases hs; exact Or.inr (Or.inr ⟨rfl, by simp⟩)
      · cases hs; exact Or.inr (Or.inr ⟨rfl, by simp⟩)
    · cases hs
  | remove r ok =>
    dsimp only [step] at hs
    split at hs
    · cases hs
      cases ok with
      | true => exact Or.inr (Or.inl ⟨r, rfl, rfl⟩)
      | false => exact Or.inr (Or.inr ⟨rfl, by simp⟩)
    · cases hs
  | leave r =>
    dsimp only [step] at hs
    split at hs
    · split at hs
      · cases hs
      · cases hs; exact Or.inr (Or.inr ⟨rfl, by simp⟩)
    · cases hs

/-! ### One request, one save -/

/-- Rank `r` has seen the save file in check `k`. -/
def Marked (t : St n) (k : ℕ) (r : Fin n) : Prop :=
  t.sent k r = some 4 ∨ ((t.loc r).pc = .remove ∧ k = (t.loc r).round)

structure Once (K : ℕ) (t : St n) : Prop where
  same : ∀ k k' r r', K < k → K < k' → Marked t k r → Marked t k' r' → k = k'
  gone : ∀ k r, K < k → t.sent k r = some 4 → t.files .save = false

theorem Once.step {K : ℕ} {t u : St n} {e : Ev n} (h : Once K t) (hinv : Inv t) (hn : Noted t)
    (hs : CheckTime.step t e = some u) (hu : e ≠ .user .save true)
    (hok : ∀ r, e ≠ .remove r false) : Once K u := by
  -- marks are old, or made now by a rank that sees the file
  have hmark : ∀ k r, Marked u k r → Marked t k r ∨
      ((t.loc r).pc = .save ∧ t.files .save = true ∧ k = (t.loc r).round) := by
    intro k r hm
    rcases hm with hm | ⟨hm, hk⟩
    · rcases sent_new hs hm with h1 | ⟨h1, h2, h3 | h3⟩
      · exact Or.inl (Or.inl h1)
      · have := (hn r).2.2.2 h3.1
        omega
      · exact Or.inl (Or.inr ⟨h3.1, h1⟩)
    · rcases loc_new hs r with h1 | ⟨_, _, h1⟩ | ⟨_, h1⟩ | ⟨_, h1⟩ | ⟨h0, hf, h1⟩ | h1 | ⟨_, h1⟩
      · rw [h1] at hm hk
        exact Or.inl (Or.inr ⟨hm, hk⟩)
      · rw [h1] at hm; cases hm
      · rw [h1] at hm; cases hm
      · rw [h1] at hm; cases hm
      · rw [h1] at hk
        exact Or.inr ⟨h0, hf, hk⟩
      · rw [hm] at h1; cases h1
      · rw [hm] at h1; rcases h1 with h1 | h1 <;> cases h1
  -- an old mark and a rank that sees the file now are in the same check
  have hcross : ∀ k r r', K < k → Marked t k r → (t.loc r').pc = .save →
      t.files .save = true → k = (t.loc r').round := by
    intro k r r' hk hm hpc hf
    rcases hm with hm | ⟨hm, rfl⟩
    · rw [h.gone k r hk hm] at hf; cases hf
    · have h1 := hinv.not_behind (r := r) (r' := r') (by rw [hm]; simp)
      have h2 := hinv.not_behind (r := r') (r' := r) (by rw [hpc]; simp)
      omega
  constructor
  · intro k k' r r' hk hk' hm hm'
    rcases hmark k r hm with h1 | ⟨h1, h2, h3⟩ <;> rcases hmark k' r' hm' with h1' | ⟨h1', h2', h3'⟩
    · exact h.same k k' r r' hk hk' h1 h1'
    · rw [h3']; exact hcross k r r' hk h1 h1' h2'
    · rw [h3]; exact (hcross k' r' r hk' h1' h1 h2).symm
    · have e1 := hinv.not_behind (r := r) (r' := r') (by rw [h1]; simp)
      have e2 := hinv.not_behind (r := r') (r' := r) (by rw [h1']; simp)
      omega
  · intro k r hk hm
    have hfile : t.files .save = false → u.files .save = false := by
      intro hf
      rcases files_new hs with ⟨f, b, rfl, hu'⟩ | ⟨_, _, hu'⟩ | ⟨hu', _⟩
      · rw [hu', Function.update_apply]
        split
        · next hc =>
          subst hc
          cases b with
          | true => exact absurd rfl hu
          | false => rfl
        · exact hf
      · rw [hu', Function.update_apply, if_pos rfl]
      · rw [hu']; exact hf
    rcases sent_new hs hm with h1 | ⟨_, _, h3 | ⟨_, ok, rfl⟩⟩
    · exact hfile (h.gone k r hk h1)
    · exact hfile h3.2
    · cases ok with
      | false => exact absurd rfl (hok r)
      | true =>
        rcases files_new hs with ⟨f, b, h0, _⟩ | ⟨_, _, hu'⟩ | ⟨_, h0⟩
        · cases h0
        · rw [hu', Function.update_apply, if_pos rfl]
        · exact absurd rfl (h0 r)

/-! ### Files that stay as they are -/

/-- The flag of a rank that has looked for the files, when these do not change. -/
def Fits (fs : File → Bool) (f : ℕ) : Prop :=
  if fs .abort then f = 3 else if fs .stop then f = 2 else f ≤ 1

structure Settled (K : ℕ) (fs : File → Bool) (t : St n) : Prop where
  files : t.files = fs
  stop : ∀ r, K < (t.loc r).round → (t.loc r).pc = .stop → (t.loc r).flag ≤ 1
  abort : ∀ r, K < (t.loc r).round → (t.loc r).pc = .abort →
    if fs .stop then (t.loc r).flag = 2 else (t.loc r).flag ≤ 1
  save : ∀ r, K < (t.loc r).round → (t.loc r).pc = .save → Fits fs (t.loc r).flag
  remove : ∀ r, K < (t.loc r).round → (t.loc r).pc ≠ .remove
  sent : ∀ k r f, K < k → t.sent k r = some f → Fits fs f

theorem Settled.step {K : ℕ} {fs : File → Bool} {t u : St n} {e : Ev n} (h : Settled K fs t)
    (hfs : fs .save = false) (hs : CheckTime.step t e = some u) (hu : ∀ f b, e ≠ .user f b) :
    Settled K fs u where
  files := by
    rcases files_new hs with ⟨f, b, h0, _⟩ | ⟨_, _, hu'⟩ | ⟨hu', _⟩
    · exact absurd h0 (hu f b)
    · rw [hu', h.files, ← hfs, Function.update_eq_self]
    · rw [hu']; exact h.files
  stop r hk hpc := by
    rcases loc_new hs r with h1 | ⟨_, _, h1⟩ | ⟨_, h1⟩ | ⟨_, h1⟩ | ⟨h0, hf, h1⟩ | h1 | ⟨_, h1⟩
    · rw [h1] at hk hpc ⊢; exact h.stop r hk hpc
    · rw [h1]; dsimp only; split <;> omega
    · rw [h1] at hpc; cases hpc
    · rw [h1] at hpc; cases hpc
    · rw [h1] at hpc; cases hpc
    · rw [h1] at hpc; cases hpc
    · rw [hpc] at h1; rcases h1 with h1 | h1 <;> cases h1
  abort r hk hpc := by
    rcases loc_new hs r with h1 | ⟨_, _, h1⟩ | ⟨h0, h1⟩ | ⟨_, h1⟩ | ⟨h0, hf, h1⟩ | h1 | ⟨_, h1⟩
    · rw [h1] at hk hpc ⊢; exact h.abort r hk hpc
    · rw [h1] at hpc; cases hpc
    · rw [h1] at hk ⊢
      dsimp only at hk ⊢
      have := h.stop r hk h0
      rw [h.files]
      by_cases hc : fs .stop = true
      · rw [if_pos hc, if_pos hc]
      · rw [if_neg hc, if_neg hc]; exact this
    · rw [h1] at hpc; cases hpc
    · rw [h1] at hpc; cases hpc
    · rw [h1] at hpc; cases hpc
    · rw [hpc] at h1; rcases h1 with h1 | h1 <;> cases h1
  save r hk hpc := by
    rcases loc_new hs r with h1 | ⟨_, _, h1⟩ | ⟨h0, h1⟩ | ⟨h0, h1⟩ | ⟨_, hf, h1⟩ | h1 | ⟨_, h1⟩
    · rw [h1] at hk hpc ⊢; exact h.save r hk hpc
    · rw [h1] at hpc; cases hpc
    · rw [h1] at hpc; cases hpc
    · rw [h1] at hk ⊢
      dsimp only at hk ⊢
      have := h.abort r hk h0
      unfold Fits
      rw [h.files]
      by_cases hc : fs .abort = true
      · rw [if_pos hc, if_pos hc]
      · rw [if_neg hc, if_neg hc]; exact this
    · rw [h1] at hpc; cases hpc
    · rw [h1] at hpc; cases hpc
    · rw [hpc] at h1; rcases h1 with h1 | h1 <;> cases h1
  remove r hk hpc := by
    rcases loc_new hs r with h1 | ⟨_, _, h1⟩ | ⟨h0, h1⟩ | ⟨h0, h1⟩ | ⟨_, hf, h1⟩ | h1 | ⟨_, h1⟩
    · rw [h1] at hk hpc; exact h.remove r hk hpc
    · rw [h1] at hpc; cases hpc
    · rw [h1] at hpc; cases hpc
    · rw [h1] at hpc; cases hpc
    · rw [h.files, hfs] at hf; cases hf
    · rw [h1] at hpc; cases hpc
    · rw [hpc] at h1; rcases h1 with h1 | h1 <;> cases h1
  sent k r f hk hf := by
    rcases sent_new hs hf with h1 | ⟨rfl, rfl, h3 | ⟨h3, _⟩⟩
    · exact h.sent k r f hk h1
    · exact h.save r hk h3.1
    · exact absurd h3 (h.remove r hk)

end Jaxions.CheckTime
