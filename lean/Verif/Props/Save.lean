import Verif.Lemmas.Save
import Verif.Props.Folder

/-
C38: a save and the field in memory; a crash during a save and the restart file.
-/

namespace Jaxions.Save

variable {α β : Type}

/-- C38, field in position space: after a save every lattice site has the value and the
velocity it had, the scratch area and the allocation are untouched; the layout flag is
always "not folded". -/
theorem C38_values (g : Geo) (hNg : 1 ≤ g.Ng) (hdvd : g.shift ∣ g.n1) (sched : Sched)
    (hsch : sched.Ok) (bm bv : Heap Loc α → Option (Heap Loc α)) (s : Mem α)
    (hm : s.mMom = false) (hv : s.vMom = false) (ha : Alloc g s.fld.heap) :
    ∃ s', saveMem g sched bm bv s = some s' ∧ SameContent g s.fld s'.fld ∧
      Alloc g s'.fld.heap ∧ (∀ i, s'.fld.heap ⟨.m2, i⟩ = s.fld.heap ⟨.m2, i⟩) ∧
      s'.fld.folded = false ∧ s'.mMom = false ∧ s'.vMom = false := by
  cases hf : s.fld.folded with
  | false =>
    refine ⟨s, ?_, fun _ _ _ _ _ _ => ⟨rfl, rfl⟩, ha, fun _ => rfl, hf, hm, hv⟩
    obtain ⟨f, m, v⟩ := s
    dsimp only at hf hm hv
    subst hm hv
    simp [saveMem, unfoldField, hf]
  | true =>
    obtain ⟨f', e1, e2, e3, e4, e5⟩ := C01_unfold_keeps_field g hNg hdvd sched hsch s.fld ha hf
    exact ⟨{ s with fld := f' }, by simp [saveMem, e1, hm, hv], e3, e4, e5, e2, hm, hv⟩

/-- C38 fails: a save keeps the layout exactly when the field was not folded, although
the log announces that the field will be folded back. -/
theorem C38_layout_iff (g : Geo) (hNg : 1 ≤ g.Ng) (hdvd : g.shift ∣ g.n1) (sched : Sched)
    (hsch : sched.Ok) (bm bv : Heap Loc α → Option (Heap Loc α)) (s : Mem α)
    (hm : s.mMom = false) (hv : s.vMom = false) (ha : Alloc g s.fld.heap) :
    ∃ s', saveMem g sched bm bv s = some s' ∧
      (s'.fld.folded = s.fld.folded ↔ s.fld.folded = false) := by
  obtain ⟨s', e1, -, -, -, e2, -⟩ := C38_values g hNg hdvd sched hsch bm bv s hm hv ha
  refine ⟨s', e1, ?_⟩
  rw [e2]
  exact eq_comm

/-- C38: a folded field that is saved and then reaches a base propagator is, cell by
cell, the field that would have reached it without the save. -/
theorem C38_next_step (g : Geo) (hNg : 1 ≤ g.Ng) (hdvd : g.shift ∣ g.n1) (s₁ s₂ : Sched)
    (h₁ : s₁.Ok) (h₂ : s₂.Ok) (bm bv : Heap Loc α → Option (Heap Loc α)) (s : Mem α)
    (hm : s.mMom = false) (hv : s.vMom = false) (ha : Alloc g s.fld.heap)
    (hf : s.fld.folded = true) :
    ∃ s' f', saveMem g s₁ bm bv s = some s' ∧ beforeStep g s₂ true s'.fld = some f' ∧
      beforeStep g s₂ true s.fld = some s.fld ∧ f'.folded = true ∧
      (∀ i < g.n3, f'.heap (g.mStart i) = s.fld.heap (g.mStart i)) ∧
      (∀ i < g.n3, f'.heap (g.vStart i) = s.fld.heap (g.vStart i)) := by
  obtain ⟨s', e1, e2, e3, -, e4, -⟩ := C38_values g hNg hdvd s₁ h₁ bm bv s hm hv ha
  obtain ⟨f', k1, k2, k3, -, -⟩ := C01_fold_keeps_field g hNg hdvd s₂ h₂ s'.fld e3 e4
  refine ⟨s', f', e1, by simp [beforeStep, e4, k1], by simp [beforeStep, hf], k2, ?_, ?_⟩
  all_goals
    intro i hi
    obtain ⟨x, y, z, ⟨hx, hy, hz, rfl⟩, -⟩ := C01_layout_bijective g hdvd true i hi
    have q1 := k3 x y z hx hy hz
    have q2 := e2 x y z hx hy hz
    simp only [Fld.mAt, Fld.vAt, k2, e4, hf] at q1 q2
  · rw [q1.1, q2.1]
  · rw [q1.2, q2.2]

/-- C38: the flags after a save, for every transform and every field: both are cleared
exactly when the field flag was set or the velocity flag was not. -/
theorem C38_flags (g : Geo) (sched : Sched) (bm bv : Heap Loc α → Option (Heap Loc α))
    (s s' : Mem α) (h : saveMem g sched bm bv s = some s') :
    (s'.mMom = false) ∧ (s'.vMom = false ↔ (s.mMom = true ∨ s.vMom = false)) := by
  unfold saveMem at h
  cases hu : unfoldField g sched s.fld with
  | none => simp [hu] at h
  | some f =>
    cases hm : s.mMom <;> cases hv : s.vMom <;> simp only [hu, hm, hv, Option.bind_some] at h
    · rw [if_neg (by simp), Option.some.injEq] at h
      subst h; simp_all
    · simp only [Bool.false_or, if_true, iftMV] at h
      rw [Option.some.injEq] at h
      subst h; simp_all
    · simp only [Bool.true_or, if_true, iftMV] at h
      cases hb : bm f.heap with
      | none => simp [hb] at h
      | some h1 =>
        simp only [hb, Option.bind_some, Bool.true_eq_false, if_false] at h
        rw [Option.some.injEq] at h
        subst h; simp
    · simp only [Bool.true_or, if_true, iftMV] at h
      cases hb : bm f.heap with
      | none => simp [hb] at h
      | some h1 =>
        simp only [hb, Option.bind_some, Bool.true_eq_false, if_false] at h
        cases hb2 : bv h1 with
        | none => simp [hb2] at h
        | some h2 =>
          simp only [hb2, Option.bind_some] at h
          rw [Option.some.injEq] at h
          subst h; simp

/-- C38 fails in momentum space: a field saved while in momentum space is in position
space afterwards, so the flags are never what they were. -/
theorem C38_momentum_lost (g : Geo) (sched : Sched) (bm bv : Heap Loc α → Option (Heap Loc α))
    (s s' : Mem α) (hm : s.mMom = true) (h : saveMem g sched bm bv s = some s') :
    s'.mMom ≠ s.mMom := by
  rw [(C38_flags g sched bm bv s s' h).1, hm]; decide

/-! ### Files -/

/-- C38: a call that could create its file leaves it complete. -/
theorem C38_written {c : Call β} (hc : c.created = true) (hw : WellFormed c) (d : Disk β) :
    HoldsFile (finish d c) c.path c.items := crash_end hc hw d

/-- C38: whatever the point of the crash, the files of other names are untouched; in
particular a numbered save never harms the restart file and the other way round. -/
theorem C38_others (c : Call β) (k : ℕ) (d : Disk β) {q : Path} (hq : q ≠ c.path) :
    crash c k d q = d q := fold_other hq _ _

/-- C38, the exact crash window: after `k` effects of a call the file of its name is
complete exactly if nothing happened yet and it was complete before, or all is done. -/
theorem C38_window {c : Call β} (hc : c.created = true) (hw : WellFormed c) (d : Disk β) {k : ℕ}
    (hk : k ≤ c.events.length) :
    Ready (crash c k d) c.path ↔ (k = 0 ∧ Ready d c.path) ∨ k = c.events.length := by
  have hl := events_length hc
  rcases Nat.eq_zero_or_pos k with rfl | h0
  · rw [crash_zero]
    constructor
    · exact fun h => .inl ⟨rfl, h⟩
    · rintro (⟨_, h⟩ | h)
      · exact h
      · omega
  · rcases Nat.lt_or_ge k c.events.length with hlt | hge
    · obtain ⟨f, e1, e2, -⟩ := crash_mid hc hw d h0 (by omega)
      constructor
      · rintro ⟨w, f', h1, h2, -⟩
        rw [e1, Option.some.injEq] at h1
        subst h1
        rw [e2] at h2
        exact absurd h2 (by decide)
      · rintro (⟨h, _⟩ | h) <;> omega
    · obtain rfl : k = c.events.length := by omega
      exact ⟨fun _ => .inr rfl, fun _ => ⟨c.items, crash_end hc hw d⟩⟩

/-- C38, whole histories: after any list of finished calls and a crash after `k` effects
of one more, a complete restart file is on the disk exactly if the running call has just
finished writing one, or it is not in the middle of writing one and there was one
before (at the start or from a finished call). -/
theorem C38_history (cs : List (Call β)) (hcs : ∀ c ∈ cs, WellFormed c) (c : Call β)
    (hw : WellFormed c) (d : Disk β) {k : ℕ} (hk : k ≤ c.events.length) :
    Ready (crash c k (cs.foldl finish d)) .restart ↔
      (c.restart = true ∧ c.created = true ∧ k = c.events.length) ∨
      (¬ (c.restart = true ∧ c.created = true ∧ 0 < k) ∧
        (Ready d .restart ∨ ∃ a ∈ cs, a.restart = true ∧ a.created = true)) := by
  have hpath : ∀ a : Call β, a.restart = true → a.path = .restart := by
    intro a h; simp [Call.path, pathOf, h]
  have hother : ∀ a : Call β, a.restart = false → Path.restart ≠ a.path := by
    intro a h; simp [Call.path, pathOf, h]
  have key : ∀ d : Disk β, Ready (cs.foldl finish d) .restart ↔
      (Ready d .restart ∨ ∃ a ∈ cs, a.restart = true ∧ a.created = true) := by
    clear hw hk
    induction cs with
    | nil => simp
    | cons a cs ih =>
      intro d
      rw [List.foldl_cons, ih (fun x hx => hcs x (List.mem_cons_of_mem _ hx))]
      have hstep : Ready (finish d a) .restart ↔
          (Ready d .restart ∨ (a.restart = true ∧ a.created = true)) := by
        cases hr : a.restart with
        | false =>
          have : finish d a .restart = d .restart := fold_other (hother a hr) _ _
          simp [Ready, HoldsFile, this]
        | true =>
          cases hc : a.created with
          | false => simp [finish, finish_uncreated hc]
          | true =>
            have := crash_end hc (hcs a List.mem_cons_self) d
            rw [hpath a hr] at this
            exact ⟨fun _ => .inr ⟨rfl, rfl⟩, fun _ => ⟨_, this⟩⟩
      rw [hstep]
      simp only [List.mem_cons, exists_eq_or_imp]
      exact or_assoc
  cases hr : c.restart with
  | false =>
    have : crash c k (cs.foldl finish d) .restart = cs.foldl finish d .restart :=
      fold_other (hother c hr) _ _
    have : Ready (crash c k (cs.foldl finish d)) .restart ↔ Ready (cs.foldl finish d) .restart := by
      simp [Ready, HoldsFile, this]
    rw [this, key]
    simp
  | true =>
    cases hc : c.created with
    | false =>
      rw [finish_uncreated hc, key]
      simp
    | true =>
      have hwin := C38_window hc hw (cs.foldl finish d) hk
      rw [hpath c hr] at hwin
      rw [hwin, key]
      have hl := events_length hc
      rcases Nat.eq_zero_or_pos k with rfl | h0
      · simp only [Nat.lt_irrefl, and_false, not_false_eq_true, true_and]
        exact or_comm
      · simp [h0]
        omega

/-- C38 fails: whatever was saved before, a crash inside the save of a restart file
leaves no complete restart file; and every such save has such points. -/
theorem C38_restart_lost {c : Call β} (hr : c.restart = true) (hc : c.created = true)
    (hw : WellFormed c) (d : Disk β) :
    (∃ k, 0 < k ∧ k < c.events.length) ∧
    ∀ k, 0 < k → k < c.events.length → ¬ Ready (crash c k d) .restart := by
  have hl := events_length hc
  refine ⟨⟨1, by omega, by omega⟩, ?_⟩
  intro k h0 hk h
  have hp : c.path = .restart := by simp [Call.path, pathOf, hr]
  rw [← hp] at h
  rcases (C38_window hc hw d (Nat.le_of_lt hk)).1 h with ⟨h, _⟩ | h <;> omega

/-- C38 fails silently: if the file cannot be created the call returns as after a
success, and the disk is as it was. -/
theorem C38_create_failed {c : Call β} (hc : c.created = false) (d : Disk β) :
    finish d c = d := finish_uncreated hc _ d

/-- A folded field meeting the hypotheses of the theorems about memory. -/
example : ∃ s', saveMem exGeo (fun _ l => l) (fun _ => none) (fun _ => none)
      ⟨{ exFld with folded := true }, false, false⟩ = some s' ∧
    s'.fld.folded = false := by
  refine ⟨_, rfl, ?_⟩
  rfl

/-- A first complete restart file, then a crash after the creation of the second. -/
example :
    let c1 : Call Bool := ⟨true, 7, true, [(0, true), (1, false)]⟩
    let c2 : Call Bool := ⟨true, 9, true, [(0, false), (1, false)]⟩
    HoldsFile (finish (fun _ => none) c1) .restart c1.items ∧
    ¬ Ready (crash c2 1 (finish (fun _ => none) c1)) .restart ∧
    HoldsFile (crash c2 4 (finish (fun _ => none) c1)) .restart c2.items := by
  intro c1 c2
  have w1 : WellFormed c1 := by unfold WellFormed; decide
  have w2 : WellFormed c2 := by unfold WellFormed; decide
  exact ⟨C38_written rfl w1 _, (C38_restart_lost rfl rfl w2 _).2 1 (by decide) (by decide),
    C38_written rfl w2 _⟩

end Jaxions.Save
