import Verif.Lemmas.Plans

/-
C31: each FFT plan is created once and destroyed once.

`Spec.Reg.After cs r` says what every name stands for after the calls `cs`,
without mentioning how the registry is stored; `Spec.Ok` lists the calls the
interface supports.
-/

namespace Jaxions.Plans

open Spec

variable {N : Type} [LinearOrder N]

/-- The meaning of names after a history is unique. -/
theorem C31_meaning_unique {cs : List (Call N)} {r r' : Reg N}
    (h : Reg.After cs r) (h' : Reg.After cs r') : r = r' := by
  induction h generalizing r' with
  | nil =>
    generalize hc : ([] : List (Call N)) = cs at h'
    cases h' with
    | nil => rfl
    | snoc _ _ => exact absurd hc (by simp)
  | @snoc cs q c q' _ hn ih =>
    generalize hc : cs ++ [c] = ds at h'
    cases h' with
    | nil => exact absurd hc (by simp)
    | @snoc ds p d p' ha hn' =>
      obtain ⟨h1, h2⟩ := List.append_inj' hc rfl
      obtain rfl : c = d := by simpa using h2
      subst h1
      have := ih ha
      subst this
      cases c with
      | close =>
        unfold Reg.Next at hn hn'
        dsimp only at hn hn'
        by_cases hon : q.on = true
        · rw [if_pos hon] at hn hn'
          obtain ⟨g, o⟩ := q'
          obtain ⟨g', o'⟩ := r'
          dsimp only at hn hn'
          have hg : g = g' := hn.1.trans hn'.1.symm
          have ho : (o = false) ↔ (o' = false) := hn.2.trans hn'.2.symm
          subst hg
          congr 1
          cases o <;> cases o' <;> simp_all
        · rw [if_neg hon] at hn hn'
          rw [hn, hn']
      | assign => exact hn.elim
      | _ => exact Eq.trans hn (Eq.symm hn')

/-- Through every history of supported calls each handle FFTW gave out is either
still alive or was destroyed, never both and never twice. -/
theorem C31_once {cs : List (Call N)} (hok : ∀ c ∈ cs, Ok c) {s : State N}
    (hs : history cs = some s) :
    List.Perm s.made (s.live ++ s.gone) ∧ s.made.Nodup ∧ s.gone.Nodup ∧
    List.Disjoint s.live s.gone := by
  obtain ⟨hi, -⟩ := history_inv cs hok s hs
  have h1 := hi.nodup
  refine ⟨hi.split, ?_, (List.nodup_append'.1 h1).2.1, (List.nodup_append'.1 h1).2.2⟩
  exact hi.split.nodup_iff.2 h1

/-- After every history of supported calls, a supported call is undefined exactly
when it runs a plan in a direction it was not created for, or closes an empty
registry that is switched on.  Nothing else can go wrong. -/
theorem C31_defined {cs : List (Call N)} (hok : ∀ c ∈ cs, Ok c) {s : State N}
    (hs : history cs = some s) {r : Reg N} (hr : Reg.After cs r) {c : Call N} (hc : Ok c) :
    history (cs ++ [c]) = none ↔ Forbidden r c := by
  obtain ⟨hi, ha⟩ := history_inv cs hok s hs
  rw [history_snoc, hs, C31_meaning_unique hr ha]
  exact (inv_step hi hc).1

/-- The meaning of names exists along every history that is defined. -/
theorem C31_meaning {cs : List (Call N)} (hok : ∀ c ∈ cs, Ok c) {s : State N}
    (hs : history cs = some s) :
    ∃ r : Reg N, Reg.After cs r ∧ r.on = s.init ∧
      ∀ name, r.get name = none ↔ ∀ e ∈ s.plans, e.1 ≠ name := by
  obtain ⟨hi, ha⟩ := history_inv cs hok s hs
  refine ⟨reg s, ha, rfl, fun name => ?_⟩
  rw [← find_none]
  simp [reg]

/-- Running a name that stands for a plan executes one live handle, on the memory
of the field that created the name first, and changes nothing else. -/
theorem C31_run {cs : List (Call N)} (hok : ∀ c ∈ cs, Ok c) {s : State N}
    (hs : history cs = some s) {r : Reg N} (hr : Reg.After cs r) {name : N} {owner : ℕ}
    {dir : Dir} (hn : r.get name = some (.plan owner dir)) (way : Way)
    (hd : Dir.has dir way = true) :
    ∃ h ∈ s.live, history (cs ++ [.run name way]) =
      some { s with ran := s.ran ++ [(h, owner)] } := by
  obtain ⟨hi, ha⟩ := history_inv cs hok s hs
  have hu := C31_meaning_unique hr ha
  subst hu
  obtain ⟨h1, h2⟩ := inv_run hi name way
  rw [history_snoc, hs]
  simp only [Option.bind_some]
  cases hst : step s (.run name way) with
  | none =>
    obtain ⟨o, d, e1, e2⟩ := h1.1 hst
    rw [hn] at e1
    simp only [Option.some.injEq, Entry.plan.injEq] at e1
    rw [← e1.2, hd] at e2
    cases e2
  | some s' =>
    obtain ⟨h, hl, e⟩ := (h2 s' hst).2.2.1 owner dir hn
    exact ⟨h, hl, by rw [e]⟩

/-- Running a name that stands for no plan executes nothing and is reported. -/
theorem C31_run_unknown {cs : List (Call N)} (hok : ∀ c ∈ cs, Ok c) {s : State N}
    (hs : history cs = some s) {r : Reg N} (hr : Reg.After cs r) {name : N}
    (hn : r.get name = none ∨ r.get name = some .placeholder) (way : Way) :
    ∃ s', history (cs ++ [.run name way]) = some s' ∧
      s'.errs = s.errs ++ [.notRun] ∧ s'.ran = s.ran := by
  obtain ⟨hi, ha⟩ := history_inv cs hok s hs
  have hu := C31_meaning_unique hr ha
  subst hu
  obtain ⟨h1, h2⟩ := inv_run hi name way
  rw [history_snoc, hs]
  simp only [Option.bind_some]
  cases hst : step s (.run name way) with
  | none =>
    obtain ⟨o, d, e1, e2⟩ := h1.1 hst
    rw [e1] at hn
    simp at hn
  | some s' => exact ⟨s', rfl, (h2 s' hst).2.2.2 hn⟩

/-- Creating a name that is known keeps the old plan: no handle is made and
nothing changes. -/
theorem C31_keep {cs : List (Call N)} (hok : ∀ c ∈ cs, Ok c) {s : State N}
    (hs : history cs = some s) {r : Reg N} (hr : Reg.After cs r) {name : N}
    (hn : r.get name ≠ none) (owner : ℕ) (kind : Kind) (prec : Prec) (dir : Dir) :
    history (cs ++ [.create owner kind prec dir name]) = some s := by
  obtain ⟨hi, ha⟩ := history_inv cs hok s hs
  have hu := C31_meaning_unique hr ha
  subst hu
  rw [history_snoc, hs]
  simp only [Option.bind_some, step]
  unfold initPlan
  cases hf : find name s.plans with
  | none => exact absurd (by simp [reg, hf]) hn
  | some p => rfl

/-- Creating an unknown name makes one handle for each direction asked for. -/
theorem C31_create {cs : List (Call N)} (hok : ∀ c ∈ cs, Ok c) {s : State N}
    (hs : history cs = some s) {r : Reg N} (hr : Reg.After cs r) {name : N}
    (hn : r.get name = none) (owner : ℕ) {kind : Kind} {prec : Prec} (dir : Dir)
    (hk : kind.hasCase = true) (hp : prec ≠ .none) :
    ∃ s', history (cs ++ [.create owner kind prec dir name]) = some s' ∧
      s'.made.length = s.made.length + dir.fwd.toNat + dir.bck.toNat ∧
      s'.gone = s.gone ∧ s'.errs = s.errs := by
  obtain ⟨hi, ha⟩ := history_inv cs hok s hs
  have hu := C31_meaning_unique hr ha
  subst hu
  rw [history_snoc, hs]
  simp only [Option.bind_some, step]
  unfold initPlan
  have hf : find name s.plans = none := by
    cases hf : find name s.plans with
    | none => rfl
    | some p => simp [reg, hf] at hn
  obtain ⟨p, new, he, -, -, -, -, -, hnew⟩ := construct_spec owner kind prec dir s hk hp
  rw [hf]
  dsimp only
  rw [he]
  refine ⟨_, rfl, ?_, rfl, rfl⟩
  dsimp only
  rw [hnew]
  simp [Nat.add_assoc]

/-- Removing a name is always defined; a name that stands for no plan is reported,
and a plan's handles are destroyed. -/
theorem C31_remove {cs : List (Call N)} (hok : ∀ c ∈ cs, Ok c) {s : State N}
    (hs : history cs = some s) {r : Reg N} (hr : Reg.After cs r) (name : N) :
    ∃ s', history (cs ++ [.remove name]) = some s' ∧ s'.made = s.made ∧
      (s'.errs = s.errs ∨ s'.errs = s.errs ++ [.notRemoved]) ∧
      (s'.errs = s.errs ++ [.notRemoved] ↔
        r.get name = none ∨ r.get name = some .placeholder) ∧
      ∀ e ∈ s'.plans, e.1 ≠ name := by
  obtain ⟨hi, ha⟩ := history_inv cs hok s hs
  have hu := C31_meaning_unique hr ha
  subst hu
  obtain ⟨t, ht, -, hr', hm, he⟩ := inv_remove hi name
  rw [history_snoc, hs]
  have hst : step s (.remove name) = some t := ht
  refine ⟨t, by simp [hst], hm, ?_, ?_, ?_⟩
  · rw [he]; split_ifs <;> simp
  · rw [he]
    constructor
    · intro hx
      by_contra hn
      rw [if_neg (fun hy => hn hy.symm)] at hx
      simp at hx
    · intro hx; rw [if_pos hx.symm]
  · rw [← find_none]
    have : (reg t).get name = none := by rw [hr']; simp [Reg.set]
    simpa [reg] using this

/-- Shutdown of a non-empty registry that is switched on is defined, empties it
and leaves every handle ever made destroyed exactly once. -/
theorem C31_shutdown {cs : List (Call N)} (hok : ∀ c ∈ cs, Ok c) {s : State N}
    (hs : history cs = some s) (hon : s.init = true) (hne : s.plans ≠ []) :
    ∃ s', history (cs ++ [.close]) = some s' ∧ s'.plans = [] ∧ s'.live = [] ∧
      s'.made = s.made ∧ List.Perm s'.gone s.made ∧ s'.gone.Nodup := by
  obtain ⟨hi, ha⟩ := history_inv cs hok s hs
  obtain ⟨h1, h2⟩ := inv_close hi
  rw [history_snoc, hs]
  simp only [Option.bind_some, step]
  cases hc : closeFFT s with
  | none =>
    obtain ⟨-, hx⟩ := h1.1 hc
    obtain ⟨e, he⟩ := List.exists_mem_of_ne_nil _ hne
    have := hx e.1
    have hf : find e.1 s.plans = some e.2 := find_of_mem hi.sorted he
    simp [reg, hf] at this
  | some s' =>
    obtain ⟨hi', -, hm, hp⟩ := h2 s' hc
    have hpl := hp hon
    have hlive : s'.live = [] := by
      have := hi'.hs
      rw [hpl] at this
      simpa using this.symm.eq_nil
    have hsp := hi'.split
    rw [hlive, hm] at hsp
    refine ⟨s', rfl, hpl, hlive, hm, by simpa using hsp.symm, ?_⟩
    have := hi'.nodup
    rw [hlive] at this
    simpa using this

/-- The flag: shutdown switches the registry off exactly when the greatest name,
in the order of the map, stands for a plan.  After a lookup of an unknown name
that sorts last it stays on. -/
theorem C31_shutdown_flag {cs : List (Call N)} (hok : ∀ c ∈ cs, Ok c) {s s' : State N}
    (hs : history cs = some s) (hon : s.init = true) {r : Reg N} (hr : Reg.After cs r)
    (hc : history (cs ++ [.close]) = some s') :
    s'.init = false ↔ ∃ n owner dir, r.get n = some (.plan owner dir) ∧
      ∀ m, r.get m ≠ none → m ≤ n := by
  obtain ⟨hi, ha⟩ := history_inv cs hok s hs
  have hu := C31_meaning_unique hr ha
  subst hu
  rw [history_snoc, hs] at hc
  obtain ⟨-, h2⟩ := inv_close hi
  have := (h2 s' hc).2.1
  unfold Reg.Next at this
  dsimp only at this
  rw [if_pos (show (reg s).on = true from hon)] at this
  exact this.2

/-- Shutdown of a registry that is switched off destroys nothing: plans created
before `initFFT`, or after an earlier shutdown, are never destroyed. -/
theorem C31_shutdown_off {cs : List (Call N)} {s : State N} (hs : history cs = some s)
    (hoff : s.init = false) : history (cs ++ [.close]) = some s := by
  rw [history_snoc, hs]
  simp [step, closeFFT, hoff]

/-! ### Where the code falls short -/

/-- A lookup of an unknown name is not reported, and the name is then taken: a
later creation of it is dropped, so running it afterwards executes nothing. -/
theorem C31_lookup_blocks {cs : List (Call N)} (hok : ∀ c ∈ cs, Ok c) {s : State N}
    (hs : history cs = some s) {r : Reg N} (hr : Reg.After cs r) {name : N}
    (hn : r.get name = none) (owner : ℕ) (kind : Kind) (prec : Prec) (dir : Dir)
    (hk : kind.hasCase = true) (hp : prec ≠ .none) (way : Way) :
    ∃ s1 s2, history (cs ++ [.fetch name]) = some s1 ∧ s1.errs = s.errs ∧
      history (cs ++ [.fetch name] ++ [.create owner kind prec dir name]) = some s1 ∧
      history (cs ++ [.fetch name] ++ [.create owner kind prec dir name] ++
        [.run name way]) = some s2 ∧ s2.ran = s.ran ∧ s2.errs = s.errs ++ [.notRun] := by
  obtain ⟨hi, ha⟩ := history_inv cs hok s hs
  have hu := C31_meaning_unique hr ha
  subst hu
  obtain ⟨f1, f2, f3, f4, f5, f6, f7, f8⟩ := inv_fetch hi name
  have h1 : history (cs ++ [.fetch name]) = some (fetchPlan name s).2 := by
    rw [history_snoc, hs]; rfl
  have hok1 : ∀ c ∈ cs ++ [.fetch name], Ok c := by
    intro c hc
    rcases List.mem_append.1 hc with hc | hc
    · exact hok c hc
    · rw [List.mem_singleton] at hc; subst hc; trivial
  have hr1 : Reg.After (cs ++ [.fetch name]) ((reg s).fresh name .placeholder) :=
    Reg.After.snoc hr rfl
  have hg : ((reg s).fresh name .placeholder).get name = some .placeholder := by
    unfold Reg.fresh
    rw [if_pos hn]
    simp [Reg.set]
  have h2 := C31_keep hok1 h1 hr1 (name := name) (by rw [hg]; simp) owner kind prec dir
  have hok2 : ∀ c ∈ cs ++ [.fetch name] ++ [.create owner kind prec dir name], Ok c := by
    intro c hc
    rcases List.mem_append.1 hc with hc | hc
    · exact hok1 c hc
    · rw [List.mem_singleton] at hc; subst hc; exact ⟨hk, hp⟩
  have hr2 : Reg.After (cs ++ [.fetch name] ++ [.create owner kind prec dir name])
      (((reg s).fresh name .placeholder).fresh name (.plan owner dir)) :=
    Reg.After.snoc hr1 rfl
  have hg2 : (((reg s).fresh name .placeholder).fresh name (.plan owner dir)).get name =
      some .placeholder := by
    rw [Reg.fresh, if_neg (by rw [hg]; simp), hg]
  obtain ⟨s2, h3, h4, h5⟩ := C31_run_unknown hok2 h2 hr2 (Or.inr hg2) way
  exact ⟨_, s2, h1, f7, h2, h3, by rw [h5, f8], by rw [h4, f7]⟩

/-- The transforms of a second field that uses the same names act on the memory
of the first: after field `a` created a name, field `b` creating it and running
it executes a transform of `a`. -/
theorem C31_second_field {cs : List (Call N)} (hok : ∀ c ∈ cs, Ok c) {s : State N}
    (hs : history cs = some s) {r : Reg N} (hr : Reg.After cs r) {name : N} {a : ℕ}
    {dir : Dir} (hn : r.get name = some (.plan a dir)) (b : ℕ) {kind : Kind} {prec : Prec}
    (dir' : Dir) (hk : kind.hasCase = true) (hp : prec ≠ .none) (way : Way)
    (hd : Dir.has dir way = true) :
    ∃ h s', history (cs ++ [.create b kind prec dir' name] ++ [.run name way]) = some s' ∧
      s'.ran = s.ran ++ [(h, a)] := by
  have h1 := C31_keep hok hs hr (name := name) (by rw [hn]; simp) b kind prec dir'
  have hok1 : ∀ c ∈ cs ++ [.create b kind prec dir' name], Ok c := by
    intro c hc
    rcases List.mem_append.1 hc with hc | hc
    · exact hok c hc
    · rw [List.mem_singleton] at hc; subst hc; exact ⟨hk, hp⟩
  have hr1 : Reg.After (cs ++ [.create b kind prec dir' name])
      (r.fresh name (.plan b dir')) := Reg.After.snoc hr rfl
  have hg : (r.fresh name (.plan b dir')).get name = some (.plan a dir) := by
    rw [Reg.fresh, if_neg (by rw [hn]; simp), hn]
  obtain ⟨h, -, h2⟩ := C31_run hok1 h1 hr1 hg way hd
  exact ⟨h, _, h2, rfl⟩

/-- The names of the plans of a field, in the order of the map
(scalarField.cpp:463-471). -/
def nRd : ℕ := 0
def nSp : ℕ := 1
def nAx : ℕ := 2
def nRed : ℕ := 3

/-- Both directions. -/
def both : Dir := ⟨true, true⟩

/-- The constructor of a saxion field, scalarField.cpp:463-471. -/
def fieldCalls (f : ℕ) : List (Call ℕ) :=
  [.start .single, .create f .pspecAx .single both nAx, .create f .spSx .single both nSp,
   .create f .rdSxV .single both nRd]

/-- The destructor of one field closes the plans of all (scalarField.cpp:599-600):
with two fields alive, after one is destroyed the transform of the other is not
executed. -/
theorem C31_other_field_closed :
    (history (fieldCalls 1 ++ fieldCalls 2 ++ [.close, .run nAx .fwd])).map
      (fun s => (s.ran, s.errs, s.live)) = some ([], [.notRun], []) := by
  decide +kernel

/-- Closing an empty registry that is on reads a variable never set: a field
created and its only plan removed, then shutdown. -/
theorem C31_close_empty :
    history [Call.start .single, .create 1 .pspecAx .single both nAx, .remove nAx, .close] =
      none := by
  decide +kernel

/-- A shutdown whose last name is a placeholder leaves the registry on, so the
destructor of the next field reads a variable never set. -/
theorem C31_close_twice :
    (history (fieldCalls 1 ++ [.fetch nRed, .close])).map (fun s => (s.init, s.errs)) =
      some (true, [.notRemoved, .notClosed]) ∧
    history (fieldCalls 1 ++ [.fetch nRed, .close, .close]) = none := by
  decide +kernel

/-- A plan of a type without a case holds pointers that were never set: removing
it, or closing, destroys them. -/
theorem C31_unknown_kind :
    (history [Call.start .single, .create 1 .pspecSx .single both nAx]).map (fun s => s.errs) =
      some [.notCreated] ∧
    history [Call.start .single, .create 1 .pspecSx .single both nAx, .close] = none := by
  decide +kernel

/-- Assigning one plan over another through the reference, test/gravi2.cpp:165 and
304, loses the handles of the first and destroys those of the second twice when
the library is shut down. -/
theorem C31_assign_double :
    history (fieldCalls 1 ++ [.create 1 .pspecAx .single both nRed, .assign nRed nAx, .close]) =
      none ∧
    (history (fieldCalls 1 ++ [.create 1 .pspecAx .single both nRed, .assign nRed nAx])).map
      (fun s => (s.plans.find? (·.1 = nRed)).map (·.2.fwd)) = some (some (.handle 0)) := by
  decide +kernel

/-! ### A non-trivial case -/

/-- A field created, its plan run, one plan replaced, then shutdown: ten handles,
all destroyed. -/
theorem C31_case :
    (history (fieldCalls 1 ++ [.run nAx .fwd, .create 1 .pspecAx .single both nRed,
      .remove nRed, .create 1 .pspecAx .single both nRed, .run nRed .bck, .close])).map
      (fun s => (s.made ++ s.live, s.gone, s.ran, s.init)) =
    some ([0, 1, 2, 3, 4, 5, 6, 7, 8, 9], [6, 7, 4, 5, 2, 3, 0, 1, 8, 9],
      [(0, 1), (9, 1)], false) := by
  decide +kernel

/-- The calls of that case are all supported. -/
example : ∀ c ∈ fieldCalls 1 ++ [.run nAx .fwd, .create 1 .pspecAx .single both nRed,
      .remove nRed, .create 1 .pspecAx .single both nRed, .run nRed .bck, .close], Ok c := by
  intro c hc
  simp only [fieldCalls, List.cons_append, List.nil_append, List.mem_cons,
    List.not_mem_nil, or_false] at hc
  rcases hc with rfl | rfl | rfl | rfl | rfl | rfl | rfl | rfl | rfl | rfl <;>
    simp [Ok, Kind.hasCase]

end Jaxions.Plans
