import Verif.Lemmas.MeasRunEnergy

/-
The names given to the file by the blocks of strings and of spectra, measa.cpp:426-837.
-/

namespace Jaxions.MeasRun

variable {R : Type} (F : Fmt R) (pos : R → Bool) (q : Req R)

/-! ### Strings -/

/-- Events of the block of strings. -/
def evString (a : ℕ) (full : Bool) : List (Ev R) :=
  when (q.field == .saxion)
    (if on a STRINGCOO then
        [.put ⟨"/string", []⟩ .strings] ++
        when (on a STRINGMAP) [.put ⟨"/string", ["data"]⟩ (.stringMap full)] ++
        [.put ⟨"/string", ["codata"]⟩ (.coords .coords)]
      else if on a STRINGMAP then
        when q.few [.put ⟨"/string", []⟩ .strings, .put ⟨"/string", ["data"]⟩ (.stringMap full)]
      else when (!on a MASK) [.put ⟨"/string", []⟩ .strings])

/-- The block leaves a group in the file. -/
def grpAfter (a : ℕ) (g : Bool) : Bool :=
  if q.field = .saxion then
    on a STRINGCOO || (if on a STRINGMAP then q.few else !on a MASK)
  else g

/-- The condition of measa.cpp:428 is always met. -/
theorem always (a : ℕ) :
    (on a (STRING ||| STRINGMAP ||| STRINGCOO ||| MASK) || ((q.eff &&& 8) ||| 16 ||| 32) != 0) = true := by
  have : ((q.eff &&& 8) ||| 16 ||| 32) ≠ 0 := by
    intro h
    have := (Nat.or_eq_zero_iff.1 h).2
    omega
  simp [this]

theorem string_trace (a : ℕ) (s : St R) (hg : q.field = .saxion → s.grp = false) :
    trace F pos q (stringBlock q a) s = evString q a (!s.red) ∧
      (after F pos q (stringBlock q a) s).grp = grpAfter q a s.grp ∧
      (after F pos q (stringBlock q a) s).red = s.red ∧
      (after F pos q (stringBlock q a) s).m2h = s.m2h ∧
      (q.field ≠ .saxion → after F pos q (stringBlock q a) s = s) ∧
      (q.field = .saxion →
        (after F pos q (stringBlock q a) s).sd = ⟨true, false, false, !s.red, none⟩) := by
  unfold stringBlock evString grpAfter
  rw [always, Bool.and_true]
  by_cases hf : q.field = .saxion
  · have g := hg hf
    have e : (q.field == Kind.saxion) = true := by rw [hf]; rfl
    rw [e]
    cases c1 : on a STRINGCOO <;> cases c2 : on a STRINGMAP <;> cases c3 : on a MASK <;>
      cases c4 : q.few <;>
      simp [when, trace_cons, trace_nil, after_cons, after_nil, step, g, hf]
  · have e : (q.field == Kind.saxion) = false := by simpa using hf
    rw [e, if_neg hf]
    exact ⟨rfl, rfl, rfl, rfl, fun _ => rfl, fun h => absurd h hf⟩

/-! ### Spectra: names only -/

/-- An event without the value. -/
inductive Sk
  | put (n : Name) | hard (n : Name) | save | ub

def Ev.sk : Ev R → Sk
  | .put n _ => .put n
  | .hard n _ => .hard n
  | .save => .save
  | .ub => .ub

theorem put_sk {es : List (Ev R)} {n : Name} : (∃ v, Ev.put n v ∈ es) ↔ Sk.put n ∈ es.map Ev.sk := by
  rw [List.mem_map]
  constructor
  · rintro ⟨v, h⟩; exact ⟨_, h, rfl⟩
  · rintro ⟨e, h, he⟩
    cases e with
    | put m v => cases he; exact ⟨v, h⟩
    | hard m v => cases he
    | save => cases he
    | ub => cases he

theorem hard_sk {es : List (Ev R)} {n : Name} : (∃ v, Ev.hard n v ∈ es) ↔ Sk.hard n ∈ es.map Ev.sk := by
  rw [List.mem_map]
  constructor
  · rintro ⟨v, h⟩; exact ⟨_, h, rfl⟩
  · rintro ⟨e, h, he⟩
    cases e with
    | put m v => cases he
    | hard m v => cases he; exact ⟨v, h⟩
    | save => cases he
    | ub => cases he

theorem ub_sk {es : List (Ev R)} : Ev.ub ∈ es ↔ Sk.ub ∈ es.map Ev.sk := by
  rw [List.mem_map]
  constructor
  · intro h; exact ⟨_, h, rfl⟩
  · rintro ⟨e, h, he⟩
    cases e with
    | put m v => cases he
    | hard m v => cases he
    | save => cases he
    | ub => exact h

/-- Names a call gives to the file, when they do not depend on the arrays. -/
def names (g : Bool) : Cmd → List Sk
  | .label i => if q.radii.length ≤ i then [.ub] else []
  | .array n _ => [.put n]
  | .pMap n => [.hard n]
  | .strEnergy i => if g then [.put ⟨"/string", ["rmask", rlab F q i]⟩] else []
  | .maskedEnergy i =>
    match q.radii[i]? with
    | some r => if pos r then [.put ⟨"/energy", ["Redmask", F.lab r]⟩] else []
    | none => []
  | .modes => [.put ⟨"/nSpectrum", ["nmodes"]⟩]
  | .meank => [.put ⟨"/nSpectrum", ["averagek"]⟩]
  | .hist set => [.put ⟨"/bins", [set]⟩]
  | _ => []

/-- Calls of the spectra and of the histograms. -/
def Cmd.fixed : Cmd → Bool
  | .label _ | .masker _ _ _ | .array _ _ | .project _ | .pMap _ | .newSpec | .strEnergy _
  | .maskedEnergy _ | .nRun _ _ _ | .nSRun _ | .modes | .meank | .hist _ => true
  | _ => false

theorem masker_grp (f : Kind) (k : M) (r : Option R) (o : Out) (s : St R) :
    (masker f k r o s).grp = s.grp := by
  unfold masker
  cases f <;> dsimp only <;> split <;> rfl

theorem nRun_grp (f : Kind) (k : M) (h : How) (g : Bool) (s : St R) :
    (nRun f k h g s).grp = s.grp := by
  unfold nRun
  split
  · rfl
  · cases f <;> dsimp only
    · split <;> rfl
    · split <;> rfl

theorem nSRun_grp (k : M) (s : St R) : (nSRun k s).grp = s.grp := by
  cases k <;> simp only [nSRun]
  split <;> rfl

theorem fixed_step (c : Cmd) (hc : c.fixed = true) (s : St R) :
    ((step F pos q s c).2.map Ev.sk) = names F pos q s.grp c ∧ (step F pos q s c).1.grp = s.grp := by
  cases c with
  | array n t => cases t <;> exact ⟨rfl, rfl⟩
  | label i => refine ⟨?_, rfl⟩; simp only [step, names]; split <;> rfl
  | masker k i o => exact ⟨rfl, masker_grp ..⟩
  | project b => refine ⟨rfl, ?_⟩; simp only [step]; split <;> rfl
  | strEnergy i => refine ⟨?_, rfl⟩; simp only [step, names]; cases s.grp <;> rfl
  | maskedEnergy i =>
    refine ⟨?_, rfl⟩
    simp only [step, names]
    cases q.radii[i]? with
    | none => rfl
    | some r => dsimp only; cases pos r <;> rfl
  | nRun k h g => exact ⟨rfl, nRun_grp ..⟩
  | nSRun k => exact ⟨rfl, nSRun_grp ..⟩
  | _ => first | exact ⟨rfl, rfl⟩ | cases hc

theorem fixed_trace (cs : List Cmd) (h : ∀ c ∈ cs, c.fixed = true) (s : St R) :
    (trace F pos q cs s).map Ev.sk = cs.flatMap (names F pos q s.grp) := by
  induction cs generalizing s with
  | nil => rfl
  | cons c cs ih =>
    obtain ⟨h1, h2⟩ := fixed_step F pos q c (h c (by simp)) s
    rw [trace_cons, List.map_append, h1, ih (fun d hd => h d (by simp [hd])), h2, List.flatMap_cons]

/-! ### Which calls there are -/

theorem mem_maskPass (c : Cmd) : c ∈ maskPass F q ↔ ∃ k ∈ maskara8, Used q k ∧ ∃ i ∈ q.rounds k,
    (k.mul = true ∧ c = .label i) ∨ c = .masker k i .antimask ∨
      c = .array ⟨"/mSpectrum", "W" :: preLabel F q k i⟩ .P ∨ c = .project false ∨
      c = .pMap ⟨"/map", "W" :: preLabel F q k i⟩ := by
  unfold maskPass
  simp only [List.mem_flatMap, List.mem_filter, eff_bit, List.mem_append, mem_when, List.mem_cons,
    List.not_mem_nil, or_false, and_assoc]

/-- One set of spectra. -/
theorem mem_nsets (k : M) (i : ℕ) (l : List (ℕ × String × Bool)) (c : Cmd) :
    c ∈ nsets F q k i l ↔ ∃ b n m, (b, n, m) ∈ l ∧ on q.nrt b = true ∧ (m = true → q.massive = true) ∧
      c = .array ⟨"/eSpectrum", n :: preLabel F q k i⟩ .N := by
  unfold nsets
  rw [List.mem_flatMap]
  constructor
  · rintro ⟨⟨b, n, m⟩, h, hc⟩
    rw [mem_when] at hc
    refine ⟨b, n, m, h, ?_, ?_, by simpa using hc.2⟩
    · simp only [Bool.and_eq_true] at hc; exact hc.1.1
    · intro hm; simpa [hm] using (Bool.and_eq_true_iff.1 hc.1).2
  · rintro ⟨b, n, m, h, h1, h2, rfl⟩
    refine ⟨⟨b, n, m⟩, h, ?_⟩
    rw [mem_when]
    refine ⟨?_, by simp⟩
    rw [h1]
    cases m
    · rfl
    · simpa using h2 rfl

/-- The calls of one round. -/
theorem mem_round (a : ℕ) (k : M) (i : ℕ) (c : Cmd) : c ∈ round F q a k i ↔
    (k.mul = true ∧ c = .label i) ∨
    (k.prnt = true ∧ (c = .masker k i .mask ∨
      (on a MASK = false ∧ c = .array ⟨"/mSpectrum", "W" :: preLabel F q k i⟩ .P) ∨
      (on q.strmeas 4 = true ∧ k = .redo ∧ c = .strEnergy i) ∨ (k = .redo ∧ c = .maskedEnergy i))) ∨
    (¬ (k = .redo ∧ q.maskenergyonly = true) ∧
      ((on q.nrt 15 = true ∧ (c = .nRun k .lut (on q.nrt 2) ∨
          c ∈ nsets F q k i [(1, "sK", false), (2, "sG", false), (4, "sV", true), (8, "sS", true)])) ∨
       (on q.nrt 240 = true ∧ (c = .nRun k .pure (on q.nrt 32) ∨
          c ∈ nsets F q k i
            [(16, "sCK", false), (32, "sCG", false), (64, "sCV", true), (128, "sCS", true)])) ∨
       ((q.field = .saxion ∧ on a NSP_S = true) ∧ (c = .nSRun k ∨
          c ∈ nsets F q k i [(1, "sKS", false), (2, "sGS", false), (4, "sVS", false)])))) := by
  unfold round
  simp only [List.mem_append, mem_when, List.mem_cons, List.not_mem_nil, or_false, or_assoc,
    Bool.not_eq_true', Bool.and_eq_true, beq_iff_eq, Bool.and_eq_false_iff, beq_eq_false_iff_ne]
  have : (k ≠ .redo ∨ q.maskenergyonly = false) ↔ ¬ (k = .redo ∧ q.maskenergyonly = true) := by
    rw [not_and_or, Bool.not_eq_true]
  rw [this]
  simp only [and_assoc]

theorem nsets_fixed (k : M) (i : ℕ) (l : List (ℕ × String × Bool)) (c : Cmd) (h : c ∈ nsets F q k i l) :
    c.fixed = true := by
  obtain ⟨_, _, _, _, _, _, rfl⟩ := (mem_nsets F q k i l c).1 h
  rfl

theorem round_fixed (a : ℕ) (k : M) (i : ℕ) (c : Cmd) (h : c ∈ round F q a k i) : c.fixed = true := by
  rw [mem_round] at h
  rcases h with ⟨_, rfl⟩ | ⟨_, rfl | ⟨_, rfl⟩ | ⟨_, _, rfl⟩ | ⟨_, rfl⟩⟩ |
    ⟨_, ⟨_, rfl | h⟩ | ⟨_, rfl | h⟩ | ⟨_, rfl | h⟩⟩
  all_goals first | rfl | exact nsets_fixed F q k i _ c h

theorem maskPass_fixed (c : Cmd) (h : c ∈ maskPass F q) : c.fixed = true := by
  rw [mem_maskPass] at h
  obtain ⟨k, _, _, i, _, h⟩ := h
  rcases h with ⟨_, rfl⟩ | rfl | rfl | rfl | rfl <;> rfl

theorem mem_numberPass (a : ℕ) (c : Cmd) : c ∈ numberPass F q a ↔
    on a (NSP_A ||| NSP_S ||| NNSPEC) = true ∧
    ((∃ k ∈ maskara9, Used q k ∧ ∃ i ∈ q.rounds k, c ∈ round F q a k i) ∨
      ((q.index = 0 ∨ on a NNSPEC = true) ∧ (c = .modes ∨ c = .meank))) := by
  unfold numberPass
  simp only [mem_when, List.mem_append, List.mem_flatMap, List.mem_filter, eff_bit, Bool.or_eq_true,
    beq_iff_eq, List.mem_cons, List.not_mem_nil, or_false, and_assoc]

theorem spectrum_fixed (a : ℕ) (c : Cmd) (h : c ∈ spectrumBlock F q a) : c.fixed = true := by
  unfold spectrumBlock at h
  simp only [mem_when, List.mem_append, List.mem_cons, List.not_mem_nil, or_false] at h
  rcases h.2 with (rfl | h) | h
  · rfl
  · exact maskPass_fixed F q c h.2
  · rw [mem_numberPass] at h
    rcases h.2 with ⟨k, _, _, i, _, h⟩ | ⟨_, rfl | rfl⟩
    · exact round_fixed F q a k i c h
    · rfl
    · rfl

theorem bin_fixed (a : ℕ) (c : Cmd) (h : c ∈ binBlock q a) : c.fixed = true := by
  unfold binBlock at h
  cases hf : q.field <;> rw [hf] at h <;>
    simp only [mem_when, List.mem_append, List.mem_cons, List.not_mem_nil, or_false] at h
  · rcases h with (⟨_, rfl⟩ | ⟨_, rfl⟩) | ⟨_, rfl⟩ <;> rfl
  · rcases h with ⟨_, rfl⟩ | ⟨_, rfl⟩ <;> rfl
  · obtain ⟨_, rfl⟩ := h; rfl

end Jaxions.MeasRun
