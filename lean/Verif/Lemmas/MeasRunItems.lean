import Verif.Lemmas.MeasRunNames

/-
The names in the file are those asked for.
-/

namespace Jaxions.MeasRun

variable {R : Type} (F : Fmt R) (pos : R → Bool) (q : Req R)

/-! ### The whole call -/

def grp0 (a : ℕ) : Bool := q.field == .axion && q.mend && on a MASK

/-- Events before the energy. -/
def evPre (a : ℕ) (full : Bool) : List (Ev R) :=
  when (grp0 q a) [.put ⟨"/string", []⟩ .strings, .put ⟨"/string", ["data"]⟩ (.stringMap full)] ++
  when q.mom [.put ⟨"/bins", ["fsacceleration"]⟩ .accel] ++
  when (on q.maps XYMV) [.hard ⟨"/map", ["m"]⟩ .slice, .hard ⟨"/map", ["v"]⟩ .slice] ++
  when (on q.maps YZMV) [.hard ⟨"/mapp", ["m"]⟩ .slice, .hard ⟨"/mapp", ["v"]⟩ .slice]

/-- Calls before the energy. -/
def preBlock (a : ℕ) : List Cmd :=
  when (q.field == .axion && q.mend && on a MASK) [.strMap true] ++ [.dirty] ++
  when q.mom [.accel] ++ when (on q.maps XYMV) [.slices false] ++
  when (on q.maps YZMV) [.slices true]

theorem pre_trace (a : ℕ) (s : St R) (hg : s.grp = false) :
    trace F pos q (preBlock q a) s = evPre q a s.sd.full ∧
      after F pos q (preBlock q a) s =
        { s with m2 := (.dirty, .junk), m2h := (.dirty, .junk),
                 sd := ⟨false, false, false, s.sd.full, s.sd.marked⟩, grp := grp0 q a } := by
  unfold preBlock evPre grp0
  generalize (q.field == .axion && q.mend && on a MASK) = b
  cases s
  cases b <;> cases q.mom <;> cases on q.maps XYMV <;> cases on q.maps YZMV <;>
    simp_all [when, trace_cons, trace_nil, after_cons, after_nil, step]

/-- What holds when the spectra are about to be made. -/
structure Before (a : ℕ) (r0 : Bool) (s : St R) : Prop where
  grp : s.grp = grpAfter q a (grp0 q a)
  sax : q.field = .saxion → s.sd = ⟨true, false, false,
    !(if need q a then reds q a && !on a MULTICON else r0), none⟩
  other : q.field ≠ .saxion → Left q a (grp0 q a) r0 s

theorem body_trace (a : ℕ) (s : St R) (hg : s.grp = false) :
    ∃ t, Before q a s.red t ∧ trace F pos q (body F q a) s =
      evPre q a s.sd.full ++ evEnergy F q a ++
      evString q a (!(if need q a then reds q a && !on a MULTICON else s.red)) ++
      trace F pos q (spectrumBlock F q a ++ binBlock q a) t := by
  obtain ⟨p1, p2⟩ := pre_trace F pos q a s hg
  have eb : body F q a = preBlock q a ++ energyBlock F q a ++ stringBlock q a ++
      (spectrumBlock F q a ++ binBlock q a) := by
    unfold body preBlock
    simp only [List.append_assoc]
  generalize spectrumBlock F q a ++ binBlock q a = L at eb ⊢
  rw [eb]
  simp only [trace_append, after_append]
  rw [p1]
  have p3 : (after F pos q (preBlock q a) s).red = s.red := by rw [p2]
  obtain ⟨e1, e2⟩ := energy_trace F pos q a (grp0 q a) s.red (after F pos q (preBlock q a) s)
    (by rw [p2]) (by rw [p2]) (by rw [p2]) p3
  rw [e1]
  generalize after F pos q (energyBlock F q a) (after F pos q (preBlock q a) s) = u at e2 ⊢
  have hgu : q.field = .saxion → u.grp = false := by
    intro hf; rw [e2.grp, grp0, hf]; rfl
  obtain ⟨s1, s2, s3, s4, s5, s6⟩ := string_trace F pos q a u hgu
  refine ⟨after F pos q (stringBlock q a) u, ⟨?_, ?_, ?_⟩, ?_⟩
  · rw [s2, e2.grp]
  · intro hf; rw [s6 hf, e2.redd]
  · intro hf; rw [s5 hf]; exact e2
  · rw [s1, e2.redd]

/-! ### Names -/

/-- The name is given to the file by one of the events. -/
def Named (es : List (Ev R)) (n : Name) : Prop := ∃ v, Ev.put n v ∈ es ∨ Ev.hard n v ∈ es

theorem named_iff (es : List (Ev R)) (n : Name) : Named es n ↔ n ∈ puts es ∨ n ∈ hards es := by
  rw [mem_puts, mem_hards, Named, exists_or]

theorem named_append (a b : List (Ev R)) (n : Name) : Named (a ++ b) n ↔ Named a n ∨ Named b n := by
  simp only [named_iff, puts_append, hards_append, List.mem_append]; tauto

theorem named_nil (n : Name) : Named ([] : List (Ev R)) n ↔ False := by simp [Named]

theorem named_put (m : Name) (v : Val R) (es : List (Ev R)) (n : Name) :
    Named (.put m v :: es) n ↔ n = m ∨ Named es n := by
  simp only [named_iff, puts, hards, List.mem_cons]; tauto

theorem named_hard (m : Name) (v : Val R) (es : List (Ev R)) (n : Name) :
    Named (.hard m v :: es) n ↔ n = m ∨ Named es n := by
  simp only [named_iff, puts, hards, List.mem_cons]; tauto

theorem named_when (b : Bool) (es : List (Ev R)) (n : Name) : Named (when b es) n ↔ b = true ∧ Named es n := by
  cases b <;> simp [when, named_nil]

theorem named_flatMap {β : Type} (l : List β) (f : β → List (Ev R)) (n : Name) :
    Named (l.flatMap f) n ↔ ∃ x ∈ l, Named (f x) n := by
  induction l with
  | nil => simp [named_nil]
  | cons x xs ih => simp [named_append, ih]

theorem named_ub (i : ℕ) (n : Name) : Named (ubAt q i) n ↔ False := by
  unfold ubAt; split <;> simp [Named]

theorem named_fixed (cs : List Cmd) (h : ∀ c ∈ cs, c.fixed = true) (s : St R) (n : Name) :
    Named (trace F pos q cs s) n ↔ ∃ c ∈ cs, Sk.put n ∈ names F pos q s.grp c ∨
      Sk.hard n ∈ names F pos q s.grp c := by
  rw [Named, exists_or, put_sk, hard_sk, fixed_trace F pos q cs h, List.mem_flatMap, List.mem_flatMap]
  constructor
  · rintro (⟨c, h1, h2⟩ | ⟨c, h1, h2⟩)
    · exact ⟨c, h1, .inl h2⟩
    · exact ⟨c, h1, .inr h2⟩
  · rintro ⟨c, h1, h2 | h2⟩
    · exact .inl ⟨c, h1, h2⟩
    · exact .inr ⟨c, h1, h2⟩

/-! ### Conditions in the words of the request -/

theorem or3 (a b c : ℕ) (w : ℕ) : on w (a ||| b ||| c) = true ↔ on w a = true ∨ on w b = true ∨ on w c = true := by
  rw [on_or, on_or]; simp [or_assoc]

theorem needM2_iff : needM2 q q.left = true ↔ EnergyMap q := by
  have e1 : NEEDENERGYM2 = ((((BINDELTA ||| ENERGY3DMAP) ||| REDENE3DMAP) ||| PSP_A) ||| PSP_S) ||| MULTICON := by
    decide
  unfold needM2
  rw [e1]
  simp only [on_or, Bool.or_eq_true, on_left (q := q) (show BINDELTA = 2 ^ 3 from rfl) (by decide),
    on_left (q := q) (show ENERGY3DMAP = 2 ^ 9 from rfl) (by decide),
    on_left (q := q) (show REDENE3DMAP = 2 ^ 10 from rfl) (by decide),
    on_left (q := q) (show PSP_A = 2 ^ 14 from rfl) (by decide),
    on_left (q := q) (show PSP_S = 2 ^ 15 from rfl) (by decide),
    on_left (q := q) (show MULTICON = 2 ^ 19 from rfl) (by decide),
    on_lit (w := q.maps) (show XYPE = 2 ^ 10 from rfl), on_lit (w := q.maps) (show XYPE2 = 2 ^ 11 from rfl),
    on_lit (w := q.maps) (show XYE = 2 ^ 16 from rfl), EnergyMap, PlaneE]
  tauto

theorem need_iff : need q q.left = true ↔ EnergyMap q ∨ Bit q.meas 8 := by
  have e1 : NEEDENERGY = NEEDENERGYM2 ||| ENERGY := by decide
  rw [← needM2_iff]
  unfold need needM2
  rw [e1, on_or]
  simp only [Bool.or_eq_true, on_left (q := q) (show ENERGY = 2 ^ 8 from rfl) (by decide)]
  tauto

theorem pow3_iff : pow3 q.left = true ↔ Pow q := by
  rw [pow3, or3, on_left (q := q) (show PSP_A = 2 ^ 14 from rfl) (by decide),
    on_left (q := q) (show REDENE3DMAP = 2 ^ 10 from rfl) (by decide),
    on_left (q := q) (show MULTICON = 2 ^ 19 from rfl) (by decide), Pow]

theorem reds_iff : reds q q.left = true ↔ Reduces q := by
  rw [reds, Bool.and_eq_true, on_left (q := q) (show REDENE3DMAP = 2 ^ 10 from rfl) (by decide),
    decide_eq_true_iff, Reduces]

theorem numbers_iff : on q.left (NSP_A ||| NSP_S ||| NNSPEC) = true ↔ Numbers q := by
  rw [or3, on_left (q := q) (show NSP_A = 2 ^ 16 from rfl) (by decide),
    on_left (q := q) (show NSP_S = 2 ^ 17 from rfl) (by decide),
    on_left (q := q) (show NNSPEC = 2 ^ 18 from rfl) (by decide), Numbers]

theorem multi_iff : on q.left MULTICON = true ↔ Bit q.meas 19 :=
  on_left (show MULTICON = 2 ^ 19 from rfl) (by decide)

theorem mask_iff : on q.left MASK = true ↔ Bit q.meas 13 :=
  on_left (show MASK = 2 ^ 13 from rfl) (by decide)

theorem coo_iff : on q.left STRINGCOO = true ↔ Bit q.meas 7 :=
  on_left (show STRINGCOO = 2 ^ 7 from rfl) (by decide)

theorem smap_iff : on q.left STRINGMAP = true ↔ Bit q.meas 6 :=
  on_left (show STRINGMAP = 2 ^ 6 from rfl) (by decide)

theorem spectrum_of (h : Bit q.meas 13 ∨ Numbers q) : on q.left SPECTRUM = true := by
  have e1 : SPECTRUM = (MASK ||| (NSP_A ||| NSP_S ||| NNSPEC)) ||| (PSP_A ||| PSP_S) := by decide
  rw [e1, on_or, on_or, Bool.or_eq_true, Bool.or_eq_true, numbers_iff, mask_iff]
  exact .inl h

theorem xymv_iff : on q.maps XYMV = true ↔ Bit q.maps 0 ∨ Bit q.maps 2 := by
  rw [show XYMV = 2 ^ 0 ||| 2 ^ 2 by decide, on_or, Bool.or_eq_true, on_lit rfl, on_lit rfl]

theorem yzmv_iff : on q.maps YZMV = true ↔ Bit q.maps 4 ∨ Bit q.maps 5 := by
  rw [show YZMV = 2 ^ 4 ||| 2 ^ 5 by decide, on_or, Bool.or_eq_true, on_lit rfl, on_lit rfl]

theorem grp0_iff : grp0 q q.left = true ↔ q.field = .axion ∧ q.mend = true ∧ Bit q.meas 13 := by
  simp only [grp0, Bool.and_eq_true, beq_iff_eq, mask_iff, and_assoc]

theorem group_iff : grpAfter q q.left (grp0 q q.left) = true ↔ Group q := by
  unfold grpAfter Group
  by_cases hf : q.field = .saxion
  · rw [if_pos hf, Bool.or_eq_true, coo_iff]
    simp only [hf, true_and, reduceCtorEq, false_and, or_false]
    by_cases c : on q.left STRINGMAP = true
    · rw [if_pos c, ← smap_iff, c]; simp
    · rw [if_neg c, ← smap_iff, ← mask_iff]
      simp [c]
  · rw [if_neg hf, grp0_iff]
    simp [hf]

/-! ### Radii -/

theorem irmask_eq (h : q.radii ≠ []) : q.irmask = q.radii.length := by
  unfold Req.irmask
  rw [if_neg (by simpa using h)]

theorem exists_radius (h : q.radii ≠ []) (P : String → Prop) :
    (∃ i ∈ List.range q.irmask, P (rlab F q i)) ↔ ∃ r ∈ q.radii, P (F.lab r) := by
  rw [irmask_eq q h]
  constructor
  · rintro ⟨i, hi, hp⟩
    have hi := List.mem_range.1 hi
    refine ⟨q.radii[i], List.getElem_mem hi, ?_⟩
    rw [rlab, List.getElem?_eq_getElem hi] at hp
    exact hp
  · rintro ⟨r, hr, hp⟩
    obtain ⟨i, hi, rfl⟩ := List.getElem_of_mem hr
    refine ⟨i, List.mem_range.2 hi, ?_⟩
    rw [rlab, List.getElem?_eq_getElem hi]
    exact hp

/-- What a mask is called. -/
theorem called_iff (k : M) (h : k.mul = true → q.radii ≠ []) (l : List String) :
    (∃ i ∈ q.rounds k, preLabel F q k i = l) ↔ Called F q k l := by
  unfold Req.rounds preLabel
  by_cases hm : k.mul = true
  · simp only [if_pos hm]
    rw [exists_radius F q (h hm) (fun x => [k.lab, x] = l)]
    have np := (mul_iff k).1 hm
    constructor
    · rintro ⟨r, hr, rfl⟩; exact .radius np hr
    · rintro (hp | ⟨_, hr⟩)
      · exact absurd hp np
      · exact ⟨_, hr, rfl⟩
  · simp only [if_neg hm]
    have np : Plain k := by
      by_contra hc; exact hm ((mul_iff k).2 hc)
    constructor
    · rintro ⟨i, _, rfl⟩; exact .plain np
    · rintro (_ | ⟨hc, _⟩)
      · exact ⟨0, by simp, rfl⟩
      · exact absurd np hc

theorem mem8 (k : M) : k ∈ maskara8 ↔ k ≠ .flat ∧ k ≠ .axitv := by
  cases k <;> simp [maskara8]

theorem mem9 (k : M) : k ∈ maskara9 ↔ k ≠ .axitv := by
  cases k <;> simp [maskara9, maskara8]

theorem prnt_iff (k : M) : k.prnt = true ↔ k ≠ .flat ∧ k ≠ .axit2 := by
  cases k <;> simp [M.prnt]

/-! ### Every name -/

/-- Names of the part before the spectra. -/
theorem named_front (full full' : Bool) (n : Name) (h : NeedsRadius q → q.radii ≠ []) :
    Named (evPre q q.left full ++ evEnergy F q q.left ++ evString q q.left full') n → Item F pos q n := by
  have lab1 : Pow q → q.field = .axion → ∀ k, (k = .axit ∨ k = .axit2) → Used q k → q.radii ≠ [] := by
    intro h1 h2 k hk hu
    apply h
    refine .inl ⟨h1, h2, ?_⟩
    rcases hk with rfl | rfl
    · exact .inl hu
    · exact .inr hu
  rw [named_append, named_append]
  rintro ((h1 | h1) | h1)
  · simp only [evPre, named_append, named_when, named_put, named_hard, named_nil, or_false, xymv_iff,
      yzmv_iff, grp0_iff] at h1
    rcases h1 with ((⟨h1, rfl | rfl⟩ | ⟨h1, rfl⟩) | ⟨h1, rfl | rfl⟩) | ⟨h1, rfl | rfl⟩
    · exact .strings (.inr h1)
    · exact .map (.inr h1)
    · exact .accel h1
    · exact .m h1
    · exact .v h1
    · exact .mp h1
    · exact .vp h1
  · rw [evEnergy, named_when, need_iff, named_append] at h1
    obtain ⟨hn, h1 | h1⟩ := h1
    · by_cases hm : needM2 q q.left = true
      · rw [if_pos hm] at h1
        simp only [evMap, named_append, named_when, named_put, named_hard, named_nil, or_false,
          on_left (q := q) (show ENERGY3DMAP = 2 ^ 9 from rfl) (by decide),
          on_left (q := q) (show BINDELTA = 2 ^ 3 from rfl) (by decide),
          on_lit (w := q.maps) (show XYPE = 2 ^ 10 from rfl),
          on_lit (w := q.maps) (show XYPE2 = 2 ^ 11 from rfl),
          on_lit (w := q.maps) (show XYE = 2 ^ 16 from rfl), pow3_iff] at h1
        rcases h1 with ((((⟨h1, rfl⟩ | ⟨h1, rfl⟩) | ⟨h1, rfl⟩) | ⟨h1, rfl⟩) | ⟨h1, rfl⟩) | ⟨h1, h2⟩
        · exact .density h1
        · exact .contrast h1
        · exact .plane h1
        · exact .proj (.inl h1)
        · exact .proj (.inr h1)
        · simp only [evSpec, evPowers, evMasked, evMulti, named_append, named_when, named_put, named_hard,
            named_nil, or_false, named_flatMap, named_ub, and_false, false_or, eff_bit, Bool.and_eq_true,
            beq_iff_eq, multi_iff, reds_iff] at h2
          rcases h2 with (((((⟨h3, h2⟩ | ⟨h3, h2⟩) | ⟨h3, _, _, rfl⟩) | rfl)) | ⟨h3, i, hi, h2⟩) | ⟨h3, rfl⟩
          · obtain ⟨r, hr, rfl⟩ := (exists_radius F q (lab1 h1 h3.1 _ (.inl rfl) h3.2)
              (fun x => n = ⟨"/pSpectrum", ["sPmasked", x]⟩)).1 h2
            exact .masked h1 h3.1 h3.2 hr
          · obtain ⟨r, hr, rfl⟩ := (exists_radius F q (lab1 h1 h3.1 _ (.inr rfl) h3.2)
              (fun x => n = ⟨"/pSpectrum", ["sPmasked2", x]⟩)).1 h2
            exact .masked2 h1 h3.1 h3.2 hr
          · exact .maskedV h1 h3.1 h3.2
          · exact .power h1
          · have hi : i ≤ q.steps := by have := List.mem_range.1 hi; omega
            rcases h2 with rfl | rfl
            · exact .smoothed h3 hi
            · exact .smoothedMap h3 hi
          · by_cases c : on q.left MULTICON = true
            · rw [if_pos c]; exact .notReduced h3 ((multi_iff q).1 c)
            · rw [if_neg c]; exact .reduced h3 (fun hc => c ((multi_iff q).2 hc))
      · rw [if_neg hm] at h1
        exact absurd h1 (by rw [named_nil]; exact id)
    · rw [named_put, named_nil, or_false] at h1
      subst h1
      exact .averages hn
  · rw [evString, named_when, beq_iff_eq] at h1
    obtain ⟨hf, h1⟩ := h1
    by_cases c : on q.left STRINGCOO = true
    · rw [if_pos c] at h1
      have c := (coo_iff q).1 c
      simp only [named_append, named_when, named_put, named_nil, or_false, smap_iff] at h1
      rcases h1 with (rfl | ⟨h1, rfl⟩) | rfl
      · exact .strings (.inl ⟨hf, .inl c⟩)
      · exact .map (.inl ⟨hf, h1, .inl c⟩)
      · exact .coords hf c
    · rw [if_neg c] at h1
      by_cases d : on q.left STRINGMAP = true
      · rw [if_pos d] at h1
        simp only [named_when, named_put, named_nil, or_false] at h1
        have d := (smap_iff q).1 d
        rcases h1 with ⟨h1, rfl | rfl⟩
        · exact .strings (.inl ⟨hf, .inr (.inl ⟨d, h1⟩)⟩)
        · exact .map (.inl ⟨hf, d, .inr h1⟩)
      · rw [if_neg d] at h1
        simp only [named_when, named_put, named_nil, or_false, Bool.not_eq_true'] at h1
        obtain ⟨h1, rfl⟩ := h1
        refine .strings (.inl ⟨hf, .inr (.inr ⟨fun hc => d ((smap_iff q).2 hc), fun hc => ?_⟩)⟩)
        rw [(mask_iff q).2 hc] at h1
        cases h1

end Jaxions.MeasRun
