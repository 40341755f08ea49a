import Verif.Lemmas.MeasRunFile

/-
C80.  What one call of `Measureme` leaves in the measurement file: the names, and what is under each of
them.
-/

namespace Jaxions.MeasRun

variable {R : Type} (F : Fmt R) (pos : R → Bool) (q : Req R)

/-! ### Cases for the examples -/

instance (w i : ℕ) : Decidable (Bit w i) := inferInstanceAs (Decidable (_ = _))

/-- Two radii, printed as `1.00` and `2.00`. -/
def exF : Fmt Bool := ⟨fun b => if b then "2.00" else "1.00", fun i => String.ofList (List.replicate (i + 1) '0')⟩

theorem exF_good : exF.Good := by
  constructor
  · intro i j h
    have := congrArg String.length h
    simpa [exF] using this
  · intro i h
    have := congrArg String.length h
    simp [exF] at this

/-- Strings, axion numbers, masks of strings at two radii. -/
def exS : Req Bool where
  field := .saxion
  meas := 2 ^ 5 + 2 ^ 16
  maps := 0
  mask := 8 + 16
  nrt := 2 + 32
  strmeas := 4
  radii := [false, true]
  redmap := 0
  index := 1
  maskenergyonly := false
  mom := false
  mend := false
  few := true
  massive := true
  steps := 1

/-- The angle: energy and its spectrum, masks of axitons. -/
def exA : Req Bool := { exS with field := .axion, meas := 2 ^ 9 + 2 ^ 13 + 2 ^ 14 + 2 ^ 16, mask := 1 + 512 }

def names? {R : Type} : Except (Halt R) (File R) → Option (List Name)
  | .ok f => some (f.map Prod.fst)
  | .error _ => none

def value? {R : Type} (n : Name) : Except (Halt R) (File R) → Option (Val R)
  | .ok f => (f.find? fun x => x.1 = n).map Prod.snd
  | .error _ => none

theorem value_mem {R : Type} {n : Name} {v : Val R} {e : Except (Halt R) (File R)} (h : value? n e = some v) :
    ∃ f, e = .ok f ∧ (n, v) ∈ f := by
  cases e with
  | error _ => cases h
  | ok f =>
    refine ⟨f, rfl, ?_⟩
    unfold value? at h
    rw [Option.map_eq_some_iff] at h
    obtain ⟨x, h1, h2⟩ := h
    have := List.find?_some h1
    have hx := List.mem_of_find?_eq_some h1
    simp only [decide_eq_true_eq] at this
    rw [← this, ← h2]
    exact hx

theorem values_mem {R : Type} {n n' : Name} {v v' : Val R} {e : Except (Halt R) (File R)} (h : value? n e = some v)
    (h' : value? n' e = some v') : ∃ f, e = .ok f ∧ (n, v) ∈ f ∧ (n', v') ∈ f := by
  obtain ⟨f, h1, h2⟩ := value_mem h
  obtain ⟨g, h3, h4⟩ := value_mem h'
  rw [h1] at h3
  cases h3
  exact ⟨f, h1, h2, h4⟩

theorem names_mem {R : Type} {l : List Name} {e : Except (Halt R) (File R)} (h : names? e = some l) :
    ∃ f, e = .ok f ∧ f.map Prod.fst = l := by
  cases e with
  | error _ => cases h
  | ok f => exact ⟨f, rfl, Option.some.inj h⟩

theorem exS_names : names? (run exF id exS (start false true none)) = some
    [⟨"/string", []⟩, ⟨"/mSpectrum", ["W", "Red", "1.00"]⟩, ⟨"/string", ["rmask", "1.00"]⟩,
     ⟨"/eSpectrum", ["sG", "Red", "1.00"]⟩, ⟨"/eSpectrum", ["sCG", "Red", "1.00"]⟩,
     ⟨"/mSpectrum", ["W", "Red", "2.00"]⟩, ⟨"/string", ["rmask", "2.00"]⟩,
     ⟨"/energy", ["Redmask", "2.00"]⟩,
     ⟨"/eSpectrum", ["sG", "Red", "2.00"]⟩, ⟨"/eSpectrum", ["sCG", "Red", "2.00"]⟩,
     ⟨"/mSpectrum", ["W", "Gau", "1.00"]⟩,
     ⟨"/eSpectrum", ["sG", "Gau", "1.00"]⟩, ⟨"/eSpectrum", ["sCG", "Gau", "1.00"]⟩,
     ⟨"/mSpectrum", ["W", "Gau", "2.00"]⟩,
     ⟨"/eSpectrum", ["sG", "Gau", "2.00"]⟩, ⟨"/eSpectrum", ["sCG", "Gau", "2.00"]⟩] := by
  decide

/-! ### Names -/

/-- When the call comes to its end, the file has exactly the sets that were asked for. -/
theorem C80_names (s : St R) (hg : s.grp = false) {f : File R} (h : run F pos q s = .ok f) (n : Name) :
    n ∈ f.map Prod.fst ↔ Asked F pos q n := by
  by_cases hs : Something q
  · obtain ⟨t, w, h1, h2, h3, h4, h5⟩ := run_ok F pos q hg h hs
    rw [store_names h5, ← named_iff]
    simp only [List.map_nil, List.not_mem_nil, false_or]
    constructor
    · intro hn
      refine ⟨hs, ?_⟩
      unfold evAll at hn
      rw [named_append] at hn
      rcases hn with hn | hn
      · exact named_front F pos q _ _ n h4 hn
      · exact named_tail F pos q t (fun e => (group_iff q).1 (by rw [← h1.grp]; exact e)) n h4 hn
    · rintro ⟨_, hi⟩
      exact item_named F pos q _ _ _ (fun e => by rw [h1.grp]; exact (group_iff q).2 e) h4 hi
  · rw [run_nothing F pos q hs] at h
    cases h
    simp [Asked, hs]

/-- No name is there twice. -/
theorem C80_once (s : St R) {f : File R} (h : run F pos q s = .ok f) : (f.map Prod.fst).Nodup :=
  store_nodup h (by simp)

/-- The call comes to its end exactly when radii are given to the masks that have one, not both projections of
the energy are asked, not the density with the reduced density and the smoothed maps, and the maps of
masks have different labels. -/
theorem C80_ends (hF : F.Good) (s : St R) (hg : s.grp = false) :
    (∃ f, run F pos q s = .ok f) ↔ (Something q → Ends F q) := by
  by_cases hs : Something q
  · obtain ⟨t, w, h1, h2, h3, h4⟩ := run_trace F pos q hs s hg
    have e : (∃ f, run F pos q s = .ok f) ↔ ∃ f, store (evAll F pos q s.sd.full w t) [] = .ok f :=
      exists_congr fun f => h4 _
    rw [e, store_ok _ (apart (fits_all F pos q _ _ _)), ub_iff]
    constructor
    · rintro ⟨a, b⟩ _
      have hr : NeedsRadius q → q.radii ≠ [] := fun hn h => a ⟨hn, h⟩
      exact ⟨hr, (nodup_all F pos q hF _ _ _ hr).1 b⟩
    · intro h
      obtain ⟨a, b⟩ := h hs
      exact ⟨fun h => a h.1 h.2, (nodup_all F pos q hF _ _ _ a).2 b⟩
  · refine ⟨fun _ h => absurd h hs, fun _ => ⟨_, run_nothing F pos q hs s⟩⟩

example : Ends exF exS := by
  refine ⟨fun _ => by simp [exS], ?_, ?_, fun _ _ => by simp [exS, exF]⟩
  · rintro ⟨h, _⟩; exact absurd h (by decide)
  · rintro ⟨h, _⟩; exact absurd h (by decide)

/-- `⟨"/string", ["rmask", "2.00"]⟩` is asked for and is there. -/
example : Asked exF id exS ⟨"/string", ["rmask", "2.00"]⟩ := by
  refine ⟨⟨5, by decide, by decide⟩, ?_⟩
  exact .strEnergy (r := true) (.inl (by decide)) ⟨by decide, by simp [Fits, exS]⟩ (by decide)
    (.inl ⟨rfl, .inr (.inr ⟨by decide, by decide⟩)⟩) (by simp [exS])

/-! ### Values: energy, strings, histograms -/

/-- What is under a name that has nothing to do with the masks of strings and axitons is what the name says. -/
theorem C80_plain (s : St R) (hg : s.grp = false) {f : File R} (h : run F pos q s = .ok f) {n : Name} {v : Val R}
    (hm : (n, v) ∈ f) (hn : n.parts.length ≤ 1 ∨ n.group = "/pSpectrum") :
    Holds F q s.red s.sd.full n v := by
  refine (run_short F pos q hg h hm).resolve_left ?_
  rintro ⟨h1, h2⟩
  rcases hn with hn | hn
  · omega
  · rw [hn] at h2; simp at h2

example : ∃ f, run exF id exA (start false true none) = .ok f ∧
    (⟨"/pSpectrum", ["sPmasked", "2.00"]⟩, .power (.masked ⟨.axit, some true, true⟩)) ∈ f :=
  value_mem (by rfl)

/-! ### Values: the complex field -/

/-- The spectrum of a mask is that of the mask its name tells. -/
theorem C80_saxion_W (hf : q.field = .saxion) (s : St R) (hg : s.grp = false) {f : File R}
    (h : run F pos q s = .ok f) {l : List String} {v : Val R} (hm : (⟨"/mSpectrum", "W" :: l⟩, v) ∈ f) (hl : l ≠ []) :
    ∃ m, SaxMask F q s.red l m ∧ v = .power (.mask m) := by
  have hlong : Long ⟨"/mSpectrum", "W" :: l⟩ := by
    refine ⟨?_, by simp⟩
    have := List.length_pos_of_ne_nil hl
    simp only [List.length_cons]
    omega
  obtain ⟨t, w, h1, h2, h3, h4, h5, e, he, hev⟩ := run_spec F pos q hg h hm hlong
  rcases hev with rfl | rfl
  · obtain ⟨k, i, hu, hi, hq⟩ := tail_sax F pos q hf (h3 hf) _ (in_tail F pos q he) (by simp [Ev.spec])
    obtain ⟨e1, e2⟩ := hq.1 rfl
    have e1 : l = preLabel F q k i := by simpa using e1
    subst e1
    exact ⟨_, sax_mask F q h2 hu hi (fun hp => h5 k hp (by rintro rfl; have := used_sax q hf hu; cases this) hu), e2⟩
  · obtain ⟨k, i, hu, hi, hq⟩ := tail_sax F pos q hf (h3 hf) _ (in_tail F pos q he) (by simp [Ev.spec])
    exact absurd hq.1 (by simp)

/-- The map of a mask is the projection of what the mask leaves. -/
theorem C80_saxion_map (hf : q.field = .saxion) (s : St R) (hg : s.grp = false) {f : File R}
    (h : run F pos q s = .ok f) {l : List String} {v : Val R} (hm : (⟨"/map", "W" :: l⟩, v) ∈ f) (hl : l ≠ []) :
    ∃ m, SaxMask F q s.red l m ∧ v = .proj (some (false, .antimask m)) := by
  have hlong : Long ⟨"/map", "W" :: l⟩ := by
    refine ⟨?_, by simp⟩
    have := List.length_pos_of_ne_nil hl
    simp only [List.length_cons]
    omega
  obtain ⟨t, w, h1, h2, h3, h4, h5, e, he, hev⟩ := run_spec F pos q hg h hm hlong
  rcases hev with rfl | rfl
  · have hg := fits_tail F pos q t _ (in_tail F pos q he)
    exact absurd hg (by simp [Ev.fits, putGroups])
  · obtain ⟨k, i, hu, hi, hq⟩ := tail_sax F pos q hf (h3 hf) _ (in_tail F pos q he) (by simp [Ev.spec])
    obtain ⟨-, e1, e2⟩ := hq
    have e1 : l = preLabel F q k i := by simpa using e1
    subst e1
    exact ⟨_, sax_mask F q h2 hu hi (fun hp => h5 k hp (by rintro rfl; have := used_sax q hf hu; cases this) hu), e2⟩

/-- A spectrum of numbers is that of the field with the mask its name tells, except: without the correction by
the table, masks that are arrays have been lost if the gradient was asked with it; and for these masks the
saxion spectra are the axion spectra made last. -/
theorem C80_saxion_numbers (hf : q.field = .saxion) (s : St R) (hg : s.grp = false) {f : File R}
    (h : run F pos q s = .ok f) {x : String} {l : List String} {v : Val R} (hm : (⟨"/eSpectrum", x :: l⟩, v) ∈ f)
    (hl : l ≠ []) :
    ∃ m, SaxMask F q s.red l m ∧
      ((x ∈ ["sK", "sG", "sV", "sS"] ∧ ∃ y, Finds m False y ∧ v = .num (.run .lut m.kind y)) ∨
       (x ∈ ["sCK", "sCG", "sCV", "sCS"] ∧ ∃ y, Finds m (Bit q.nrt 1) y ∧ v = .num (.run .pure m.kind y)) ∨
       (x ∈ ["sKS", "sGS", "sVS"] ∧ ¬ InArray m.kind ∧ ∃ y, Finds m False y ∧ v = .num (.run .sax m.kind y)) ∨
       (x ∈ ["sKS", "sGS", "sVS"] ∧ InArray m.kind ∧ ∃ h y, h ≠ How.sax ∧ v = .num (.run h m.kind y))) := by
  have hlong : Long ⟨"/eSpectrum", x :: l⟩ := by
    refine ⟨?_, by simp⟩
    have := List.length_pos_of_ne_nil hl
    simp only [List.length_cons]
    omega
  obtain ⟨t, w, h1, h2, h3, h4, h5, e, he, hev⟩ := run_spec F pos q hg h hm hlong
  rcases hev with rfl | rfl
  · obtain ⟨k, i, hu, hi, hq⟩ := tail_sax F pos q hf (h3 hf) _ (in_tail F pos q he) (by simp [Ev.spec])
    obtain ⟨x', e1, e2⟩ := hq.2.1 rfl
    have hx : x = x' ∧ l = preLabel F q k i := by simpa using e1
    obtain ⟨rfl, rfl⟩ := hx
    have hax := used_sax q hf hu
    have fF : Finds (mk q w k i) False (look k (mk q w k i) false) := by
      simpa using look_finds q hax w i false
    refine ⟨_, sax_mask F q h2 hu hi (fun hp => h5 k hp (by rintro rfl; cases hax) hu), ?_⟩
    rcases e2 with ⟨a, b⟩ | ⟨a, b⟩ | ⟨a, b⟩
    · exact .inl ⟨a, _, fF, b⟩
    · refine .inr (.inl ⟨a, _, ?_, b⟩)
      have := look_finds q hax w i (on q.nrt 2)
      rw [nrt_iff q (show 2 = 2 ^ 1 from rfl)] at this
      exact this
    · by_cases hk : k = .gaus ∨ k = .diff
      · rw [if_pos hk] at b
        refine .inr (.inr (.inr ⟨a, hk, ?_⟩))
        split at b
        · exact ⟨.pure, _, by decide, b⟩
        · exact ⟨.lut, _, by decide, b⟩
      · rw [if_neg hk] at b
        exact .inr (.inr (.inl ⟨a, hk, _, fF, b⟩))
  · have hg := fits_tail F pos q t _ (in_tail F pos q he)
    exact absurd hg (by simp [Ev.fits, hardGroups])

/-- Energies by mask and energies of strings belong to the mask around strings of the radius in the name. -/
theorem C80_saxion_energies (hf : q.field = .saxion) (s : St R) (hg : s.grp = false) {f : File R}
    (h : run F pos q s = .ok f) {x : String} {v : Val R} :
    ((⟨"/energy", ["Redmask", x]⟩, v) ∈ f → ∃ m, SaxMask F q s.red ["Red", x] m ∧ v = .masked (some m)) ∧
    ((⟨"/string", ["rmask", x]⟩, v) ∈ f → ∃ m, SaxMask F q s.red ["Red", x] m ∧ v = .strEnergy (some m)) := by
  constructor
  · intro hm
    obtain ⟨t, w, h1, h2, h3, h4, h5, e, he, hev⟩ := run_spec F pos q hg h hm (by simp [Long])
    rcases hev with rfl | rfl
    · obtain ⟨k, i, hu, hi, hq⟩ := tail_sax F pos q hf (h3 hf) _ (in_tail F pos q he) (by simp [Ev.spec])
      obtain ⟨rfl, r, hr, e1, e2⟩ := hq.2.2.1 rfl
      have := sax_mask F q h2 hu hi (fun hp => h5 _ hp (by decide) hu)
      have hl : preLabel F q .redo i = ["Red", x] := by
        have : F.lab r = x := by simpa using e1.symm
        simp [preLabel, M.mul, M.lab, rlab, hr, this]
      rw [hl] at this
      exact ⟨_, this, e2⟩
    · have hg := fits_tail F pos q t _ (in_tail F pos q he)
      exact absurd hg (by simp [Ev.fits, hardGroups])
  · intro hm
    obtain ⟨t, w, h1, h2, h3, h4, h5, e, he, hev⟩ := run_spec F pos q hg h hm (by simp [Long])
    rcases hev with rfl | rfl
    · obtain ⟨k, i, hu, hi, hq⟩ := tail_sax F pos q hf (h3 hf) _ (in_tail F pos q he) (by simp [Ev.spec])
      obtain ⟨rfl, e1, e2⟩ := hq.2.2.2 rfl
      have := sax_mask F q h2 hu hi (fun hp => h5 _ hp (by decide) hu)
      have hl : preLabel F q .redo i = ["Red", x] := by
        have : rlab F q i = x := by simpa using e1.symm
        simp [preLabel, M.mul, M.lab, this]
      rw [hl] at this
      exact ⟨_, this, e2⟩
    · have hg := fits_tail F pos q t _ (in_tail F pos q he)
      exact absurd hg (by simp [Ev.fits, hardGroups])

example : ∃ f, run exF id exS (start false true none) = .ok f ∧
    (⟨"/mSpectrum", ["W", "Red", "2.00"]⟩, .power (.mask ⟨.redo, some true, true⟩)) ∈ f := value_mem (by rfl)

example : ∃ f, run exF id exS (start false true none) = .ok f ∧
    (⟨"/string", ["rmask", "2.00"]⟩, .strEnergy (some ⟨.redo, some true, true⟩)) ∈ f := value_mem (by rfl)

example : ∃ f, run exF id exS (start false true none) = .ok f ∧
    (⟨"/eSpectrum", ["sG", "Gau", "2.00"]⟩, .num (.run .lut .gaus (.array (.mask ⟨.gaus, some true, true⟩)))) ∈ f :=
  value_mem (by rfl)

example : Whole exS false := by
  refine ⟨fun _ h => ?_, fun _ => rfl⟩
  exact absurd h.1.1 (by decide)

/-! ### Values: the angle -/

/-- What is called the spectrum of a mask of axitons is the spectrum of the energy without what the mask
covers, if the energy is at hand; of the reduced energy, if only that is at hand; or zero. -/
theorem C80_axion_W (hf : q.field = .axion) (s : St R) (hg : s.grp = false) {f : File R}
    (h : run F pos q s = .ok f) {l : List String} {v : Val R} (hm : (⟨"/mSpectrum", "W" :: l⟩, v) ∈ f) (hl : l ≠ []) :
    ∃ k, (k = .axit ∨ k = .axit2) ∧ Used q k ∧ ∃ r ∈ q.radii, l = [k.lab, F.lab r] ∧
      (AxGood q → v = .power (.masked ⟨k, some r, true⟩)) ∧
      (AxReduced q → v = .power (.masked ⟨k, some r, false⟩)) ∧
      (¬ AxGood q → ¬ AxReduced q → v = .power .zero) := by
  have hlong : Long ⟨"/mSpectrum", "W" :: l⟩ := by
    refine ⟨?_, by simp⟩
    have := List.length_pos_of_ne_nil hl
    simp only [List.length_cons]
    omega
  obtain ⟨t, w, h1, h2, h3, h4, h5, e, he, hev⟩ := run_spec F pos q hg h hm hlong
  rcases hev with rfl | rfl
  · obtain ⟨k, i, hk, hu, hi, e1, e2⟩ := (tail_ax F pos q hf t _ he).1 rfl
    have e1 : l = preLabel F q k i := by simpa using e1
    have hp : ¬ Plain k := by rcases hk with rfl | rfl <;> simp [Plain]
    have hv : k ≠ .axitv := by rcases hk with rfl | rfl <;> decide
    obtain ⟨r, r1, r2, r3⟩ := round_radius F q hi hp (h5 k hp hv hu)
    rw [preLabel, if_pos ((mul_iff k).2 hp), r3] at e1
    obtain ⟨s1, s2, s3⟩ := source_iff q hf (by rcases hk with rfl | rfl; exacts [.inl hu, .inr hu])
      (h1.other (by rw [hf]; decide))
    refine ⟨k, hk, hu, r, r1, e1, fun hG => ?_, fun hR => ?_, fun hG hR => ?_⟩
    · rw [e2, s1 hG]; simp [aPower, amk, r2, Body.isEnergy]
    · rw [e2, s2 hR]; simp [aPower, amk, r2, Body.isEnergy]
    · rw [e2, s3 hG hR]; rfl
  · have := (tail_ax F pos q hf t _ he).1
    exact absurd this (by simp)

/-- The map of a mask of axitons, if the energy is at hand. -/
theorem C80_axion_map (hf : q.field = .axion) (hG : AxGood q) (s : St R) (hg : s.grp = false) {f : File R}
    (h : run F pos q s = .ok f) {l : List String} {v : Val R} (hm : (⟨"/map", "W" :: l⟩, v) ∈ f) (hl : l ≠ []) :
    ∃ k, (k = .axit ∨ k = .axit2) ∧ Used q k ∧ ∃ r ∈ q.radii, l = [k.lab, F.lab r] ∧
      v = .proj (some (false, .antimask ⟨k, some r, true⟩)) := by
  have hlong : Long ⟨"/map", "W" :: l⟩ := by
    refine ⟨?_, by simp⟩
    have := List.length_pos_of_ne_nil hl
    simp only [List.length_cons]
    omega
  obtain ⟨t, w, h1, h2, h3, h4, h5, e, he, hev⟩ := run_spec F pos q hg h hm hlong
  rcases hev with rfl | rfl
  · have hg := fits_tail F pos q t _ (in_tail F pos q he)
    exact absurd hg (by simp [Ev.fits, putGroups])
  · obtain ⟨-, k, i, hk, hu, hi, e1, e2⟩ := tail_ax F pos q hf t _ he
    have e1 : l = preLabel F q k i := by simpa using e1
    have hp : ¬ Plain k := by rcases hk with rfl | rfl <;> simp [Plain]
    have hv : k ≠ .axitv := by rcases hk with rfl | rfl <;> decide
    obtain ⟨r, r1, r2, r3⟩ := round_radius F q hi hp (h5 k hp hv hu)
    rw [preLabel, if_pos ((mul_iff k).2 hp), r3] at e1
    obtain ⟨s1, s2, s3⟩ := source_iff q hf (by rcases hk with rfl | rfl; exacts [.inl hu, .inr hu])
      (h1.other (by rw [hf]; decide))
    refine ⟨k, hk, hu, r, r1, e1, ?_⟩
    rw [e2 _ (s1 hG)]; simp [amk, r2, Body.isEnergy]

/-- Spectra of numbers of the angle: of the whole field; or with the mask of axitons, if the energy is at
hand, where the second run finds nothing of the mask if there was a first. -/
theorem C80_axion_numbers_partial (hf : q.field = .axion) (hG : AxGood q) (s : St R) (hg : s.grp = false) {f : File R}
    (h : run F pos q s = .ok f) {x : String} {l : List String} {v : Val R} (hm : (⟨"/eSpectrum", x :: l⟩, v) ∈ f)
    (hl : l ≠ []) (h2 : ¬ Used q .axit2) :
    (l = ["0"] ∧ ((x ∈ ["sK", "sG", "sV", "sS"] ∧ v = .num (.run .lut .flat .self)) ∨
      (x ∈ ["sCK", "sCG", "sCV", "sCS"] ∧ v = .num (.run .pure .flat .self)))) ∨
    ∃ r ∈ q.radii, l = ["Axit", F.lab r] ∧
      ((x ∈ ["sK", "sG", "sV", "sS"] ∧ v = .num (.run .lut .axit (.array (.mask ⟨.axit, some r, true⟩)))) ∨
       (x ∈ ["sCK", "sCG", "sCV", "sCS"] ∧ (¬ (∃ i < 4, Bit q.nrt i) →
          v = .num (.run .pure .axit (.array (.mask ⟨.axit, some r, true⟩)))) ∧
        ((∃ i < 4, Bit q.nrt i) → v = .num (.run .pure .axit (.array .junk))))) := by
  have hlong : Long ⟨"/eSpectrum", x :: l⟩ := by
    refine ⟨?_, by simp⟩
    have := List.length_pos_of_ne_nil hl
    simp only [List.length_cons]
    omega
  have h15 : on q.nrt 15 = true ↔ ∃ i < 4, Bit q.nrt i := by
    have e : (15 : ℕ) = 2 ^ 0 ||| 2 ^ 1 ||| 2 ^ 2 ||| 2 ^ 3 := rfl
    rw [e]
    simp only [on_or, on_pow, Bool.or_eq_true]
    constructor
    · rintro (((h | h) | h) | h)
      exacts [⟨0, by decide, h⟩, ⟨1, by decide, h⟩, ⟨2, by decide, h⟩, ⟨3, by decide, h⟩]
    · rintro ⟨i, hi, h⟩
      unfold Bit at h
      have : i = 0 ∨ i = 1 ∨ i = 2 ∨ i = 3 := by omega
      rcases this with rfl | rfl | rfl | rfl <;> tauto
  obtain ⟨t, w, h1, h2', h3, h4, h5, e, he, hev⟩ := run_spec F pos q hg h hm hlong
  rcases hev with rfl | rfl
  · obtain ⟨x', k, i, hu, hi, e0, e2⟩ := (tail_ax F pos q hf t _ he).2 rfl
    have hx : x = x' ∧ l = preLabel F q k i := by simpa using e0
    obtain ⟨rfl, e1⟩ := hx
    rcases e2 with rfl | ⟨rfl, e2⟩ | ⟨rfl, e2⟩
    · exact absurd hu h2
    · exact .inl ⟨e1, e2⟩
    · right
      have hp : ¬ Plain .axit := by simp [Plain]
      obtain ⟨r, r1, r2, r3⟩ := round_radius F q hi hp (h5 _ hp (by decide) hu)
      rw [preLabel, if_pos (show M.axit.mul = true from rfl), r3] at e1
      obtain ⟨s1, -, -⟩ := source_iff q hf (.inl hu) (h1.other (by rw [hf]; decide))
      have e3 := e2 _ (s1 hG)
      have hamk : amk q .energy .axit i = ⟨.axit, some r, true⟩ := by simp [amk, r2, Body.isEnergy]
      rw [hamk] at e3
      refine ⟨r, r1, e1, ?_⟩
      rcases e3 with e3 | ⟨a, b⟩
      · exact .inl e3
      · refine .inr ⟨a, fun hn => ?_, fun hy => ?_⟩
        · rw [if_neg (fun hc => hn (h15.1 hc))] at b; exact b
        · rw [if_pos (h15.2 hy)] at b; exact b
  · have hg := fits_tail F pos q t _ (in_tail F pos q he)
    exact absurd hg (by simp [Ev.fits, hardGroups])

example : AxGood exA := by
  refine ⟨.inr (.inl (by decide)), by decide, fun h => ?_, fun h => ?_⟩
  · exact absurd h.1 (by decide)
  · exact absurd (.inl (by decide)) h

example : ∃ f, run exF id exA (start false true none) = .ok f ∧
    (⟨"/mSpectrum", ["W", "Axit", "2.00"]⟩, .power (.masked ⟨.axit, some true, true⟩)) ∈ f := value_mem (by rfl)

example : ∃ f, run exF id exA (start false true none) = .ok f ∧
    (⟨"/map", ["W", "Axit", "2.00"]⟩, .proj (some (false, .antimask ⟨.axit, some true, true⟩))) ∈ f :=
  value_mem (by rfl)

example : ∃ f, run exF id exA (start false true none) = .ok f ∧
    (⟨"/eSpectrum", ["sCG", "Axit", "2.00"]⟩, .num (.run .pure .axit (.array .junk))) ∈ f := value_mem (by rfl)

/-! ### Values: the other kinds -/

/-- For the other kinds of field every spectrum of a mask and of numbers is zero. -/
theorem C80_other_zero (hf : q.field = .naxion ∨ q.field = .paxion) (s : St R) (hg : s.grp = false) {f : File R}
    (h : run F pos q s = .ok f) {x : String} {l : List String} {v : Val R} (hl : l ≠ []) :
    ((⟨"/mSpectrum", x :: l⟩, v) ∈ f → v = .power .zero) ∧ ((⟨"/eSpectrum", x :: l⟩, v) ∈ f → v = .num .zero) := by
  have hlen := List.length_pos_of_ne_nil hl
  constructor
  · intro hm
    obtain ⟨t, w, h1, h2, h3, h4, h5, e, he, hev⟩ := run_spec F pos q hg h hm ⟨by simp only [List.length_cons]; omega, by simp⟩
    rcases hev with rfl | rfl
    · exact (tail_zero F pos q hf t _ (in_tail F pos q he)).1 rfl
    · have hg := fits_tail F pos q t _ (in_tail F pos q he)
      exact absurd hg (by simp [Ev.fits, hardGroups])
  · intro hm
    obtain ⟨t, w, h1, h2, h3, h4, h5, e, he, hev⟩ := run_spec F pos q hg h hm ⟨by simp only [List.length_cons]; omega, by simp⟩
    rcases hev with rfl | rfl
    · exact (tail_zero F pos q hf t _ (in_tail F pos q he)).2 rfl
    · have hg := fits_tail F pos q t _ (in_tail F pos q he)
      exact absurd hg (by simp [Ev.fits, hardGroups])

example : ∃ f, run exF id { exS with field := .paxion } (start false true none) = .ok f ∧
    (⟨"/eSpectrum", ["sG", "Red", "2.00"]⟩, .num .zero) ∈ f := value_mem (by rfl)

/-! ### What is not so -/

/-- Spectra made with the mask around strings of the second radius. -/
def second (x : Name × Val Bool) : Bool :=
  match x.2 with
  | .num (.run _ _ (.sData (some ⟨.redo, some true, _⟩))) => true
  | _ => false

/-- Two radii with the same label: the call may come to its end, and the spectra of the second are not in
the file. -/
theorem C80_not_every_radius : ∃ (F : Fmt Bool) (q : Req Bool) (f : File Bool), true ∈ q.radii ∧ Used q .redo ∧
    run F id q (start false true none) = .ok f ∧
    (⟨"/eSpectrum", ["sG", "Red", "0.01"]⟩, .num (.run .lut .redo (.sData (some ⟨.redo, some false, true⟩)))) ∈ f ∧
    ∀ n h k b, (n, .num (.run h k (.sData (some ⟨.redo, some true, b⟩)))) ∉ f := by
  obtain ⟨f, h1, h2⟩ := value_mem (n := ⟨"/eSpectrum", ["sG", "Red", "0.01"]⟩)
    (v := .num (.run .lut .redo (.sData (some ⟨.redo, some false, true⟩))))
    (e := run ⟨fun _ => "0.01", exF.d3⟩ id { exS with mask := 8, nrt := 2 } (start false true none)) rfl
  refine ⟨⟨fun _ => "0.01", exF.d3⟩, { exS with mask := 8, nrt := 2 }, f, by simp [exS],
    ⟨by decide, by simp [Fits, exS]⟩, h1, h2, ?_⟩
  have hc : (match run ⟨fun _ => "0.01", exF.d3⟩ id { exS with mask := 8, nrt := 2 } (start false true none) with
      | .ok f => f.all fun x => !second x
      | .error _ => false) = true := by decide
  rw [h1] at hc
  intro n h k b hm
  have := List.all_eq_true.1 hc _ hm
  simp [second] at this

/-- A map of strings at the resolution of the last reduced energy, although no energy is asked for in this
call. -/
theorem C80_not_whole : ∃ (q : Req Bool) (f : File Bool), ¬ EnergyMap q ∧
    run exF id q (start true true none) = .ok f ∧ (⟨"/string", ["data"]⟩, .stringMap false) ∈ f ∧
    (⟨"/mSpectrum", ["W", "Red", "2.00"]⟩, .power (.mask ⟨.redo, some true, false⟩)) ∈ f := by
  obtain ⟨f, h⟩ := values_mem (n := ⟨"/string", ["data"]⟩) (n' := ⟨"/mSpectrum", ["W", "Red", "2.00"]⟩)
    (v := .stringMap false) (v' := .power (.mask ⟨.redo, some true, false⟩))
    (e := run exF id { exS with meas := 2 ^ 6 + 2 ^ 16 } (start true true none)) rfl rfl
  refine ⟨_, f, ?_, h⟩
  unfold EnergyMap PlaneE
  decide

/-- Energies of strings are asked and not stored: the group for them is not in the file when masks are asked
without a map. -/
theorem C80_not_string_energy : ∃ (q : Req Bool) (f : File Bool), Numbers q ∧ Used q .redo ∧ Bit q.strmeas 2 ∧
    run exF id q (start false true none) = .ok f ∧ ∀ x, (⟨"/string", x⟩ : Name) ∉ f.map Prod.fst := by
  obtain ⟨f, h1, h2⟩ := names_mem (l := [⟨"/mSpectrum", ["W", "Red", "1.00"]⟩, ⟨"/map", ["W", "Red", "1.00"]⟩,
      ⟨"/mSpectrum", ["W", "Red", "2.00"]⟩, ⟨"/map", ["W", "Red", "2.00"]⟩,
      ⟨"/eSpectrum", ["sG", "Red", "1.00"]⟩, ⟨"/energy", ["Redmask", "2.00"]⟩,
      ⟨"/eSpectrum", ["sG", "Red", "2.00"]⟩])
    (e := run exF id { exS with meas := 2 ^ 5 + 2 ^ 13 + 2 ^ 16, mask := 8, nrt := 2 } (start false true none))
    (by decide)
  refine ⟨_, f, .inl (by decide), ⟨by decide, by simp [Fits, exS]⟩, by decide, h1, ?_⟩
  rw [h2]
  simp

/-- Both projections of the energy: the program ends before the averages are stored. -/
theorem C80_not_both : ∃ (q : Req Bool) (f : File Bool), q.radii ≠ [] ∧
    run exF id q (start false true none) = .error (.exit f) ∧ (⟨"/energy", []⟩ : Name) ∉ f.map Prod.fst := by
  refine ⟨{ exS with meas := 2 ^ 8, maps := 2 ^ 10 + 2 ^ 11 }, [(⟨"/map", ["P"]⟩, .proj (some (false, .energy)))],
    by simp [exS], rfl, by simp⟩

/-- Smoothed maps with masks of axitons: the spectrum under the name of the mask is zero, and its map is that
of the smoothed energy. -/
theorem C80_not_axitons : ∃ (q : Req Bool) (f : File Bool), Used q .axit ∧ Bit q.meas 13 ∧ EnergyMap q ∧
    run exF id q (start false true none) = .ok f ∧
    (⟨"/mSpectrum", ["W", "Axit", "2.00"]⟩, .power .zero) ∈ f ∧
    (⟨"/map", ["W", "Axit", "2.00"]⟩, .proj (some (false, .smooth 1))) ∈ f := by
  obtain ⟨f, h⟩ := values_mem (n := ⟨"/mSpectrum", ["W", "Axit", "2.00"]⟩) (n' := ⟨"/map", ["W", "Axit", "2.00"]⟩)
    (v := .power .zero) (v' := .proj (some (false, .smooth 1)))
    (e := run exF id { exA with meas := 2 ^ 13 + 2 ^ 19 } (start false true none)) rfl rfl
  exact ⟨_, f, ⟨by decide, by simp [Fits, exA]⟩, by decide, pow_energy (.inr (.inr (by decide))), h⟩

/-- Spectra under the second mask of axitons are made with the mask of the last radius, whatever the
radius in their name. -/
theorem C80_not_axit2 : ∃ (q : Req Bool) (f : File Bool), AxGood q ∧
    run exF id q (start false true none) = .ok f ∧
    (⟨"/eSpectrum", ["sG", "Axit2", "1.00"]⟩, .num (.run .lut .axit2 (.sData (some ⟨.axit2, some true, true⟩)))) ∈ f := by
  obtain ⟨f, h⟩ := value_mem (n := ⟨"/eSpectrum", ["sG", "Axit2", "1.00"]⟩)
    (v := .num (.run .lut .axit2 (.sData (some ⟨.axit2, some true, true⟩))))
    (e := run exF id { exA with mask := 1024, meas := 2 ^ 13 + 2 ^ 14 + 2 ^ 16 } (start false true none)) rfl
  refine ⟨_, f, ?_, h⟩
  refine ⟨.inr (.inr (.inr (.inl (by decide)))), by decide, fun h => ?_, fun h => ?_⟩
  · exact absurd h.1 (by decide)
  · exact absurd (.inl (by decide)) h

/-- Saxion spectra under the Gaussian mask are axion spectra. -/
theorem C80_not_saxion : ∃ (q : Req Bool) (f : File Bool), run exF id q (start false true none) = .ok f ∧
    (⟨"/eSpectrum", ["sGS", "Gau", "2.00"]⟩, .num (.run .lut .gaus (.array (.mask ⟨.gaus, some true, true⟩)))) ∈ f := by
  obtain ⟨f, h⟩ := value_mem (n := ⟨"/eSpectrum", ["sGS", "Gau", "2.00"]⟩)
    (v := .num (.run .lut .gaus (.array (.mask ⟨.gaus, some true, true⟩))))
    (e := run exF id { exS with mask := 16, nrt := 2, meas := 2 ^ 17 } (start false true none)) rfl
  exact ⟨_, f, h⟩

end Jaxions.MeasRun
