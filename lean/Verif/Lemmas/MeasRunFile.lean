import Verif.Lemmas.MeasRunAx
import Verif.Lemmas.MeasRunEnds

/-
From the events of a call to the file.
-/

namespace Jaxions.MeasRun

variable {R : Type} (F : Fmt R) (pos : R → Bool) (q : Req R)

theorem run_trace (hs : Something q) (s : St R) (hg : s.grp = false) :
    ∃ t w, Before q q.left s.red t ∧ (w = true ↔ Whole q s.red) ∧ (q.field = .saxion → Map w t) ∧
      ∀ r, run F pos q s = r ↔ store (evAll F pos q s.sd.full w t) [] = r := by
  obtain ⟨t, h1, h2⟩ := body_trace F pos q q.left s hg
  refine ⟨t, !(if need q q.left = true then reds q q.left && !on q.left MULTICON else s.red), h1, ?_,
    fun hf => (by rw [Map, h1.sax hf]; exact ⟨rfl, rfl⟩), fun r => ?_⟩
  rotate_left
  · unfold run calls
    rw [if_neg ((left_ne q).2 hs), trace_append, trace_when, after_when]
    have e : (if on q.meas CONF3D = true then after F pos q [.save] s else s) = s := by split <;> rfl
    rw [e, h2]
    change store (_ ++ evAll F pos q s.sd.full _ t) [] = r ↔ _
    unfold when
    split
    · exact Iff.rfl
    · exact Iff.rfl
  · have n := need_iff q
    have r := reds_iff q
    have m := multi_iff q
    unfold Whole
    by_cases hn : need q q.left = true
    · rw [if_pos hn, ← n]
      have : ¬ ¬ need q q.left = true := by simpa using hn
      simp only [hn, true_implies, not_true_eq_false, false_implies, and_true, ← r, ← m]
      cases reds q q.left <;> cases on q.left MULTICON <;> simp
    · rw [if_neg hn, ← n]
      simp [hn]

theorem run_nothing (hs : ¬ Something q) (s : St R) : run F pos q s = .ok [] := by
  unfold run calls
  have : q.left = 0 := by
    by_contra h
    exact hs ((left_ne q).1 h)
  rw [if_pos this, List.append_nil, trace_when]
  unfold when
  split <;> rfl

theorem store_nodup {es : List (Ev R)} {f g : File R} (h : store es f = .ok g) (hf : (f.map Prod.fst).Nodup) :
    (g.map Prod.fst).Nodup := by
  induction es generalizing f with
  | nil => simp only [store, Except.ok.injEq] at h; subst h; exact hf
  | cons e es ih =>
    cases e with
    | put n v =>
      refine ih h ?_
      split
      · exact hf
      · rename_i hn
        rw [List.map_append, List.nodup_append]
        refine ⟨hf, by simp, ?_⟩
        intro a ha b hb hab
        simp only [List.map_cons, List.map_nil, List.mem_singleton] at hb
        subst hb; subst hab; exact hn ha
    | hard n v =>
      rw [store] at h
      split at h
      · cases h
      · rename_i hn
        refine ih h ?_
        rw [List.map_append, List.nodup_append]
        refine ⟨hf, by simp, ?_⟩
        intro a ha b hb hab
        simp only [List.map_cons, List.map_nil, List.mem_singleton] at hb
        subst hb; subst hab; exact hn ha
    | save => exact ih h hf
    | ub => simp [store] at h

/-- Where an event goes is right. -/
def HoldsQ (red full : Bool) : Ev R → Prop
  | .put n v | .hard n v => Holds F q red full n v
  | _ => True

section

variable {F q} {red full : Bool}

theorem holds_when {b : Bool} {l : List (Ev R)} (h : b = true → ∀ e ∈ l, HoldsQ F q red full e) :
    ∀ e ∈ when b l, HoldsQ F q red full e :=
  fun e he => h (mem_when.1 he).1 e (mem_when.1 he).2

theorem holds_append {l m : List (Ev R)} (h : ∀ e ∈ l, HoldsQ F q red full e) (h' : ∀ e ∈ m, HoldsQ F q red full e) :
    ∀ e ∈ l ++ m, HoldsQ F q red full e :=
  fun e he => (List.mem_append.1 he).elim (h e) (h' e)

theorem holds_nil : ∀ e ∈ ([] : List (Ev R)), HoldsQ F q red full e := by simp

theorem holds_cons {e : Ev R} {l : List (Ev R)} (h : HoldsQ F q red full e) (h' : ∀ e ∈ l, HoldsQ F q red full e) :
    ∀ x ∈ e :: l, HoldsQ F q red full x := by
  intro x hx
  rcases List.mem_cons.1 hx with rfl | hx
  · exact h
  · exact h' x hx

end

theorem holds_pre (red full : Bool) : ∀ e ∈ evPre q q.left full, HoldsQ F q red full e := by
  unfold evPre
  refine holds_append (holds_append (holds_append (holds_when fun h => ?_) (holds_when fun _ => ?_))
    (holds_when fun _ => ?_)) (holds_when fun _ => ?_)
  · exact holds_cons .strings (holds_cons (.oldMap ((grp0_iff q).1 h).1) holds_nil)
  · exact holds_cons .accel holds_nil
  · exact holds_cons (.slice (by simp) (by simp)) (holds_cons (.slice (by simp) (by simp)) holds_nil)
  · exact holds_cons (.slice (by simp) (by simp)) (holds_cons (.slice (by simp) (by simp)) holds_nil)

theorem holds_string (red full w : Bool) (hw : w = true ↔ Whole q red) :
    ∀ e ∈ evString q q.left w, HoldsQ F q red full e := by
  unfold evString
  refine holds_when fun hf => ?_
  have hf : q.field = .saxion := by simpa using hf
  split
  · exact holds_append (holds_append (holds_cons .strings holds_nil)
      (holds_when fun _ => holds_cons (.map hf hw) holds_nil)) (holds_cons .coords holds_nil)
  · split
    · exact holds_when fun _ => holds_cons .strings (holds_cons (.map hf hw) holds_nil)
    · exact holds_when fun _ => holds_cons .strings holds_nil

theorem holds_masked (red full : Bool) (k : M) (name : ℕ → List String) (lab : Bool)
    (h : ∀ i ∈ List.range q.irmask, q.field = .axion → Used q k →
      Holds F q red full ⟨"/pSpectrum", name i⟩ (.power (.masked ⟨k, if k = .axitv then none else q.radii[i]?, true⟩))) :
    ∀ e ∈ evMasked q k name lab, HoldsQ F q red full e := by
  unfold evMasked
  refine holds_when fun hc => ?_
  rw [Bool.and_eq_true, eff_bit] at hc
  intro e he
  rw [List.mem_flatMap] at he
  obtain ⟨i, hi, he⟩ := he
  rcases List.mem_append.1 he with he | he
  · have := (mem_when.1 he).2
    unfold ubAt at this
    split at this
    · rw [List.mem_singleton] at this; subst this; trivial
    · simp at this
  · rw [List.mem_singleton] at he
    subst he
    exact h i hi (by simpa using hc.1) hc.2

theorem holds_energy (red full : Bool) (hr : NeedsRadius q → q.radii ≠ []) :
    ∀ e ∈ evEnergy F q q.left, HoldsQ F q red full e := by
  have b10 : on q.maps XYPE = true ↔ Bit q.maps 10 := on_lit rfl
  have b11 : on q.maps XYPE2 = true ↔ Bit q.maps 11 := on_lit rfl
  have b9 : on q.left ENERGY3DMAP = true ↔ Bit q.meas 9 :=
    on_left (show ENERGY3DMAP = 2 ^ 9 from rfl) (by decide)
  have rad : Pow q → ∀ k, (k = .axit ∨ k = .axit2) → q.field = .axion → Used q k → ∀ i ∈ List.range q.irmask,
      ∃ r ∈ q.radii, q.radii[i]? = some r ∧ rlab F q i = F.lab r := by
    intro hp k hk hf hu i hi
    have hne : q.radii ≠ [] := by
      refine hr (.inl ⟨hp, hf, ?_⟩)
      rcases hk with rfl | rfl
      · exact .inl hu
      · exact .inr hu
    rw [irmask_eq q hne, List.mem_range] at hi
    have : q.radii[i]? = some q.radii[i] := List.getElem?_eq_getElem hi
    exact ⟨q.radii[i], List.getElem_mem hi, this, by unfold rlab; rw [this]⟩
  unfold evEnergy
  refine holds_when fun _ => holds_append ?_ (holds_cons .averages holds_nil)
  split
  · unfold evMap
    refine holds_append (holds_append (holds_append (holds_append (holds_append (holds_when fun h => ?_)
      (holds_when fun _ => ?_)) (holds_when fun _ => ?_)) (holds_when fun h => ?_)) (holds_when fun h => ?_))
      (holds_when fun hp => ?_)
    · exact holds_cons (.density (b9.1 h)) holds_nil
    · exact holds_cons .contrast holds_nil
    · exact holds_cons .plane holds_nil
    · exact holds_cons (.proj (b10.1 h)) holds_nil
    · exact holds_cons (.projSq (b11.1 h)) holds_nil
    · rw [pow3_iff] at hp
      unfold evSpec
      refine holds_append (holds_append ?_ (holds_when fun hm => ?_)) (holds_when fun hd => ?_)
      · unfold evPowers
        refine holds_append (holds_append (holds_append ?_ ?_) ?_) (holds_cons .power holds_nil)
        · refine holds_masked F q red full _ _ _ fun i hi hf hu => ?_
          obtain ⟨r, h1, h2, h3⟩ := rad hp .axit (.inl rfl) hf hu i hi
          rw [h2, h3]
          exact .masked h1
        · refine holds_masked F q red full _ _ _ fun i hi hf hu => ?_
          obtain ⟨r, h1, h2, h3⟩ := rad hp .axit2 (.inr rfl) hf hu i hi
          rw [h2, h3]
          exact .masked2 h1
        · refine holds_masked F q red full _ _ _ fun i hi hf hu => ?_
          exact .maskedV
      · unfold evMulti
        intro e he
        rw [List.mem_flatMap] at he
        obtain ⟨i, hi, he⟩ := he
        have hi : i ≤ q.steps := Nat.lt_succ_iff.1 (List.mem_range.1 hi)
        have h1 : HoldsQ F q red full (.put ⟨"/bins", ["cont" ++ F.d3 i ++ "B"]⟩ (.contrast (.smooth i))) := .smoothed hi
        have h2 : HoldsQ F q red full (.hard ⟨"/map", ["P" ++ F.d3 i]⟩ (.proj (some (false, .smooth i)))) :=
          .smoothedMap hi
        exact holds_cons h1 (holds_cons h2 holds_nil) e he
      · rw [reds_iff] at hd
        cases c : on q.left MULTICON
        · have : ¬ Bit q.meas 19 := fun h => by rw [(multi_iff q).2 h] at c; cases c
          exact holds_cons (.reduced hd this) holds_nil
        · exact holds_cons (.notReduced hd ((multi_iff q).1 c)) holds_nil
  · exact holds_nil

/-- Names of the other sets. -/
def Long (n : Name) : Prop := 2 ≤ n.parts.length ∧ n.group ∈ ["/map", "/mSpectrum", "/eSpectrum", "/energy", "/string"]

theorem preLabel_ne (k : M) (i : ℕ) : 1 ≤ (preLabel F q k i).length := by
  unfold preLabel; split <;> simp

theorem tail_long (red full : Bool) (t : St R) :
    ∀ e ∈ trace F pos q (spectrumBlock F q q.left ++ binBlock q q.left) t, ∀ n v, (e = .put n v ∨ e = .hard n v) →
      Long n ∨ Holds F q red full n v := by
  intro e he n v hev
  rw [trace_append] at he
  rcases List.mem_append.1 he with he | he
  · -- the spectra: by the calls
    have key : ∀ cs : List Cmd, (∀ c ∈ cs, c ∈ spectrumBlock F q q.left) → ∀ s : St R,
        ∀ e ∈ trace F pos q cs s, ∀ n v, (e = .put n v ∨ e = .hard n v) → Long n ∨ Holds F q red full n v := by
      intro cs
      induction cs with
      | nil => intro _ s e he; simp [trace_nil] at he
      | cons c cs ih =>
        intro hcs s e he n v hev
        rw [trace_cons] at he
        rcases List.mem_append.1 he with he | he
        · have hc := hcs c (by simp)
          rw [mem_spectrum] at hc
          have sets : ∀ k i l, c ∈ nsets F q k i l → Long n ∨ Holds F q red full n v := by
            intro k i l hl
            obtain ⟨b, m, ms, _, _, _, rfl⟩ := (mem_nsets F q k i _ c).1 hl
            simp only [step, List.mem_singleton] at he
            subst he
            rcases hev with hev | hev
            · cases hev
              exact .inl ⟨by simpa using preLabel_ne F q k i, by simp⟩
            · cases hev
          have no : (step F pos q s c).2 = [] → Long n ∨ Holds F q red full n v := by
            intro h; rw [h] at he; simp at he
          have W : ∀ k i, c = .array ⟨"/mSpectrum", "W" :: preLabel F q k i⟩ .P → Long n ∨ Holds F q red full n v := by
            rintro k i rfl
            simp only [step, List.mem_singleton] at he
            subst he
            rcases hev with hev | hev
            · cases hev
              exact .inl ⟨by simpa using preLabel_ne F q k i, by simp⟩
            · cases hev
          have lab : ∀ i, c = .label i → Long n ∨ Holds F q red full n v := by
            rintro i rfl
            simp only [step] at he
            split at he
            · rw [List.mem_singleton] at he
              subst he
              rcases hev with hev | hev <;> cases hev
            · simp at he
          rcases hc.2 with rfl | ⟨_, hc⟩ | hc
          · exact no rfl
          · obtain ⟨k, _, _, i, _, h⟩ := (mem_maskPass F q c).1 hc
            rcases h with ⟨_, h⟩ | rfl | h | rfl | rfl
            · exact lab i h
            · exact no rfl
            · exact W k i h
            · exact no rfl
            · simp only [step, List.mem_singleton] at he
              subst he
              rcases hev with hev | hev
              · cases hev
              · cases hev
                exact .inl ⟨by simpa using preLabel_ne F q k i, by simp⟩
          · rw [mem_numberPass] at hc
            rcases hc.2 with ⟨k, _, _, i, _, hc⟩ | ⟨_, rfl | rfl⟩
            · rw [mem_round] at hc
              rcases hc with ⟨_, hc⟩ | ⟨_, rfl | ⟨_, hc⟩ | ⟨_, _, rfl⟩ | ⟨_, rfl⟩⟩ |
                ⟨_, ⟨_, rfl | h⟩ | ⟨_, rfl | h⟩ | ⟨_, rfl | h⟩⟩
              · exact lab i hc
              · exact no rfl
              · exact W k i hc
              · simp only [step] at he
                split at he
                · rw [List.mem_singleton] at he
                  subst he
                  rcases hev with hev | hev
                  · cases hev
                    exact .inl ⟨by simp, by simp⟩
                  · cases hev
                · simp at he
              · simp only [step] at he
                split at he
                · split at he
                  · rw [List.mem_singleton] at he
                    subst he
                    rcases hev with hev | hev
                    · cases hev
                      exact .inl ⟨by simp, by simp⟩
                    · cases hev
                  · simp at he
                · simp at he
              · exact no rfl
              · exact sets k i _ h
              · exact no rfl
              · exact sets k i _ h
              · exact no rfl
              · exact sets k i _ h
            · simp only [step, List.mem_singleton] at he
              subst he
              rcases hev with hev | hev
              · cases hev; exact .inr .modes
              · cases hev
            · simp only [step, List.mem_singleton] at he
              subst he
              rcases hev with hev | hev
              · cases hev; exact .inr .meank
              · cases hev
        · exact ih (fun c hc => hcs c (by simp [hc])) _ e he n v hev
    exact key _ (fun c hc => hc) t e he n v hev
  · generalize after F pos q (spectrumBlock F q q.left) t = u at he
    have key : ∀ cs : List Cmd, (∀ c ∈ cs, c ∈ binBlock q q.left) → ∀ s : St R,
        ∀ e ∈ trace F pos q cs s, ∀ n v, (e = .put n v ∨ e = .hard n v) → Long n ∨ Holds F q red full n v := by
      intro cs
      induction cs with
      | nil => intro _ s e he; simp [trace_nil] at he
      | cons c cs ih =>
        intro hcs s e he n v hev
        rw [trace_cons] at he
        rcases List.mem_append.1 he with he | he
        · have hc := hcs c (by simp)
          rw [mem_bin] at hc
          rcases hc with ⟨_, _, rfl⟩ | ⟨_, _, rfl⟩ | ⟨_, _, rfl⟩ | ⟨_, _, rfl⟩ <;>
          · simp only [step, List.mem_singleton] at he
            subst he
            rcases hev with hev | hev
            · cases hev; exact .inr (.hist (by simp))
            · cases hev
        · exact ih (fun c hc => hcs c (by simp [hc])) _ e he n v hev
    exact key _ (fun c hc => hc) u e he n v hev

theorem holds_short {red full : Bool} {n : Name} {v : Val R} (h : Holds F q red full n v) :
    ¬ Long n := by
  rintro ⟨h1, h2⟩
  cases h <;> simp at h1 h2

/-- What is known when the call has come to its end. -/
theorem run_ok {s : St R} {f : File R} (hg : s.grp = false) (h : run F pos q s = .ok f) (hs : Something q) :
    ∃ t w, Before q q.left s.red t ∧ (w = true ↔ Whole q s.red) ∧ (q.field = .saxion → Map w t) ∧
      (NeedsRadius q → q.radii ≠ []) ∧ store (evAll F pos q s.sd.full w t) [] = .ok f := by
  obtain ⟨t, w, h1, h2, h3, h4⟩ := run_trace F pos q hs s hg
  have h := (h4 _).1 h
  refine ⟨t, w, h1, h2, h3, ?_, h⟩
  intro hn hr
  exact store_ub h ((ub_iff F pos q _ _ _).2 ⟨hn, hr⟩)

theorem run_something {s : St R} {f : File R} (h : run F pos q s = .ok f) {x : Name × Val R} (hx : x ∈ f) :
    Something q := by
  by_contra hs
  rw [run_nothing F pos q hs] at h
  cases h
  simp at hx

theorem run_short {s : St R} {f : File R} (hg : s.grp = false) (h : run F pos q s = .ok f) {n : Name} {v : Val R}
    (hm : (n, v) ∈ f) : Long n ∨ Holds F q s.red s.sd.full n v := by
  obtain ⟨t, w, h1, h2, h3, h4, h5⟩ := run_ok F pos q hg h (run_something F pos q h hm)
  have hev : ∃ e ∈ evAll F pos q s.sd.full w t, e = .put n v ∨ e = .hard n v := by
    rcases store_mem h5 hm with h | h | h
    · simp at h
    · exact ⟨_, h, .inl rfl⟩
    · exact ⟨_, h, .inr rfl⟩
  obtain ⟨e, he, hev⟩ := hev
  rcases List.mem_append.1 he with he | he
  · right
    have := holds_append (holds_append (holds_pre F q s.red s.sd.full) (holds_energy F q s.red s.sd.full h4))
      (holds_string F q s.red s.sd.full w h2) e he
    rcases hev with rfl | rfl <;> exact this
  · exact tail_long F pos q _ _ t e he n v hev

theorem run_long {s : St R} {f : File R} (hg : s.grp = false) (h : run F pos q s = .ok f) {n : Name} {v : Val R}
    (hm : (n, v) ∈ f) (hl : Long n) :
    ∃ t w, Before q q.left s.red t ∧ (w = true ↔ Whole q s.red) ∧ (q.field = .saxion → Map w t) ∧
      (NeedsRadius q → q.radii ≠ []) ∧ ∃ e ∈ trace F pos q (spectrumBlock F q q.left ++ binBlock q q.left) t,
        e = .put n v ∨ e = .hard n v := by
  obtain ⟨t, w, h1, h2, h3, h4, h5⟩ := run_ok F pos q hg h (run_something F pos q h hm)
  have hev : ∃ e ∈ evAll F pos q s.sd.full w t, e = .put n v ∨ e = .hard n v := by
    rcases store_mem h5 hm with h | h | h
    · simp at h
    · exact ⟨_, h, .inl rfl⟩
    · exact ⟨_, h, .inr rfl⟩
  obtain ⟨e, he, hev⟩ := hev
  refine ⟨t, w, h1, h2, h3, h4, e, ?_, hev⟩
  rcases List.mem_append.1 he with he | he
  · have := holds_append (holds_append (holds_pre F q s.red s.sd.full) (holds_energy F q s.red s.sd.full h4))
      (holds_string F q s.red s.sd.full w h2) e he
    rcases hev with rfl | rfl <;> exact absurd hl (holds_short F q this)
  · exact he

/-- Spectra with masks are made only if they are asked for. -/
theorem tail_need (t : St R) : ∀ e ∈ trace F pos q (spectrumBlock F q q.left) t, Bit q.meas 13 ∨ Numbers q := by
  intro e he
  by_contra hc
  rw [not_or] at hc
  have c1 : on q.left MASK = false := by
    cases c : on q.left MASK
    · rfl
    · exact absurd ((mask_iff q).1 c) hc.1
  have c2 : on q.left (NSP_A ||| NSP_S ||| NNSPEC) = false := by
    cases c : on q.left (NSP_A ||| NSP_S ||| NNSPEC)
    · rfl
    · exact absurd ((numbers_iff q).1 c) hc.2
  unfold spectrumBlock numberPass at he
  rw [c1, c2] at he
  generalize on q.left SPECTRUM = b at he
  cases b <;> simp [when, trace_nil, trace_cons, step] at he

theorem bins_only (t : St R) {e : Ev R} (he : e ∈ trace F pos q (binBlock q q.left) t) {n : Name} {v : Val R}
    (hev : e = .put n v ∨ e = .hard n v) : ¬ Long n := by
  have hmem : e.sk ∈ (trace F pos q (binBlock q q.left) t).map Ev.sk := List.mem_map_of_mem he
  rw [fixed_trace F pos q _ (bin_fixed q q.left), List.mem_flatMap] at hmem
  obtain ⟨c, hc, hn⟩ := hmem
  rw [mem_bin] at hc
  rcases hc with ⟨_, _, rfl⟩ | ⟨_, _, rfl⟩ | ⟨_, _, rfl⟩ | ⟨_, _, rfl⟩ <;>
    (simp only [names, List.mem_singleton] at hn
     rcases hev with rfl | rfl
     · simp only [Ev.sk, Sk.put.injEq] at hn; subst hn; simp [Long]
     · simp [Ev.sk] at hn)

theorem run_spec {s : St R} {f : File R} (hg : s.grp = false) (h : run F pos q s = .ok f) {n : Name} {v : Val R}
    (hm : (n, v) ∈ f) (hl : Long n) :
    ∃ t w, Before q q.left s.red t ∧ (w = true ↔ Whole q s.red) ∧ (q.field = .saxion → Map w t) ∧
      (Bit q.meas 13 ∨ Numbers q) ∧ (∀ k, ¬ Plain k → k ≠ .axitv → Used q k → q.radii ≠ []) ∧
      ∃ e ∈ trace F pos q (spectrumBlock F q q.left) t, e = .put n v ∨ e = .hard n v := by
  obtain ⟨t, w, h1, h2, h3, h4, e, he, hev⟩ := run_long F pos q hg h hm hl
  rw [trace_append] at he
  rcases List.mem_append.1 he with he | he
  · have hn := tail_need F pos q t e he
    exact ⟨t, w, h1, h2, h3, hn, fun k k1 k2 k3 => h4 (.inr ⟨hn, k, k1, k2, k3⟩), e, he, hev⟩
  · exact absurd hl (bins_only F pos q _ he hev)

theorem in_tail {t : St R} {e : Ev R} (h : e ∈ trace F pos q (spectrumBlock F q q.left) t) :
    e ∈ trace F pos q (spectrumBlock F q q.left ++ binBlock q q.left) t := by
  rw [trace_append]; exact List.mem_append_left _ h

/-! ### The complex field -/

theorem ofMap_iff (k : M) : k.ofMap = true ↔ OfStrings k := by
  cases k <;> simp [M.ofMap, OfStrings]

theorem round_radius {k : M} {i : ℕ} (hi : i ∈ q.rounds k) (hp : ¬ Plain k) (hr : q.radii ≠ []) :
    ∃ r ∈ q.radii, q.radii[i]? = some r ∧ rlab F q i = F.lab r := by
  have hm : k.mul = true := (mul_iff k).2 hp
  unfold Req.rounds at hi
  rw [if_pos hm, irmask_eq q hr, List.mem_range] at hi
  have : q.radii[i]? = some q.radii[i] := List.getElem?_eq_getElem hi
  exact ⟨q.radii[i], List.getElem_mem hi, this, by unfold rlab; rw [this]⟩

theorem sax_mask {red w : Bool} (hw : w = true ↔ Whole q red) {k : M} {i : ℕ} (hu : Used q k)
    (hi : i ∈ q.rounds k) (hr : ¬ Plain k → q.radii ≠ []) :
    SaxMask F q red (preLabel F q k i) (mk q w k i) := by
  refine ⟨hu, ?_, ?_, ?_⟩
  · change Labels F k q.radii[i]? _
    by_cases hp : Plain k
    · have hm : ¬ k.mul = true := fun h => (mul_iff k).1 h hp
      rw [preLabel, if_neg hm]
      exact .plain hp
    · obtain ⟨r, h1, h2, h3⟩ := round_radius F q hi hp (hr hp)
      rw [preLabel, if_pos ((mul_iff k).2 hp), h2, h3]
      exact .radius hp
  · intro r h
    exact List.mem_of_getElem? h
  · change (!k.ofMap || w) = true ↔ (OfStrings k → _)
    rw [← ofMap_iff, ← hw]
    cases k.ofMap <;> simp

theorem look_finds {k : M} (hk : k.axiton = false) (w : Bool) (i : ℕ) (b : Bool) :
    Finds (mk q w k i) (b = true) (look k (mk q w k i) b) := by
  cases k with
  | flat => exact .self (.inl rfl)
  | vil => exact .self (.inr (.inl rfl))
  | vil2 => exact .self (.inr (.inr rfl))
  | redo => exact .bits (.inl rfl)
  | ball => exact .bits (.inr rfl)
  | gaus =>
    cases b
    · exact .array (.inl rfl) (by simp)
    · exact .lost (.inl rfl) rfl
  | diff =>
    cases b
    · exact .array (.inr rfl) (by simp)
    · exact .lost (.inr rfl) rfl
  | axit => cases hk
  | axit2 => cases hk
  | axitv => cases hk

/-! ### The angle -/

theorem source_iff (hf : q.field = .axion) (hu : Used q .axit ∨ Used q .axit2) {t : St R} {g r0 : Bool}
    (hl : Left q q.left g r0 t) :
    (AxGood q → source q t = some .energy) ∧ (AxReduced q → source q t = some .reduced) ∧
      (¬ AxGood q → ¬ AxReduced q → source q t = none) := by
  have hax : AxitonUsed q := ⟨hf, by tauto⟩
  have ff : flatFirst q = true ↔ FlatFirst q := by
    have h8 : (on q.nrt 15 || on q.nrt 240) = true ↔ ∃ i < 8, Bit q.nrt i := by
      have e : (15 : ℕ) = 2 ^ 0 ||| 2 ^ 1 ||| 2 ^ 2 ||| 2 ^ 3 := rfl
      have e' : (240 : ℕ) = 2 ^ 4 ||| 2 ^ 5 ||| 2 ^ 6 ||| 2 ^ 7 := rfl
      rw [e, e']
      simp only [on_or, on_pow, Bool.or_eq_true]
      constructor
      · rintro ((((h | h) | h) | h) | (((h | h) | h) | h))
        exacts [⟨0, by decide, h⟩, ⟨1, by decide, h⟩, ⟨2, by decide, h⟩, ⟨3, by decide, h⟩, ⟨4, by decide, h⟩,
          ⟨5, by decide, h⟩, ⟨6, by decide, h⟩, ⟨7, by decide, h⟩]
      · rintro ⟨i, hi, h⟩
        unfold Bit at h
        have : i = 0 ∨ i = 1 ∨ i = 2 ∨ i = 3 ∨ i = 4 ∨ i = 5 ∨ i = 6 ∨ i = 7 := by omega
        rcases this with rfl | rfl | rfl | rfl | rfl | rfl | rfl | rfl <;> tauto
    unfold flatFirst FlatFirst
    rw [Bool.and_eq_true, Bool.and_eq_true, Bool.not_eq_true', eff_bit, h8, ← mask_iff, Bool.not_eq_true]
  have n2 := needM2_iff q
  have n1 : EnergyMap q → need q q.left = true := fun h => (need_iff q).2 (.inl h)
  have p3 := pow3_iff q
  have rd := reds_iff q
  have mu := multi_iff q
  have hsrc : source q t = if flatFirst q = true then held t else takes t := rfl
  by_cases c1 : EnergyMap q
  swap
  · have hn := hl.none (fun h => c1 (n2.1 h.2))
    have : source q t = none := by
      rw [hsrc]; unfold held takes; rw [hn.1, hn.2]; simp
    refine ⟨fun h => absurd h.1 c1, fun h => absurd (pow_energy (.inr (.inl h.1.1))) c1, fun _ _ => this⟩
  by_cases c2 : Bit q.meas 19
  · have hn := hl.smooth (mu.2 c2)
    have : source q t = none := by
      rw [hsrc]; unfold held takes; rw [hn.1, hn.2]; simp
    exact ⟨fun h => absurd c2 h.2.1, fun h => absurd c2 h.2.1, fun _ _ => this⟩
  have m0 : on q.left MULTICON = false := by
    cases c : on q.left MULTICON
    · rfl
    · exact absurd (mu.1 c) c2
  by_cases c3 : Pow q
  · by_cases c4 : Reduces q
    · obtain ⟨l1, l2⟩ := hl.reduced (p3.2 c3) m0 (rd.2 c4)
      have l2 := l2 hax
      have e1 : takes t = some .reduced := by unfold takes; rw [l1]; simp
      have e2 : held t = some .energy := by unfold held; rw [l2]; simp
      rw [e1, e2] at hsrc
      by_cases c5 : FlatFirst q
      · rw [if_pos (ff.2 c5)] at hsrc
        exact ⟨fun _ => hsrc, fun h => absurd c5 h.2.2, fun h => absurd ⟨c1, c2, fun _ => c5, fun h => absurd c3 h⟩ h⟩
      · rw [if_neg (fun h => c5 (ff.1 h))] at hsrc
        exact ⟨fun h => absurd (h.2.2.1 c4) c5, fun _ => hsrc, fun _ h => absurd ⟨c4, c2, c5⟩ h⟩
    · have r0 : reds q q.left = false := by
        cases c : reds q q.left
        · rfl
        · exact absurd (rd.1 c) c4
      obtain ⟨l1, l2⟩ := hl.power (p3.2 c3) m0 r0
      have l2 := l2 hax
      have e1 : takes t = some .energy := by unfold takes; rw [l1, l2]; simp
      have e2 : held t = some .energy := by unfold held; rw [l2]; simp
      rw [e1, e2, ite_self] at hsrc
      exact ⟨fun _ => hsrc, fun h => absurd h.1 c4,
        fun h => absurd ⟨c1, c2, fun h => absurd h c4, fun h => absurd c3 h⟩ h⟩
  · have p0 : pow3 q.left = false := by
      cases c : pow3 q.left
      · rfl
      · exact absurd (p3.1 c) c3
    have c4 : ¬ Reduces q := fun h => c3 (.inr (.inl h.1))
    obtain ⟨l1, l2⟩ := hl.energy (n1 c1) (n2.2 c1) p0
    have e1 : takes t = some .energy := by unfold takes; rw [l1]; simp
    have e2 : held t = none := by unfold held; rw [l2]; simp
    rw [e1, e2] at hsrc
    by_cases c5 : FlatFirst q
    · rw [if_pos (ff.2 c5)] at hsrc
      exact ⟨fun h => absurd c5 (h.2.2.2 c3), fun h => absurd h.1 c4, fun _ _ => hsrc⟩
    · rw [if_neg (fun h => c5 (ff.1 h))] at hsrc
      exact ⟨fun _ => hsrc, fun h => absurd h.1 c4,
        fun h => absurd ⟨c1, c2, fun h => absurd h c4, fun _ => c5⟩ h⟩

end Jaxions.MeasRun
