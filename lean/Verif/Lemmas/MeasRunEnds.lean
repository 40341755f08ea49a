import Verif.Lemmas.MeasRunAsked

/-
When a call of `Measureme` comes to its end.
-/

namespace Jaxions.MeasRun

variable {R : Type} (F : Fmt R) (pos : R → Bool) (q : Req R)

/-! ### Groups -/

def putGroups : List String :=
  ["/string", "/bins", "/energy", "/pSpectrum", "/mSpectrum", "/eSpectrum", "/nSpectrum"]

def hardGroups : List String := ["/map", "/mapp", "/energy/density", "/energy/rdensity"]

/-- The event stores in one of the groups of its kind. -/
def Ev.fits : Ev R → Prop
  | .put n _ => n.group ∈ putGroups
  | .hard n _ => n.group ∈ hardGroups
  | _ => True

theorem fits_when {b : Bool} {l : List (Ev R)} (h : ∀ e ∈ l, e.fits) : ∀ e ∈ when b l, e.fits :=
  fun e he => h e (mem_when.1 he).2

theorem fits_append {l m : List (Ev R)} (h : ∀ e ∈ l, e.fits) (h' : ∀ e ∈ m, e.fits) :
    ∀ e ∈ l ++ m, e.fits := fun e he => (List.mem_append.1 he).elim (h e) (h' e)

theorem fits_nil : ∀ e ∈ ([] : List (Ev R)), e.fits := by simp

theorem fits_cons {e : Ev R} {l : List (Ev R)} (h : e.fits) (h' : ∀ e ∈ l, e.fits) : ∀ x ∈ e :: l, x.fits := by
  intro x hx
  rcases List.mem_cons.1 hx with rfl | hx
  · exact h
  · exact h' x hx

theorem fits_flatMap {β : Type} {l : List β} {f : β → List (Ev R)} (h : ∀ x ∈ l, ∀ e ∈ f x, e.fits) :
    ∀ e ∈ l.flatMap f, e.fits := by
  intro e he
  obtain ⟨x, hx, he⟩ := List.mem_flatMap.1 he
  exact h x hx e he

theorem fits_ub (i : ℕ) : ∀ e ∈ ubAt q i, e.fits := by
  unfold ubAt; split <;> simp [Ev.fits]

theorem fits_masked (k : M) (name : ℕ → List String) (lab : Bool) : ∀ e ∈ evMasked q k name lab, e.fits := by
  refine fits_when (fits_flatMap fun i _ => fits_append (fits_when (fits_ub q i)) (fits_cons ?_ fits_nil))
  simp [Ev.fits, putGroups]

theorem fits_energy : ∀ e ∈ evEnergy F q q.left, e.fits := by
  unfold evEnergy
  refine fits_when (fits_append ?_ (fits_cons (by simp [Ev.fits, putGroups]) fits_nil))
  split
  · refine fits_append (fits_append (fits_append (fits_append (fits_append ?_ ?_) ?_) ?_) ?_) (fits_when ?_)
    iterate 5 exact fits_when (fits_cons (by simp [Ev.fits, putGroups, hardGroups]) fits_nil)
    refine fits_append (fits_append (fits_append (fits_append (fits_append (fits_masked q _ _ _) (fits_masked q _ _ _))
      (fits_masked q _ _ _)) (fits_cons (by simp [Ev.fits, putGroups]) fits_nil)) (fits_when (fits_flatMap ?_)))
      (fits_when (fits_cons ?_ fits_nil))
    · exact fun i _ => fits_cons (by simp [Ev.fits, putGroups])
        (fits_cons (by simp [Ev.fits, hardGroups]) fits_nil)
    · cases on q.left MULTICON <;> simp [Ev.fits, hardGroups]
  · exact fits_nil

theorem fits_pre (full : Bool) : ∀ e ∈ evPre q q.left full, e.fits := by
  refine fits_append (fits_append (fits_append ?_ ?_) ?_) ?_
  · exact fits_when (fits_cons (by simp [Ev.fits, putGroups]) (fits_cons (by simp [Ev.fits, putGroups]) fits_nil))
  · exact fits_when (fits_cons (by simp [Ev.fits, putGroups]) fits_nil)
  · exact fits_when (fits_cons (by simp [Ev.fits, hardGroups]) (fits_cons (by simp [Ev.fits, hardGroups]) fits_nil))
  · exact fits_when (fits_cons (by simp [Ev.fits, hardGroups]) (fits_cons (by simp [Ev.fits, hardGroups]) fits_nil))

theorem fits_string (full : Bool) : ∀ e ∈ evString q q.left full, e.fits := by
  unfold evString
  refine fits_when ?_
  have h : ∀ l v, (Ev.put (R := R) ⟨"/string", l⟩ v).fits := fun l v => by simp [Ev.fits, putGroups]
  split
  · exact fits_append (fits_append (fits_cons (h ..) fits_nil) (fits_when (fits_cons (h ..) fits_nil)))
      (fits_cons (h ..) fits_nil)
  · split
    · exact fits_when (fits_cons (h ..) (fits_cons (h ..) fits_nil))
    · exact fits_when (fits_cons (h ..) fits_nil)

/-- Names of the tail by groups. -/
theorem tail_groups {c : Cmd} (hc : c ∈ spectrumBlock F q q.left ++ binBlock q q.left) (g : Bool) (n : Name) :
    (Sk.put n ∈ names F pos q g c → n.group ∈ putGroups) ∧
    (Sk.hard n ∈ names F pos q g c → n.group ∈ hardGroups) := by
  have easy : ∀ m, ((names F pos q g c) = [.put m] ∧ m.group ∈ putGroups) ∨
      (names F pos q g c = [.hard m] ∧ m.group ∈ hardGroups) →
      (Sk.put n ∈ names F pos q g c → n.group ∈ putGroups) ∧
      (Sk.hard n ∈ names F pos q g c → n.group ∈ hardGroups) := by
    rintro m (⟨h1, h2⟩ | ⟨h1, h2⟩) <;> rw [h1] <;>
      simp only [List.mem_singleton, Sk.put.injEq, Sk.hard.injEq, reduceCtorEq, false_imp_iff, true_and,
        and_true] <;> rintro rfl <;> exact h2
  rcases List.mem_append.1 hc with hc | hc
  · rw [mem_spectrum] at hc
    obtain ⟨_, rfl | ⟨_, hc⟩ | hc⟩ := hc
    · simp [names]
    · rw [mem_maskPass] at hc
      obtain ⟨k, _, _, i, _, hc⟩ := hc
      rcases hc with ⟨_, rfl⟩ | rfl | rfl | rfl | rfl
      · simp only [names]; split <;> simp
      · simp [names]
      · exact easy _ (.inl ⟨rfl, by simp [putGroups]⟩)
      · simp [names]
      · exact easy _ (.inr ⟨rfl, by simp [hardGroups]⟩)
    · rw [mem_numberPass] at hc
      obtain ⟨_, ⟨k, _, _, i, _, hc⟩ | ⟨_, rfl | rfl⟩⟩ := hc
      · rw [mem_round] at hc
        have sets : ∀ l, c ∈ nsets F q k i l → (Sk.put n ∈ names F pos q g c → n.group ∈ putGroups) ∧
            (Sk.hard n ∈ names F pos q g c → n.group ∈ hardGroups) := by
          intro l hl
          obtain ⟨b, m, ms, _, _, _, rfl⟩ := (mem_nsets F q k i _ c).1 hl
          exact easy _ (.inl ⟨rfl, by simp [putGroups]⟩)
        rcases hc with ⟨_, rfl⟩ | ⟨_, rfl | ⟨_, rfl⟩ | ⟨_, _, rfl⟩ | ⟨_, rfl⟩⟩ |
          ⟨_, ⟨_, rfl | hc⟩ | ⟨_, rfl | hc⟩ | ⟨_, rfl | hc⟩⟩
        · simp only [names]; split <;> simp
        · simp [names]
        · exact easy _ (.inl ⟨rfl, by simp [putGroups]⟩)
        · simp only [names]
          split
          · simp only [List.mem_singleton, Sk.put.injEq, reduceCtorEq, false_imp_iff, and_true]
            rintro rfl; simp [putGroups]
          · simp
        · simp only [names]
          cases q.radii[i]? with
          | none => simp
          | some r =>
            dsimp only
            split
            · simp only [List.mem_singleton, Sk.put.injEq, reduceCtorEq, false_imp_iff, and_true]
              rintro rfl; simp [putGroups]
            · simp
        · simp [names]
        · exact sets _ hc
        · simp [names]
        · exact sets _ hc
        · simp [names]
        · exact sets _ hc
      · exact easy _ (.inl ⟨rfl, by simp [putGroups]⟩)
      · exact easy _ (.inl ⟨rfl, by simp [putGroups]⟩)
  · rw [mem_bin] at hc
    rcases hc with ⟨_, _, rfl⟩ | ⟨_, _, rfl⟩ | ⟨_, _, rfl⟩ | ⟨_, _, rfl⟩ <;>
      exact easy _ (.inl ⟨rfl, by simp [putGroups]⟩)

theorem fits_tail (t : St R) :
    ∀ e ∈ trace F pos q (spectrumBlock F q q.left ++ binBlock q q.left) t, e.fits := by
  intro e he
  have hs := fixed_trace F pos q _ (tail_fixed F q q.left) t
  have hm : e.sk ∈ (trace F pos q (spectrumBlock F q q.left ++ binBlock q q.left) t).map Ev.sk :=
    List.mem_map_of_mem he
  rw [hs, List.mem_flatMap] at hm
  obtain ⟨c, hc, hn⟩ := hm
  cases e with
  | put n v => exact (tail_groups F pos q hc t.grp n).1 hn
  | hard n v => exact (tail_groups F pos q hc t.grp n).2 hn
  | save => trivial
  | ub => trivial

theorem fits_all (full full' : Bool) (t : St R) : ∀ e ∈ evAll F pos q full full' t, e.fits :=
  fits_append (fits_append (fits_append (fits_pre q full) (fits_energy F q)) (fits_string q full'))
    (fits_tail F pos q t)

theorem apart {es : List (Ev R)} (h : ∀ e ∈ es, e.fits) : ∀ n ∈ hards es, n ∉ puts es := by
  intro n hn hp
  obtain ⟨v, hv⟩ := mem_hards.1 hn
  obtain ⟨w, hw⟩ := mem_puts.1 hp
  have h1 : n.group ∈ hardGroups := h _ hv
  have h2 : n.group ∈ putGroups := h _ hw
  simp only [hardGroups, putGroups, List.mem_cons, List.not_mem_nil, or_false] at h1 h2
  rcases h1 with e | e | e | e <;> rw [e] at h2 <;> simp at h2

/-! ### Names that must not repeat -/

theorem hards_when (b : Bool) (l : List (Ev R)) : hards (when b l) = when b (hards l) := by
  cases b <;> rfl

theorem hards_flatMap {β : Type} (l : List β) (f : β → List (Ev R)) :
    hards (l.flatMap f) = l.flatMap fun x => hards (f x) := by
  induction l with
  | nil => rfl
  | cons x xs ih => simp [hards_append, ih]

theorem hards_none {es : List (Ev R)} (h : ∀ n v, Ev.hard n v ∉ es) : hards es = [] := by
  rw [List.eq_nil_iff_forall_not_mem]
  intro n hn
  obtain ⟨v, hv⟩ := mem_hards.1 hn
  exact h n v hv

/-- The part of the energy before the smoothed maps, with the slices. -/
def hardA (X Y D E P1 P2 : Bool) : List Name :=
  when X [⟨"/map", ["m"]⟩, ⟨"/map", ["v"]⟩] ++ when Y [⟨"/mapp", ["m"]⟩, ⟨"/mapp", ["v"]⟩] ++
    (when D [⟨"/energy/density", ["theta"]⟩] ++ when E [⟨"/map", ["E"]⟩] ++
    when P1 [⟨"/map", ["P"]⟩] ++ when P2 [⟨"/map", ["P"]⟩])

/-- The smoothed maps. -/
def hardB (F : Fmt R) (n : ℕ) : List Name := (List.range (n + 1)).map fun i => ⟨"/map", ["P" ++ F.d3 i]⟩

/-- The maps of masks. -/
def hardC : List Name :=
  (maskara8.filter fun k => on q.eff k.bit).flatMap fun k =>
    (q.rounds k).map fun i => ⟨"/map", "W" :: preLabel F q k i⟩

theorem hards_pre (full : Bool) : hards (evPre q q.left full) =
    when (on q.maps XYMV) [⟨"/map", ["m"]⟩, ⟨"/map", ["v"]⟩] ++
    when (on q.maps YZMV) [⟨"/mapp", ["m"]⟩, ⟨"/mapp", ["v"]⟩] := by
  unfold evPre
  simp only [hards_append, hards_when, hards]
  cases grp0 q q.left <;> cases q.mom <;> rfl

theorem hards_string (full : Bool) : hards (evString q q.left full) = [] := by
  unfold evString
  cases q.field == Kind.saxion <;> cases on q.left STRINGCOO <;> cases on q.left STRINGMAP <;>
    cases on q.left MASK <;> cases q.few <;> rfl

theorem hards_masked (k : M) (name : ℕ → List String) (lab : Bool) : hards (evMasked q k name lab) = [] := by
  refine hards_none fun n v h => ?_
  rw [evMasked, mem_when, List.mem_flatMap] at h
  obtain ⟨_, i, _, h⟩ := h
  rw [List.mem_append, mem_when, List.mem_singleton] at h
  rcases h with ⟨_, h⟩ | h
  · unfold ubAt at h; split at h <;> simp at h
  · cases h

theorem hards_multi : hards (evMulti F q) = hardB F q.steps := by
  rw [evMulti, hards_flatMap, hardB]
  simp only [hards]
  rw [← List.map_eq_flatMap]

theorem hards_spec (a : ℕ) : hards (evSpec F q a) = when (on a MULTICON) (hardB F q.steps) ++
    when (reds q a) [⟨if on a MULTICON then "/energy/density" else "/energy/rdensity", ["theta"]⟩] := by
  unfold evSpec evPowers
  simp only [hards_append, hards_masked, hards_when, hards_multi, List.nil_append, hards]

theorem hards_energy : hards (evEnergy F q q.left) =
    (when (on q.left ENERGY3DMAP) [⟨"/energy/density", ["theta"]⟩] ++ when (on q.maps XYE) [⟨"/map", ["E"]⟩] ++
    when (on q.maps XYPE) [⟨"/map", ["P"]⟩] ++ when (on q.maps XYPE2) [⟨"/map", ["P"]⟩]) ++
    (when (on q.left MULTICON) (hardB F q.steps) ++
    when (reds q q.left) [⟨if on q.left MULTICON then "/energy/density" else "/energy/rdensity", ["theta"]⟩]) := by
  have hp : when (pow3 q.left) (hards (evSpec F q q.left)) = hards (evSpec F q q.left) := by
    cases c : pow3 q.left
    · have h1 : on q.left MULTICON = false := by
        by_contra h; rw [Bool.not_eq_false] at h; rw [pow3_of_multi h] at c; cases c
      have h2 : reds q q.left = false := by
        by_contra h; rw [Bool.not_eq_false] at h; rw [pow3_of_red q h] at c; cases c
      rw [hards_spec, h1, h2]; rfl
    · rfl
  rw [← hards_spec, evEnergy, hards_when, hards_append]
  by_cases c : needM2 q q.left = true
  · have hn : need q q.left = true := (need_iff q).2 (.inl ((needM2_iff q).1 c))
    rw [if_pos c, hn]
    unfold evMap
    simp only [hards_append, hards_when, hp, hards, List.append_nil]
    cases on q.left BINDELTA <;> simp [when, List.append_assoc]
  · rw [if_neg c]
    have hn : ¬ EnergyMap q := fun h => c ((needM2_iff q).2 h)
    have k1 : on q.left ENERGY3DMAP = false := by
      rw [← Bool.not_eq_true, on_left (show ENERGY3DMAP = 2 ^ 9 from rfl) (by decide)]
      exact fun h => hn (.inr (.inl h))
    have k2 : on q.maps XYE = false := by
      rw [← Bool.not_eq_true, on_lit (show XYE = 2 ^ 16 from rfl)]
      exact fun h => hn (plane_energy (.inr (.inr h)))
    have k3 : on q.maps XYPE = false := by
      rw [← Bool.not_eq_true, on_lit (show XYPE = 2 ^ 10 from rfl)]
      exact fun h => hn (plane_energy (.inl h))
    have k4 : on q.maps XYPE2 = false := by
      rw [← Bool.not_eq_true, on_lit (show XYPE2 = 2 ^ 11 from rfl)]
      exact fun h => hn (plane_energy (.inr (.inl h)))
    have k5 : pow3 q.left = false := by
      rw [← Bool.not_eq_true, pow3_iff]
      exact fun h => hn (pow_energy h)
    rw [← hp, k1, k2, k3, k4, k5]
    cases need q q.left <;> rfl

/-- Names of maps among events without values. -/
def skHards : List Sk → List Name
  | [] => []
  | .hard n :: es => n :: skHards es
  | _ :: es => skHards es

theorem hards_sk (es : List (Ev R)) : hards es = skHards (es.map Ev.sk) := by
  induction es with
  | nil => rfl
  | cons e es ih => cases e <;> simp [hards, skHards, Ev.sk, ih]

theorem skHards_append (a b : List Sk) : skHards (a ++ b) = skHards a ++ skHards b := by
  induction a with
  | nil => rfl
  | cons e es ih => cases e <;> simp [skHards, ih]

theorem skHards_flatMap {β : Type} (l : List β) (f : β → List Sk) :
    skHards (l.flatMap f) = l.flatMap fun x => skHards (f x) := by
  induction l with
  | nil => rfl
  | cons x xs ih => simp [skHards_append, ih]

/-- Names of maps a call gives. -/
def Cmd.map : Cmd → List Name
  | .pMap n => [n]
  | _ => []

theorem names_map (g : Bool) (c : Cmd) : skHards (names F pos q g c) = c.map := by
  cases c <;> simp only [names] <;> try rfl
  case label i => split <;> rfl
  case strEnergy i => split <;> rfl
  case maskedEnergy i =>
    cases q.radii[i]? with
    | none => rfl
    | some r => dsimp only; split <;> rfl

theorem flatMap_nil' {β γ : Type} {l : List β} {f : β → List γ} (h : ∀ x ∈ l, f x = []) : l.flatMap f = [] := by
  rw [List.flatMap_eq_nil_iff]; exact h

theorem hards_tail (t : St R) :
    hards (trace F pos q (spectrumBlock F q q.left ++ binBlock q q.left) t) =
      when (on q.left MASK) (hardC F q) := by
  rw [hards_sk, fixed_trace F pos q _ (tail_fixed F q q.left), skHards_flatMap]
  simp only [names_map]
  rw [List.flatMap_append]
  have hb : (binBlock q q.left).flatMap Cmd.map = [] := by
    refine flatMap_nil' fun c hc => ?_
    rw [mem_bin] at hc
    rcases hc with ⟨_, _, rfl⟩ | ⟨_, _, rfl⟩ | ⟨_, _, rfl⟩ | ⟨_, _, rfl⟩ <;> rfl
  have hn : (numberPass F q q.left).flatMap Cmd.map = [] := by
    refine flatMap_nil' fun c hc => ?_
    rw [mem_numberPass] at hc
    obtain ⟨_, ⟨k, _, _, i, _, hc⟩ | ⟨_, rfl | rfl⟩⟩ := hc
    · rw [mem_round] at hc
      have sets : ∀ l, c ∈ nsets F q k i l → c.map = [] := by
        intro l hl
        obtain ⟨b, m, ms, _, _, _, rfl⟩ := (mem_nsets F q k i _ c).1 hl
        rfl
      rcases hc with ⟨_, rfl⟩ | ⟨_, rfl | ⟨_, rfl⟩ | ⟨_, _, rfl⟩ | ⟨_, rfl⟩⟩ |
        ⟨_, ⟨_, rfl | hc⟩ | ⟨_, rfl | hc⟩ | ⟨_, rfl | hc⟩⟩
      all_goals first | rfl | exact sets _ hc
    · rfl
    · rfl
  have hm : (maskPass F q).flatMap Cmd.map = hardC F q := by
    unfold maskPass hardC
    rw [List.flatMap_assoc]
    congr 1
    funext k
    rw [List.flatMap_assoc, List.map_eq_flatMap]
    congr 1
    funext i
    cases k.mul <;> rfl
  have hs : (spectrumBlock F q q.left).flatMap Cmd.map = when (on q.left MASK) (hardC F q) := by
    unfold spectrumBlock
    cases c : on q.left MASK
    · cases on q.left SPECTRUM
      · rfl
      · change (([Cmd.newSpec] ++ []) ++ numberPass F q q.left).flatMap Cmd.map = []
        rw [List.flatMap_append, hn]; rfl
    · rw [spectrum_of q (.inl ((mask_iff q).1 c))]
      change (([Cmd.newSpec] ++ maskPass F q) ++ numberPass F q q.left).flatMap Cmd.map = hardC F q
      rw [List.flatMap_append, List.flatMap_append, hn, hm, List.append_nil]; rfl
  rw [hb, hs, List.append_nil]

theorem hards_all (full full' : Bool) (t : St R) : hards (evAll F pos q full full' t) =
    hardA (on q.maps XYMV) (on q.maps YZMV) (on q.left ENERGY3DMAP) (on q.maps XYE) (on q.maps XYPE)
      (on q.maps XYPE2) ++
    (when (on q.left MULTICON) (hardB F q.steps) ++
    (when (reds q q.left) [⟨if on q.left MULTICON then "/energy/density" else "/energy/rdensity", ["theta"]⟩] ++
      when (on q.left MASK) (hardC F q))) := by
  unfold evAll
  simp only [hards_append]
  rw [hards_pre, hards_energy, hards_string, hards_tail, hardA]
  simp only [List.append_assoc, List.nil_append]

/-! ### No repetitions -/

theorem nodupA (X Y D E P1 P2 : Bool) : (hardA X Y D E P1 P2).Nodup ↔ ¬ (P1 = true ∧ P2 = true) := by
  cases X <;> cases Y <;> cases D <;> cases E <;> cases P1 <;> cases P2 <;> simp [hardA, when]

theorem memA {X Y D E P1 P2 : Bool} {n : Name} (h : n ∈ hardA X Y D E P1 P2) :
    (n = ⟨"/energy/density", ["theta"]⟩ ∧ D = true) ∨ n.group = "/mapp" ∨
      (n.group = "/map" ∧ n.parts ∈ [["m"], ["v"], ["E"], ["P"]]) := by
  simp only [hardA, List.mem_append, mem_when, List.mem_cons, List.not_mem_nil, or_false] at h
  rcases h with (⟨_, rfl | rfl⟩ | ⟨_, rfl | rfl⟩) | ((⟨h, rfl⟩ | ⟨_, rfl⟩) | ⟨_, rfl⟩) | ⟨_, rfl⟩ <;> simp [*]

theorem memA_density {X Y D E P1 P2 : Bool} (h : D = true) :
    (⟨"/energy/density", ["theta"]⟩ : Name) ∈ hardA X Y D E P1 P2 := by
  subst h; simp [hardA, when]

theorem str_head {x : String} {c : String} (hc : c ∈ ["m", "v", "E"]) : "P" ++ x ≠ c := by
  intro h
  have h2 := congrArg String.toList h
  rw [String.toList_append] at h2
  simp only [List.mem_cons, List.not_mem_nil, or_false] at hc
  rcases hc with rfl | rfl | rfl <;> simp at h2

theorem str_P {x : String} (hx : x ≠ "") : "P" ++ x ≠ "P" := by
  intro h
  have h2 := congrArg String.toList h
  rw [String.toList_append] at h2
  have h3 : x.toList = [] := by simpa using h2
  exact hx (String.toList_inj.1 (by simpa using h3))

theorem memB {n : Name} {m : ℕ} (h : n ∈ hardB F m) : ∃ i, n = ⟨"/map", ["P" ++ F.d3 i]⟩ := by
  rw [hardB, List.mem_map] at h
  obtain ⟨i, _, rfl⟩ := h
  exact ⟨i, rfl⟩

theorem str_inj {x y : String} (h : "P" ++ x = "P" ++ y) : x = y := by
  have h2 := congrArg String.toList h
  rw [String.toList_append, String.toList_append] at h2
  exact String.toList_inj.1 (List.append_cancel_left h2)

theorem nodupB (hF : F.Good) (m : ℕ) : (hardB F m).Nodup := by
  refine List.Nodup.map ?_ List.nodup_range
  intro i j h
  simp only [Name.mk.injEq, List.cons.injEq, and_true, true_and] at h
  exact hF.1 i j (str_inj h)

theorem memC {n : Name} (h : n ∈ hardC F q) : n.group = "/map" ∧ ∃ a l, n.parts = "W" :: a :: l := by
  rw [hardC, List.mem_flatMap] at h
  obtain ⟨k, _, h⟩ := h
  rw [List.mem_map] at h
  obtain ⟨i, _, rfl⟩ := h
  refine ⟨rfl, ?_⟩
  unfold preLabel
  cases k.mul
  · exact ⟨_, _, rfl⟩
  · exact ⟨_, _, rfl⟩

theorem lab_inj {k l : M} (h : k.lab = l.lab) : k = l := by
  cases k <;> cases l <;> first | rfl | (simp [M.lab] at h)

theorem nodup_range_lab (hr : q.radii ≠ []) (f : String → Name) (hf : Function.Injective f) :
    ((List.range q.irmask).map fun i => f (rlab F q i)).Nodup ↔ (q.radii.map F.lab).Nodup := by
  have e : (List.range q.irmask).map (fun i => f (rlab F q i)) = (q.radii.map F.lab).map f := by
    rw [irmask_eq q hr]
    apply List.ext_getElem
    · simp
    · intro i h1 h2
      have h3 : i < q.radii.length := by simpa using h1
      simp [rlab, List.getElem?_eq_getElem h3]
  rw [e, List.nodup_map_iff hf]

theorem nodupC (hr : (∃ k, ¬ Plain k ∧ k ≠ .axitv ∧ Used q k) → q.radii ≠ []) :
    (hardC F q).Nodup ↔ ((∃ k, ¬ Plain k ∧ k ≠ .axitv ∧ Used q k) → (q.radii.map F.lab).Nodup) := by
  rw [hardC, List.nodup_flatMap]
  have hp : ((maskara8.filter fun k => on q.eff k.bit)).Pairwise (Function.onFun List.Disjoint fun k =>
      (q.rounds k).map fun i => (⟨"/map", "W" :: preLabel F q k i⟩ : Name)) := by
    have : (maskara8.filter fun k => on q.eff k.bit).Nodup := List.Nodup.filter _ (by simp [maskara8])
    refine this.imp fun {k l} hkl => ?_
    intro n hn hn'
    rw [List.mem_map] at hn hn'
    obtain ⟨i, _, rfl⟩ := hn
    obtain ⟨j, _, h⟩ := hn'
    apply hkl
    apply lab_inj
    simp only [Name.mk.injEq, true_and, List.cons.injEq] at h
    unfold preLabel at h
    split at h <;> split at h <;> simp_all
  constructor
  · rintro ⟨h, _⟩ ⟨k, hk1, hk2, hk3⟩
    have hf : k ≠ .flat := by rintro rfl; exact hk1 (.inl rfl)
    have := h k (List.mem_filter.2 ⟨(mem8 k).2 ⟨hf, hk2⟩, (eff_bit q k).2 hk3⟩)
    have hm := (mul_iff k).2 hk1
    simp only [Req.rounds, if_pos hm, preLabel] at this
    exact (nodup_range_lab F q (hr ⟨k, hk1, hk2, hk3⟩) (fun x => ⟨"/map", "W" :: [k.lab, x]⟩)
      (fun x y h => by simpa using h)).1 this
  · intro h
    refine ⟨fun k hk => ?_, hp⟩
    rw [List.mem_filter, mem8, eff_bit] at hk
    by_cases hm : k.mul = true
    · have hk1 := (mul_iff k).1 hm
      have hex : ∃ k, ¬ Plain k ∧ k ≠ .axitv ∧ Used q k := ⟨k, hk1, hk.1.2, hk.2⟩
      simp only [Req.rounds, if_pos hm, preLabel]
      exact (nodup_range_lab F q (hr hex) (fun x => ⟨"/map", "W" :: [k.lab, x]⟩)
        (fun x y h => by simpa using h)).2 (h hex)
    · simp [Req.rounds, hm]

theorem nodup_all (hF : F.Good) (full full' : Bool) (t : St R) (hr : NeedsRadius q → q.radii ≠ []) :
    (hards (evAll F pos q full full' t)).Nodup ↔ ¬ (Bit q.maps 10 ∧ Bit q.maps 11) ∧
      ¬ (Bit q.meas 9 ∧ Reduces q ∧ Bit q.meas 19) ∧
      (Bit q.meas 13 → (∃ k, ¬ Plain k ∧ k ≠ .axitv ∧ Used q k) → (q.radii.map F.lab).Nodup) := by
  have b10 : on q.maps XYPE = true ↔ Bit q.maps 10 := on_lit rfl
  have b11 : on q.maps XYPE2 = true ↔ Bit q.maps 11 := on_lit rfl
  have b9 : on q.left ENERGY3DMAP = true ↔ Bit q.meas 9 :=
    on_left (show ENERGY3DMAP = 2 ^ 9 from rfl) (by decide)
  rw [hards_all]
  generalize hA : hardA (on q.maps XYMV) (on q.maps YZMV) (on q.left ENERGY3DMAP) (on q.maps XYE) (on q.maps XYPE)
    (on q.maps XYPE2) = A
  have nA : A.Nodup ↔ ¬ (Bit q.maps 10 ∧ Bit q.maps 11) := by rw [← hA, nodupA, b10, b11]
  have mA : ∀ n ∈ A, (n = ⟨"/energy/density", ["theta"]⟩ ∧ Bit q.meas 9) ∨ n.group = "/mapp" ∨
      (n.group = "/map" ∧ n.parts ∈ [["m"], ["v"], ["E"], ["P"]]) := by
    intro n hn
    rw [← hA] at hn
    rw [← b9]; exact memA hn
  have dA : Bit q.meas 9 → (⟨"/energy/density", ["theta"]⟩ : Name) ∈ A := by
    intro h; rw [← hA]; exact memA_density (b9.2 h)
  have nC : (when (on q.left MASK) (hardC F q)).Nodup ↔
      (Bit q.meas 13 → (∃ k, ¬ Plain k ∧ k ≠ .axitv ∧ Used q k) → (q.radii.map F.lab).Nodup) := by
    by_cases h : Bit q.meas 13
    · rw [(mask_iff q).2 h]
      change (hardC F q).Nodup ↔ _
      rw [nodupC F q (fun hk => hr (.inr ⟨.inl h, hk⟩))]
      simp [h]
    · have : on q.left MASK = false := by rw [← Bool.not_eq_true, mask_iff]; exact h
      rw [this]
      simp [when, h]
  have AB : ∀ n ∈ A, ∀ m ∈ when (on q.left MULTICON) (hardB F q.steps), n ≠ m := by
    rintro n hn m hm rfl
    obtain ⟨i, rfl⟩ := memB F (mem_when.1 hm).2
    rcases mA _ hn with ⟨h, _⟩ | h | ⟨_, h⟩
    · simp at h
    · simp at h
    · simp only [List.mem_cons, List.cons.injEq, and_true, List.not_mem_nil, or_false] at h
      rcases h with h | h | h | h
      · exact str_head (by simp) h
      · exact str_head (by simp) h
      · exact str_head (by simp) h
      · exact str_P (hF.2 i) h
  have AC : ∀ n ∈ A, ∀ m ∈ when (on q.left MASK) (hardC F q), n ≠ m := by
    rintro n hn m hm rfl
    obtain ⟨h1, a, l, h2⟩ := memC F q (mem_when.1 hm).2
    rcases mA _ hn with ⟨rfl, _⟩ | h | ⟨_, h⟩
    · simp at h1
    · rw [h1] at h; simp at h
    · rw [h2] at h; simp at h
  have BC : ∀ n ∈ when (on q.left MULTICON) (hardB F q.steps), ∀ m ∈ when (on q.left MASK) (hardC F q), n ≠ m := by
    rintro n hn m hm rfl
    obtain ⟨i, rfl⟩ := memB F (mem_when.1 hn).2
    obtain ⟨h1, a, l, h2⟩ := memC F q (mem_when.1 hm).2
    simp at h2
  have nB : (when (on q.left MULTICON) (hardB F q.steps)).Nodup := by
    cases on q.left MULTICON
    · exact List.nodup_nil
    · exact nodupB F hF _
  generalize hB : when (on q.left MULTICON) (hardB F q.steps) = B at AB BC nB ⊢
  have mB : ∀ n ∈ B, n.group = "/map" := by
    intro n hn
    rw [← hB] at hn
    obtain ⟨i, rfl⟩ := memB F (mem_when.1 hn).2
    rfl
  have mC : ∀ n ∈ when (on q.left MASK) (hardC F q), n.group = "/map" := fun n hn => (memC F q (mem_when.1 hn).2).1
  generalize when (on q.left MASK) (hardC F q) = C at nC AC BC mC ⊢
  by_cases hR : Reduces q
  · rw [(reds_iff q).2 hR]
    simp only [when, if_true]
    by_cases hM : Bit q.meas 19
    · rw [if_pos ((multi_iff q).2 hM)]
      simp only [List.nodup_append, List.mem_append, List.mem_singleton, nA, nC, nB, List.nodup_singleton, true_and]
      constructor
      · rintro ⟨h1, ⟨h2, _⟩, h3⟩
        refine ⟨h1, ?_, h2.1⟩
        rintro ⟨h9, _, _⟩
        exact h3 _ (dA h9) _ (.inr (.inl rfl)) rfl
      · rintro ⟨h1, h2, h3⟩
        refine ⟨h1, ⟨⟨h3, ?_⟩, ?_⟩, ?_⟩
        · rintro n rfl m hm rfl
          have := mC _ hm; simp at this
        · rintro n hn m (rfl | hm)
          · rintro rfl; have := mB _ hn; simp at this
          · exact BC n hn m hm
        · rintro n hn m (hm | rfl | hm)
          · exact AB n hn m hm
          · rintro rfl
            rcases mA _ hn with ⟨_, h⟩ | h | ⟨h, _⟩
            · exact h2 ⟨h, hR, hM⟩
            · simp at h
            · simp at h
          · exact AC n hn m hm
    · rw [if_neg (fun h => hM ((multi_iff q).1 h))]
      simp only [List.nodup_append, List.mem_append, List.mem_singleton, nA, nC, nB, List.nodup_singleton, true_and]
      constructor
      · rintro ⟨h1, ⟨h2, _⟩, _⟩
        exact ⟨h1, fun h => hM h.2.2, h2.1⟩
      · rintro ⟨h1, h2, h3⟩
        refine ⟨h1, ⟨⟨h3, ?_⟩, ?_⟩, ?_⟩
        · rintro n rfl m hm rfl
          have := mC _ hm; simp at this
        · rintro n hn m (rfl | hm)
          · rintro rfl; have := mB _ hn; simp at this
          · exact BC n hn m hm
        · rintro n hn m (hm | rfl | hm)
          · exact AB n hn m hm
          · rintro rfl
            rcases mA _ hn with ⟨h, _⟩ | h | ⟨h, _⟩ <;> simp at h
          · exact AC n hn m hm
  · have : reds q q.left = false := by rw [← Bool.not_eq_true, reds_iff]; exact hR
    rw [this]
    simp only [when, Bool.false_eq_true, if_false, List.nil_append, List.nodup_append, List.mem_append, nA, nC, nB,
      true_and]
    constructor
    · rintro ⟨h1, ⟨h2, _⟩, _⟩
      exact ⟨h1, fun h => hR h.2.1, h2⟩
    · rintro ⟨h1, _, h3⟩
      refine ⟨h1, ⟨h3, BC⟩, ?_⟩
      rintro n hn m (hm | hm)
      · exact AB n hn m hm
      · exact AC n hn m hm

end Jaxions.MeasRun
