import Verif.Lemmas.MeasRunTrace

/-
The events of the energy block, measa.cpp:217-415.
-/

namespace Jaxions.MeasRun

variable {R : Type} (F : Fmt R) (pos : R → Bool) (q : Req R)

/-- `rmasklabel[i]` outside the vector. -/
def ubAt (i : ℕ) : List (Ev R) := if q.radii.length ≤ i then [.ub] else []

/-- Events of one masked spectrum of the energy. -/
def evMasked (k : M) (name : ℕ → List String) (lab : Bool) : List (Ev R) :=
  when (q.field == .axion && on q.eff k.bit)
    ((List.range q.irmask).flatMap fun i => when lab (ubAt q i) ++
      [.put ⟨"/pSpectrum", name i⟩
        (.power (.masked ⟨k, if k = .axitv then none else q.radii[i]?, true⟩))])

/-- The energy is in `m2`; the second half holds it too, or nothing; nothing is reduced. -/
def Fresh (g : Bool) (s : St R) : Prop :=
  s.m2 = (.energy, .energy) ∧ (s.m2h = (.dirty, .junk) ∨ s.m2h = (.energy, .energy)) ∧
    s.red = false ∧ s.grp = g

theorem masker_fresh {k : M} (hk : k.axiton = true) (r : Option R) {g : Bool} {s : St R}
    (hs : Fresh g s) :
    (masker .axion k r .energy s).P = .masked ⟨k, if k = .axitv then none else r, true⟩ ∧
      (masker .axion k r .energy s).m2 = (.energy, .energy) ∧
      (masker .axion k r .energy s).m2h = (.energy, .energy) ∧
      (masker .axion k r .energy s).red = false ∧ (masker .axion k r .energy s).grp = g := by
  obtain ⟨h1, _, h2, h3⟩ := hs
  simp [masker, h1, hk, Body.isEnergy, h2, h3]

theorem round_masked (hf : q.field = .axion) (k : M) (hk : k.axiton = true)
    (name : List String) (lab g : Bool) (i : ℕ) (s : St R) (hs : Fresh g s) :
    trace F pos q (when lab [.label i] ++ [.masker k i .energy, .array ⟨"/pSpectrum", name⟩ .P]) s =
      when lab (ubAt q i) ++ [.put ⟨"/pSpectrum", name⟩
        (.power (.masked ⟨k, if k = .axitv then none else q.radii[i]?, true⟩))] ∧
    Fresh g (after F pos q
      (when lab [.label i] ++ [.masker k i .energy, .array ⟨"/pSpectrum", name⟩ .P]) s) ∧
    (after F pos q
      (when lab [.label i] ++ [.masker k i .energy, .array ⟨"/pSpectrum", name⟩ .P]) s).m2h =
        (.energy, .energy) := by
  have hlab : trace F pos q (when lab [.label i]) s = when lab (ubAt q i) ∧
      after F pos q (when lab [.label i]) s = s := by
    cases lab
    · exact ⟨rfl, rfl⟩
    · refine ⟨?_, rfl⟩
      change ubAt q i ++ [] = ubAt q i
      simp
  rw [trace_append, after_append, hlab.1, hlab.2]
  simp only [trace_cons, after_cons, trace_nil, after_nil, step, hf]
  obtain ⟨p, m, mh, r, gr⟩ := masker_fresh hk q.radii[i]? hs
  exact ⟨by simp [p], ⟨m, .inr mh, r, gr⟩, mh⟩

theorem irmask_pos : ∃ n, q.irmask = n + 1 := by
  unfold Req.irmask
  split
  · exact ⟨0, rfl⟩
  · exact ⟨q.radii.length - 1, by omega⟩

theorem masked_trace (k : M) (hk : k.axiton = true) (name : ℕ → List String) (lab g : Bool)
    (s : St R) (hs : Fresh g s) :
    trace F pos q (maskedPower q k name lab) s = evMasked q k name lab ∧
      Fresh g (after F pos q (maskedPower q k name lab) s) ∧
      ((q.field = .axion ∧ on q.eff k.bit = true) ∨ s.m2h = (.energy, .energy) →
        (after F pos q (maskedPower q k name lab) s).m2h = (.energy, .energy)) := by
  unfold maskedPower evMasked
  by_cases c : (q.field == .axion && on q.eff k.bit) = true
  · rw [c]
    have hf : q.field = .axion := by simpa using (Bool.and_eq_true_iff.1 c).1
    obtain ⟨n, hn⟩ := irmask_pos q
    have loop := trace_flatMap F pos q
      (fun i => when lab [Cmd.label i] ++ [.masker k i .energy, .array ⟨"/pSpectrum", name i⟩ .P])
      (fun i => when lab (ubAt q i) ++ [.put ⟨"/pSpectrum", name i⟩
        (.power (.masked ⟨k, if k = .axitv then none else q.radii[i]?, true⟩))]) (Fresh g)
      (List.range n)
      (fun i _ s hs => ⟨(round_masked F pos q hf k hk (name i) lab g i s hs).1,
        (round_masked F pos q hf k hk (name i) lab g i s hs).2.1⟩) s hs
    simp only [when, if_true]
    simp only [when] at loop
    rw [hn, List.range_succ, List.flatMap_append, List.flatMap_append, trace_append, after_append,
      loop.1]
    simp only [List.flatMap_cons, List.flatMap_nil, List.append_nil]
    obtain ⟨k1, k2, k3⟩ := round_masked F pos q hf k hk (name n) lab g n _ loop.2
    simp only [when] at k1 k2 k3
    exact ⟨by rw [k1], k2, fun _ => k3⟩
  · have c' := c
    rw [Bool.not_eq_true] at c
    rw [c]
    refine ⟨rfl, hs, ?_⟩
    rintro (⟨h1, h2⟩ | h)
    · exact absurd (by simp [h1, h2]) c'
    · exact h

/-- Events of the spectra of the energy. -/
def evPowers : List (Ev R) :=
  evMasked q .axit (fun i => ["sPmasked", rlab F q i]) true ++
    evMasked q .axit2 (fun i => ["sPmasked2", rlab F q i]) true ++
    evMasked q .axitv (fun _ => ["sPmaskedV"]) false ++
    [.put ⟨"/pSpectrum", ["sP"]⟩ (.power .energy)]

/-- The amplitudes of the energy are in `m2`. -/
def Fft (g : Bool) (s : St R) : Prop :=
  s.m2 = (.energyFFT, .energyFFT) ∧ (s.m2h = (.dirty, .junk) ∨ s.m2h = (.energy, .energy)) ∧
    s.red = false ∧ s.grp = g

/-- A masked spectrum of the energy is made. -/
def AxitonUsed : Prop := q.field = .axion ∧ (Used q .axit ∨ Used q .axit2 ∨ Used q .axitv)

theorem powers_trace (g : Bool) (s : St R) (hs : Fresh g s) :
    trace F pos q (powers F q) s = evPowers F q ∧ Fft g (after F pos q (powers F q) s) ∧
      (AxitonUsed q → (after F pos q (powers F q) s).m2h = (.energy, .energy)) := by
  unfold powers evPowers
  obtain ⟨a1, b1, c1⟩ := masked_trace F pos q .axit rfl (fun i => ["sPmasked", rlab F q i]) true g s hs
  obtain ⟨a2, b2, c2⟩ :=
    masked_trace F pos q .axit2 rfl (fun i => ["sPmasked2", rlab F q i]) true g _ b1
  obtain ⟨a3, b3, c3⟩ := masked_trace F pos q .axitv rfl (fun _ => ["sPmaskedV"]) false g _ b2
  simp only [trace_append, after_append]
  rw [a1, a2, a3]
  have hk : AxitonUsed q → (after F pos q (maskedPower q .axitv (fun _ => ["sPmaskedV"]) false)
    (after F pos q (maskedPower q .axit2 (fun i => ["sPmasked2", rlab F q i]) true)
      (after F pos q (maskedPower q .axit (fun i => ["sPmasked", rlab F q i]) true) s))).m2h =
        (.energy, .energy) := by
    rintro ⟨hf, h | h | h⟩
    · exact c3 (.inr (c2 (.inr (c1 (.inl ⟨hf, (eff_bit q _).2 h⟩)))))
    · exact c3 (.inr (c2 (.inl ⟨hf, (eff_bit q _).2 h⟩)))
    · exact c3 (.inl ⟨hf, (eff_bit q _).2 h⟩)
  generalize after F pos q (maskedPower q .axitv (fun _ => ["sPmaskedV"]) false)
    (after F pos q (maskedPower q .axit2 (fun i => ["sPmasked2", rlab F q i]) true)
      (after F pos q (maskedPower q .axit (fun i => ["sPmasked", rlab F q i]) true) s)) = t at b3 hk ⊢
  obtain ⟨h1, h0, h2, h3⟩ := b3
  have hp : pRun t = { t with P := .energy, m2 := (.energyFFT, .energyFFT) } := by
    simp [pRun, h1, Body.fft, Body.power]
  refine ⟨?_, ?_, ?_⟩
  · simp [trace_cons, trace_nil, step, hp]
  · change Fft g (pRun t)
    rw [hp]
    exact ⟨rfl, h0, h2, h3⟩
  · change _ → (pRun t).m2h = _
    rw [hp]
    exact hk

/-- Events of the smoothed maps. -/
def evMulti : List (Ev R) :=
  (List.range (q.steps + 1)).flatMap fun i =>
    [.put ⟨"/bins", ["cont" ++ F.d3 i ++ "B"]⟩ (.contrast (.smooth i)),
      .hard ⟨"/map", ["P" ++ F.d3 i]⟩ (.proj (some (false, .smooth i)))]

/-- What a smoothing may start from. -/
def Amp (g : Bool) (s : St R) : Prop :=
  ((s.m2 = (.energyFFT, .energyFFT) ∧ (s.m2h = (.dirty, .junk) ∨ s.m2h = (.energy, .energy))) ∨
    (s.m2.1 = .smooth ∧ s.m2h = (.energyFFT, .energyFFT))) ∧ s.red = false ∧ s.grp = g

theorem smooth_amp {g : Bool} {s : St R} (hs : Amp g s) (i : ℕ) :
    (smooth i s).m2 = (.smooth, .smooth i) ∧ (smooth i s).m2h = (.energyFFT, .energyFFT) ∧
      (smooth i s).red = false ∧ (smooth i s).grp = g := by
  obtain ⟨h | h, hr, hg⟩ := hs
  · obtain ⟨h1, h2⟩ := h
    unfold smooth
    rcases h2 with h2 | h2 <;> simp [h1, h2, Body.smoothed, hr, hg]
  · obtain ⟨h1, h2⟩ := h
    unfold smooth
    simp [h1, h2, Body.smoothed, hr, hg]

theorem multi_trace (g : Bool) (s : St R) (hs : Amp g s) :
    trace F pos q (multi F q) s = evMulti F q ∧ Amp g (after F pos q (multi F q) s) ∧
      (after F pos q (multi F q) s).m2 = (.smooth, .smooth q.steps) := by
  have key : ∀ (i : ℕ) (s : St R), Amp g s →
      trace F pos q [.smooth i, .contrastAt ⟨"/bins", ["cont" ++ F.d3 i ++ "B"]⟩, .project false,
        .pMap ⟨"/map", ["P" ++ F.d3 i]⟩] s =
      [.put ⟨"/bins", ["cont" ++ F.d3 i ++ "B"]⟩ (.contrast (.smooth i)),
        .hard ⟨"/map", ["P" ++ F.d3 i]⟩ (.proj (some (false, .smooth i)))] ∧
      Amp g (after F pos q [.smooth i, .contrastAt ⟨"/bins", ["cont" ++ F.d3 i ++ "B"]⟩, .project false,
        .pMap ⟨"/map", ["P" ++ F.d3 i]⟩] s) ∧
      (after F pos q [.smooth i, .contrastAt ⟨"/bins", ["cont" ++ F.d3 i ++ "B"]⟩, .project false,
        .pMap ⟨"/map", ["P" ++ F.d3 i]⟩] s).m2 = (.smooth, .smooth i) := by
    intro i s hs
    obtain ⟨h1, h2, h3, h4⟩ := smooth_amp hs i
    simp only [trace_cons, trace_nil, after_cons, after_nil, step, h1]
    simp only [reduceCtorEq, or_true, ↓reduceIte, List.nil_append, List.cons_append, and_true,
      true_and]
    exact ⟨.inr ⟨by simp, h2⟩, h3, h4⟩
  have loop : trace F pos q ((List.range q.steps).flatMap fun i =>
      [.smooth i, .contrastAt ⟨"/bins", ["cont" ++ F.d3 i ++ "B"]⟩, .project false,
        .pMap ⟨"/map", ["P" ++ F.d3 i]⟩]) s = _ ∧ Amp g _ :=
    trace_flatMap F pos q _ _ (Amp g) (List.range q.steps)
      (fun i _ s hs => ⟨(key i s hs).1, (key i s hs).2.1⟩) s hs
  unfold multi evMulti
  rw [List.range_succ, List.flatMap_append, List.flatMap_append, trace_append, after_append, loop.1]
  simp only [List.flatMap_cons, List.flatMap_nil, List.append_nil]
  obtain ⟨k1, k2, k3⟩ := key q.steps _ loop.2
  exact ⟨by rw [k1], k2, k3⟩

/-! ### The block -/

def need (a : ℕ) : Bool :=
  on a NEEDENERGY || (on q.maps XYPE2 || on q.maps XYPE || on q.maps XYE)

def needM2 (a : ℕ) : Bool :=
  on a NEEDENERGYM2 || (on q.maps XYPE2 || on q.maps XYPE || on q.maps XYE)

def pow3 (a : ℕ) : Bool := on a (PSP_A ||| REDENE3DMAP ||| MULTICON)

def reds (a : ℕ) : Bool := on a REDENE3DMAP && decide (0 < q.redmap)

/-- Events of the spectra and of the reduced map. -/
def evSpec (a : ℕ) : List (Ev R) :=
  evPowers F q ++ when (on a MULTICON) (evMulti F q) ++
    when (reds q a) [.hard ⟨if on a MULTICON then "/energy/density" else "/energy/rdensity", ["theta"]⟩
      (.density (if on a MULTICON then .smooth q.steps else .reduced))]

/-- Events that need the energy per site. -/
def evMap (a : ℕ) : List (Ev R) :=
  when (on a ENERGY3DMAP) [.hard ⟨"/energy/density", ["theta"]⟩ (.density .energy)] ++
  when (on a BINDELTA) [.put ⟨"/bins", ["contB"]⟩ (.contrast .energy)] ++
  when (on q.maps XYE) [.hard ⟨"/map", ["E"]⟩ (.plane .energy)] ++
  when (on q.maps XYPE) [.hard ⟨"/map", ["P"]⟩ (.proj (some (false, .energy)))] ++
  when (on q.maps XYPE2) [.hard ⟨"/map", ["P"]⟩ (.proj (some (true, .energy)))] ++
  when (pow3 a) (evSpec F q a)

def evEnergy (a : ℕ) : List (Ev R) :=
  when (need q a) ((if needM2 q a then evMap F q a else []) ++ [.put ⟨"/energy", []⟩ .averages])

/-- What the block leaves in the arrays. -/
structure Left (a : ℕ) (g r0 : Bool) (s : St R) : Prop where
  grp : s.grp = g
  redd : s.red = if need q a then reds q a && !on a MULTICON else r0
  none : ¬ (need q a = true ∧ needM2 q a = true) → s.m2 = (.dirty, .junk) ∧ s.m2h = (.dirty, .junk)
  energy : need q a = true → needM2 q a = true → pow3 a = false →
    s.m2 = (.energy, .energy) ∧ s.m2h = (.dirty, .junk)
  power : pow3 a = true → on a MULTICON = false → reds q a = false →
    s.m2.1 = .energyFFT ∧ (AxitonUsed q → s.m2h = (.energy, .energy))
  reduced : pow3 a = true → on a MULTICON = false → reds q a = true →
    s.m2 = (.energy, .reduced) ∧ (AxitonUsed q → s.m2h = (.energy, .energy))
  smooth : on a MULTICON = true → s.m2.1 = .smooth ∧ s.m2h = (.energyFFT, .energyFFT)

theorem pow3_eq (a : ℕ) : pow3 a = (on a PSP_A || on a REDENE3DMAP || on a MULTICON) := by
  rw [pow3, on_or, on_or]

theorem needM2_of_pow3 {a : ℕ} (h : pow3 a = true) : needM2 q a = true ∧ need q a = true := by
  have e1 : NEEDENERGYM2 = (PSP_A ||| REDENE3DMAP ||| MULTICON) ||| (BINDELTA ||| ENERGY3DMAP ||| PSP_S) :=
    by decide
  have e2 : NEEDENERGY =
      (PSP_A ||| REDENE3DMAP ||| MULTICON) ||| (BINDELTA ||| ENERGY3DMAP ||| PSP_S ||| ENERGY) := by decide
  unfold pow3 at h
  constructor
  · unfold needM2; rw [e1, on_or, h]; rfl
  · unfold need; rw [e2, on_or, h]; rfl

theorem pow3_of_multi {a : ℕ} (h : on a MULTICON = true) : pow3 a = true := by
  rw [pow3_eq, h]; simp

theorem pow3_of_red {a : ℕ} (h : reds q a = true) : pow3 a = true := by
  unfold reds at h
  rw [Bool.and_eq_true] at h
  rw [pow3_eq, h.1]; simp

/-- Spectra, smoothed maps and reduced map. -/
theorem spec_trace (a : ℕ) (g : Bool) (s : St R) (hs : Fresh g s) :
    let cs := powers F q ++ when (on a MULTICON) (multi F q) ++ when (reds q a) [.reduce, .eDens]
    let t := after F pos q cs s
    trace F pos q cs s = evSpec F q a ∧ t.grp = g ∧ t.red = (reds q a && !on a MULTICON) ∧
      (on a MULTICON = false → reds q a = false →
        t.m2.1 = .energyFFT ∧ (AxitonUsed q → t.m2h = (.energy, .energy))) ∧
      (on a MULTICON = false → reds q a = true →
        t.m2 = (.energy, .reduced) ∧ (AxitonUsed q → t.m2h = (.energy, .energy))) ∧
      (on a MULTICON = true → t.m2.1 = .smooth ∧ t.m2h = (.energyFFT, .energyFFT)) := by
  intro cs t
  obtain ⟨p1, p2, p3⟩ := powers_trace F pos q g s hs
  have amp : Amp g (after F pos q (powers F q) s) := ⟨.inl ⟨p2.1, p2.2.1⟩, p2.2.2.1, p2.2.2.2⟩
  obtain ⟨m1, m2, m3⟩ := multi_trace F pos q g _ amp
  unfold evSpec
  have et : t = after F pos q (when (reds q a) [.reduce, .eDens])
      (after F pos q (when (on a MULTICON) (multi F q)) (after F pos q (powers F q) s)) := by
    simp only [t, cs, after_append]
  have ec : trace F pos q cs s = trace F pos q (powers F q) s ++
      trace F pos q (when (on a MULTICON) (multi F q)) (after F pos q (powers F q) s) ++
      trace F pos q (when (reds q a) [.reduce, .eDens])
        (after F pos q (when (on a MULTICON) (multi F q)) (after F pos q (powers F q) s)) := by
    simp only [cs, trace_append, after_append]
  rw [ec, et, p1]
  generalize after F pos q (powers F q) s = u at *
  cases c : on a MULTICON
  · have e0 : after F pos q (when false (multi F q)) u = u := rfl
    have e1 : trace F pos q (when false (multi F q)) u = [] := rfl
    rw [e0, e1]
    obtain ⟨h1, h2, h3, h4⟩ := p2
    cases r : reds q a
    · refine ⟨rfl, h4, h3, ?_, ?_, ?_⟩
      · intro _ _
        change u.m2.1 = _ ∧ (_ → u.m2h = _)
        exact ⟨by rw [h1], p3⟩
      · intro _ h; cases h
      · intro h; cases h
    · have hr : reduce u = { u with m2 := (.energy, .reduced), red := true } := by
        simp [reduce, h1, Body.fft]
      refine ⟨?_, ?_, ?_, ?_, ?_, ?_⟩
      · simp [when, trace_cons, trace_nil, step, hr]
      · change (reduce u).grp = g; rw [hr]; exact h4
      · change (reduce u).red = true; rw [hr]
      · intro _ h; cases h
      · intro _ _; change (reduce u).m2 = _ ∧ (_ → (reduce u).m2h = _); rw [hr]; exact ⟨rfl, p3⟩
      · intro h; cases h
  · have e0 : after F pos q (when true (multi F q)) u = after F pos q (multi F q) u := rfl
    have e1 : trace F pos q (when true (multi F q)) u = trace F pos q (multi F q) u := rfl
    rw [e0, e1, m1]
    generalize after F pos q (multi F q) u = w at *
    obtain ⟨h1, h3, h4⟩ := m2
    have h2 : w.m2h = (.energyFFT, .energyFFT) := by
      rcases h1 with h | h
      · rw [m3] at h; exact absurd h.1 (by simp)
      · exact h.2
    cases r : reds q a
    · refine ⟨rfl, h4, h3, ?_, ?_, ?_⟩
      · intro h; cases h
      · intro h; cases h
      · intro _
        change w.m2.1 = _ ∧ w.m2h = _
        exact ⟨by rw [m3], h2⟩
    · have hr : reduce w = w := by simp [reduce, m3]
      refine ⟨?_, ?_, ?_, ?_, ?_, ?_⟩
      · simp [when, trace_cons, trace_nil, step, hr, m3, h3]
      · change (reduce w).grp = g; rw [hr]; exact h4
      · change (reduce w).red = false; rw [hr]; exact h3
      · intro h; cases h
      · intro h; cases h
      · intro _
        change (reduce w).m2.1 = _ ∧ (reduce w).m2h = _
        rw [hr]
        exact ⟨by rw [m3], h2⟩

theorem energy_trace (a : ℕ) (g r0 : Bool) (s : St R) (h1 : s.m2 = (.dirty, .junk))
    (h2 : s.m2h = (.dirty, .junk)) (hg : s.grp = g) (hr : s.red = r0) :
    trace F pos q (energyBlock F q a) s = evEnergy F q a ∧
      Left q a g r0 (after F pos q (energyBlock F q a) s) := by
  have eb : energyBlock F q a = when (need q a) ((if needM2 q a then
        [.energyMap] ++ when (on a ENERGY3DMAP) [.eDens] ++ when (on a BINDELTA) [.contrast] ++
        when (on q.maps XYE) [.ePlane] ++
        when (on q.maps XYPE) [.project false, .pMap ⟨"/map", ["P"]⟩] ++
        when (on q.maps XYPE2) [.project true, .pMap ⟨"/map", ["P"]⟩] ++
        when (on a (PSP_A ||| REDENE3DMAP ||| PSP_S ||| MULTICON))
          ([.newSpec] ++ when (pow3 a)
            (powers F q ++ when (on a MULTICON) (multi F q) ++
              when (reds q a) [.reduce, .eDens]))
      else [.energySum]) ++ [.averages]) := rfl
  rw [eb]
  cases hn : need q a
  · have hp : pow3 a = false := by
      cases h : pow3 a
      · rfl
      · rw [(needM2_of_pow3 q h).2] at hn; cases hn
    refine ⟨by rw [evEnergy, hn]; rfl, hg, by rw [hn]; exact hr, ?_, ?_, ?_, ?_, ?_⟩
    · intro _; exact ⟨h1, h2⟩
    · intro h; rw [hn] at h; cases h
    · intro h; rw [hp] at h; cases h
    · intro h; rw [hp] at h; cases h
    · intro h; rw [pow3_of_multi h] at hp; cases hp
  cases hm : needM2 q a
  · have hp : pow3 a = false := by
      cases h : pow3 a
      · rfl
      · rw [(needM2_of_pow3 q h).1] at hm; cases hm
    have hrd : reds q a = false := by
      cases h : reds q a
      · rfl
      · rw [pow3_of_red q h] at hp; cases hp
    refine ⟨by rw [evEnergy, hn, hm]; rfl, hg, by rw [hn, hrd]; rfl, ?_, ?_, ?_, ?_, ?_⟩
    · intro _; exact ⟨h1, h2⟩
    · intro _ h; rw [hm] at h; cases h
    · intro h; rw [hp] at h; cases h
    · intro h; rw [hp] at h; cases h
    · intro h; rw [pow3_of_multi h] at hp; cases hp
  -- the energy per site is there
  have fresh : Fresh g (step F pos q s .energyMap).1 := ⟨rfl, .inl h2, rfl, hg⟩
  have half : (step F pos q s .energyMap).1.m2h = (.dirty, .junk) := h2
  have tr : ∀ l, trace F pos q (.energyMap :: l) s = trace F pos q l (step F pos q s .energyMap).1 :=
    fun _ => rfl
  have af : ∀ l, after F pos q (.energyMap :: l) s = after F pos q l (step F pos q s .energyMap).1 :=
    fun _ => rfl
  simp only [if_true, List.nil_append, List.cons_append, List.append_assoc,
    show ∀ l : List Cmd, when true l = l from fun _ => rfl]
  rw [tr, af]
  generalize (step F pos q s .energyMap).1 = t at fresh half ⊢
  have s1 : trace F pos q (when (on a ENERGY3DMAP) [.eDens]) t =
      when (on a ENERGY3DMAP) [.hard ⟨"/energy/density", ["theta"]⟩ (.density .energy)] := by
    rw [trace_when]
    simp [trace_cons, trace_nil, step, fresh.1, fresh.2.2.1]
  have s1' : after F pos q (when (on a ENERGY3DMAP) [.eDens]) t = t := by
    rw [after_when]; simp [after_cons, after_nil, step]
  have s2 : trace F pos q (when (on a BINDELTA) [.contrast]) t =
      when (on a BINDELTA) [.put ⟨"/bins", ["contB"]⟩ (.contrast .energy)] := by
    rw [trace_when]
    simp [trace_cons, trace_nil, step, fresh.1]
  have s2' : after F pos q (when (on a BINDELTA) [.contrast]) t = t := by
    rw [after_when]; simp [after_cons, after_nil, step]
  have s3 : trace F pos q (when (on q.maps XYE) [.ePlane]) t =
      when (on q.maps XYE) [.hard ⟨"/map", ["E"]⟩ (.plane .energy)] := by
    rw [trace_when]
    simp [trace_cons, trace_nil, step, fresh.1]
  have s3' : after F pos q (when (on q.maps XYE) [.ePlane]) t = t := by
    rw [after_when]; simp [after_cons, after_nil, step]
  have s4 : ∀ (b sq : Bool) (t : St R), Fresh g t →
      trace F pos q (when b [.project sq, .pMap ⟨"/map", ["P"]⟩]) t =
        when b [.hard ⟨"/map", ["P"]⟩ (.proj (some (sq, .energy)))] ∧
      Fresh g (after F pos q (when b [.project sq, .pMap ⟨"/map", ["P"]⟩]) t) ∧
      (after F pos q (when b [.project sq, .pMap ⟨"/map", ["P"]⟩]) t).m2h = t.m2h := by
    intro b sq t fresh
    rw [trace_when, after_when]
    cases b
    · exact ⟨rfl, fresh, rfl⟩
    · refine ⟨?_, ?_⟩
      · simp [trace_cons, trace_nil, step, fresh.1]
      · simp only [if_true, after_cons, after_nil, step, fresh.1]
        simp only [true_or, if_true]
        exact ⟨⟨rfl, fresh.2.1, fresh.2.2.1, fresh.2.2.2⟩, trivial⟩
  simp only [trace_append, after_append, s1, s1', s2, s2', s3, s3']
  obtain ⟨p1, f1, g1⟩ := s4 (on q.maps XYPE) false t fresh
  rw [p1]
  generalize after F pos q (when (on q.maps XYPE) [.project false, .pMap ⟨"/map", ["P"]⟩]) t = t1 at f1 g1 ⊢
  obtain ⟨p2, f2, g2⟩ := s4 (on q.maps XYPE2) true t1 f1
  rw [p2]
  generalize after F pos q (when (on q.maps XYPE2) [.project true, .pMap ⟨"/map", ["P"]⟩]) t1 = t2 at f2 g2 ⊢
  have b4 : on a (PSP_A ||| REDENE3DMAP ||| PSP_S ||| MULTICON) = (pow3 a || on a PSP_S) := by
    rw [pow3_eq]; simp only [on_or]
    cases on a PSP_A <;> cases on a REDENE3DMAP <;> cases on a PSP_S <;> cases on a MULTICON <;> rfl
  have fin : ∀ l : List Cmd, ∀ u, after F pos q [.averages] (after F pos q l u) = after F pos q l u :=
    fun _ _ => rfl
  have fin' : ∀ u, trace F pos q [.averages] u = [.put ⟨"/energy", []⟩ .averages] := fun _ => rfl
  rw [fin, fin', b4]
  have f3 : Fresh g (step F pos q t2 .newSpec).1 := f2
  have head : evEnergy F q a = evMap F q a ++ [.put ⟨"/energy", []⟩ .averages] := by
    rw [evEnergy, hn, hm]; rfl
  rw [head]
  cases hp : pow3 a
  · have hmu : on a MULTICON = false := by
      cases h : on a MULTICON
      · rfl
      · rw [pow3_of_multi h] at hp; cases hp
    have hrd : reds q a = false := by
      cases h : reds q a
      · rfl
      · rw [pow3_of_red q h] at hp; cases hp
    have e1 : ∀ b l, trace F pos q (when b (Cmd.newSpec :: when false l)) t2 = [] := by
      intro b l; cases b <;> rfl
    have e2 : ∀ b l, Fresh g (after F pos q (when b (Cmd.newSpec :: when false l)) t2) := by
      intro b l; cases b
      · exact f2
      · exact f3
    have e3 : ∀ b l, (after F pos q (when b (Cmd.newSpec :: when false l)) t2).m2h = (.dirty, .junk) := by
      intro b l; cases b <;> exact g2.trans (g1.trans half)
    have f4 := e2 (false || on a PSP_S)
      (powers F q ++ (when (on a MULTICON) (multi F q) ++ when (reds q a) [.reduce, .eDens]))
    rw [e1]
    refine ⟨?_, f4.2.2.2, ?_, ?_, ?_, ?_, ?_, ?_⟩
    · unfold evMap; rw [hp]; simp [when]
    · rw [hn, hrd]; exact f4.2.2.1
    · intro h; exact absurd ⟨hn, hm⟩ h
    · intro _ _ _; exact ⟨f4.1, e3 _ _⟩
    · intro h; rw [hp] at h; cases h
    · intro h; rw [hp] at h; cases h
    · intro h; rw [hmu] at h; cases h
  · have e1 : trace F pos q (when (true || on a PSP_S) (Cmd.newSpec :: when true
        (powers F q ++ (when (on a MULTICON) (multi F q) ++ when (reds q a) [.reduce, .eDens])))) t2 =
        trace F pos q (powers F q ++ when (on a MULTICON) (multi F q) ++
          when (reds q a) [.reduce, .eDens]) (step F pos q t2 .newSpec).1 := by
      rw [List.append_assoc]; rfl
    have e2 : after F pos q (when (true || on a PSP_S) (Cmd.newSpec :: when true
        (powers F q ++ (when (on a MULTICON) (multi F q) ++ when (reds q a) [.reduce, .eDens])))) t2 =
        after F pos q (powers F q ++ when (on a MULTICON) (multi F q) ++
          when (reds q a) [.reduce, .eDens]) (step F pos q t2 .newSpec).1 := by
      rw [List.append_assoc]; rfl
    rw [e1, e2]
    obtain ⟨k1, k2, k3, k4, k5, k6⟩ := spec_trace F pos q a g _ f3
    rw [k1]
    refine ⟨?_, k2, ?_, ?_, ?_, ?_, ?_, ?_⟩
    · unfold evMap; rw [hp]; simp [when]
    · rw [hn]; exact k3
    · intro h; exact absurd ⟨hn, hm⟩ h
    · intro _ _ h; rw [hp] at h; cases h
    · intro _; exact k4
    · intro _; exact k5
    · exact k6

end Jaxions.MeasRun
