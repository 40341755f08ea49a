import Verif.Lemmas.CheckTimeFiles

/-
C39: all ranks take the same stop decision.
-/

namespace Jaxions.CheckTime

variable {n : ℕ}

/-- Two ranks never disagree about a check that both have finished, whatever they saw. -/
theorem C39_agree {files : File → Bool} {es : List (Ev n)} {t : St n}
    (h : Exec (init n files) es t) (r r' : Fin n) (k d d' : ℕ)
    (hd : (t.loc r).log[k]? = some d) (hd' : (t.loc r').log[k]? = some d') : d = d' := by
  have inv := (Inv.init files).exec h
  have h1 := inv.log r k d hd
  rw [inv.log r' k d' hd'] at h1
  exact (Option.some.inj h1).symm

theorem prefix_of {l l' : List ℕ} (hlen : l.length ≤ l'.length)
    (h : ∀ (k d d' : ℕ), l[k]? = some d → l'[k]? = some d' → d = d') : l <+: l' := by
  rw [List.prefix_iff_eq_take]
  apply List.ext_getElem?
  intro k
  rw [List.getElem?_take]
  by_cases hk : k < l.length
  · rw [if_pos hk, List.getElem?_eq_getElem hk, List.getElem?_eq_getElem (by omega)]
    exact congrArg some (h k _ _ (List.getElem?_eq_getElem hk) (List.getElem?_eq_getElem (by omega)))
  · rw [if_neg hk, List.getElem?_eq_none (by omega)]

/-- When one rank has left the program, every other rank has left it or is on its way to
the same end: its decisions are the first ones of those of the rank that left, so it
makes no check that the rank that left would have to take part in. -/
theorem C39_end {files : File → Bool} {es : List (Ev n)} {t : St n}
    (h : Exec (init n files) es t) (r r' : Fin n) (hr : (t.loc r).pc = .ended) :
    (t.loc r').log <+: (t.loc r).log := by
  have inv := (Inv.init files).exec h
  obtain ⟨k, d, hk, hd, hend⟩ := inv.gone r hr
  refine prefix_of ?_ (fun k d d' h1 h2 => C39_agree h r' r k d d' h1 h2)
  rw [inv.len r, inv.len r']
  by_contra hlt
  have hk' : k < (t.loc r').log.length := by rw [inv.len]; omega
  have hd' := List.getElem?_eq_getElem hk'
  have e := C39_agree h r r' k _ _ hd hd'
  rw [← e] at hd'
  have := (inv.stay r' k d hd' hend).1
  omega

/-- The collective calls of two ranks are the same, one after the other; one rank may be
ahead of the other. -/
theorem C39_matched {files : File → Bool} {es : List (Ev n)} {t : St n}
    (h : Exec (init n files) es t) (r r' : Fin n) :
    calls (t.loc r) <+: calls (t.loc r') ∨ calls (t.loc r') <+: calls (t.loc r) := by
  have key : ∀ {l l' : List ℕ}, l <+: l' → l.flatMap colls <+: l'.flatMap colls := by
    rintro l l' ⟨m, rfl⟩
    rw [List.flatMap_append]
    exact List.prefix_append _ _
  rcases Nat.le_total (t.loc r).log.length (t.loc r').log.length with hl | hl
  · exact Or.inl (key (prefix_of hl (fun k d d' h1 h2 => C39_agree h r r' k d d' h1 h2)))
  · exact Or.inr (key (prefix_of hl (fun k d d' h1 h2 => C39_agree h r' r k d d' h1 h2)))

/-- No rank is ever more than one check ahead of another. -/
theorem C39_together {files : File → Bool} {es : List (Ev n)} {t : St n}
    (h : Exec (init n files) es t) (r r' : Fin n) :
    (t.loc r).log.length ≤ (t.loc r').log.length + 1 := by
  have inv := (Inv.init files).exec h
  rw [inv.len, inv.len]
  by_contra hlt
  obtain ⟨k, hk⟩ : ∃ k, (t.loc r).round = k + 1 := ⟨(t.loc r).round - 1, by omega⟩
  have hd := List.getElem?_eq_getElem (l := (t.loc r).log) (i := k) (by rw [inv.len]; omega)
  have hdec := inv.log r k _ hd
  unfold dec at hdec
  cases hm : (List.finRange n).mapM (t.sent k) with
  | none => rw [hm] at hdec; cases hdec
  | some fl =>
    have := (mapM_some_iff (List.finRange n)).1 ⟨fl, hm⟩ r' (List.mem_finRange r')
    rcases (inv.sent k r').1 this with h | h <;> omega

/-- The events that are steps of the program. -/
def Ev.ofRank : Ev n → Bool
  | .user _ _ => false
  | _ => true

/-- No rank waits for another forever: as long as some rank has not left the program,
some rank can make its next step. -/
theorem C39_progress {files : File → Bool} {es : List (Ev n)} {t : St n}
    (h : Exec (init n files) es t) (hne : ∃ r, (t.loc r).pc ≠ .ended) :
    ∃ e u, e.ofRank = true ∧ step t e = some u := by
  have inv := (Inv.init files).exec h
  by_cases hw : ∃ r, (t.loc r).pc ≠ .ended ∧ (t.loc r).pc ≠ .gather
  · obtain ⟨r, h1, h2⟩ := hw
    cases hpc : (t.loc r).pc with
    | clock => exact ⟨.clock r false, _, rfl, if_pos hpc⟩
    | stop => exact ⟨.stop r, _, rfl, if_pos hpc⟩
    | abort => exact ⟨.abort r, _, rfl, if_pos hpc⟩
    | save =>
      by_cases hf : t.files .save = true
      · exact ⟨.save r, _, rfl, (if_pos hpc).trans (if_pos hf)⟩
      · exact ⟨.save r, _, rfl, (if_pos hpc).trans (if_neg hf)⟩
    | remove => exact ⟨.remove r true, _, rfl, if_pos hpc⟩
    | gather => exact absurd hpc h2
    | ended => exact absurd hpc h1
  · have hall : ∀ r, (t.loc r).pc = .ended ∨ (t.loc r).pc = .gather := by
      intro r
      by_contra hc
      exact hw ⟨r, fun h => hc (Or.inl h), fun h => hc (Or.inr h)⟩
    -- a waiting rank in the earliest check
    have hmin : ∃ r, (t.loc r).pc = .gather ∧
        ∀ r', (t.loc r').pc = .gather → (t.loc r).round ≤ (t.loc r').round := by
      obtain ⟨r0, hr0⟩ := hne
      have hr0 : (t.loc r0).pc = .gather := (hall r0).resolve_left hr0
      have : ∃ k, ∃ r, (t.loc r).pc = .gather ∧ (t.loc r).round = k := ⟨_, r0, hr0, rfl⟩
      classical
      obtain ⟨r, hr, hk⟩ := Nat.find_spec this
      refine ⟨r, hr, fun r' hr' => ?_⟩
      rw [hk]
      exact Nat.find_min' this ⟨r', hr', rfl⟩
    obtain ⟨r, hr, hle⟩ := hmin
    have hsome : ∃ fl, (List.finRange n).mapM (t.sent (t.loc r).round) = some fl := by
      rw [mapM_some_iff]
      intro r' _
      rw [inv.sent]
      rcases hall r' with h' | h'
      · have hp := C39_end h r' r h'
        have hl := hp.length_le
        rw [inv.len, inv.len] at hl
        rcases Nat.lt_or_ge (t.loc r).round (t.loc r').round with hlt | hge
        · exact Or.inl hlt
        · exfalso
          have he : (t.loc r').round = (t.loc r).round := by omega
          obtain ⟨k, d, hk, hd, hend⟩ := inv.gone r' h'
          have hlen : (t.loc r).log.length = (t.loc r').log.length := by
            rw [inv.len, inv.len]; exact he.symm
          rw [← hp.eq_of_length hlen] at hd
          have := (inv.stay r k d hd hend).2
          rw [hr] at this
          cases this
      · rcases Nat.lt_or_ge (t.loc r).round (t.loc r').round with hlt | hge
        · exact Or.inl hlt
        · exact Or.inr ⟨by have := hle r' h'; omega, h'⟩
    obtain ⟨fl, hfl⟩ := hsome
    refine ⟨.leave r, leaveWith t r (decision fl), rfl, ?_⟩
    dsimp only [step]
    rw [if_pos hr, hfl]
    rfl

/-- The decision is never invented: it is 0 to 4, and when it is not 0 some rank met the
reason for it (its clock, or the file, which was there when it looked). -/
theorem C39_cause {files : File → Bool} {es : List (Ev n)} {t : St n}
    (h : Exec (init n files) es t) (r : Fin n) (k d : ℕ)
    (hd : (t.loc r).log[k]? = some d) : d ≤ 4 ∧ (d ≠ 0 → ∃ r', Saw (init n files) es r' d) := by
  have inv := (Inv.init files).exec h
  have hs := dec_spec (inv.log r k d hd)
  by_cases h0 : d = 0
  · exact ⟨by omega, fun hc => absurd h0 hc⟩
  · obtain ⟨r', hr'⟩ := hs.1 (by omega)
    have hsaw := (caused h).sent k r' d (by omega) hr'
    refine ⟨?_, fun _ => ⟨r', hsaw⟩⟩
    rcases hsaw with h | h | h | h <;> omega

/-- The collective calls of a check that does not end the run, by its decision. -/
def goesOn (d : ℕ) : List Coll :=
  if d = 4 then [.allgather, .writeConf false, .sync] else [.allgather]

/-- What the decisions do.  A rank leaves the program with the first decision 1, 2 or 3,
and only then; before it every decision was 0 or 4.  It writes a plain configuration for
each decision 4, a restart file for a final decision 1 or 2, and nothing at all for an
abort, decision 3. -/
theorem C39_effect {files : File → Bool} {es : List (Ev n)} {t : St n}
    (h : Exec (init n files) es t) (r : Fin n) :
    ((t.loc r).pc = .ended → ∃ l d, (t.loc r).log = l ++ [d] ∧ (d = 1 ∨ d = 2 ∨ d = 3) ∧
      (∀ e ∈ l, e = 0 ∨ e = 4) ∧
      calls (t.loc r) = l.flatMap goesOn ++
        (if d = 3 then [.allgather, .endAxions] else [.allgather, .writeConf true, .endAxions])) ∧
    ((t.loc r).pc ≠ .ended → (∀ e ∈ (t.loc r).log, e = 0 ∨ e = 4) ∧
      calls (t.loc r) = (t.loc r).log.flatMap goesOn) := by
  have inv := (Inv.init files).exec h
  have hle : ∀ (k d : ℕ), (t.loc r).log[k]? = some d → d ≤ 4 :=
    fun k d hd => (C39_cause h r k d hd).1
  have hends : ∀ d ≤ 4, (ends d = true ↔ d = 1 ∨ d = 2 ∨ d = 3) := by decide
  have hcolls : ∀ (l : List ℕ), (∀ e ∈ l, e = 0 ∨ e = 4) → l.flatMap colls = l.flatMap goesOn := by
    intro l hl
    induction l with
    | nil => rfl
    | cons a l ih =>
      rw [List.flatMap_cons, List.flatMap_cons, ih fun e he => hl e (by simp [he])]
      rcases hl a (by simp) with rfl | rfl <;> rfl
  refine ⟨fun hpc => ?_, fun hpc => ?_⟩
  · obtain ⟨k, d, hk, hd, he⟩ := inv.gone r hpc
    have hlen : (t.loc r).log.length = k + 1 := by rw [inv.len]; exact hk.symm
    have hsplit : (t.loc r).log = (t.loc r).log.take k ++ [d] := by
      conv_lhs => rw [← List.take_append_drop k (t.loc r).log]
      congr 1
      apply List.ext_getElem?
      intro i
      rw [List.getElem?_drop]
      cases i with
      | zero => rw [Nat.add_zero, hd]; rfl
      | succ i => rw [List.getElem?_eq_none (by omega)]; rfl
    have hbefore : ∀ e ∈ (t.loc r).log.take k, e = 0 ∨ e = 4 := by
      intro e hm
      obtain ⟨j, hj⟩ := List.mem_iff_getElem?.1 hm
      rw [List.getElem?_take] at hj
      split at hj
      · next hjk =>
        have h4 := hle j e hj
        have hne : ends e ≠ true := fun hc => by
          have := (inv.stay r j e hj hc).1
          omega
        have := mt (hends e h4).2 hne
        omega
      · cases hj
    have hd3 := (hends d (hle k d hd)).1 he
    refine ⟨_, d, hsplit, hd3, hbefore, ?_⟩
    unfold calls
    conv_lhs => rw [hsplit]
    rw [List.flatMap_append, hcolls _ hbefore]
    congr 1
    rcases hd3 with rfl | rfl | rfl <;> rfl
  · have hall : ∀ e ∈ (t.loc r).log, e = 0 ∨ e = 4 := by
      intro e hm
      obtain ⟨j, hj⟩ := List.mem_iff_getElem?.1 hm
      have h4 := hle j e hj
      have hne : ends e ≠ true := fun hc => hpc (inv.stay r j e hj hc).2
      have := mt (hends e h4).2 hne
      omega
    exact ⟨hall, hcolls _ hall⟩

/-- A request to save is not lost.  When the file is there in a state `s`, then in the
first check that begins after `s`, or in one that was under way, the ranks decide to do
something: to save, or to stop, which saves too, or to abort because of an abort file. -/
theorem C39_save_honoured {files : File → Bool} {es es' : List (Ev n)} {s t : St n}
    (h : Exec (init n files) es s) (hf : s.files .save = true) (h' : Exec s es' t)
    (hu : Ev.user .save false ∉ es') (K K' : ℕ) (hK : ∀ r, K ≤ (s.loc r).round)
    (hK' : ∀ r, (s.loc r).round < K') (r : Fin n) (d : ℕ)
    (hd : (t.loc r).log[K']? = some d) :
    ∃ k, K ≤ k ∧ k ≤ K' ∧ ∃ d', (t.loc r).log[k]? = some d' ∧ d' ≠ 0 := by
  have key : Inv t ∧ Noted t ∧ (∀ r, K ≤ (t.loc r).round) ∧
      (t.files .save = true ∨ ∃ k r, K ≤ k ∧ t.sent k r = some 4) ∧
      ∀ r f, t.sent K' r = some f → ∃ k, K ≤ k ∧ k ≤ K' ∧ ∃ r', t.sent k r' = some 4 := by
    clear hd
    induction h' with
    | nil =>
      have inv := (Inv.init files).exec h
      refine ⟨inv, noted h, hK, Or.inl hf, fun r f hs => ?_⟩
      have := (inv.sent K' r).1 (by rw [hs]; rfl)
      have := hK' r
      omega
    | @snoc es1 t u e hex hs ih =>
      obtain ⟨i1, i2, i3, i4, i5⟩ := ih (fun hc => hu (by simp [hc]))
      have hne : e ≠ .user .save false := fun hc => hu (by simp [hc])
      refine ⟨i1.step hs, noted_step i2 hs, fun r => Nat.le_trans (i3 r) (round_step hs r),
        pending_step i1 i2 hs hne K i3 i4, fun r f hf => ?_⟩
      have lift : (∃ k, K ≤ k ∧ k ≤ K' ∧ ∃ r', t.sent k r' = some 4) →
          ∃ k, K ≤ k ∧ k ≤ K' ∧ ∃ r', u.sent k r' = some 4 := by
        rintro ⟨k, h1, h2, r', h3⟩
        exact ⟨k, h1, h2, r', sent_step i1 hs k r' 4 h3⟩
      rcases sent_new hs hf with h1 | ⟨h1, h2, h3 | ⟨h3, _⟩⟩
      · exact lift (i5 r f h1)
      · refine lift ?_
        rcases i4 with h4 | ⟨k, r', hk, h4⟩
        · rw [h3.2] at h4; cases h4
        · exact ⟨k, hk, by rw [h1]; exact i1.sent_le (by rw [h3.1]; simp) h4, r', h4⟩
      · refine ⟨K', by rw [h1]; exact i3 r, Nat.le_refl _, r, ?_⟩
        rw [hf, h2, (i2 r).1 h3]
  obtain ⟨inv, _, _, _, hsent⟩ := key
  obtain ⟨f, hs⟩ := Option.isSome_iff_exists.1 ((dec_spec (inv.log r K' d hd)).2.2 r)
  obtain ⟨k, h1, h2, r', h3⟩ := hsent r f hs
  have hlen : k < (t.loc r).log.length := by
    have := (List.getElem?_eq_some_iff.1 hd).1
    omega
  have hd' := List.getElem?_eq_getElem hlen
  refine ⟨k, h1, h2, _, hd', fun h0 => ?_⟩
  rw [h0] at hd'
  have := ((dec_spec (inv.log r k 0 hd')).2.1.1 rfl) r'
  rw [h3] at this
  cases this

/-- One request makes one save: while the file is not created again and can be deleted,
among the checks that begin after `s` at most one decides to save. -/
theorem C39_save_once {files : File → Bool} {es es' : List (Ev n)} {s t : St n}
    (h : Exec (init n files) es s) (h' : Exec s es' t) (hu : Ev.user .save true ∉ es')
    (hok : ∀ r, Ev.remove r false ∉ es') (K : ℕ) (hK : ∀ r, (s.loc r).round ≤ K)
    (r r' : Fin n) (k k' : ℕ) (hk : K < k) (hk' : K < k')
    (hd : (t.loc r).log[k]? = some 4) (hd' : (t.loc r').log[k']? = some 4) : k = k' := by
  have inv := ((Inv.init files).exec h).exec h'
  obtain ⟨q, hq⟩ := (dec_spec (inv.log r k 4 hd)).1 (by omega)
  obtain ⟨q', hq'⟩ := (dec_spec (inv.log r' k' 4 hd')).1 (by omega)
  suffices honce : Inv t ∧ Noted t ∧ Once K t from
    honce.2.2.same k k' q q' hk hk' (Or.inl hq) (Or.inl hq')
  clear hd hd' hq hq'
  induction h' with
  | nil =>
    have inv := (Inv.init files).exec h
    have hno : ∀ k r f, K < k → s.sent k r ≠ some f := by
      intro k r f hk hs
      have := (inv.sent k r).1 (by rw [hs]; rfl)
      have := hK r
      omega
    refine ⟨inv, noted h, ?_, fun k r hk hs => absurd hs (hno k r 4 hk)⟩
    intro k k' r r' hk hk' hm
    rcases hm with hm | ⟨_, rfl⟩
    · exact absurd hm (hno k r 4 hk)
    · exact absurd (hK r) (by omega)
  | @snoc es1 t u e hex hs ih =>
    obtain ⟨i1, i2, i3⟩ := ih (fun hc => hu (by simp [hc])) (fun r hc => hok r (by simp [hc]))
      (((Inv.init files).exec h).exec hex)
    exact ⟨i1.step hs, noted_step i2 hs,
      i3.step i1 i2 hs (fun hc => hu (by simp [hc])) (fun r hc => hok r (by simp [hc]))⟩

/-- With the files as they are, and none asking to save, every check that begins from now
on decides what the files say: abort, else stop, else only the clock can end the run. -/
theorem C39_settled {files : File → Bool} {es es' : List (Ev n)} {s t : St n}
    (h : Exec (init n files) es s) (h' : Exec s es' t) (hu : NoUser es')
    (hf : s.files .save = false) (K : ℕ) (hK : ∀ r, (s.loc r).round ≤ K)
    (r : Fin n) (k d : ℕ) (hk : K < k) (hd : (t.loc r).log[k]? = some d) :
    (s.files .abort = true → d = 3) ∧
    (s.files .abort = false → s.files .stop = true → d = 2) ∧
    (s.files .abort = false → s.files .stop = false → d ≤ 1) := by
  have inv := ((Inv.init files).exec h).exec h'
  have hset : Settled K s.files t := by
    clear hd
    induction h' with
    | nil =>
      have inv := (Inv.init files).exec h
      have hr : ∀ r, ¬ K < (s.loc r).round := fun r => by have := hK r; omega
      exact ⟨rfl, fun r hc => absurd hc (hr r), fun r hc => absurd hc (hr r),
        fun r hc => absurd hc (hr r), fun r hc => absurd hc (hr r), fun k r f hk hs => by
          have := (inv.sent k r).1 (by rw [hs]; rfl)
          have := hK r
          omega⟩
    | @snoc es1 t u e hex hs ih =>
      exact (ih (fun f b hc => hu f b (by simp [hc]))
        (((Inv.init files).exec h).exec hex)).step hf hs (fun f b hc => hu f b (by simp [hc]))
  have hdec := dec_spec (inv.log r k d hd)
  obtain ⟨f, hs⟩ := Option.isSome_iff_exists.1 (hdec.2.2 r)
  have hfit := hset.sent k r f hk hs
  have hd0 : d = 0 → f = 0 := by
    intro h0
    have := hdec.2.1.1 h0 r
    rw [hs] at this
    exact Option.some.inj this
  have hfitd : Fits s.files d ∨ d = 0 := by
    by_cases h0 : d = 0
    · exact Or.inr h0
    · obtain ⟨r', hr'⟩ := hdec.1 (by omega)
      exact Or.inl (hset.sent k r' d hk hr')
  refine ⟨fun ha => ?_, fun ha hb => ?_, fun ha hb => ?_⟩
  · rcases hfitd with hc | hc
    · simpa [Fits, ha] using hc
    · have := hd0 hc
      subst this
      simp [Fits, ha] at hfit
  · rcases hfitd with hc | hc
    · simpa [Fits, ha, hb] using hc
    · have := hd0 hc
      subst this
      simp [Fits, ha, hb] at hfit
  · rcases hfitd with hc | hc
    · simpa [Fits, ha, hb] using hc
    · omega

/-! ### A case -/

/-- Runs a list of events. -/
def play (s : St n) (es : List (Ev n)) : Option (St n) := es.foldlM step s

theorem Exec.of_play {s t : St n} {es : List (Ev n)} (h : play s es = some t) : Exec s es t := by
  suffices hg : ∀ (es pre : List (Ev n)) (u : St n), Exec s pre u → play u es = some t →
      Exec s (pre ++ es) t by
    simpa using hg es [] s .nil h
  intro es
  induction es with
  | nil => intro pre u hu h; cases h; simpa using hu
  | cons e es ih =>
    intro pre u hu h
    unfold play at h
    rw [List.foldlM_cons] at h
    cases hs : step u e with
    | none => rw [hs] at h; cases h
    | some v =>
      rw [hs] at h
      have := ih (pre ++ [e]) v (.snoc hu hs) h
      simpa using this

/-- Two ranks.  Rank 0 is past the stop file when it is created, rank 1 finds it; both
files asking to save and to stop end up in one decision each. -/
def sample : List (Ev 2) :=
  [.clock 0 false, .stop 0, .user .stop true, .clock 1 true, .stop 1, .abort 1, .abort 0,
   .user .save true, .save 0, .save 1, .remove 1 true, .remove 0 true, .leave 1, .clock 1 false,
   .leave 0, .stop 1, .clock 0 false, .stop 0, .abort 0, .save 0, .abort 1, .save 1,
   .leave 0, .leave 1]

/-- Both ranks save in the first check and stop in the second one. -/
example : (play (init 2 fun _ => false) sample).map
    (fun t => ((t.loc 0).log, (t.loc 1).log, decide ((t.loc 0).pc = .ended ∧ (t.loc 1).pc = .ended)))
    = some ([4, 2], [4, 2], true) := by decide +kernel

/-- Halfway: rank 1 has decided, rank 0 has not; the decisions are those of one list. -/
example : (play (init 2 fun _ => false) (sample.take 13)).map
    (fun t => ((t.loc 0).log, (t.loc 1).log)) = some ([], [4]) := by decide +kernel

/-- The priority is by rank, not by reason: with rank 0 past its time and rank 1 finding
the abort file in the same check, the run stops with a save. -/
example : (play (init 2 fun _ => false)
    [.clock 0 true, .stop 0, .abort 0, .save 0, .user .abort true, .clock 1 true, .stop 1,
     .abort 1, .save 1, .leave 0, .leave 1]).map (fun t => ((t.loc 0).log, (t.loc 1).log))
    = some ([1], [1]) := by decide +kernel

/-- A file that cannot be deleted makes every check save. -/
example : (play (init 1 fun f => f == .save)
    [.clock 0 false, .stop 0, .abort 0, .save 0, .remove 0 false, .leave 0,
     .clock 0 false, .stop 0, .abort 0, .save 0, .remove 0 false, .leave 0]).map
    (fun t => (t.loc 0).log) = some [4, 4] := by decide +kernel

end Jaxions.CheckTime
