import Verif.Lemmas.MeasRunItems

/-
The names in the file are those asked for: spectra, histograms, and the other direction.
-/

namespace Jaxions.MeasRun

variable {R : Type} (F : Fmt R) (pos : R → Bool) (q : Req R)

theorem tail_fixed (a : ℕ) : ∀ c ∈ spectrumBlock F q a ++ binBlock q a, c.fixed = true := by
  intro c hc
  rcases List.mem_append.1 hc with h | h
  · exact spectrum_fixed F q a c h
  · exact bin_fixed q a c h

/-- Calls of the spectra. -/
theorem mem_spectrum (c : Cmd) : c ∈ spectrumBlock F q q.left ↔
    on q.left SPECTRUM = true ∧ (c = .newSpec ∨ (Bit q.meas 13 ∧ c ∈ maskPass F q) ∨
      c ∈ numberPass F q q.left) := by
  unfold spectrumBlock
  simp only [mem_when, List.mem_append, List.mem_cons, List.not_mem_nil, or_false, mask_iff, or_assoc]

theorem mem_bin (c : Cmd) : c ∈ binBlock q q.left ↔
    ((q.field = .saxion ∨ q.field = .axion) ∧ Bit q.meas 0 ∧ c = .hist "thetaB") ∨
    (q.field = .saxion ∧ Bit q.meas 1 ∧ c = .hist "rhoB") ∨
    ((q.field = .saxion ∨ q.field = .axion) ∧ Bit q.meas 2 ∧ c = .hist "logtheta2B") ∨
    (q.field = .naxion ∧ Bit q.meas 0 ∧ c = .hist "thetaP2") := by
  unfold binBlock
  have h0 : on q.left BINTHETA = true ↔ Bit q.meas 0 :=
    on_left (show BINTHETA = 2 ^ 0 from rfl) (by decide)
  have h1 : on q.left BINRHO = true ↔ Bit q.meas 1 :=
    on_left (show BINRHO = 2 ^ 1 from rfl) (by decide)
  have h2 : on q.left BINLOGTHETA2 = true ↔ Bit q.meas 2 :=
    on_left (show BINLOGTHETA2 = 2 ^ 2 from rfl) (by decide)
  cases hf : q.field <;>
    simp only [mem_when, List.mem_append, List.mem_cons, List.not_mem_nil, or_false, reduceCtorEq,
      false_and, false_or, true_and, or_assoc, h0, h1, h2, or_true]

/-- Bits of the kinds of spectra. -/
theorem nrt_iff {b i : ℕ} (h : b = 2 ^ i) : on q.nrt b = true ↔ Bit q.nrt i := on_lit h

/-- Radii are there when the mask needs them. -/
theorem radii_of (h : NeedsRadius q → q.radii ≠ []) {k : M} (hu : Used q k) (hk : k ≠ .axitv)
    (hm : Bit q.meas 13 ∨ Numbers q) : k.mul = true → q.radii ≠ [] :=
  fun hmul => h (.inr ⟨hm, k, (mul_iff k).1 hmul, hk, hu⟩)

theorem named_tail (t : St R) (hg : t.grp = true → Group q) (n : Name) (h : NeedsRadius q → q.radii ≠ []) :
    Named (trace F pos q (spectrumBlock F q q.left ++ binBlock q q.left) t) n → Item F pos q n := by
  rw [named_fixed F pos q _ (tail_fixed F q q.left)]
  rintro ⟨c, hc, hn⟩
  rcases List.mem_append.1 hc with hc | hc
  · rw [mem_spectrum] at hc
    obtain ⟨_, rfl | ⟨h13, hc⟩ | hc⟩ := hc
    · simp [names] at hn
    · rw [mem_maskPass] at hc
      obtain ⟨k, hk, hu, i, hi, hc⟩ := hc
      rw [mem8] at hk
      have hcall : Called F q k (preLabel F q k i) :=
        (called_iff F q k (radii_of q h hu hk.2 (.inl h13)) _).1 ⟨i, hi, rfl⟩
      rcases hc with ⟨_, rfl⟩ | rfl | rfl | rfl | rfl
      · simp only [names] at hn
        split at hn <;> simp at hn
      · simp [names] at hn
      · simp only [names, List.mem_singleton, Sk.put.injEq, reduceCtorEq, or_false] at hn
        subst hn
        exact .W hu hk.1 hk.2 (.inl h13) hcall
      · simp [names] at hn
      · simp only [names, List.mem_singleton, Sk.hard.injEq, reduceCtorEq, false_or] at hn
        subst hn
        exact .Wmap hu hk.1 hk.2 h13 hcall
    · rw [mem_numberPass, numbers_iff] at hc
      obtain ⟨hN, ⟨k, hk, hu, i, hi, hc⟩ | ⟨hi, hc⟩⟩ := hc
      · rw [mem9] at hk
        have hcall : Called F q k (preLabel F q k i) :=
          (called_iff F q k (radii_of q h hu hk (.inr hN)) _).1 ⟨i, hi, rfl⟩
        rw [mem_round] at hc
        rcases hc with ⟨_, rfl⟩ | ⟨hp, hc⟩ | ⟨hs, hc⟩
        · simp only [names] at hn
          split at hn <;> simp at hn
        · rw [prnt_iff] at hp
          rcases hc with rfl | ⟨_, rfl⟩ | ⟨h4, rfl, rfl⟩ | ⟨rfl, rfl⟩
          · simp [names] at hn
          · simp only [names, List.mem_singleton, Sk.put.injEq, reduceCtorEq, or_false] at hn
            subst hn
            exact .W hu hp.1 hk (.inr ⟨hN, hp.2⟩) hcall
          · simp only [names] at hn
            split at hn
            · rename_i hgt
              simp only [List.mem_singleton, Sk.put.injEq, reduceCtorEq, or_false] at hn
              subst hn
              rw [on_lit (show 4 = 2 ^ 2 from rfl)] at h4
              have hi : i ∈ List.range q.irmask := hi
              obtain ⟨r, hr, he⟩ := (exists_radius F q (radii_of q h hu hk (.inr hN) rfl)
                (fun x => rlab F q i = x)).1 ⟨i, hi, rfl⟩
              rw [he]
              exact .strEnergy hN hu h4 (hg hgt) hr
            · simp at hn
          · simp only [names] at hn
            cases hr : q.radii[i]? with
            | none => rw [hr] at hn; simp at hn
            | some r =>
              rw [hr] at hn
              dsimp only at hn
              split at hn
              · rename_i hpos
                simp only [List.mem_singleton, Sk.put.injEq, reduceCtorEq, or_false] at hn
                subst hn
                exact .maskedEnergy hN hu (List.mem_of_getElem? hr) hpos
              · simp at hn
        · rcases hc with ⟨_, rfl | hc⟩ | ⟨_, rfl | hc⟩ | ⟨hS, rfl | hc⟩
          · simp [names] at hn
          · obtain ⟨b, m, ms, hl, hb, hm, rfl⟩ := (mem_nsets F q k i _ c).1 hc
            simp only [names, List.mem_singleton, Sk.put.injEq, reduceCtorEq, or_false] at hn
            subst hn
            simp only [List.mem_cons, Prod.mk.injEq, List.not_mem_nil, or_false] at hl
            rcases hl with ⟨rfl, rfl, rfl⟩ | ⟨rfl, rfl, rfl⟩ | ⟨rfl, rfl, rfl⟩ | ⟨rfl, rfl, rfl⟩
            · exact .num hN hu hk hs hcall ((nrt_iff q (i := 0) rfl).1 hb) (by simp)
            · exact .num hN hu hk hs hcall ((nrt_iff q (i := 1) rfl).1 hb) (by simp)
            · exact .numV hN hu hk hs hcall ((nrt_iff q (i := 2) rfl).1 hb) (hm rfl) (by simp)
            · exact .numV hN hu hk hs hcall ((nrt_iff q (i := 3) rfl).1 hb) (hm rfl) (by simp)
          · simp [names] at hn
          · obtain ⟨b, m, ms, hl, hb, hm, rfl⟩ := (mem_nsets F q k i _ c).1 hc
            simp only [names, List.mem_singleton, Sk.put.injEq, reduceCtorEq, or_false] at hn
            subst hn
            simp only [List.mem_cons, Prod.mk.injEq, List.not_mem_nil, or_false] at hl
            rcases hl with ⟨rfl, rfl, rfl⟩ | ⟨rfl, rfl, rfl⟩ | ⟨rfl, rfl, rfl⟩ | ⟨rfl, rfl, rfl⟩
            · exact .num hN hu hk hs hcall ((nrt_iff q (i := 4) rfl).1 hb) (by simp)
            · exact .num hN hu hk hs hcall ((nrt_iff q (i := 5) rfl).1 hb) (by simp)
            · exact .numV hN hu hk hs hcall ((nrt_iff q (i := 6) rfl).1 hb) (hm rfl) (by simp)
            · exact .numV hN hu hk hs hcall ((nrt_iff q (i := 7) rfl).1 hb) (hm rfl) (by simp)
          · simp [names] at hn
          · obtain ⟨b, m, ms, hl, hb, hm, rfl⟩ := (mem_nsets F q k i _ c).1 hc
            simp only [names, List.mem_singleton, Sk.put.injEq, reduceCtorEq, or_false] at hn
            subst hn
            have h17 : Bit q.meas 17 := (on_left (show NSP_S = 2 ^ 17 from rfl) (by decide)).1 hS.2
            simp only [List.mem_cons, Prod.mk.injEq, List.not_mem_nil, or_false] at hl
            rcases hl with ⟨rfl, rfl, rfl⟩ | ⟨rfl, rfl, rfl⟩ | ⟨rfl, rfl, rfl⟩
            · exact .numS hS.1 h17 hu hk hs hcall ((nrt_iff q (i := 0) rfl).1 hb) (by simp)
            · exact .numS hS.1 h17 hu hk hs hcall ((nrt_iff q (i := 1) rfl).1 hb) (by simp)
            · exact .numS hS.1 h17 hu hk hs hcall ((nrt_iff q (i := 2) rfl).1 hb) (by simp)
      · rw [on_left (q := q) (show NNSPEC = 2 ^ 18 from rfl) (by decide)] at hi
        rcases hc with rfl | rfl
        · simp only [names, List.mem_singleton, Sk.put.injEq, reduceCtorEq, or_false] at hn
          subst hn; exact .modes hN hi
        · simp only [names, List.mem_singleton, Sk.put.injEq, reduceCtorEq, or_false] at hn
          subst hn; exact .meank hN hi
  · rw [mem_bin] at hc
    rcases hc with ⟨h1, h2, rfl⟩ | ⟨h1, h2, rfl⟩ | ⟨h1, h2, rfl⟩ | ⟨h1, h2, rfl⟩ <;>
      simp only [names, List.mem_singleton, Sk.put.injEq, reduceCtorEq, or_false] at hn <;> subst hn
    · exact .theta h1 h2
    · exact .rho h1 h2
    · exact .log h1 h2
    · exact .p2 h1 h2

/-! ### The other direction -/

theorem front_left {es es' : List (Ev R)} {n : Name} (h : Named es n) : Named (es ++ es') n :=
  (named_append _ _ _).2 (.inl h)

theorem tail_named {t : St R} {c : Cmd} (hc : c ∈ spectrumBlock F q q.left ++ binBlock q q.left) {n : Name}
    (hn : Sk.put n ∈ names F pos q t.grp c ∨ Sk.hard n ∈ names F pos q t.grp c) :
    Named (trace F pos q (spectrumBlock F q q.left ++ binBlock q q.left) t) n :=
  (named_fixed F pos q _ (tail_fixed F q q.left) t n).2 ⟨c, hc, hn⟩

theorem in_round {k : M} {i : ℕ} {c : Cmd} (hN : Numbers q) (hu : Used q k) (hk : k ≠ .axitv)
    (hi : i ∈ q.rounds k) (hc : c ∈ round F q q.left k i) :
    c ∈ spectrumBlock F q q.left ++ binBlock q q.left := by
  refine List.mem_append_left _ ?_
  rw [mem_spectrum]
  refine ⟨spectrum_of q (.inr hN), .inr (.inr ?_)⟩
  rw [mem_numberPass, numbers_iff]
  exact ⟨hN, .inl ⟨k, (mem9 k).2 hk, hu, i, hi, hc⟩⟩

theorem in_mask {k : M} {i : ℕ} {c : Cmd} (h13 : Bit q.meas 13) (hu : Used q k) (hf : k ≠ .flat) (hk : k ≠ .axitv)
    (hi : i ∈ q.rounds k)
    (hc : c = .array ⟨"/mSpectrum", "W" :: preLabel F q k i⟩ .P ∨
      c = .pMap ⟨"/map", "W" :: preLabel F q k i⟩) :
    c ∈ spectrumBlock F q q.left ++ binBlock q q.left := by
  refine List.mem_append_left _ ?_
  rw [mem_spectrum]
  refine ⟨spectrum_of q (.inl h13), .inr (.inl ⟨h13, ?_⟩)⟩
  rw [mem_maskPass]
  refine ⟨k, (mem8 k).2 ⟨hf, hk⟩, hu, i, hi, ?_⟩
  tauto

theorem in_bin {c : Cmd} (hc : c ∈ binBlock q q.left) : c ∈ spectrumBlock F q q.left ++ binBlock q q.left :=
  List.mem_append_right _ hc

/-- Events of the whole. -/
def evAll (full full' : Bool) (t : St R) : List (Ev R) :=
  evPre q q.left full ++ evEnergy F q q.left ++ evString q q.left full' ++
    trace F pos q (spectrumBlock F q q.left ++ binBlock q q.left) t

section

variable {F pos q} {full full' : Bool} {t : St R} {n : Name}

theorem all_pre (h : Named (evPre q q.left full) n) : Named (evAll F pos q full full' t) n :=
  front_left (front_left (front_left h))

theorem all_energy (h : Named (evEnergy F q q.left) n) : Named (evAll F pos q full full' t) n :=
  front_left (front_left ((named_append _ _ _).2 (.inr h)))

theorem all_string (h : Named (evString q q.left full') n) : Named (evAll F pos q full full' t) n :=
  front_left ((named_append _ _ _).2 (.inr h))

theorem all_tail (c : Cmd) (hc : c ∈ spectrumBlock F q q.left ++ binBlock q q.left)
    (hn : Sk.put n ∈ names F pos q t.grp c ∨ Sk.hard n ∈ names F pos q t.grp c) :
    Named (evAll F pos q full full' t) n :=
  (named_append _ _ _).2 (.inr (tail_named F pos q hc hn))

theorem all_map (he : EnergyMap q) (h : Named (evMap F q q.left) n) : Named (evAll F pos q full full' t) n := by
  refine all_energy ?_
  rw [evEnergy, named_when, need_iff, named_append, if_pos ((needM2_iff q).2 he)]
  exact ⟨.inl he, .inl h⟩

theorem pow_energy (h : Pow q) : EnergyMap q := by
  rcases h with h | h | h
  · exact .inr (.inr (.inr (.inl h)))
  · exact .inr (.inr (.inl h))
  · exact .inr (.inr (.inr (.inr (.inr (.inl h)))))

theorem plane_energy (h : PlaneE q) : EnergyMap q :=
  .inr (.inr (.inr (.inr (.inr (.inr h)))))

theorem all_spec (hp : Pow q) (h : Named (evSpec F q q.left) n) : Named (evAll F pos q full full' t) n := by
  refine all_map (pow_energy hp) ?_
  rw [evMap, named_append, named_when, pow3_iff]
  exact .inr ⟨hp, h⟩

theorem all_pow (hp : Pow q) (h : Named (evPowers F q) n) : Named (evAll F pos q full full' t) n := by
  refine all_spec hp ?_
  rw [evSpec, named_append, named_append]
  exact .inl (.inl h)

theorem all_group (hg : Group q) : Named (evAll F pos q full full' t) ⟨"/string", []⟩ := by
  rcases hg with ⟨hf, hg⟩ | hg
  · refine all_string ?_
    rw [evString, named_when, beq_iff_eq]
    refine ⟨hf, ?_⟩
    by_cases c : on q.left STRINGCOO = true
    · rw [if_pos c]; simp [named_append, named_put]
    · rw [if_neg c]
      by_cases d : on q.left STRINGMAP = true
      · rw [if_pos d, named_when, named_put]
        refine ⟨?_, .inl rfl⟩
        rw [coo_iff] at c; rw [smap_iff] at d
        rcases hg with hg | hg | hg
        · exact absurd hg c
        · exact hg.2
        · exact absurd d hg.1
      · rw [if_neg d, named_when, named_put]
        refine ⟨?_, .inl rfl⟩
        rw [coo_iff] at c; rw [smap_iff] at d
        rcases hg with hg | hg | hg
        · exact absurd hg c
        · exact absurd hg.1 d
        · rw [← mask_iff] at hg
          simpa using hg.2
  · exact all_pre (by simp [evPre, named_append, named_when, named_put, grp0_iff, hg])

theorem all_sets {k : M} {l : List String} {m : String} (h : NeedsRadius q → q.radii ≠ []) (hN : Numbers q)
    (hu : Used q k) (hk : k ≠ .axitv) (hcall : Called F q k l)
    (hc : ∀ i, Cmd.array ⟨"/eSpectrum", m :: preLabel F q k i⟩ .N ∈ round F q q.left k i) :
    Named (evAll F pos q full full' t) ⟨"/eSpectrum", m :: l⟩ := by
  obtain ⟨i, hi, rfl⟩ := (called_iff F q _ (radii_of q h hu hk (.inr hN)) _).2 hcall
  exact all_tail _ (in_round F q hN hu hk hi (hc i)) (.inl (by simp only [names]; exact List.mem_singleton.2 rfl))

theorem in_lut {k : M} (hs : ¬ Skipped q k) {m : String} {b j : ℕ} {ms : Bool} (hj : j < 4) (e : b = 2 ^ j)
    (hb : Bit q.nrt j) (hm : ms = true → q.massive = true)
    (hl : (b, m, ms) ∈ [(1, "sK", false), (2, "sG", false), (4, "sV", true), (8, "sS", true)]) (i : ℕ) :
    Cmd.array ⟨"/eSpectrum", m :: preLabel F q k i⟩ .N ∈ round F q q.left k i := by
  rw [mem_round]
  refine .inr (.inr ⟨hs, .inl ⟨?_, .inr ((mem_nsets F q _ _ _ _).2 ⟨b, m, ms, hl, (nrt_iff q e).2 hb, hm, rfl⟩)⟩⟩)
  rw [show (15 : ℕ) = 2 ^ 0 ||| 2 ^ 1 ||| 2 ^ 2 ||| 2 ^ 3 by decide]
  simp only [on_or, Bool.or_eq_true, on_pow]
  obtain rfl | rfl | rfl | rfl : j = 0 ∨ j = 1 ∨ j = 2 ∨ j = 3 := by omega
  · exact .inl (.inl (.inl hb))
  · exact .inl (.inl (.inr hb))
  · exact .inl (.inr hb)
  · exact .inr hb

theorem in_pure {k : M} (hs : ¬ Skipped q k) {m : String} {b j : ℕ} {ms : Bool} (h4 : 4 ≤ j) (hj : j < 8)
    (e : b = 2 ^ j) (hb : Bit q.nrt j) (hm : ms = true → q.massive = true)
    (hl : (b, m, ms) ∈ [(16, "sCK", false), (32, "sCG", false), (64, "sCV", true), (128, "sCS", true)]) (i : ℕ) :
    Cmd.array ⟨"/eSpectrum", m :: preLabel F q k i⟩ .N ∈ round F q q.left k i := by
  rw [mem_round]
  refine .inr (.inr ⟨hs, .inr (.inl ⟨?_, .inr ((mem_nsets F q _ _ _ _).2
    ⟨b, m, ms, hl, (nrt_iff q e).2 hb, hm, rfl⟩)⟩)⟩)
  rw [show (240 : ℕ) = 2 ^ 4 ||| 2 ^ 5 ||| 2 ^ 6 ||| 2 ^ 7 by decide]
  simp only [on_or, Bool.or_eq_true, on_pow]
  obtain rfl | rfl | rfl | rfl : j = 4 ∨ j = 5 ∨ j = 6 ∨ j = 7 := by omega
  · exact .inl (.inl (.inl hb))
  · exact .inl (.inl (.inr hb))
  · exact .inl (.inr hb)
  · exact .inr hb

theorem in_sax {k : M} (hs : ¬ Skipped q k) {m : String} {b j : ℕ} (hf : q.field = .saxion) (h17 : Bit q.meas 17)
    (e : b = 2 ^ j) (hb : Bit q.nrt j)
    (hl : (b, m, false) ∈ [(1, "sKS", false), (2, "sGS", false), (4, "sVS", false)]) (i : ℕ) :
    Cmd.array ⟨"/eSpectrum", m :: preLabel F q k i⟩ .N ∈ round F q q.left k i := by
  rw [mem_round]
  exact .inr (.inr ⟨hs, .inr (.inr ⟨⟨hf, (on_left (show NSP_S = 2 ^ 17 from rfl) (by decide)).2 h17⟩, .inr
    ((mem_nsets F q _ _ _ _).2 ⟨b, m, false, hl, (nrt_iff q e).2 hb, fun h => Bool.noConfusion h, rfl⟩)⟩)⟩)

theorem all_W {k : M} {l : List String} (h : NeedsRadius q → q.radii ≠ []) (hu : Used q k) (hf : k ≠ .flat)
    (hk : k ≠ .axitv) (hm : Bit q.meas 13 ∨ (Numbers q ∧ k ≠ .axit2)) (hcall : Called F q k l) :
    Named (evAll F pos q full full' t) ⟨"/mSpectrum", "W" :: l⟩ := by
  by_cases h13 : Bit q.meas 13
  · obtain ⟨i, hi, rfl⟩ := (called_iff F q _ (radii_of q h hu hk (.inl h13)) _).2 hcall
    exact all_tail _ (in_mask F q h13 hu hf hk hi (.inl rfl)) (.inl (by simp only [names]; exact List.mem_singleton.2 rfl))
  · obtain ⟨hN, h2⟩ := hm.resolve_left h13
    obtain ⟨i, hi, rfl⟩ := (called_iff F q _ (radii_of q h hu hk (.inr hN)) _).2 hcall
    refine all_tail (.array ⟨"/mSpectrum", "W" :: preLabel F q k i⟩ .P) (in_round F q hN hu hk hi ?_)
      (.inl (by simp only [names]; exact List.mem_singleton.2 rfl))
    rw [mem_round]
    refine .inr (.inl ⟨(prnt_iff _).2 ⟨hf, h2⟩, .inr (.inl ⟨?_, rfl⟩)⟩)
    rw [← mask_iff] at h13
    simpa using h13

theorem all_Wmap {k : M} {l : List String} (h : NeedsRadius q → q.radii ≠ []) (hu : Used q k) (hf : k ≠ .flat)
    (hk : k ≠ .axitv) (h13 : Bit q.meas 13) (hcall : Called F q k l) :
    Named (evAll F pos q full full' t) ⟨"/map", "W" :: l⟩ := by
  obtain ⟨i, hi, rfl⟩ := (called_iff F q _ (radii_of q h hu hk (.inl h13)) _).2 hcall
  exact all_tail _ (in_mask F q h13 hu hf hk hi (.inr rfl)) (.inr (by simp only [names]; exact List.mem_singleton.2 rfl))

theorem all_strEnergy {r : R} (ht : Group q → t.grp = true) (hN : Numbers q) (hu : Used q .redo)
    (h4 : Bit q.strmeas 2) (hg : Group q) (hr : r ∈ q.radii) :
    Named (evAll F pos q full full' t) ⟨"/string", ["rmask", F.lab r]⟩ := by
  have hne : q.radii ≠ [] := List.ne_nil_of_mem hr
  obtain ⟨i, hi, he⟩ := (exists_radius F q hne (fun x => x = F.lab r)).2 ⟨_, hr, rfl⟩
  refine all_tail (.strEnergy i) (in_round F q hN hu (by decide) (i := i) hi ?_) ?_
  · rw [mem_round]
    exact .inr (.inl ⟨rfl, .inr (.inr (.inl ⟨(on_lit (show 4 = 2 ^ 2 from rfl)).2 h4, rfl, rfl⟩))⟩)
  · simp only [names, ht hg, if_true, he, List.mem_singleton]
    exact .inl trivial

theorem all_maskedEnergy {r : R} (hN : Numbers q) (hu : Used q .redo) (hr : r ∈ q.radii) (hp : pos r = true) :
    Named (evAll F pos q full full' t) ⟨"/energy", ["Redmask", F.lab r]⟩ := by
  obtain ⟨i, hi, rfl⟩ := List.getElem_of_mem hr
  have hne : q.radii ≠ [] := List.ne_nil_of_mem hr
  have hi' : i ∈ List.range q.irmask := by rw [irmask_eq q hne]; exact List.mem_range.2 hi
  refine all_tail (.maskedEnergy i) (in_round F q hN hu (by decide) (i := i) hi' ?_) ?_
  · rw [mem_round]
    exact .inr (.inl ⟨rfl, .inr (.inr (.inr ⟨rfl, rfl⟩))⟩)
  · simp only [names, List.getElem?_eq_getElem hi, hp, if_true, List.mem_singleton]
    exact .inl trivial

theorem masked_named {r : R} {k : M} {s : String} (h2 : q.field = .axion) (h3 : Used q k) (hr : r ∈ q.radii) :
    Named (evMasked q k (fun i => [s, rlab F q i]) true) ⟨"/pSpectrum", [s, F.lab r]⟩ := by
  have hne : q.radii ≠ [] := List.ne_nil_of_mem hr
  obtain ⟨i, hi, he⟩ := (exists_radius F q hne (fun x => x = F.lab r)).2 ⟨_, hr, rfl⟩
  rw [evMasked, named_when, named_flatMap]
  refine ⟨by simp [h2, (eff_bit q _).2 h3], i, hi, ?_⟩
  rw [named_append, named_put, he]
  exact .inr (.inl rfl)

theorem maskedV_named {k : M} {s : String} (h2 : q.field = .axion) (h3 : Used q k) :
    Named (evMasked q k (fun _ => [s]) false) ⟨"/pSpectrum", [s]⟩ := by
  rw [evMasked, named_when, named_flatMap]
  obtain ⟨m, hm⟩ := irmask_pos q
  refine ⟨by simp [h2, (eff_bit q _).2 h3], 0, by simp [hm], ?_⟩
  rw [named_append, named_put]
  exact .inr (.inl rfl)

theorem all_strMap (h1 : (q.field = .saxion ∧ Bit q.meas 6 ∧ (Bit q.meas 7 ∨ q.few)) ∨
      (q.field = .axion ∧ q.mend ∧ Bit q.meas 13)) : Named (evAll F pos q full full' t) ⟨"/string", ["data"]⟩ := by
  rcases h1 with ⟨hf, h6, h7⟩ | h1
  · refine all_string ?_
    rw [evString, named_when, beq_iff_eq]
    refine ⟨hf, ?_⟩
    by_cases c : on q.left STRINGCOO = true
    · rw [if_pos c]; simp [named_append, named_when, named_put, (smap_iff q).2 h6]
    · rw [if_neg c, if_pos ((smap_iff q).2 h6), named_when, named_put, named_put]
      rw [coo_iff] at c
      exact ⟨h7.resolve_left c, .inr (.inl rfl)⟩
  · exact all_pre (by simp [evPre, named_append, named_when, named_put, grp0_iff, h1])

theorem all_proj (h1 : Bit q.maps 10 ∨ Bit q.maps 11) : Named (evAll F pos q full full' t) ⟨"/map", ["P"]⟩ := by
  refine all_map (plane_energy ?_) ?_
  · rcases h1 with h1 | h1
    · exact .inl h1
    · exact .inr (.inl h1)
  · simp only [evMap, named_append, named_when, named_hard, named_put, named_nil, or_false,
      on_lit (w := q.maps) (show XYPE = 2 ^ 10 from rfl),
      on_lit (w := q.maps) (show XYPE2 = 2 ^ 11 from rfl)]
    rcases h1 with h1 | h1
    · exact .inl (.inl (.inr ⟨h1, trivial⟩))
    · exact .inl (.inr ⟨h1, trivial⟩)

theorem all_modes (hN : Numbers q) (hi : q.index = 0 ∨ Bit q.meas 18) {c : Cmd} (hc : c = .modes ∨ c = .meank) :
    c ∈ spectrumBlock F q q.left ++ binBlock q q.left := by
  refine List.mem_append_left _ ?_
  rw [mem_spectrum, mem_numberPass, numbers_iff, on_left (q := q) (show NNSPEC = 2 ^ 18 from rfl) (by decide)]
  exact ⟨spectrum_of q (.inr hN), .inr (.inr ⟨hN, .inr ⟨hi, hc⟩⟩)⟩

end

theorem item_named (full full' : Bool) (t : St R) (ht : Group q → t.grp = true)
    (h : NeedsRadius q → q.radii ≠ []) {n : Name} (hi : Item F pos q n) : Named (evAll F pos q full full' t) n := by
  cases hi with
  | accel h1 => exact all_pre (by simp [evPre, named_append, named_when, named_put, h1])
  | m h1 => exact all_pre (by simp [evPre, named_append, named_when, named_hard, xymv_iff, h1])
  | v h1 => exact all_pre (by simp [evPre, named_append, named_when, named_hard, xymv_iff, h1])
  | mp h1 => exact all_pre (by simp [evPre, named_append, named_when, named_hard, yzmv_iff, h1])
  | vp h1 => exact all_pre (by simp [evPre, named_append, named_when, named_hard, yzmv_iff, h1])
  | density h1 =>
    refine all_map (.inr (.inl h1)) ?_
    simp [evMap, named_append, named_when, named_hard,
      on_left (q := q) (show ENERGY3DMAP = 2 ^ 9 from rfl) (by decide), h1]
  | contrast h1 =>
    refine all_map (.inl h1) ?_
    simp [evMap, named_append, named_when, named_put,
      on_left (q := q) (show BINDELTA = 2 ^ 3 from rfl) (by decide), h1]
  | plane h1 =>
    refine all_map (plane_energy (.inr (.inr h1))) ?_
    simp [evMap, named_append, named_when, named_hard,
      on_lit (w := q.maps) (show XYE = 2 ^ 16 from rfl), h1]
  | proj h1 => exact all_proj h1
  | averages h1 =>
    refine all_energy ?_
    rw [evEnergy, named_when, need_iff, named_append, named_put]
    exact ⟨h1, .inr (.inl rfl)⟩
  | masked h1 h2 h3 hr =>
    refine all_pow h1 ?_
    rw [evPowers, named_append, named_append, named_append]
    exact .inl (.inl (.inl (masked_named h2 h3 hr)))
  | masked2 h1 h2 h3 hr =>
    refine all_pow h1 ?_
    rw [evPowers, named_append, named_append, named_append]
    exact .inl (.inl (.inr (masked_named h2 h3 hr)))
  | maskedV h1 h2 h3 =>
    refine all_pow h1 ?_
    rw [evPowers, named_append, named_append, named_append]
    exact .inl (.inr (maskedV_named h2 h3))
  | power h1 =>
    refine all_pow h1 ?_
    rw [evPowers, named_append, named_put]
    exact .inr (.inl rfl)
  | smoothed h1 h2 =>
    refine all_spec (.inr (.inr h1)) ?_
    rw [evSpec, named_append, named_append, named_when, evMulti, named_flatMap]
    refine .inl (.inr ⟨(multi_iff q).2 h1, _, List.mem_range.2 (Nat.lt_succ_of_le h2), ?_⟩)
    rw [named_put]; exact .inl rfl
  | smoothedMap h1 h2 =>
    refine all_spec (.inr (.inr h1)) ?_
    rw [evSpec, named_append, named_append, named_when, evMulti, named_flatMap]
    refine .inl (.inr ⟨(multi_iff q).2 h1, _, List.mem_range.2 (Nat.lt_succ_of_le h2), ?_⟩)
    rw [named_put, named_hard]; exact .inr (.inl rfl)
  | reduced h1 h2 =>
    refine all_spec (.inr (.inl h1.1)) ?_
    rw [evSpec, named_append, named_when, reds_iff, named_hard,
      if_neg (fun hc => h2 ((multi_iff q).1 hc))]
    exact .inr ⟨h1, .inl rfl⟩
  | notReduced h1 h2 =>
    refine all_spec (.inr (.inl h1.1)) ?_
    rw [evSpec, named_append, named_when, reds_iff, named_hard, if_pos ((multi_iff q).2 h2)]
    exact .inr ⟨h1, .inl rfl⟩
  | strings h1 => exact all_group h1
  | map h1 => exact all_strMap h1
  | coords hf h7 =>
    refine all_string ?_
    rw [evString, named_when, beq_iff_eq, if_pos ((coo_iff q).2 h7), named_append, named_put]
    exact ⟨hf, .inr (.inl rfl)⟩
  | W hu hf hk hm hcall => exact all_W h hu hf hk hm hcall
  | Wmap hu hf hk h13 hcall => exact all_Wmap h hu hf hk h13 hcall
  | strEnergy hN hu h4 hg hr => exact all_strEnergy ht hN hu h4 hg hr
  | maskedEnergy hN hu hr hp => exact all_maskedEnergy hN hu hr hp
  | num hN hu hk hs hcall hb hl =>
    simp only [List.mem_cons, Prod.mk.injEq, List.not_mem_nil, or_false] at hl
    rcases hl with ⟨rfl, rfl⟩ | ⟨rfl, rfl⟩ | ⟨rfl, rfl⟩ | ⟨rfl, rfl⟩
    · exact all_sets h hN hu hk hcall (in_lut hs (b := 1) (ms := false) (by decide) rfl hb (by simp) (by simp))
    · exact all_sets h hN hu hk hcall (in_lut hs (b := 2) (ms := false) (by decide) rfl hb (by simp) (by simp))
    · exact all_sets h hN hu hk hcall (in_pure hs (b := 16) (ms := false) (by decide) (by decide) rfl hb (by simp) (by simp))
    · exact all_sets h hN hu hk hcall (in_pure hs (b := 32) (ms := false) (by decide) (by decide) rfl hb (by simp) (by simp))
  | numV hN hu hk hs hcall hb hms hl =>
    simp only [List.mem_cons, Prod.mk.injEq, List.not_mem_nil, or_false] at hl
    rcases hl with ⟨rfl, rfl⟩ | ⟨rfl, rfl⟩ | ⟨rfl, rfl⟩ | ⟨rfl, rfl⟩
    · exact all_sets h hN hu hk hcall (in_lut hs (b := 4) (ms := true) (by decide) rfl hb (fun _ => hms) (by simp))
    · exact all_sets h hN hu hk hcall (in_lut hs (b := 8) (ms := true) (by decide) rfl hb (fun _ => hms) (by simp))
    · exact all_sets h hN hu hk hcall (in_pure hs (b := 64) (ms := true) (by decide) (by decide) rfl hb (fun _ => hms) (by simp))
    · exact all_sets h hN hu hk hcall (in_pure hs (b := 128) (ms := true) (by decide) (by decide) rfl hb (fun _ => hms) (by simp))
  | numS hf h17 hu hk hs hcall hb hl =>
    have hN : Numbers q := .inr (.inl h17)
    simp only [List.mem_cons, Prod.mk.injEq, List.not_mem_nil, or_false] at hl
    rcases hl with ⟨rfl, rfl⟩ | ⟨rfl, rfl⟩ | ⟨rfl, rfl⟩
    · exact all_sets h hN hu hk hcall (in_sax hs (b := 1) hf h17 rfl hb (by simp))
    · exact all_sets h hN hu hk hcall (in_sax hs (b := 2) hf h17 rfl hb (by simp))
    · exact all_sets h hN hu hk hcall (in_sax hs (b := 4) hf h17 rfl hb (by simp))
  | modes hN hi => exact all_tail .modes (all_modes hN hi (.inl rfl)) (by simp [names])
  | meank hN hi => exact all_tail .meank (all_modes hN hi (.inr rfl)) (by simp [names])
  | theta h1 h2 => exact all_tail (.hist "thetaB") (in_bin F q ((mem_bin q _).2 (by simp [h1, h2]))) (by simp [names])
  | rho h1 h2 => exact all_tail (.hist "rhoB") (in_bin F q ((mem_bin q _).2 (by simp [h1, h2]))) (by simp [names])
  | log h1 h2 => exact all_tail (.hist "logtheta2B") (in_bin F q ((mem_bin q _).2 (by simp [h1, h2]))) (by simp [names])
  | p2 h1 h2 => exact all_tail (.hist "thetaP2") (in_bin F q ((mem_bin q _).2 (by simp [h1, h2]))) (by simp [names])

/-! ### Reading outside the labels -/

theorem mem_ubAt (i : ℕ) : Ev.ub ∈ ubAt q i ↔ q.radii.length ≤ i := by
  unfold ubAt; split <;> simp [*]

theorem range_ub : (∃ i ∈ List.range q.irmask, q.radii.length ≤ i) ↔ q.radii = [] := by
  unfold Req.irmask
  constructor
  · rintro ⟨i, hi, hl⟩
    split at hi
    · rename_i h; simpa using h
    · have := List.mem_range.1 hi; omega
  · intro h
    exact ⟨0, by simp [h], by simp [h]⟩

theorem ub_masked (k : M) (name : ℕ → List String) (lab : Bool) :
    Ev.ub ∈ evMasked q k name lab ↔ q.field = .axion ∧ Used q k ∧ lab = true ∧ q.radii = [] := by
  unfold evMasked
  rw [mem_when, List.mem_flatMap]
  simp only [List.mem_append, mem_when, mem_ubAt, List.mem_singleton, reduceCtorEq, or_false, Bool.and_eq_true,
    beq_iff_eq, eff_bit, and_assoc]
  rw [← range_ub q]
  constructor
  · rintro ⟨h1, h2, i, h3, h4, h5⟩; exact ⟨h1, h2, h4, i, h3, h5⟩
  · rintro ⟨h1, h2, h4, i, h3, h5⟩; exact ⟨h1, h2, i, h3, h4, h5⟩

theorem ub_names (g : Bool) (c : Cmd) :
    Sk.ub ∈ names F pos q g c ↔ ∃ i, c = .label i ∧ q.radii.length ≤ i := by
  cases c <;> simp only [names]
  case label i => split <;> simp_all
  case strEnergy i => split <;> simp
  case maskedEnergy i =>
    cases q.radii[i]? with
    | none => simp
    | some r => dsimp only; split <;> simp
  all_goals simp

theorem rounds_ub (k : M) : (∃ i ∈ q.rounds k, k.mul = true ∧ q.radii.length ≤ i) ↔
    k.mul = true ∧ q.radii = [] := by
  unfold Req.rounds
  by_cases h : k.mul = true
  · simp only [h, if_true, true_and]; exact range_ub q
  · simp [h]

theorem label_round (a : ℕ) (k : M) (i j : ℕ) : Cmd.label j ∈ round F q a k i ↔ k.mul = true ∧ j = i := by
  rw [mem_round]
  simp [mem_nsets]

theorem ub_energy : Ev.ub ∈ evEnergy F q q.left ↔
    Pow q ∧ q.field = .axion ∧ (Used q .axit ∨ Used q .axit2) ∧ q.radii = [] := by
  have hm : Ev.ub ∉ evMulti F q := by simp [evMulti]
  have hp : Ev.ub ∈ evPowers F q ↔ q.field = .axion ∧ (Used q .axit ∨ Used q .axit2) ∧ q.radii = [] := by
    unfold evPowers
    simp only [List.mem_append, ub_masked, List.mem_singleton, reduceCtorEq, or_false, Bool.false_eq_true, false_and,
      and_false, true_and]
    constructor
    · rintro (⟨a, b, c⟩ | ⟨a, b, c⟩)
      · exact ⟨a, .inl b, c⟩
      · exact ⟨a, .inr b, c⟩
    · rintro ⟨a, b | b, c⟩
      · exact .inl ⟨a, b, c⟩
      · exact .inr ⟨a, b, c⟩
  have hs : Ev.ub ∈ evSpec F q q.left ↔ Ev.ub ∈ evPowers F q := by
    simp [evSpec, mem_when, hm]
  have hM : Ev.ub ∈ evMap F q q.left ↔ Pow q ∧ Ev.ub ∈ evSpec F q q.left := by
    simp [evMap, mem_when, pow3_iff]
  rw [evEnergy, mem_when, need_iff, List.mem_append, List.mem_singleton]
  by_cases c : needM2 q q.left = true
  · rw [if_pos c, hM, hs, hp]
    have := (needM2_iff q).1 c
    simp [this]
  · rw [if_neg c]
    rw [needM2_iff] at c
    have : ¬ Pow q := fun h => c (pow_energy h)
    simp [this]

theorem ub_tail (t : St R) : Ev.ub ∈ trace F pos q (spectrumBlock F q q.left ++ binBlock q q.left) t ↔
    ((Bit q.meas 13 ∨ Numbers q) ∧ ∃ k, ¬ Plain k ∧ k ≠ .axitv ∧ Used q k) ∧ q.radii = [] := by
  rw [ub_sk, fixed_trace F pos q _ (tail_fixed F q q.left), List.mem_flatMap]
  simp only [ub_names]
  constructor
  · rintro ⟨c, hc, i, rfl, hi⟩
    rcases List.mem_append.1 hc with hc | hc
    · rw [mem_spectrum] at hc
      obtain ⟨_, hc | ⟨h13, hc⟩ | hc⟩ := hc
      · cases hc
      · rw [mem_maskPass] at hc
        obtain ⟨k, hk, hu, j, hj, hc⟩ := hc
        simp only [Cmd.label.injEq, reduceCtorEq, or_false] at hc
        obtain ⟨hm, rfl⟩ := hc
        have := (rounds_ub q k).1 ⟨i, hj, hm, hi⟩
        exact ⟨⟨.inl h13, k, (mul_iff k).1 hm, ((mem8 k).1 hk).2, hu⟩, this.2⟩
      · rw [mem_numberPass, numbers_iff] at hc
        obtain ⟨hN, ⟨k, hk, hu, j, hj, hc⟩ | ⟨_, hc | hc⟩⟩ := hc
        · rw [label_round] at hc
          obtain ⟨hm, rfl⟩ := hc
          have := (rounds_ub q k).1 ⟨i, hj, hm, hi⟩
          exact ⟨⟨.inr hN, k, (mul_iff k).1 hm, (mem9 k).1 hk, hu⟩, this.2⟩
        · cases hc
        · cases hc
    · rw [mem_bin] at hc
      simp at hc
  · rintro ⟨⟨hm, k, hp, hk, hu⟩, hr⟩
    have hmul := (mul_iff k).2 hp
    obtain ⟨i, hi, _, hl⟩ := (rounds_ub q k).2 ⟨hmul, hr⟩
    refine ⟨.label i, List.mem_append_left _ ?_, i, rfl, hl⟩
    rw [mem_spectrum]
    refine ⟨spectrum_of q hm, .inr ?_⟩
    rcases hm with h13 | hN
    · left
      refine ⟨h13, ?_⟩
      rw [mem_maskPass]
      refine ⟨k, (mem8 k).2 ⟨?_, hk⟩, hu, i, hi, .inl ⟨hmul, rfl⟩⟩
      rintro rfl; cases hmul
    · right
      rw [mem_numberPass, numbers_iff]
      exact ⟨hN, .inl ⟨k, (mem9 k).2 hk, hu, i, hi, (label_round F q _ k i i).2 ⟨hmul, rfl⟩⟩⟩

theorem ub_iff (full full' : Bool) (t : St R) :
    Ev.ub ∈ evAll F pos q full full' t ↔ NeedsRadius q ∧ q.radii = [] := by
  have h1 : Ev.ub ∉ evPre q q.left full := by
    simp [evPre, mem_when]
  have h2 : Ev.ub ∉ evString q q.left full' := by
    unfold evString
    rw [mem_when]
    split
    · simp [mem_when]
    · split <;> simp [mem_when]
  rw [evAll, List.mem_append, List.mem_append, List.mem_append, ub_energy, ub_tail, NeedsRadius]
  constructor
  · rintro (((h | ⟨a, b, c, d⟩) | h) | ⟨a, d⟩)
    · exact absurd h h1
    · exact ⟨.inl ⟨a, b, c⟩, d⟩
    · exact absurd h h2
    · exact ⟨.inr a, d⟩
  · rintro ⟨⟨a, b, c⟩ | a, d⟩
    · exact .inl (.inl (.inr ⟨a, b, c, d⟩))
    · exact .inr ⟨a, d⟩

end Jaxions.MeasRun
