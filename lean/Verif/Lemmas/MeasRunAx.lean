import Verif.Lemmas.MeasRunSax

/-
Values of the spectra: the angle, and the other kinds.
-/

namespace Jaxions.MeasRun

variable {R : Type} (F : Fmt R) (pos : R → Bool) (q : Req R)

/-- The energy `masker` starts from. -/
def takes (s : St R) : Option (Body R) :=
  if s.m2.1 = .energy then some s.m2.2 else if s.m2h.1 = .energy then some s.m2h.2 else none

/-- The energy kept in the second half. -/
def held (s : St R) : Option (Body R) := if s.m2h.1 = .energy then some s.m2h.2 else none

/-- A mask is made from `o`. -/
def J (o : Option (Body R)) (s : St R) : Prop := takes s = o ∧ (o = none → s.P = .zero)

/-- The mask of axitons. -/
def amk (e : Body R) (k : M) (i : ℕ) : Msk R := ⟨k, q.radii[i]?, e.isEnergy⟩

/-- The spectrum of a mask of axitons. -/
def aPower (o : Option (Body R)) (k : M) (i : ℕ) : Power R :=
  match o with
  | some e => .masked (amk q e k i)
  | none => .zero

theorem masker_ax {o : Option (Body R)} {k : M} (hk : k = .axit ∨ k = .axit2) (i : ℕ) {out : Out} (ho : out ≠ .energy)
    {s : St R} (hs : J o s) :
    let t := masker .axion k q.radii[i]? out s
    J o t ∧ held t = (if o = none then held s else o) ∧ t.P = aPower q o k i ∧
      (∀ e, o = some e → out = .mask → t.m2 = (.mask, .mask (amk q e k i))) ∧
      (∀ e, o = some e → out = .antimask → t.m2 = (.antimask, .antimask (amk q e k i))) := by
  obtain ⟨h1, h2⟩ := hs
  have hax : k.axiton = true := by rcases hk with rfl | rfl <;> rfl
  have hv : k ≠ .axitv := by rcases hk with rfl | rfl <;> decide
  intro t
  have ht : t = masker .axion k q.radii[i]? out s := rfl
  clear_value t
  unfold masker at ht
  dsimp only at ht
  rw [hax] at ht
  cases o with
  | none =>
    have hn : s.m2.1 ≠ .energy ∧ s.m2h.1 ≠ .energy := by
      unfold takes at h1
      split at h1
      · cases h1
      · split at h1
        · cases h1
        · exact ⟨‹_›, ‹_›⟩
    have hc : (!true || (s.m2.1 != .energy && s.m2h.1 != .energy)) = true := by simp [hn.1, hn.2]
    rw [hc, if_pos rfl] at ht
    subst ht
    exact ⟨⟨h1, h2⟩, by simp, h2 rfl, fun e h => (by cases h), fun e h => (by cases h)⟩
  | some e =>
    have hn : s.m2.1 = .energy ∨ s.m2h.1 = .energy := by
      by_contra hc
      rw [not_or] at hc
      unfold takes at h1
      rw [if_neg hc.1, if_neg hc.2] at h1
      cases h1
    have hc : (!true || (s.m2.1 != .energy && s.m2h.1 != .energy)) = false := by
      rcases hn with h | h <;> simp [h]
    have he : (if s.m2.1 = .energy then s.m2.2 else s.m2h.2) = e := by
      unfold takes at h1
      split at h1
      · rename_i h; rw [if_pos h]; exact Option.some.inj h1
      · rename_i h
        rw [if_neg h]
        split at h1
        · exact Option.some.inj h1
        · cases h1
    rw [hc, if_neg Bool.false_ne_true, he, if_neg hv] at ht
    subst ht
    refine ⟨⟨?_, by simp⟩, ?_, rfl, ?_, ?_⟩
    · cases out with
      | energy => exact absurd rfl ho
      | mask => simp [takes]
      | antimask => simp [takes]
    · simp [held]
    · intro e' h ho
      subst ho
      cases h
      rfl
    · intro e' h ho
      subst ho
      cases h
      rfl

theorem nRun_ax {k : M} (hk : k = .axit ∨ k = .flat) (h : How) (g : Bool) (s : St R) :
    let t := nRun .axion k h g s
    t.N = .run h k (seen .axion k s) ∧ t.m2 = (.dirty, .junk) ∧ t.m2h = s.m2h ∧ t.P = s.P := by
  rcases hk with rfl | rfl <;> simp [nRun, M.tagged, M.axiton]

theorem takes_dirty {s : St R} (h : s.m2.1 = .dirty) : takes s = held s := by
  unfold takes held; rw [h, if_neg (by decide)]

/-- The spectra of one round leave `held` and `P`; if a run was made, nothing is in `m2`. -/
def Quiet (ran : Bool) (s t : St R) : Prop :=
  t.m2h = s.m2h ∧ t.P = s.P ∧ (ran = true → t.m2 = (.dirty, .junk)) ∧ (ran = false → t.m2 = s.m2)

theorem Quiet.takes_of {ran : Bool} {s t : St R} (h : Quiet ran s t) (hr : ran = true) : takes t = held s := by
  rw [takes_dirty (by rw [h.2.2.1 hr])]
  unfold held; rw [h.1]

theorem Quiet.same {s t : St R} (h : Quiet false s t) : takes t = takes s := by
  unfold takes; rw [h.1, h.2.2.2 rfl]

/-- The spectra of one radius: what they see. -/
theorem sets_ax (hf : q.field = .axion) {k : M} (hk : k = .axit ∨ k = .flat) (i : ℕ) (s : St R) :
    let cs := when (on q.nrt 15) ([.nRun k .lut (on q.nrt 2)] ++
        nsets F q k i [(1, "sK", false), (2, "sG", false), (4, "sV", true), (8, "sS", true)]) ++
     when (on q.nrt 240) ([.nRun k .pure (on q.nrt 32)] ++
        nsets F q k i [(16, "sCK", false), (32, "sCG", false), (64, "sCV", true), (128, "sCS", true)]) ++
     when (q.field == .saxion && on q.left NSP_S) ([.nSRun k] ++
        nsets F q k i [(1, "sKS", false), (2, "sGS", false), (4, "sVS", false)])
    (∀ e ∈ trace F pos q cs s, ∃ x v, e = .put ⟨"/eSpectrum", x :: preLabel F q k i⟩ v ∧
      ((x ∈ ["sK", "sG", "sV", "sS"] ∧ v = .num (.run .lut k (if k = .flat then .self else .array s.m2.2))) ∨
       (x ∈ ["sCK", "sCG", "sCV", "sCS"] ∧
         v = .num (.run .pure k (if k = .flat then .self
            else .array (if on q.nrt 15 then .junk else s.m2.2)))))) ∧
    Quiet (on q.nrt 15 || on q.nrt 240) s (after F pos q cs s) := by
  have hstep : ∀ (h : How) (g : Bool) (s : St R),
      after F pos q [.nRun k h g] s = nRun .axion k h g s ∧ trace F pos q [.nRun k h g] s = [] := by
    intro h g s
    rw [after_cons, after_nil, trace_cons, trace_nil]
    simp [step, hf]
  have hseen : ∀ u : St R, seen .axion k u = if k = .flat then .self else .array u.m2.2 := by
    intro u; rcases hk with rfl | rfl <;> rfl
  have A1 : ∃ s1, after F pos q (when (on q.nrt 15) ([.nRun k .lut (on q.nrt 2)] ++
        nsets F q k i [(1, "sK", false), (2, "sG", false), (4, "sV", true), (8, "sS", true)])) s = s1 ∧
      Quiet (on q.nrt 15) s s1 ∧
      ∀ e ∈ trace F pos q (when (on q.nrt 15) ([.nRun k .lut (on q.nrt 2)] ++
        nsets F q k i [(1, "sK", false), (2, "sG", false), (4, "sV", true), (8, "sS", true)])) s,
        ∃ x v, e = .put ⟨"/eSpectrum", x :: preLabel F q k i⟩ v ∧
      ((x ∈ ["sK", "sG", "sV", "sS"] ∧ v = .num (.run .lut k (if k = .flat then .self else .array s.m2.2))) ∨
       (x ∈ ["sCK", "sCG", "sCV", "sCS"] ∧
         v = .num (.run .pure k (if k = .flat then .self
            else .array (if on q.nrt 15 then .junk else s.m2.2))))) := by
    refine ⟨_, rfl, ?_⟩
    cases c : on q.nrt 15
    · exact ⟨⟨rfl, rfl, by simp, fun _ => rfl⟩, by simp [when, trace_nil]⟩
    · obtain ⟨n1, n2, n3, n4⟩ := nRun_ax hk .lut (on q.nrt 2) s
      simp only [when, if_true]
      rw [after_append, (hstep _ _ _).1, (nsets_ev F pos q k i _ _).2]
      refine ⟨⟨n3, n4, fun _ => n2, by simp⟩, ?_⟩
      refine all_app F pos q (by rw [(hstep _ _ _).2]; simp) ?_
      rw [(hstep _ _ _).1]
      intro e he
      obtain ⟨b', n, ms, h1, _, rfl⟩ := (nsets_ev F pos q k i _ _).1 e he
      refine ⟨n, _, rfl, .inl ⟨?_, by rw [n1, hseen]⟩⟩
      simp only [List.mem_cons, Prod.mk.injEq, List.not_mem_nil, or_false] at h1 ⊢
      rcases h1 with ⟨_, h, _⟩ | ⟨_, h, _⟩ | ⟨_, h, _⟩ | ⟨_, h, _⟩ <;> simp [h]
  obtain ⟨s1, a1, a2, a3⟩ := A1
  have A2 : Quiet (on q.nrt 15 || on q.nrt 240) s
        (after F pos q (when (on q.nrt 240) ([.nRun k .pure (on q.nrt 32)] ++
        nsets F q k i [(16, "sCK", false), (32, "sCG", false), (64, "sCV", true), (128, "sCS", true)])) s1) ∧
      ∀ e ∈ trace F pos q (when (on q.nrt 240) ([.nRun k .pure (on q.nrt 32)] ++
        nsets F q k i [(16, "sCK", false), (32, "sCG", false), (64, "sCV", true), (128, "sCS", true)])) s1,
        ∃ x v, e = .put ⟨"/eSpectrum", x :: preLabel F q k i⟩ v ∧
      ((x ∈ ["sK", "sG", "sV", "sS"] ∧ v = .num (.run .lut k (if k = .flat then .self else .array s.m2.2))) ∨
       (x ∈ ["sCK", "sCG", "sCV", "sCS"] ∧
         v = .num (.run .pure k (if k = .flat then .self
            else .array (if on q.nrt 15 then .junk else s.m2.2))))) := by
    cases c : on q.nrt 240
    · refine ⟨?_, by simp [when, trace_nil]⟩
      rw [Bool.or_false]
      exact a2
    · obtain ⟨n1, n2, n3, n4⟩ := nRun_ax hk .pure (on q.nrt 32) s1
      simp only [when, if_true]
      rw [after_append, (hstep _ _ _).1, (nsets_ev F pos q k i _ _).2, Bool.or_true]
      refine ⟨⟨n3.trans a2.1, n4.trans a2.2.1, fun _ => n2, by simp⟩, ?_⟩
      refine all_app F pos q (by rw [(hstep _ _ _).2]; simp) ?_
      rw [(hstep _ _ _).1]
      intro e he
      obtain ⟨b', n, ms, h1, _, rfl⟩ := (nsets_ev F pos q k i _ _).1 e he
      have hm : s1.m2.2 = if on q.nrt 15 then .junk else s.m2.2 := by
        by_cases c : on q.nrt 15 = true
        · rw [if_pos c, a2.2.2.1 c]
        · rw [if_neg c, a2.2.2.2 (by simpa using c)]
      refine ⟨n, _, rfl, .inr ⟨?_, by rw [n1, hseen, hm]⟩⟩
      simp only [List.mem_cons, Prod.mk.injEq, List.not_mem_nil, or_false] at h1 ⊢
      rcases h1 with ⟨_, h, _⟩ | ⟨_, h, _⟩ | ⟨_, h, _⟩ | ⟨_, h, _⟩ <;> simp [h]
  have c3 : (q.field == .saxion && on q.left NSP_S) = false := by rw [hf]; rfl
  intro cs
  change (∀ e ∈ trace F pos q (_ ++ _ ++ _) s, _) ∧ Quiet _ _ (after F pos q (_ ++ _ ++ _) s)
  rw [c3, after_append, after_append, a1]
  refine ⟨all_app F pos q (all_app F pos q a3 ?_) (by simp [when, trace_nil]), A2.1⟩
  rw [a1]; exact A2.2

/-- The values of the angle. -/
def AxQ (o : Option (Body R)) : Ev R → Prop
  | .put ⟨g, l⟩ v =>
    (g = "/mSpectrum" → ∃ k i, (k = .axit ∨ k = .axit2) ∧ Used q k ∧ i ∈ q.rounds k ∧ l = "W" :: preLabel F q k i ∧
      v = .power (aPower q o k i)) ∧
    (g = "/eSpectrum" → ∃ x k i, Used q k ∧ i ∈ q.rounds k ∧ l = x :: preLabel F q k i ∧
      (k = .axit2 ∨
       (k = .flat ∧ ((x ∈ ["sK", "sG", "sV", "sS"] ∧ v = .num (.run .lut k .self)) ∨
         (x ∈ ["sCK", "sCG", "sCV", "sCS"] ∧ v = .num (.run .pure k .self)))) ∨
       (k = .axit ∧ ∀ e, o = some e →
        ((x ∈ ["sK", "sG", "sV", "sS"] ∧ v = .num (.run .lut k (.array (.mask (amk q e k i))))) ∨
         (x ∈ ["sCK", "sCG", "sCV", "sCS"] ∧
           v = .num (.run .pure k (.array (if on q.nrt 15 then .junk else .mask (amk q e k i)))))))))
  | .hard ⟨g, l⟩ v => g = "/map" ∧ ∃ k i, (k = .axit ∨ k = .axit2) ∧ Used q k ∧ i ∈ q.rounds k ∧
      l = "W" :: preLabel F q k i ∧ ∀ e, o = some e → v = .proj (some (false, .antimask (amk q e k i)))
  | _ => True

theorem label_ev (k : M) (i : ℕ) (s : St R) (Q : Ev R → Prop) (hQ : Q .ub) :
    after F pos q (when k.mul [.label i]) s = s ∧ ∀ e ∈ trace F pos q (when k.mul [.label i]) s, Q e := by
  cases k.mul
  · exact ⟨rfl, by simp [when, trace_nil]⟩
  · refine ⟨rfl, ?_⟩
    intro e he
    simp only [when, if_true, trace_cons, trace_nil, step, List.append_nil] at he
    split at he
    · rw [List.mem_singleton] at he; subst he; exact hQ
    · simp at he

/-- The pass of the masks. -/
theorem maskRound_ax (hf : q.field = .axion) {o : Option (Body R)} {k : M} (hk : k = .axit ∨ k = .axit2)
    (hu : Used q k) (i : ℕ) (hi : i ∈ q.rounds k) {s : St R} (hs : J o s) :
    let cs := when k.mul [.label i] ++
      [.masker k i .antimask, .array ⟨"/mSpectrum", "W" :: preLabel F q k i⟩ .P, .project false,
        .pMap ⟨"/map", "W" :: preLabel F q k i⟩]
    (∀ e ∈ trace F pos q cs s, AxQ F q o e) ∧ J o (after F pos q cs s) ∧
      held (after F pos q cs s) = (if o = none then held s else o) := by
  obtain ⟨l1, l2⟩ := label_ev F pos q k i s (AxQ F q o) trivial
  obtain ⟨m1, m2, m3, -, m5⟩ := masker_ax q hk i (out := .antimask) (by decide) hs
  have key : ∀ u : St R, J o u → ∀ w : St R, w = (if u.m2.1 = .energy ∨ u.m2.1 = .antimask ∨ u.m2.1 = .mask ∨
      u.m2.1 = .smooth then { u with pj := some (false, u.m2.2) } else u) → J o w ∧ held w = held u := by
    rintro u hu w rfl
    split
    · exact ⟨hu, rfl⟩
    · exact ⟨hu, rfl⟩
  intro cs
  change (∀ e ∈ trace F pos q (_ ++ _) s, _) ∧ J o (after F pos q (_ ++ _) s) ∧ held (after F pos q (_ ++ _) s) = _
  rw [after_append, l1]
  refine ⟨all_app F pos q l2 ?_, ?_⟩
  · rw [l1]
    simp only [trace_cons, trace_nil, step, hf]
    generalize masker .axion k q.radii[i]? .antimask s = u at m1 m2 m3 m5
    intro e he
    simp only [List.nil_append, List.cons_append, List.mem_cons, List.not_mem_nil, or_false] at he
    rcases he with rfl | rfl
    · exact ⟨fun _ => ⟨k, i, hk, hu, hi, rfl, by rw [m3]⟩, by simp⟩
    · refine ⟨rfl, k, i, hk, hu, hi, rfl, ?_⟩
      intro e ho
      rw [m5 e ho rfl]
      rfl
  · simp only [after_cons, after_nil, step, hf]
    generalize masker .axion k q.radii[i]? .antimask s = u at m1 m2 m3 m5
    obtain ⟨k1, k2⟩ := key u m1 _ rfl
    exact ⟨k1, by rw [k2]; exact m2⟩

/-- A round of the mask of axitons. -/
theorem round_axit (hf : q.field = .axion) {o : Option (Body R)} (hu : Used q .axit) (i : ℕ)
    (hi : i ∈ q.rounds .axit) {s : St R} (hs : J o s) :
    (∀ e ∈ trace F pos q (round F q q.left .axit i) s, AxQ F q o e) ∧
      J o (after F pos q (round F q q.left .axit i) s) := by
  obtain ⟨l1, l2⟩ := label_ev F pos q .axit i s (AxQ F q o) trivial
  obtain ⟨m1, m2, m3, m4, -⟩ := masker_ax q (.inl rfl) i (out := .mask) (by decide) hs
  have hm : after F pos q [.masker .axit i .mask] s = masker .axion .axit q.radii[i]? .mask s ∧
      trace F pos q [.masker .axit i .mask] s = [] := by
    rw [after_cons, after_nil, trace_cons, trace_nil]; simp [step, hf]
  generalize masker .axion .axit q.radii[i]? .mask s = u at m1 m2 m3 m4 hm
  have er : round F q q.left .axit i = when M.axit.mul [.label i] ++ ([.masker .axit i .mask] ++
      (when (!(on q.left MASK)) [.array ⟨"/mSpectrum", "W" :: preLabel F q .axit i⟩ .P] ++
     (when (on q.nrt 15) ([.nRun .axit .lut (on q.nrt 2)] ++
        nsets F q .axit i [(1, "sK", false), (2, "sG", false), (4, "sV", true), (8, "sS", true)]) ++
     when (on q.nrt 240) ([.nRun .axit .pure (on q.nrt 32)] ++
        nsets F q .axit i [(16, "sCK", false), (32, "sCG", false), (64, "sCV", true), (128, "sCS", true)]) ++
     when (q.field == .saxion && on q.left NSP_S) ([.nSRun .axit] ++
        nsets F q .axit i [(1, "sKS", false), (2, "sGS", false), (4, "sVS", false)])))) := by
    unfold round
    have e1 : (on q.strmeas 4 && M.axit == .redo) = false := by simp
    have e2 : (M.axit == .redo) = false := by simp
    rw [e1, e2]
    simp [when, M.prnt]
  have ha : after F pos q (when (!(on q.left MASK)) [.array ⟨"/mSpectrum", "W" :: preLabel F q .axit i⟩ .P]) u = u := by
    rw [after_when]; split <;> rfl
  obtain ⟨s1, s2⟩ := sets_ax F pos q hf (.inl rfl : M.axit = .axit ∨ M.axit = .flat) i u
  rw [er]
  refine ⟨all_app F pos q l2 ?_, ?_⟩
  · rw [l1]
    refine all_app F pos q (by rw [hm.2]; simp) ?_
    rw [hm.1]
    refine all_app F pos q ?_ ?_
    · refine all_if F pos q fun _ e he => ?_
      have he : e = .put ⟨"/mSpectrum", "W" :: preLabel F q .axit i⟩ (.power u.P) := by
        simpa [trace_cons, trace_nil, step] using he
      subst he
      exact ⟨fun _ => ⟨.axit, i, .inl rfl, hu, hi, rfl, by rw [m3]⟩, by simp⟩
    · rw [ha]
      intro e he
      obtain ⟨x, v, rfl, h⟩ := s1 e he
      refine ⟨by simp, fun _ => ⟨x, .axit, i, hu, hi, rfl, .inr (.inr ⟨rfl, ?_⟩)⟩⟩
      intro e' ho
      have hb := m4 e' ho rfl
      simp only [reduceCtorEq, if_false, hb] at h
      exact h
  · rw [after_append, l1, after_append, hm.1, after_append, ha]
    by_cases ho : o = none
    · -- nothing was made
      have hno : held u = none := by
        have := m1.1
        unfold takes at this
        unfold held
        split at this
        · rw [ho] at this; cases this
        · rw [ho] at this; exact this
      refine ⟨?_, fun h => by rw [s2.2.1]; exact m1.2 h⟩
      cases c : (on q.nrt 15 || on q.nrt 240)
      · rw [c] at s2; rw [s2.same]; exact m1.1
      · rw [c] at s2; rw [s2.takes_of rfl, hno, ho]
    · rw [if_neg ho] at m2
      refine ⟨?_, fun h => absurd h ho⟩
      cases c : (on q.nrt 15 || on q.nrt 240)
      · rw [c] at s2; rw [s2.same]; exact m1.1
      · rw [c] at s2; rw [s2.takes_of rfl, m2]

/-- The round without a mask. -/
theorem round_flat (hf : q.field = .axion) {o : Option (Body R)} (hu : Used q .flat) (i : ℕ)
    (hi : i ∈ q.rounds .flat) (s : St R) :
    (∀ e ∈ trace F pos q (round F q q.left .flat i) s, AxQ F q o e) ∧
      Quiet (on q.nrt 15 || on q.nrt 240) s (after F pos q (round F q q.left .flat i) s) := by
  have er : round F q q.left .flat i =
     (when (on q.nrt 15) ([.nRun .flat .lut (on q.nrt 2)] ++
        nsets F q .flat i [(1, "sK", false), (2, "sG", false), (4, "sV", true), (8, "sS", true)]) ++
     when (on q.nrt 240) ([.nRun .flat .pure (on q.nrt 32)] ++
        nsets F q .flat i [(16, "sCK", false), (32, "sCG", false), (64, "sCV", true), (128, "sCS", true)]) ++
     when (q.field == .saxion && on q.left NSP_S) ([.nSRun .flat] ++
        nsets F q .flat i [(1, "sKS", false), (2, "sGS", false), (4, "sVS", false)])) := by
    unfold round
    simp [when, M.prnt, M.mul]
  obtain ⟨s1, s2⟩ := sets_ax F pos q hf (.inr rfl : M.flat = .axit ∨ M.flat = .flat) i s
  rw [er]
  refine ⟨?_, s2⟩
  intro e he
  obtain ⟨x, v, rfl, h⟩ := s1 e he
  simp only [if_true] at h
  exact ⟨by simp, fun _ => ⟨x, .flat, i, hu, hi, rfl, .inr (.inl ⟨rfl, h⟩)⟩⟩

/-- The round of the second kind: spectra only. -/
theorem round_axit2 (o : Option (Body R)) (hu : Used q .axit2) (i : ℕ)
    (hi : i ∈ q.rounds .axit2) (s : St R) :
    ∀ e ∈ trace F pos q (round F q q.left .axit2 i) s, AxQ F q o e := by
  intro e he
  have hmem : e.sk ∈ (trace F pos q (round F q q.left .axit2 i) s).map Ev.sk := List.mem_map_of_mem he
  rw [fixed_trace F pos q _ (fun c hc => round_fixed F q _ _ _ c hc), List.mem_flatMap] at hmem
  obtain ⟨c, hc, hn⟩ := hmem
  rw [mem_round] at hc
  have sets : ∀ l, c ∈ nsets F q .axit2 i l → AxQ F q o e := by
    intro l hl
    obtain ⟨b, m, ms, _, _, _, rfl⟩ := (mem_nsets F q .axit2 i _ c).1 hl
    simp only [names, List.mem_singleton] at hn
    cases e with
    | put n v =>
      simp only [Ev.sk, Sk.put.injEq] at hn
      subst hn
      exact ⟨by simp, fun _ => ⟨m, .axit2, i, hu, hi, rfl, .inl rfl⟩⟩
    | hard n v => simp [Ev.sk] at hn
    | save => trivial
    | ub => trivial
  have triv : (∀ n, Sk.put n ∉ names F pos q s.grp c ∧ Sk.hard n ∉ names F pos q s.grp c) → AxQ F q o e := by
    intro h
    cases e with
    | put n v => exact absurd hn (h n).1
    | hard n v => exact absurd hn (h n).2
    | save => trivial
    | ub => trivial
  rcases hc with ⟨_, rfl⟩ | ⟨hp, _⟩ | ⟨_, ⟨_, rfl | hc⟩ | ⟨_, rfl | hc⟩ | ⟨_, rfl | hc⟩⟩
  · refine triv fun n => ?_
    simp only [names]; split <;> simp
  · cases hp
  · exact triv fun n => by simp [names]
  · exact sets _ hc
  · exact triv fun n => by simp [names]
  · exact sets _ hc
  · exact triv fun n => by simp [names]
  · exact sets _ hc

theorem used_ax (hf : q.field = .axion) {k : M} (hu : Used q k) : k = .flat ∨ k = .axit ∨ k = .axit2 ∨ k = .axitv := by
  have := hu.2
  rw [hf] at this
  simpa [Fits] using this

/-- The unmasked spectra are made before the masks. -/
def flatFirst : Bool := !on q.left MASK && (on q.eff M.flat.bit && (on q.nrt 15 || on q.nrt 240))

/-- What the masks are made from, given what is in the arrays when the spectra begin. -/
def source (t : St R) : Option (Body R) := if flatFirst q then held t else takes t

theorem maskPass_ax (hf : q.field = .axion) {o : Option (Body R)} {s : St R} (hs : J o s) :
    (∀ e ∈ trace F pos q (maskPass F q) s, AxQ F q o e) ∧
      J o (after F pos q (maskPass F q) s) ∧
      ((∃ k, Used q k ∧ (k = .axit ∨ k = .axit2)) → o ≠ none → held (after F pos q (maskPass F q) s) = o) := by
  unfold maskPass
  generalize hl : (maskara8.filter fun k => on q.eff k.bit) = l
  have hmem : ∀ k ∈ l, (k = .axit ∨ k = .axit2) ∧ Used q k := by
    intro k hk
    rw [← hl, List.mem_filter, mem8, eff_bit] at hk
    rcases used_ax q hf hk.2 with rfl | h | h | rfl
    · exact absurd rfl hk.1.1
    · exact ⟨.inl h, hk.2⟩
    · exact ⟨.inr h, hk.2⟩
    · exact absurd rfl hk.1.2
  have step1 : ∀ k ∈ l, ∀ u, J o u → (∀ e ∈ trace F pos q ((q.rounds k).flatMap fun i =>
      when k.mul [.label i] ++ [.masker k i .antimask, .array ⟨"/mSpectrum", "W" :: preLabel F q k i⟩ .P,
        .project false, .pMap ⟨"/map", "W" :: preLabel F q k i⟩]) u, AxQ F q o e) ∧
      J o (after F pos q ((q.rounds k).flatMap fun i =>
      when k.mul [.label i] ++ [.masker k i .antimask, .array ⟨"/mSpectrum", "W" :: preLabel F q k i⟩ .P,
        .project false, .pMap ⟨"/map", "W" :: preLabel F q k i⟩]) u) := by
    intro k hk u hu
    refine all_loop F pos q (I := J o) _ (fun i hi u hu => ?_) u hu
    obtain ⟨r1, r2, -⟩ := maskRound_ax F pos q hf (hmem k hk).1 (hmem k hk).2 i hi hu
    exact ⟨r1, r2⟩
  -- the second half after a pass
  have step2 : ∀ k ∈ l, ∀ u, J o u → o ≠ none → held (after F pos q ((q.rounds k).flatMap fun i =>
      when k.mul [.label i] ++ [.masker k i .antimask, .array ⟨"/mSpectrum", "W" :: preLabel F q k i⟩ .P,
        .project false, .pMap ⟨"/map", "W" :: preLabel F q k i⟩]) u) = o := by
    intro k hk u hu ho
    have hne : ∃ i is, q.rounds k = is ++ [i] := by
      have : q.rounds k ≠ [] := by
        unfold Req.rounds
        obtain ⟨m, hm⟩ := irmask_pos q
        split
        · simp [hm]
        · simp
      exact ⟨_, _, (List.dropLast_append_getLast this).symm⟩
    obtain ⟨i, is, e⟩ := hne
    have hJ : J o (after F pos q (is.flatMap fun i =>
      when k.mul [.label i] ++ [.masker k i .antimask, .array ⟨"/mSpectrum", "W" :: preLabel F q k i⟩ .P,
        .project false, .pMap ⟨"/map", "W" :: preLabel F q k i⟩]) u) := by
      refine (all_loop F pos q (I := J o) (Q := fun _ => True) _ (fun i hi u hu => ?_) u hu).2
      obtain ⟨-, r2, -⟩ := maskRound_ax F pos q hf (hmem k hk).1 (hmem k hk).2 i (by rw [e]; simp [hi]) hu
      exact ⟨fun _ _ => trivial, r2⟩
    obtain ⟨-, -, r3⟩ := maskRound_ax F pos q hf (hmem k hk).1 (hmem k hk).2 i (by rw [e]; simp) hJ
    rw [e, List.flatMap_append, after_append]
    simp only [List.flatMap_cons, List.flatMap_nil, List.append_nil]
    rw [if_neg ho] at r3
    exact r3
  refine ⟨(all_loop F pos q (I := J o) l step1 s hs).1, (all_loop F pos q (I := J o) l step1 s hs).2, ?_⟩
  rintro ⟨k, hku, hka⟩ ho
  have hkl : k ∈ l := by
    rw [← hl, List.mem_filter, mem8, eff_bit]
    refine ⟨⟨?_, ?_⟩, hku⟩ <;> rcases hka with rfl | rfl <;> decide
  have hne : l ≠ [] := List.ne_nil_of_mem hkl
  have e := (List.dropLast_append_getLast hne).symm
  have hJ : J o (after F pos q (l.dropLast.flatMap fun k => (q.rounds k).flatMap fun i =>
      when k.mul [.label i] ++ [.masker k i .antimask, .array ⟨"/mSpectrum", "W" :: preLabel F q k i⟩ .P,
        .project false, .pMap ⟨"/map", "W" :: preLabel F q k i⟩]) s) := by
    refine (all_loop F pos q (I := J o) l.dropLast (fun k hk => step1 k (List.dropLast_subset l hk)) s hs).2
  have := step2 _ (List.getLast_mem hne) _ hJ ho
  conv_lhs => rw [e]
  rw [List.flatMap_append, after_append]
  simp only [List.flatMap_cons, List.flatMap_nil, List.append_nil]
  exact this

/-- Number pass after the round without a mask. -/
theorem rest_ax (hf : q.field = .axion) {o : Option (Body R)} {s : St R} (hs : J o s) :
    ∀ e ∈ trace F pos q ((maskara8.filter fun k => on q.eff k.bit).flatMap fun k =>
        (q.rounds k).flatMap fun i => round F q q.left k i) s, AxQ F q o e := by
  have off : ∀ k, Fits .axion k ∨ on q.eff k.bit = false := by
    intro k
    by_cases h : on q.eff k.bit = true
    · have := ((eff_bit q k).1 h).2
      rw [hf] at this
      exact .inl this
    · exact .inr (by simpa using h)
  have e : (maskara8.filter fun k => on q.eff k.bit) =
      when (on q.eff M.axit.bit) [.axit] ++ when (on q.eff M.axit2.bit) [.axit2] := by
    have o1 := (off .vil).resolve_left (by simp [Fits])
    have o2 := (off .vil2).resolve_left (by simp [Fits])
    have o3 := (off .ball).resolve_left (by simp [Fits])
    have o4 := (off .redo).resolve_left (by simp [Fits])
    have o5 := (off .gaus).resolve_left (by simp [Fits])
    have o6 := (off .diff).resolve_left (by simp [Fits])
    unfold maskara8
    simp only [List.filter_cons, o1, o2, o3, o4, o5, o6, Bool.false_eq_true, if_false, List.filter_nil]
    cases on q.eff M.axit.bit <;> cases on q.eff M.axit2.bit <;> rfl
  rw [e, List.flatMap_append]
  refine all_app F pos q ?_ ?_
  · cases c : on q.eff M.axit.bit
    · simp [when, trace_nil]
    · simp only [when, if_true, List.flatMap_cons, List.flatMap_nil, List.append_nil]
      refine (all_loop F pos q (I := J o) _ (fun i hi u hu => ?_) s hs).1
      exact round_axit F pos q hf ((eff_bit q _).1 c) i hi hu
  · cases c : on q.eff M.axit2.bit
    · simp [when, trace_nil]
    · simp only [when, if_true, List.flatMap_cons, List.flatMap_nil, List.append_nil]
      refine (all_loop F pos q (I := fun _ => True) _ (fun i hi u _ => ?_) _ trivial).1
      exact ⟨round_axit2 F pos q o ((eff_bit q _).1 c) i hi u, trivial⟩

theorem held_none {s : St R} (h : takes s = none) : held s = none := by
  unfold takes at h
  unfold held
  split at h
  · cases h
  · exact h

theorem tail_ax (hf : q.field = .axion) (s : St R) :
    ∀ e ∈ trace F pos q (spectrumBlock F q q.left) s, AxQ F q (source q s) e := by
  unfold spectrumBlock
  refine all_if F pos q fun _ => ?_
  rw [List.append_assoc]
  have h1 : after F pos q [.newSpec] s = { s with P := .zero, N := .zero } := rfl
  refine all_app F pos q (by simp [trace_cons, trace_nil, step]) ?_
  rw [h1]
  have e1 : takes ({ s with P := .zero, N := .zero } : St R) = takes s := rfl
  have e2 : held ({ s with P := .zero, N := .zero } : St R) = held s := rfl
  have e3 : ({ s with P := .zero, N := .zero } : St R).P = .zero := rfl
  generalize ({ s with P := .zero, N := .zero } : St R) = u at e1 e2 e3 ⊢
  have fin : ∀ w : St R, ∀ e ∈ trace F pos q (when (q.index == 0 || on q.left NNSPEC) [.modes, .meank]) w,
      AxQ F q (source q s) e := by
    intro w
    refine all_if F pos q fun _ e he => ?_
    simp only [trace_cons, trace_nil, step, List.append_nil, List.cons_append, List.nil_append, List.mem_cons,
      List.not_mem_nil, or_false] at he
    rcases he with rfl | rfl <;> exact ⟨by simp, by simp⟩
  have nine : (maskara9.filter fun k => on q.eff k.bit) =
      when (on q.eff M.flat.bit) [.flat] ++ (maskara8.filter fun k => on q.eff k.bit) := by
    unfold maskara9
    rw [List.filter_cons]
    cases on q.eff M.flat.bit <;> rfl
  -- the first round
  have flat : ∀ w : St R, (∀ e ∈ trace F pos q ((when (on q.eff M.flat.bit) [M.flat]).flatMap fun k =>
        (q.rounds k).flatMap fun i => round F q q.left k i) w, AxQ F q (source q s) e) ∧
      Quiet (on q.eff M.flat.bit && (on q.nrt 15 || on q.nrt 240)) w
        (after F pos q ((when (on q.eff M.flat.bit) [M.flat]).flatMap fun k =>
        (q.rounds k).flatMap fun i => round F q q.left k i) w) := by
    intro w
    cases c : on q.eff M.flat.bit
    · exact ⟨by simp [when, trace_nil], rfl, rfl, by simp, fun _ => rfl⟩
    · have hr : q.rounds .flat = [0] := rfl
      simp only [when, if_true, List.flatMap_cons, List.flatMap_nil, List.append_nil, hr, Bool.true_and]
      exact round_flat F pos q hf ((eff_bit q _).1 c) 0 (by rw [hr]; simp) w
  cases c13 : on q.left MASK
  · change ∀ e ∈ trace F pos q (when false _ ++ _) u, _
    refine all_app F pos q (by simp [when, trace_nil]) ?_
    change ∀ e ∈ trace F pos q _ u, _
    unfold numberPass
    refine all_if F pos q fun _ => all_app F pos q ?_ (fin _)
    rw [nine, List.flatMap_append]
    obtain ⟨f1, f2⟩ := flat u
    refine all_app F pos q f1 ?_
    refine rest_ax F pos q hf ⟨?_, fun _ => by rw [f2.2.1, e3]⟩
    have hff : flatFirst q = (on q.eff M.flat.bit && (on q.nrt 15 || on q.nrt 240)) := by
      unfold flatFirst; rw [c13]; simp
    unfold source
    rw [hff]
    cases c : (on q.eff M.flat.bit && (on q.nrt 15 || on q.nrt 240))
    · rw [c] at f2
      rw [f2.same, e1]; rfl
    · rw [c] at f2
      rw [f2.takes_of rfl, e2]; rfl
  · have hsrc : source q s = takes s := by
      unfold source flatFirst; rw [c13]; simp
    have hJ : J (source q s) u := ⟨by rw [e1, hsrc], fun _ => e3⟩
    obtain ⟨p1, p2, p3⟩ := maskPass_ax F pos q hf hJ
    refine all_app F pos q p1 ?_
    change ∀ e ∈ trace F pos q _ (after F pos q (maskPass F q) u), _
    generalize after F pos q (maskPass F q) u = w at p2 p3
    unfold numberPass
    refine all_if F pos q fun _ => all_app F pos q ?_ (fin _)
    rw [nine, List.flatMap_append]
    obtain ⟨f1, f2⟩ := flat w
    refine all_app F pos q f1 ?_
    by_cases hex : ∃ k, Used q k ∧ (k = .axit ∨ k = .axit2)
    · refine rest_ax F pos q hf ⟨?_, fun h => by rw [f2.2.1]; exact p2.2 h⟩
      cases c : (on q.eff M.flat.bit && (on q.nrt 15 || on q.nrt 240))
      · rw [c] at f2; rw [f2.same]; exact p2.1
      · rw [c] at f2
        rw [f2.takes_of rfl]
        by_cases ho : source q s = none
        · rw [ho, held_none (by rw [p2.1, ho])]
        · exact p3 hex ho
    · -- no mask: nothing follows
      have : (maskara8.filter fun k => on q.eff k.bit) = [] := by
        rw [List.filter_eq_nil_iff]
        intro k hk hon
        rw [eff_bit] at hon
        rw [mem8] at hk
        rcases used_ax q hf hon with rfl | rfl | rfl | rfl
        · exact hk.1 rfl
        · exact hex ⟨_, hon, .inl rfl⟩
        · exact hex ⟨_, hon, .inr rfl⟩
        · exact hk.2 rfl
      rw [this]
      simp [trace_nil]

/-! ### The other kinds -/

/-- Nothing is in the bins. -/
def Zero (s : St R) : Prop := s.P = .zero ∧ s.N = .zero

/-- Spectra hold zeros. -/
def ZeroQ : Ev R → Prop
  | .put n v => (n.group = "/mSpectrum" → v = .power .zero) ∧ (n.group = "/eSpectrum" → v = .num .zero)
  | _ => True

/-- Calls whose spectra go where they belong. -/
def Cmd.tame : Cmd → Prop
  | .array n .P => n.group = "/mSpectrum"
  | .array n .N => n.group = "/eSpectrum"
  | .label _ | .masker _ _ _ | .project _ | .pMap _ | .newSpec | .strEnergy _ | .maskedEnergy _ | .nRun _ _ _
  | .modes | .meank | .hist _ => True
  | _ => False

theorem zero_step (hf : q.field = .naxion ∨ q.field = .paxion) (c : Cmd) (hc : c.tame) (s : St R) (hs : Zero s) :
    Zero (step F pos q s c).1 ∧ ∀ e ∈ (step F pos q s c).2, ZeroQ e := by
  obtain ⟨h1, h2⟩ := hs
  have hm : ∀ k r o, masker q.field k r o s = s := by
    intro k r o; rcases hf with h | h <;> rw [h] <;> rfl
  have hn : ∀ k h g, Zero (nRun q.field k h g s) := by
    intro k h g
    unfold nRun
    split
    · exact ⟨h1, h2⟩
    · rcases hf with h | h <;> rw [h] <;> exact ⟨h1, rfl⟩
  cases c with
  | array n src =>
    cases src with
    | P =>
      have hc : n.group = "/mSpectrum" := hc
      simp [step, Zero, ZeroQ, h1, h2, hc]
    | N =>
      have hc : n.group = "/eSpectrum" := hc
      simp [step, Zero, ZeroQ, h1, h2, hc]
  | label i => simp only [step]; refine ⟨⟨h1, h2⟩, ?_⟩; split <;> simp [ZeroQ]
  | masker k i o => simp [step, hm, Zero, h1, h2]
  | project b => simp only [step]; refine ⟨?_, by simp⟩; split <;> exact ⟨h1, h2⟩
  | pMap n => simp [step, Zero, ZeroQ, h1, h2]
  | newSpec => simp [step, Zero]
  | strEnergy i => simp only [step]; refine ⟨⟨h1, h2⟩, ?_⟩; split <;> simp [ZeroQ]
  | maskedEnergy i =>
    simp only [step]
    refine ⟨⟨h1, h2⟩, ?_⟩
    split
    · split <;> simp [ZeroQ]
    · simp
  | nRun k h g => exact ⟨hn k h g, by simp [step]⟩
  | modes => simp [step, Zero, ZeroQ, h1, h2]
  | meank => simp [step, Zero, ZeroQ, h1, h2]
  | hist b => simp [step, Zero, ZeroQ, h1, h2]
  | _ => exact absurd hc (by simp [Cmd.tame])

theorem zero_trace (hf : q.field = .naxion ∨ q.field = .paxion) (cs : List Cmd) (h : ∀ c ∈ cs, c.tame) (s : St R)
    (hs : Zero s) : ∀ e ∈ trace F pos q cs s, ZeroQ e := by
  induction cs generalizing s with
  | nil => simp [trace_nil]
  | cons c cs ih =>
    obtain ⟨z1, z2⟩ := zero_step F pos q hf c (h c (by simp)) s hs
    rw [trace_cons]
    intro e he
    rcases List.mem_append.1 he with he | he
    · exact z2 e he
    · exact ih (fun c hc => h c (by simp [hc])) _ z1 e he

theorem tame_sets (k : M) (i : ℕ) (l : List (ℕ × String × Bool)) (c : Cmd) (h : c ∈ nsets F q k i l) : c.tame := by
  obtain ⟨b, m, ms, _, _, _, rfl⟩ := (mem_nsets F q k i _ c).1 h
  rfl

theorem tame_round (hf : q.field = .naxion ∨ q.field = .paxion) (k : M) (i : ℕ) (c : Cmd)
    (h : c ∈ round F q q.left k i) : c.tame := by
  have hs : (q.field == .saxion) = false := by rcases hf with h | h <;> rw [h] <;> rfl
  unfold round at h
  simp only [hs, Bool.false_and, List.mem_append, mem_when, List.mem_singleton, Bool.false_eq_true, false_and,
    or_false] at h
  rcases h with (⟨_, rfl⟩ | ⟨_, ((rfl | ⟨_, rfl⟩) | ⟨_, rfl⟩) | ⟨_, rfl⟩⟩) | ⟨_, ⟨_, rfl | h⟩ | ⟨_, rfl | h⟩⟩
  all_goals first | exact tame_sets F q _ _ _ _ h | trivial

theorem tail_zero (hf : q.field = .naxion ∨ q.field = .paxion) (s : St R) :
    ∀ e ∈ trace F pos q (spectrumBlock F q q.left ++ binBlock q q.left) s, ZeroQ e := by
  refine all_app F pos q ?_ ?_
  · unfold spectrumBlock
    refine all_if F pos q fun _ => ?_
    rw [List.append_assoc]
    refine all_app F pos q (by simp [trace_cons, trace_nil, step]) ?_
    refine zero_trace F pos q hf _ ?_ _ ⟨rfl, rfl⟩
    intro c hc
    rw [List.mem_append, mem_when] at hc
    rcases hc with ⟨_, hc⟩ | hc
    · obtain ⟨k, _, _, i, _, h⟩ := (mem_maskPass F q c).1 hc
      rcases h with h | h
      · obtain ⟨_, rfl⟩ := h
        trivial
      · rcases h with rfl | rfl | rfl | rfl
        · trivial
        · rfl
        · trivial
        · trivial
    · rw [mem_numberPass] at hc
      rcases hc.2 with ⟨k, _, _, i, _, h⟩ | ⟨_, rfl | rfl⟩
      · exact tame_round F q hf k i c h
      · trivial
      · trivial
  · intro e he
    have hmem : e.sk ∈ (trace F pos q (binBlock q q.left) (after F pos q (spectrumBlock F q q.left) s)).map Ev.sk :=
      List.mem_map_of_mem he
    rw [fixed_trace F pos q _ (bin_fixed q q.left), List.mem_flatMap] at hmem
    obtain ⟨c, hc, hn⟩ := hmem
    rw [mem_bin] at hc
    rcases hc with ⟨_, _, rfl⟩ | ⟨_, _, rfl⟩ | ⟨_, _, rfl⟩ | ⟨_, _, rfl⟩ <;>
      (simp only [names, List.mem_singleton] at hn
       cases e with
       | put n v => simp only [Ev.sk, Sk.put.injEq] at hn; subst hn; simp [ZeroQ]
       | hard n v => trivial
       | save => trivial
       | ub => trivial)

end Jaxions.MeasRun
