import Verif.Lemmas.MeasRunEnds

/-
Values of the spectra: the complex field.
-/

namespace Jaxions.MeasRun

variable {R : Type} (F : Fmt R) (pos : R → Bool) (q : Req R)

/-! ### Events that satisfy something -/

theorem all_app {Q : Ev R → Prop} {a b : List Cmd} {s : St R} (h1 : ∀ e ∈ trace F pos q a s, Q e)
    (h2 : ∀ e ∈ trace F pos q b (after F pos q a s), Q e) : ∀ e ∈ trace F pos q (a ++ b) s, Q e := by
  intro e he
  rw [trace_append, List.mem_append] at he
  exact he.elim (h1 e) (h2 e)

theorem all_if {Q : Ev R → Prop} {b : Bool} {a : List Cmd} {s : St R}
    (h : b = true → ∀ e ∈ trace F pos q a s, Q e) : ∀ e ∈ trace F pos q (when b a) s, Q e := by
  cases b
  · intro e he; simp [when, trace_nil] at he
  · exact h rfl

/-- A loop with an invariant. -/
theorem all_loop {β : Type} {g : β → List Cmd} {Q : Ev R → Prop} {I : St R → Prop} (l : List β)
    (H : ∀ x ∈ l, ∀ s, I s → (∀ e ∈ trace F pos q (g x) s, Q e) ∧ I (after F pos q (g x) s)) :
    ∀ s, I s → (∀ e ∈ trace F pos q (l.flatMap g) s, Q e) ∧ I (after F pos q (l.flatMap g) s) := by
  induction l with
  | nil => intro s hs; exact ⟨by simp [trace_nil], hs⟩
  | cons x xs ih =>
    intro s hs
    obtain ⟨h1, h2⟩ := H x (by simp) s hs
    obtain ⟨h3, h4⟩ := ih (fun y hy => H y (by simp [hy])) _ h2
    rw [List.flatMap_cons]
    refine ⟨all_app F pos q h1 h3, ?_⟩
    rw [after_append]
    exact h4

theorem nsets_ev (k : M) (i : ℕ) (l : List (ℕ × String × Bool)) (s : St R) :
    (∀ e ∈ trace F pos q (nsets F q k i l) s, ∃ b n ms, (b, n, ms) ∈ l ∧ on q.nrt b = true ∧
      e = .put ⟨"/eSpectrum", n :: preLabel F q k i⟩ (.num s.N)) ∧
    after F pos q (nsets F q k i l) s = s := by
  induction l with
  | nil => exact ⟨by simp [nsets, trace_nil], rfl⟩
  | cons x xs ih =>
    obtain ⟨b, n, ms⟩ := x
    have e : nsets F q k i ((b, n, ms) :: xs) = when (on q.nrt b && (!ms || q.massive))
        [.array ⟨"/eSpectrum", n :: preLabel F q k i⟩ .N] ++ nsets F q k i xs := rfl
    have ha : after F pos q (when (on q.nrt b && (!ms || q.massive))
        [.array ⟨"/eSpectrum", n :: preLabel F q k i⟩ .N]) s = s := by
      rw [after_when]; split <;> rfl
    rw [e, after_append, ha]
    refine ⟨all_app F pos q (all_if F pos q fun h e he => ?_) ?_, ih.2⟩
    · rw [Bool.and_eq_true] at h
      have he : e = .put ⟨"/eSpectrum", n :: preLabel F q k i⟩ (.num s.N) := by
        simpa [trace_cons, trace_nil, step] using he
      exact ⟨b, n, ms, by simp, h.1, he⟩
    · rw [ha]
      intro e he
      obtain ⟨b', n', ms', h1, h2, h3⟩ := ih.1 e he
      exact ⟨b', n', ms', by simp [h1], h2, h3⟩

/-! ### The mask of a round -/

/-- The mask of the kind `k` with the radius number `i`. -/
def mk (b : Bool) (k : M) (i : ℕ) : Msk R := ⟨k, q.radii[i]?, !k.ofMap || b⟩

/-- The map of strings is there. -/
def Map (b : Bool) (s : St R) : Prop := s.sd.map = true ∧ s.sd.full = b

/-- Where the spectra look for the mask. -/
def look (k : M) (m : Msk R) (lost : Bool) : Seen R :=
  match k with
  | .redo | .ball => .sData (some m)
  | .gaus | .diff => .array (if lost then .junk else .mask m)
  | _ => .self

theorem masker_sax {b : Bool} {k : M} {i : ℕ} {out : Out} {s : St R} (hs : Map b s)
    (hk : k.axiton = false) (hf : k ≠ .flat) :
    let t := masker .saxion k q.radii[i]? out s
    t.P = .mask (mk q b k i) ∧ Map b t ∧ t.m2h.2 = .mask (mk q b k i) ∧
      (k.ofMap = true → t.sd.marked = some (mk q b k i)) ∧ (k.tagged = true → t.sd.mask = true) ∧
      (out = .antimask → t.m2 = (.antimask, .antimask (mk q b k i))) := by
  obtain ⟨h1, h2⟩ := hs
  have hc : (k.axiton || k == .flat || (k.tagged && !s.sd.map)) = false := by
    rw [hk, h1]; simp [hf]
  intro t
  have ht : t = masker .saxion k q.radii[i]? out s := rfl
  clear_value t
  unfold masker at ht
  dsimp only at ht
  rw [hc] at ht
  have hb : (⟨k, q.radii[i]?, !k.ofMap || s.sd.full⟩ : Msk R) = mk q b k i := by rw [h2]; rfl
  rw [hb] at ht
  rw [if_neg Bool.false_ne_true] at ht
  subst ht
  refine ⟨rfl, ⟨h1, h2⟩, rfl, ?_, ?_, ?_⟩
  · intro h; simp [h]
  · intro h; simp [h]
  · intro h; subst h; rfl

/-- What holds of the arrays when the spectra of a round are made. -/
structure Ready (b : Bool) (k : M) (i : ℕ) (s : St R) : Prop where
  map : Map b s
  half : k.tagged = true → s.m2h.2 = .mask (mk q b k i)
  marked : k.ofMap = true → s.sd.marked = some (mk q b k i)
  mask : k.tagged = true → s.sd.mask = true

/-- The values of the complex field. -/
def SaxQ (b : Bool) (k : M) (i : ℕ) : Ev R → Prop
  | .put ⟨g, l⟩ v =>
    (g = "/mSpectrum" → l = "W" :: preLabel F q k i ∧ v = .power (.mask (mk q b k i))) ∧
    (g = "/eSpectrum" → ∃ x, l = x :: preLabel F q k i ∧
      ((x ∈ ["sK", "sG", "sV", "sS"] ∧ v = .num (.run .lut k (look k (mk q b k i) false))) ∨
       (x ∈ ["sCK", "sCG", "sCV", "sCS"] ∧
          v = .num (.run .pure k (look k (mk q b k i) (on q.nrt 2)))) ∨
       (x ∈ ["sKS", "sGS", "sVS"] ∧ v = .num (
          if k = .gaus ∨ k = .diff then
            if on q.nrt 240 then .run .pure k (look k (mk q b k i) (on q.nrt 2))
            else .run .lut k (look k (mk q b k i) false)
          else .run .sax k (look k (mk q b k i) false))))) ∧
    (g = "/energy" → k = .redo ∧ ∃ r, q.radii[i]? = some r ∧ l = ["Redmask", F.lab r] ∧
      v = .masked (some (mk q b k i))) ∧
    (g = "/string" → k = .redo ∧ l = ["rmask", rlab F q i] ∧ v = .strEnergy (some (mk q b k i)))
  | .hard ⟨g, l⟩ v => g = "/map" ∧ l = "W" :: preLabel F q k i ∧ v = .proj (some (false, .antimask (mk q b k i)))
  | _ => True

theorem nRun_sax {b : Bool} {k : M} {i : ℕ} {h : How} {g lost : Bool} {s : St R} (hk : k.axiton = false)
    (hmask : k.tagged = true → s.sd.mask = true)
    (hmark : k.ofMap = true → s.sd.marked = some (mk q b k i))
    (hh : k.tagged = true → k ≠ .redo → s.m2h.2 = if lost then .junk else .mask (mk q b k i)) :
    let t := nRun .saxion k h g s
    t.N = .run h k (look k (mk q b k i) lost) ∧ t.sd = s.sd ∧
      t.m2h.2 = (if g then .junk else s.m2h.2) := by
  have c : ((k.tagged && !s.sd.mask) || (k == .axit2 && !s.sd.axi) || k == .axitv) = false := by
    have h2 : k ≠ .axit2 := by rintro rfl; cases hk
    have h3 : k ≠ .axitv := by rintro rfl; cases hk
    cases ht : k.tagged
    · simp [h2, h3]
    · simp [h2, h3, hmask ht]
  intro t
  have ht : t = nRun .saxion k h g s := rfl
  clear_value t
  unfold nRun at ht
  rw [c] at ht
  dsimp only at ht
  rw [hk] at ht
  rw [if_neg Bool.false_ne_true, if_neg Bool.false_ne_true] at ht
  subst ht
  refine ⟨?_, rfl, rfl⟩
  change Num.run h k (seen .saxion k s) = _
  congr 1
  cases k <;> simp only [seen, look]
  · rw [hmark rfl]
  · rw [hh rfl (by decide)]
  · rw [hh rfl (by decide)]
  · rw [hmark rfl]

theorem on_sub {w b c : ℕ} (h : c &&& b = b) (hb : on w b = true) : on w c = true := by
  unfold on at *
  rw [bne_iff_ne] at *
  intro hc
  apply hb
  rw [← h, ← Nat.and_assoc, hc, Nat.zero_and]

/-- The spectra of one radius of one mask. -/
theorem sets_sax (hf : q.field = .saxion) {b : Bool} {k : M} (hk : k.axiton = false) (i : ℕ) {s : St R}
    (hs : Ready q b k i s) :
    let cs := when (on q.nrt 15) ([.nRun k .lut (on q.nrt 2)] ++
        nsets F q k i [(1, "sK", false), (2, "sG", false), (4, "sV", true), (8, "sS", true)]) ++
     when (on q.nrt 240) ([.nRun k .pure (on q.nrt 32)] ++
        nsets F q k i [(16, "sCK", false), (32, "sCG", false), (64, "sCV", true), (128, "sCS", true)]) ++
     when (q.field == .saxion && on q.left NSP_S) ([.nSRun k] ++
        nsets F q k i [(1, "sKS", false), (2, "sGS", false), (4, "sVS", false)])
    (∀ e ∈ trace F pos q cs s, SaxQ F q b k i e) ∧ Map b (after F pos q cs s) := by
  -- first run
  have hstep : ∀ (h : How) (g : Bool) (s : St R),
      after F pos q [.nRun k h g] s = nRun .saxion k h g s ∧ trace F pos q [.nRun k h g] s = [] := by
    intro h g s
    rw [after_cons, after_nil, trace_cons, trace_nil]
    simp [step, hf]
  have A1 : ∃ s1, after F pos q (when (on q.nrt 15) ([.nRun k .lut (on q.nrt 2)] ++
        nsets F q k i [(1, "sK", false), (2, "sG", false), (4, "sV", true), (8, "sS", true)])) s = s1 ∧
      s1.sd = s.sd ∧ (on q.nrt 15 = true → s1.N = .run .lut k (look k (mk q b k i) false)) ∧
      (k.tagged = true → s1.m2h.2 = if on q.nrt 2 then .junk else .mask (mk q b k i)) ∧
      ∀ e ∈ trace F pos q (when (on q.nrt 15) ([.nRun k .lut (on q.nrt 2)] ++
        nsets F q k i [(1, "sK", false), (2, "sG", false), (4, "sV", true), (8, "sS", true)])) s,
        SaxQ F q b k i e := by
    refine ⟨_, rfl, ?_⟩
    cases c : on q.nrt 15
    · have h2 : on q.nrt 2 = false := by
        by_contra h
        rw [Bool.not_eq_false] at h
        rw [on_sub (c := 15) (by decide) h] at c
        cases c
      refine ⟨rfl, by simp, ?_, by simp [when, trace_nil]⟩
      intro ht
      rw [h2]
      exact hs.half ht
    · obtain ⟨n1, n2, n3⟩ := nRun_sax (h := .lut) (g := on q.nrt 2) (lost := false) q hk hs.mask hs.marked
        (fun h _ => hs.half h)
      change (after F pos q ([_] ++ nsets F q k i _) s).sd = s.sd ∧ _
      simp only [when, if_true]
      rw [after_append, (hstep _ _ _).1, (nsets_ev F pos q k i _ _).2]
      refine ⟨n2, fun _ => n1, ?_, ?_⟩
      · intro ht
        rw [n3, hs.half ht]
      · refine all_app F pos q (by rw [(hstep _ _ _).2]; simp) ?_
        rw [(hstep _ _ _).1]
        intro e he
        obtain ⟨b', n, ms, h1, _, rfl⟩ := (nsets_ev F pos q k i _ _).1 e he
        refine ⟨by simp, fun _ => ⟨n, rfl, .inl ⟨?_, by rw [n1]⟩⟩, by simp, by simp⟩
        simp only [List.mem_cons, Prod.mk.injEq, List.not_mem_nil, or_false] at h1 ⊢
        rcases h1 with ⟨_, h, _⟩ | ⟨_, h, _⟩ | ⟨_, h, _⟩ | ⟨_, h, _⟩ <;> simp [h]
  obtain ⟨s1, a1, a2, a3, a4, a5⟩ := A1
  have A2 : ∃ s2, after F pos q (when (on q.nrt 240) ([.nRun k .pure (on q.nrt 32)] ++
        nsets F q k i [(16, "sCK", false), (32, "sCG", false), (64, "sCV", true), (128, "sCS", true)])) s1 = s2 ∧
      s2.sd = s.sd ∧ (on q.nrt 240 = false → s2 = s1) ∧
      (on q.nrt 240 = true → s2.N = .run .pure k (look k (mk q b k i) (on q.nrt 2))) ∧
      ∀ e ∈ trace F pos q (when (on q.nrt 240) ([.nRun k .pure (on q.nrt 32)] ++
        nsets F q k i [(16, "sCK", false), (32, "sCG", false), (64, "sCV", true), (128, "sCS", true)])) s1,
        SaxQ F q b k i e := by
    refine ⟨_, rfl, ?_⟩
    cases c : on q.nrt 240
    · exact ⟨a2, fun _ => rfl, by simp, by simp [when, trace_nil]⟩
    · obtain ⟨n1, n2, n3⟩ := nRun_sax (h := .pure) (g := on q.nrt 32) (lost := on q.nrt 2) (b := b) (i := i) (s := s1)
        q hk (by rw [a2]; exact hs.mask) (by rw [a2]; exact hs.marked)
        (fun h _ => a4 h)
      simp only [when, if_true]
      rw [after_append, (hstep _ _ _).1, (nsets_ev F pos q k i _ _).2]
      refine ⟨by rw [n2, a2], by simp, fun _ => n1, ?_⟩
      refine all_app F pos q (by rw [(hstep _ _ _).2]; simp) ?_
      rw [(hstep _ _ _).1]
      intro e he
      obtain ⟨b', n, ms, h1, _, rfl⟩ := (nsets_ev F pos q k i _ _).1 e he
      refine ⟨by simp, fun _ => ⟨n, rfl, .inr (.inl ⟨?_, by rw [n1]⟩)⟩, by simp, by simp⟩
      simp only [List.mem_cons, Prod.mk.injEq, List.not_mem_nil, or_false] at h1 ⊢
      rcases h1 with ⟨_, h, _⟩ | ⟨_, h, _⟩ | ⟨_, h, _⟩ | ⟨_, h, _⟩ <;> simp [h]
  obtain ⟨s2, b1, b2, b3, b4, b5⟩ := A2
  have hS : ∀ s, after F pos q [.nSRun k] s = nSRun k s ∧ trace F pos q [.nSRun k] s = [] := fun s => ⟨rfl, rfl⟩
  have A3 : (after F pos q (when (q.field == .saxion && on q.left NSP_S) ([.nSRun k] ++
        nsets F q k i [(1, "sKS", false), (2, "sGS", false), (4, "sVS", false)])) s2).sd = s.sd ∧
      ∀ e ∈ trace F pos q (when (q.field == .saxion && on q.left NSP_S) ([.nSRun k] ++
        nsets F q k i [(1, "sKS", false), (2, "sGS", false), (4, "sVS", false)])) s2, SaxQ F q b k i e := by
    cases c : (q.field == .saxion && on q.left NSP_S)
    · exact ⟨b2, by simp [when, trace_nil]⟩
    · simp only [when, if_true]
      have hsd : (nSRun k s2).sd = s2.sd := by
        cases k <;> simp only [nSRun]
        split <;> rfl
      rw [after_append, (hS _).1, (nsets_ev F pos q k i _ _).2]
      refine ⟨by rw [hsd, b2], ?_⟩
      refine all_app F pos q (by rw [(hS _).2]; simp) ?_
      rw [(hS _).1]
      intro e he
      obtain ⟨b', n, ms, h1, hn, rfl⟩ := (nsets_ev F pos q k i _ _).1 e he
      have h15 : on q.nrt 15 = true := by
        simp only [List.mem_cons, Prod.mk.injEq, List.not_mem_nil, or_false] at h1
        rcases h1 with ⟨rfl, _⟩ | ⟨rfl, _⟩ | ⟨rfl, _⟩ <;> exact on_sub (by decide) hn
      refine ⟨by simp, fun _ => ⟨n, rfl, .inr (.inr ⟨?_, ?_⟩)⟩, by simp, by simp⟩
      · simp only [List.mem_cons, Prod.mk.injEq, List.not_mem_nil, or_false] at h1 ⊢
        rcases h1 with ⟨_, h, _⟩ | ⟨_, h, _⟩ | ⟨_, h, _⟩ <;> simp [h]
      · have hm : k.tagged = true → s2.sd.mask = true := by rw [b2]; exact hs.mask
        have hk2 : k.ofMap = true → s2.sd.marked = some (mk q b k i) := by rw [b2]; exact hs.marked
        have hkeep : (if on q.nrt 240 = true then Num.run .pure k (look k (mk q b k i) (on q.nrt 2))
            else .run .lut k (look k (mk q b k i) false)) = s2.N := by
          by_cases c : on q.nrt 240 = true
          · rw [if_pos c, b4 c]
          · rw [if_neg c, b3 (by simpa using c), a3 h15]
        cases k <;> simp only [nSRun, reduceCtorEq, or_self, or_true, true_or, if_true, if_false] <;>
          first | rfl | exact absurd hk (by decide) | skip
        · rw [hm rfl, if_pos rfl]
          simp only [seen, look, hk2 rfl]
        · rw [hkeep]
        · rw [hkeep]
        · simp only [seen, look, hk2 rfl]
  intro cs
  have e1 : after F pos q cs s = after F pos q (when (q.field == .saxion && on q.left NSP_S) ([.nSRun k] ++
        nsets F q k i [(1, "sKS", false), (2, "sGS", false), (4, "sVS", false)])) s2 := by
    change after F pos q (_ ++ _ ++ _) s = _
    rw [after_append, after_append, a1, b1]
  refine ⟨all_app F pos q (all_app F pos q a5 ?_) ?_, ?_⟩
  · rw [a1]; exact b5
  · rw [after_append, a1, b1]; exact A3.2
  · rw [e1]; unfold Map; rw [A3.1]; exact hs.map

/-- Calls that do not touch the masks. -/
theorem round_sax (hf : q.field = .saxion) {b : Bool} {k : M} (hk : k.axiton = false) (i : ℕ) {s : St R}
    (hs : Map b s) : (∀ e ∈ trace F pos q (round F q q.left k i) s, SaxQ F q b k i e) ∧
      Map b (after F pos q (round F q q.left k i) s) := by
  have hl : after F pos q (when k.mul [.label i]) s = s ∧
      ∀ e ∈ trace F pos q (when k.mul [.label i]) s, SaxQ F q b k i e := by
    cases k.mul
    · exact ⟨rfl, by simp [when, trace_nil]⟩
    · refine ⟨rfl, ?_⟩
      intro e he
      simp only [when, if_true, trace_cons, trace_nil, step, List.append_nil] at he
      split at he
      · rw [List.mem_singleton] at he; subst he; trivial
      · simp at he
  have hp : Ready q b k i (after F pos q (when k.prnt ([.masker k i .mask] ++
      when (!(on q.left MASK)) [.array ⟨"/mSpectrum", "W" :: preLabel F q k i⟩ .P] ++
      when (on q.strmeas 4 && k == .redo) [.strEnergy i] ++ when (k == .redo) [.maskedEnergy i])) s) ∧
      ∀ e ∈ trace F pos q (when k.prnt ([.masker k i .mask] ++
      when (!(on q.left MASK)) [.array ⟨"/mSpectrum", "W" :: preLabel F q k i⟩ .P] ++
      when (on q.strmeas 4 && k == .redo) [.strEnergy i] ++ when (k == .redo) [.maskedEnergy i])) s,
        SaxQ F q b k i e := by
    cases c : k.prnt
    · have : k = .flat := by cases k <;> simp_all [M.prnt, M.axiton]
      subst this
      exact ⟨⟨hs, by simp [M.tagged], by simp [M.ofMap], by simp [M.tagged]⟩, by simp [when, trace_nil]⟩
    · have hfl : k ≠ .flat := by rintro rfl; cases c
      obtain ⟨m1, m2, m3, m4, m5, -⟩ := masker_sax q (i := i) (out := .mask) hs hk hfl
      have hm : after F pos q [.masker k i .mask] s = masker .saxion k q.radii[i]? .mask s ∧
          trace F pos q [.masker k i .mask] s = [] := by
        rw [after_cons, after_nil, trace_cons, trace_nil]; simp [step, hf]
      generalize masker .saxion k q.radii[i]? .mask s = u at m1 m2 m3 m4 m5 hm
      have ha : after F pos q (when (!(on q.left MASK)) [.array ⟨"/mSpectrum", "W" :: preLabel F q k i⟩ .P]) u = u := by
        rw [after_when]; split <;> rfl
      have hst : after F pos q (when (on q.strmeas 4 && k == .redo) [.strEnergy i]) u = u := by
        rw [after_when]; split <;> rfl
      simp only [when, if_true] at hst ha ⊢
      have hme : ∀ (v : St R), v = after F pos q (if (k == .redo) = true then [.maskedEnergy i] else []) u →
          v.sd = u.sd ∧ v.m2h = u.m2h := by
        rintro v rfl
        split <;> exact ⟨rfl, rfl⟩
      constructor
      · rw [after_append, after_append, after_append, hm.1, ha, hst]
        obtain ⟨e1, e2⟩ := hme _ rfl
        exact ⟨by unfold Map; rw [e1]; exact m2, fun _ => by rw [e2]; exact m3, fun h => by rw [e1]; exact m4 h,
          fun h => by rw [e1]; exact m5 h⟩
      · refine all_app F pos q (all_app F pos q (all_app F pos q (by rw [hm.2]; simp) ?_) ?_) ?_
        · rw [hm.1]
          refine all_if F pos q fun _ e he => ?_
          have he : e = .put ⟨"/mSpectrum", "W" :: preLabel F q k i⟩ (.power u.P) := by
            simpa [trace_cons, trace_nil, step] using he
          subst he
          exact ⟨fun _ => ⟨rfl, by rw [m1]⟩, by simp, by simp, by simp⟩
        · rw [after_append, hm.1, ha]
          refine all_if F pos q fun hc e he => ?_
          have hr : k = .redo := by simpa using (Bool.and_eq_true_iff.1 hc).2
          simp only [trace_cons, trace_nil, step, List.append_nil] at he
          split at he
          · rw [List.mem_singleton] at he; subst he
            exact ⟨by simp, by simp, by simp, fun _ => ⟨hr, rfl, by rw [m4 (by rw [hr]; rfl)]⟩⟩
          · simp at he
        · rw [after_append, after_append, hm.1, ha, hst]
          refine all_if F pos q fun hc e he => ?_
          have hk2 : k = .redo := by simpa using hc
          simp only [trace_cons, trace_nil, step, List.append_nil] at he
          cases hr : q.radii[i]? with
          | none => rw [hr] at he; simp at he
          | some r =>
            rw [hr] at he
            dsimp only at he
            split at he
            · rw [List.mem_singleton] at he; subst he
              refine ⟨by simp, by simp, fun _ => ⟨hk2, r, hr, rfl, ?_⟩, by simp⟩
              rw [m5 (by rw [hk2]; rfl), if_pos rfl, m4 (by rw [hk2]; rfl)]
            · simp at he
  unfold round
  rw [List.append_assoc]
  have hsets := sets_sax F pos q hf hk i hp.1
  constructor
  · refine all_app F pos q hl.2 ?_
    rw [hl.1]
    refine all_app F pos q hp.2 ?_
    exact all_if F pos q fun _ => hsets.1
  · rw [after_append, hl.1, after_append, after_when]
    split
    · exact hsets.2
    · exact hp.1.map

theorem maskRound_sax (hf : q.field = .saxion) {b : Bool} {k : M} (hk : k.axiton = false) (hfl : k ≠ .flat) (i : ℕ)
    {s : St R} (hs : Map b s) :
    let cs := when k.mul [.label i] ++
      [.masker k i .antimask, .array ⟨"/mSpectrum", "W" :: preLabel F q k i⟩ .P, .project false,
        .pMap ⟨"/map", "W" :: preLabel F q k i⟩]
    (∀ e ∈ trace F pos q cs s, SaxQ F q b k i e) ∧ Map b (after F pos q cs s) := by
  have hl : after F pos q (when k.mul [.label i]) s = s ∧
      ∀ e ∈ trace F pos q (when k.mul [.label i]) s, SaxQ F q b k i e := by
    cases k.mul
    · exact ⟨rfl, by simp [when, trace_nil]⟩
    · refine ⟨rfl, ?_⟩
      intro e he
      simp only [when, if_true, trace_cons, trace_nil, step, List.append_nil] at he
      split at he
      · rw [List.mem_singleton] at he; subst he; trivial
      · simp at he
  obtain ⟨m1, m2, m3, m4, m5, m6⟩ := masker_sax q (i := i) (out := .antimask) hs hk hfl
  have m6 := m6 rfl
  intro cs
  change (∀ e ∈ trace F pos q (_ ++ _) s, _) ∧ Map b (after F pos q (_ ++ _) s)
  rw [after_append, hl.1]
  refine ⟨all_app F pos q hl.2 ?_, ?_⟩
  · rw [hl.1]
    simp only [trace_cons, trace_nil, step, hf]
    generalize masker .saxion k q.radii[i]? .antimask s = u at m1 m2 m3 m4 m5 m6
    intro e he
    rw [m6] at he
    simp only [reduceCtorEq, or_true, if_true, List.nil_append, List.cons_append, List.mem_cons,
      List.not_mem_nil, or_false] at he
    rcases he with rfl | rfl
    · exact ⟨fun _ => ⟨rfl, by rw [m1]⟩, by simp, by simp, by simp⟩
    · exact ⟨rfl, rfl, rfl⟩
  · simp only [after_cons, after_nil, step, hf]
    generalize masker .saxion k q.radii[i]? .antimask s = u at m1 m2 m3 m4 m5 m6
    rw [m6]
    exact m2

theorem used_sax (hf : q.field = .saxion) {k : M} (hu : Used q k) : k.axiton = false := by
  have := hu.2
  rw [hf] at this
  cases k <;> simp_all [Fits, M.axiton]

/-- Values of one of the masks. -/
def SaxAny (b : Bool) (e : Ev R) : Prop := ∃ k i, Used q k ∧ i ∈ q.rounds k ∧ SaxQ F q b k i e

/-- An event of the spectra. -/
def Ev.spec : Ev R → Prop
  | .put n _ => n.group = "/mSpectrum" ∨ n.group = "/eSpectrum" ∨ n.group = "/energy" ∨ n.group = "/string"
  | .hard _ _ => True
  | _ => False

theorem tail_sax (hf : q.field = .saxion) {b : Bool} {s : St R} (hs : Map b s) :
    ∀ e ∈ trace F pos q (spectrumBlock F q q.left ++ binBlock q q.left) s, e.spec → SaxAny F q b e := by
  refine all_app F pos q ?_ ?_
  · unfold spectrumBlock
    refine all_if F pos q fun _ => ?_
    have h1 : after F pos q [.newSpec] s = { s with P := .zero, N := .zero } := rfl
    have hI : Map b ({ s with P := .zero, N := .zero } : St R) := hs
    have hm : (∀ e ∈ trace F pos q (maskPass F q) { s with P := .zero, N := .zero }, e.spec → SaxAny F q b e) ∧
        Map b (after F pos q (maskPass F q) { s with P := .zero, N := .zero }) := by
      unfold maskPass
      refine all_loop F pos q (I := Map b) _ (fun k hk => ?_) _ hI
      rw [List.mem_filter, mem8, eff_bit] at hk
      refine all_loop F pos q (I := Map b) _ (fun i hi u hu => ?_)
      obtain ⟨r1, r2⟩ := maskRound_sax F pos q hf (used_sax q hf hk.2) hk.1.1 i hu
      exact ⟨fun e he _ => ⟨k, i, hk.2, hi, r1 e he⟩, r2⟩
    have hn : ∀ u, Map b u → ∀ e ∈ trace F pos q (numberPass F q q.left) u, e.spec → SaxAny F q b e := by
      intro u hu
      unfold numberPass
      refine all_if F pos q fun _ => all_app F pos q ?_ (all_if F pos q fun _ => ?_)
      · refine (all_loop F pos q (I := Map b) _ (fun k hk => ?_) _ hu).1
        rw [List.mem_filter, mem9, eff_bit] at hk
        refine all_loop F pos q (I := Map b) _ (fun i hi u hu => ?_)
        obtain ⟨r1, r2⟩ := round_sax F pos q hf (used_sax q hf hk.2) i hu
        exact ⟨fun e he _ => ⟨k, i, hk.2, hi, r1 e he⟩, r2⟩
      · intro e he hsp
        simp only [trace_cons, trace_nil, step, List.append_nil, List.cons_append, List.nil_append, List.mem_cons,
          List.not_mem_nil, or_false] at he
        rcases he with rfl | rfl <;> simp [Ev.spec] at hsp
    refine all_app F pos q (all_app F pos q (by simp [trace_cons, trace_nil, step]) ?_) ?_
    · rw [h1]
      exact all_if F pos q fun _ => hm.1
    · rw [after_append, h1, after_when]
      split
      · exact hn _ hm.2
      · exact hn _ hI
  · intro e he hsp
    exfalso
    have hmem : e.sk ∈ (trace F pos q (binBlock q q.left) (after F pos q (spectrumBlock F q q.left) s)).map Ev.sk :=
      List.mem_map_of_mem he
    rw [fixed_trace F pos q _ (bin_fixed q q.left), List.mem_flatMap] at hmem
    obtain ⟨c, hc, hn⟩ := hmem
    rw [mem_bin] at hc
    rcases hc with ⟨_, _, rfl⟩ | ⟨_, _, rfl⟩ | ⟨_, _, rfl⟩ | ⟨_, _, rfl⟩ <;>
      (simp only [names, List.mem_singleton] at hn
       cases e with
       | put n v => simp only [Ev.sk, Sk.put.injEq] at hn; subst hn; simp [Ev.spec] at hsp
       | hard n v => simp [Ev.sk] at hn
       | save => exact hsp
       | ub => exact hsp)

end Jaxions.MeasRun
