import Verif.Spec.MeasList
import Verif.Basic.Fold
import Mathlib.Data.List.Chain
import Mathlib.Data.List.Nodup
import Mathlib.Data.List.Perm.Subperm
import Mathlib.Algebra.Order.Ring.Rat

/-
Lemmas about the measurement list.
-/

namespace Jaxions.MeasList

open Spec

/-! ### Header -/

theorem code_known {w : String} (h : w ∈ known) : ∃ c, code w = some c ∧ c < 5 := by
  simp only [known, List.mem_cons, List.not_mem_nil, or_false] at h
  rcases h with rfl | rfl | rfl | rfl | rfl
  · exact ⟨0, by decide, by omega⟩
  · exact ⟨1, by decide, by omega⟩
  · exact ⟨2, by decide, by omega⟩
  · exact ⟨3, by decide, by omega⟩
  · exact ⟨4, by decide, by omega⟩

theorem code_none {w : String} (h : w ∉ known) : code w = none := by
  simp only [known, List.mem_cons, List.not_mem_nil, or_false, not_or] at h
  obtain ⟨h1, h2, h3, h4, h5⟩ := h
  unfold code
  rw [if_neg h1, if_neg h2, if_neg h3, if_neg h4, if_neg h5]

theorem Header.length_le {h : List String} (hh : Header h) : h.length ≤ 5 := by
  have : h.Subperm known := (hh.once.subperm (fun w hw => hh.known w hw))
  exact this.length_le

theorem zipIdx_split {α : Type} {l : List α} {pre post : List (α × ℕ)} {x : α × ℕ}
    (h : l.zipIdx = pre ++ x :: post) : x.2 = pre.length ∧ l[pre.length]? = some x.1 ∧
      pre.length < l.length := by
  have h1 : (l.zipIdx)[pre.length]? = some x := by rw [h]; simp
  rw [List.getElem?_zipIdx] at h1
  cases hl : l[pre.length]? with
  | none => rw [hl] at h1; cases h1
  | some a =>
    rw [hl] at h1
    simp only [Option.map_some, Nat.zero_add, Option.some.injEq] at h1
    subst h1
    exact ⟨rfl, rfl, (List.getElem?_eq_some_iff.1 hl).1⟩

/-- A proper header is understood column by column. -/
theorem readheader_proper {h : List String} (hh : Header h) :
    ∃ perm, readheader h [0, 1, 2, 3, 4] = some (perm, h.length) ∧
      ∀ (k : ℕ) (w : String), h[k]? = some w → perm[k]? = code w := by
  have hlen := Header.length_le hh
  obtain ⟨p, h1, h2, h3, h4⟩ := foldlM_inv (s := (([0, 1, 2, 3, 4] : List ℕ), 0))
    (f := headerWord)
    (P := fun pre p => p.2 = pre.length ∧ p.1.length = 5 ∧
      ∀ (k : ℕ) (w : String), k < pre.length → h[k]? = some w → p.1[k]? = code w)
    h.zipIdx ⟨rfl, rfl, fun k w hk => absurd hk (by simp)⟩
    (by
      intro pre x post hL t ⟨t1, t2, t3⟩
      obtain ⟨e1, e2, e3⟩ := zipIdx_split hL
      obtain ⟨c, hc, hc5⟩ := code_known (hh.known x.1 (List.mem_of_getElem? e2))
      refine ⟨(t.1.set x.2 c, t.2 + 1), ?_, ?_, ?_, ?_⟩
      · unfold headerWord
        rw [hc]
        dsimp only
        rw [if_pos (by omega)]
      · dsimp only; rw [t1]; simp
      · dsimp only; rw [List.length_set]; exact t2
      · intro k w hk hw
        dsimp only
        rw [List.getElem?_set]
        by_cases hkx : x.2 = k
        · rw [if_pos hkx, if_pos (by omega)]
          rw [e1] at hkx
          subst hkx
          rw [e2] at hw
          cases hw
          exact hc.symm
        · rw [if_neg hkx]
          refine t3 k w ?_ hw
          simp at hk
          omega)
  refine ⟨p.1, ?_, fun k w hw => h4 k w ?_ hw⟩
  · unfold readheader
    rw [h1]
    congr 1
    refine Prod.ext rfl ?_
    rw [h2, List.length_zipIdx]
  · rw [List.length_zipIdx]
    exact (List.getElem?_eq_some_iff.1 hw).1

/-- A first line without any known name is not a header. -/
theorem readheader_none {h : List String} (hh : ∀ w ∈ h, w ∉ known) (perm : List ℕ) :
    readheader h perm = some (perm, 0) := by
  obtain ⟨p, h1, h2⟩ := foldlM_inv (s := (perm, 0))
    (f := headerWord)
    (P := fun _ p => p = (perm, 0)) h.zipIdx rfl
    (by
      intro pre x post hL t ht
      obtain ⟨e1, e2, e3⟩ := zipIdx_split hL
      refine ⟨t, ?_, ht⟩
      unfold headerWord
      rw [code_none (hh x.1 (List.mem_of_getElem? e2))])
  unfold readheader
  rw [h1, h2]

/-! ### A line -/

theorem under_of_lt {h line : List String} {name : String} (h1 : h.idxOf name < h.length)
    (h2 : h.idxOf name < line.length) : under h line name = some (line[h.idxOf name]) := by
  unfold under
  rw [List.getElem?_eq_getElem h2, Option.filter_some,
    if_pos (decide_eq_true (List.idxOf_lt_length_iff.1 h1))]

theorem under_none {h line : List String} {name : String}
    (h1 : ¬ h.idxOf name < min line.length h.length) : under h line name = none := by
  unfold under
  by_cases hl : h.idxOf name < line.length
  · have : name ∉ h := fun hm => by
      have := List.idxOf_lt_length_iff.2 hm
      omega
    rw [List.getElem?_eq_getElem hl, Option.filter_some, if_neg (by simpa using this)]
  · rw [List.getElem?_eq_none (by omega)]
    rfl

theorem idxOf_of_get {h : List String} (hn : h.Nodup) {k : ℕ} {w : String}
    (hw : h[k]? = some w) : h.idxOf w = k := by
  obtain ⟨hk, e⟩ := List.getElem?_eq_some_iff.1 hw
  rw [← e]
  exact hn.idxOf_getElem k hk

theorem idxOf_ne {h : List String} {k : ℕ} {w w' : String} (hw : h[k]? = some w) (hne : w ≠ w') :
    h.idxOf w' ≠ k := by
  intro hc
  obtain ⟨hk, e⟩ := List.getElem?_eq_some_iff.1 hw
  have hlt : h.idxOf w' < h.length := by omega
  have := List.getElem_idxOf hlt
  simp only [hc] at this
  exact hne (e.symm.trans this)

theorem pick_step {β : Type} (i k : ℕ) (hne : i ≠ k) (a b : β) :
    (if i < k + 1 then a else b) = if i < k then a else b := by
  by_cases h : i < k
  · rw [if_pos (by omega), if_pos h]
  · rw [if_neg (by omega), if_neg h]

/-- A line is stored under the names of the header. -/
theorem readline_spec (num : Num) {h line : List String} {perm : List ℕ} (hn : h.Nodup)
    (hk : ∀ w ∈ h, w ∈ known)
    (hperm : ∀ (k : ℕ) (w : String), h[k]? = some w → perm[k]? = code w) (ctime : Option ℚ)
    {w : String} {t : ℚ} {v1 v2 v3 v4 : BitVec 32} (hw : under h line "ct" = some w)
    (ht : num.stof w = some t) (h1 : number num h line "meas" = some v1)
    (h2 : number num h line "map" = some v2) (h3 : number num h line "mask" = some v3)
    (h4 : number num h line "kgv" = some v4) :
    readline num line ctime perm h.length = some (some t, [v1, v2, v3, v4]) := by
  have num_lt : ∀ (name : String) (v : BitVec 32), number num h line name = some v →
      ∀ k w, h[k]? = some w → w = name → ∀ hk : k < line.length,
        num.stoi line[k] = some v := by
    intro name v hv k w hw hwn hk
    subst hwn
    have hi := idxOf_of_get hn hw
    unfold number at hv
    rw [under_of_lt (by rw [hi]; exact (List.getElem?_eq_some_iff.1 hw).1) (by omega)] at hv
    dsimp only at hv
    simp only [hi] at hv
    exact hv
  obtain ⟨p, e1, e2⟩ := range_inv (s := (ctime, ([0, 0, 0, 0] : List (BitVec 32))))
    (f := lineWord num line perm)
    (P := fun k p => p = ((if h.idxOf "ct" < k then some t else ctime),
      [if h.idxOf "meas" < k then v1 else 0, if h.idxOf "map" < k then v2 else 0,
       if h.idxOf "mask" < k then v3 else 0, if h.idxOf "kgv" < k then v4 else 0]))
    (min line.length h.length) (by simp)
    (by
      intro k hkm p hp
      have hkl : k < line.length := by omega
      have hkh : k < h.length := by omega
      have hword : h[k]? = some h[k] := List.getElem?_eq_getElem hkh
      have hmem := hk h[k] (List.getElem_mem hkh)
      have hpk := hperm k _ hword
      have hln : line[k]? = some line[k] := List.getElem?_eq_getElem hkl
      simp only [known, List.mem_cons, List.not_mem_nil, or_false] at hmem
      generalize h[k] = x at *
      unfold lineWord
      rw [hpk, hln, hp]
      have hi : ∀ name, x = name → h.idxOf name = k := fun name hx =>
        idxOf_of_get hn (by rw [hword, hx])
      have hj : ∀ name, x ≠ name → h.idxOf name ≠ k := fun name hx => idxOf_ne hword hx
      rcases hmem with hx | hx | hx | hx | hx
      · have hs : num.stof line[k] = some t := by
          have hi' := hi _ hx
          rw [under_of_lt (by omega) (by omega)] at hw
          simp only [hi', Option.some.injEq] at hw
          rw [hw]; exact ht
        refine ⟨_, ?_, rfl⟩
        rw [pick_step _ _ (hj "meas" (by rw [hx]; decide)),
          pick_step _ _ (hj "map" (by rw [hx]; decide)),
          pick_step _ _ (hj "mask" (by rw [hx]; decide)),
          pick_step _ _ (hj "kgv" (by rw [hx]; decide)),
          if_pos (show h.idxOf "ct" < k + 1 by rw [hi _ hx]; omega), hx]
        show Option.map _ (num.stof line[k]) = _
        rw [hs]; rfl
      · have hs := num_lt _ _ h1 k x hword hx hkl
        refine ⟨_, ?_, rfl⟩
        rw [pick_step _ _ (hj "ct" (by rw [hx]; decide)),
          pick_step _ _ (hj "map" (by rw [hx]; decide)),
          pick_step _ _ (hj "mask" (by rw [hx]; decide)),
          pick_step _ _ (hj "kgv" (by rw [hx]; decide)),
          if_pos (show h.idxOf "meas" < k + 1 by rw [hi _ hx]; omega), hx]
        show (if (0 : ℕ) < 4 then Option.map _ (num.stoi line[k]) else none) = _
        rw [hs]; rfl
      · have hs := num_lt _ _ h2 k x hword hx hkl
        refine ⟨_, ?_, rfl⟩
        rw [pick_step _ _ (hj "ct" (by rw [hx]; decide)),
          pick_step _ _ (hj "meas" (by rw [hx]; decide)),
          pick_step _ _ (hj "mask" (by rw [hx]; decide)),
          pick_step _ _ (hj "kgv" (by rw [hx]; decide)),
          if_pos (show h.idxOf "map" < k + 1 by rw [hi _ hx]; omega), hx]
        show (if (1 : ℕ) < 4 then Option.map _ (num.stoi line[k]) else none) = _
        rw [hs]; rfl
      · have hs := num_lt _ _ h3 k x hword hx hkl
        refine ⟨_, ?_, rfl⟩
        rw [pick_step _ _ (hj "ct" (by rw [hx]; decide)),
          pick_step _ _ (hj "meas" (by rw [hx]; decide)),
          pick_step _ _ (hj "map" (by rw [hx]; decide)),
          pick_step _ _ (hj "kgv" (by rw [hx]; decide)),
          if_pos (show h.idxOf "mask" < k + 1 by rw [hi _ hx]; omega), hx]
        show (if (2 : ℕ) < 4 then Option.map _ (num.stoi line[k]) else none) = _
        rw [hs]; rfl
      · have hs := num_lt _ _ h4 k x hword hx hkl
        refine ⟨_, ?_, rfl⟩
        rw [pick_step _ _ (hj "ct" (by rw [hx]; decide)),
          pick_step _ _ (hj "meas" (by rw [hx]; decide)),
          pick_step _ _ (hj "map" (by rw [hx]; decide)),
          pick_step _ _ (hj "mask" (by rw [hx]; decide)),
          if_pos (show h.idxOf "kgv" < k + 1 by rw [hi _ hx]; omega), hx]
        show (if (3 : ℕ) < 4 then Option.map _ (num.stoi line[k]) else none) = _
        rw [hs]; rfl)
  unfold readline
  rw [e1, e2]
  have fin : ∀ (name : String) (v : BitVec 32), number num h line name = some v →
      (if h.idxOf name < min line.length h.length then v else 0) = v := by
    intro name v hv
    by_cases hc : h.idxOf name < min line.length h.length
    · rw [if_pos hc]
    · rw [if_neg hc]
      unfold number at hv
      rw [under_none hc] at hv
      exact Option.some.inj hv
  rw [fin _ _ h1, fin _ _ h2, fin _ _ h3, fin _ _ h4, if_pos]
  by_contra hc
  rw [under_none hc] at hw
  cases hw

/-! ### All lines -/

theorem readLines_spec (num : Num) (g : Given) (z : ℚ) {h : List String} {perm : List ℕ}
    (hn : h.Nodup) (hk : ∀ w ∈ h, w ∈ known)
    (hperm : ∀ (k : ℕ) (w : String), h[k]? = some w → perm[k]? = code w)
    {lines : List (List String)} {rs : List Rec} (hrs : lines.mapM (entry num g h) = some rs) :
    ∃ m, readLines num g z perm h.length lines =
      some (m, rs.filter fun r => decide (z ≤ r.ct)) := by
  suffices hg : ∀ (lines : List (List String)) (rs acc : List Rec) (m : Option ℚ),
      lines.mapM (entry num g h) = some rs → ∃ m',
      lines.foldlM (addLine num g z perm h.length) (m, acc) = some (m', acc ++ rs.filter fun r => decide (z ≤ r.ct)) by
    exact hg lines rs [] none hrs
  intro lines
  induction lines with
  | nil =>
    intro rs acc m hr
    cases hr
    exact ⟨m, by simp⟩
  | cons line lines ih =>
    intro rs acc m hr
    rw [List.mapM_cons] at hr
    cases he : entry num g h line with
    | none => rw [he] at hr; cases hr
    | some r =>
      rw [he] at hr
      cases hl : lines.mapM (entry num g h) with
      | none => rw [hl] at hr; cases hr
      | some rs' =>
        rw [hl] at hr
        cases hr
        unfold entry at he
        simp only [Option.bind_eq_bind, Option.bind_eq_some_iff, Option.pure_def,
          Option.some.injEq] at he
        obtain ⟨w, hw, t, ht, v1, h1, v2, h2, v3, h3, v4, h4, rfl⟩ := he
        rw [List.foldlM_cons, addLine, readline_spec num hn hk hperm _ hw ht h1 h2 h3 h4]
        simp only [Option.bind_eq_bind, Option.bind_some, List.getElem?_cons_zero,
          List.getElem?_cons_succ, Option.pure_def]
        by_cases hz : t < z
        · rw [if_pos hz, Option.bind_some]
          obtain ⟨m', hm'⟩ := ih rs' acc (some t) hl
          refine ⟨m', hm'.trans ?_⟩
          rw [List.filter_cons_of_neg (by simpa using hz)]
        · rw [if_neg hz, Option.bind_some]
          obtain ⟨m', hm'⟩ := ih rs' (acc ++ [⟨t, if v1.msb then g.meas else v1, v2 ||| g.map,
            v3 ||| g.mask, v4 ||| g.nrt⟩]) (some t) hl
          refine ⟨m', hm'.trans ?_⟩
          rw [List.filter_cons_of_pos (by simpa using hz)]
          simp

/-! ### Merging -/

/-- Merging from the right. -/
def joined : List Rec → List Rec
  | [] => []
  | r :: rs =>
    match joined rs with
    | [] => [r]
    | s :: ss => if s.ct = r.ct then { r with meas := r.meas ||| s.meas } :: ss else r :: s :: ss

theorem joined_cons (r : Rec) (rs : List Rec) : ∃ s ss, joined (r :: rs) = s :: ss ∧
    s.ct = r.ct ∧ s.map = r.map ∧ s.mask = r.mask ∧ s.nrt = r.nrt := by
  unfold joined
  split
  · exact ⟨r, [], rfl, rfl, rfl, rfl, rfl⟩
  · split
    · exact ⟨_, _, rfl, rfl, rfl, rfl, rfl⟩
    · exact ⟨_, _, rfl, rfl, rfl, rfl, rfl⟩

theorem merge_eq (rs : List Rec) : merge rs = some (joined rs) := by
  obtain ⟨s', e1, e2⟩ := range_inv (s := rs)
    (f := fun l j => mergeAt l (rs.length - 1 - j))
    (P := fun j l => l = rs.take (rs.length - 1 - j) ++ joined (rs.drop (rs.length - 1 - j)))
    (rs.length - 1)
    (by
      rcases rs.eq_nil_or_concat with rfl | ⟨l, a, rfl⟩
      · rfl
      · simp [joined])
    (by
      intro j hj l hl
      obtain ⟨i, hi⟩ : ∃ i, rs.length - 1 - j = i + 1 := ⟨rs.length - 1 - j - 1, by omega⟩
      have hi' : rs.length - 1 - (j + 1) = i := by omega
      rw [hi] at hl ⊢
      rw [hi', hl]
      unfold mergeAt
      have hlt : i + 1 < rs.length := by omega
      have hd : rs.drop (i + 1) = rs[i + 1] :: rs.drop (i + 1 + 1) :=
        List.drop_eq_getElem_cons hlt
      have hd' : rs.drop i = rs[i] :: rs.drop (i + 1) := List.drop_eq_getElem_cons (by omega)
      have ht : rs.take (i + 1) = rs.take i ++ [rs[i]] := by
        rw [List.take_add_one, List.getElem?_eq_getElem (by omega)]; rfl
      obtain ⟨s, ss, hs, -⟩ := joined_cons rs[i + 1] (rs.drop (i + 1 + 1))
      rw [← hd] at hs
      rw [hs, ht]
      have hti : (rs.take i).length = i := by rw [List.length_take]; omega
      have g1 : (rs.take i ++ [rs[i]] ++ s :: ss)[i + 1]? = some s := by
        rw [List.append_assoc, List.getElem?_append_right (by omega), hti]
        simp
      have g2 : (rs.take i ++ [rs[i]] ++ s :: ss)[i + 1 - 1]? = some rs[i] := by
        rw [List.append_assoc, List.getElem?_append_right (by simp)]
        simp [hti]
      rw [g1, g2]
      dsimp only
      rw [hd', joined, hs]
      dsimp only
      by_cases he : s.ct = rs[i].ct
      · rw [if_pos he, if_pos he]
        refine ⟨_, rfl, ?_⟩
        rw [List.append_assoc, List.set_append_right _ _ (by simp [hti]),
          List.eraseIdx_append_of_length_le (by simp [hti])]
        simp [hti]
      · rw [if_neg he, if_neg he]
        refine ⟨_, rfl, ?_⟩
        rw [List.append_assoc]
        rfl)
  unfold merge
  rw [e1, e2]
  simp

theorem joined_eq_nil {rs : List Rec} : joined rs = [] ↔ rs = [] := by
  cases rs with
  | nil => simp [joined]
  | cons r rs =>
    obtain ⟨s, ss, h, -⟩ := joined_cons r rs
    simp [h]

theorem joined_getLast (rs : List Rec) :
    (joined rs).getLast?.map Rec.ct = rs.getLast?.map Rec.ct := by
  induction rs with
  | nil => rfl
  | cons r rs ih =>
    unfold joined
    split
    · next h =>
      rw [joined_eq_nil.1 h]
    · next s ss h =>
      rw [h] at ih
      cases rs with
      | nil => simp [joined] at h
      | cons r' rs' =>
        rw [show (r :: r' :: rs').getLast? = (r' :: rs').getLast? by simp [List.getLast?_cons],
          ← ih]
        split
        · next he =>
          cases ss with
          | nil => simp [he]
          | cons s' ss' => simp [List.getLast?_cons]
        · simp [List.getLast?_cons]

/-- Neighbours in the result have different times. -/
theorem joined_chain (rs : List Rec) :
    (joined rs).IsChain (fun a b => a.ct ≠ b.ct) := by
  induction rs with
  | nil => simp [joined]
  | cons r rs ih =>
    unfold joined
    split
    · simp
    · next s ss h =>
      rw [h] at ih
      split
      · next he =>
        cases ss with
        | nil => simp
        | cons s' ss' =>
          rw [List.isChain_cons_cons] at ih ⊢
          refine ⟨?_, ih.2⟩
          dsimp only
          rw [← he]
          exact ih.1
      · next he =>
        rw [List.isChain_cons_cons]
        exact ⟨fun hc => he hc.symm, ih⟩

/-- Every line is in the result, with all its measurements. -/
theorem joined_covers (rs : List Rec) : ∀ r ∈ rs, ∃ s ∈ joined rs, s.ct = r.ct ∧
    r.meas ||| s.meas = s.meas := by
  induction rs with
  | nil => simp
  | cons r rs ih =>
    intro q hq
    unfold joined
    rcases List.mem_cons.1 hq with rfl | hq
    · split
      · exact ⟨q, by simp, rfl, by simp⟩
      · split
        · exact ⟨_, List.mem_cons_self, rfl, by simp [← BitVec.or_assoc]⟩
        · exact ⟨q, by simp, rfl, by simp⟩
    · obtain ⟨s, hs, h1, h2⟩ := ih q hq
      split
      · next h => rw [h] at hs; cases hs
      · next s0 ss h =>
        rw [h] at hs
        split
        · next he =>
          rcases List.mem_cons.1 hs with rfl | hs
          · refine ⟨_, List.mem_cons_self, by dsimp only; rw [← he]; exact h1, ?_⟩
            dsimp only
            calc q.meas ||| (r.meas ||| s.meas) = r.meas ||| (q.meas ||| s.meas) := by
                  rw [← BitVec.or_assoc, BitVec.or_comm q.meas, BitVec.or_assoc]
              _ = _ := by rw [h2]
          · exact ⟨s, by simp [hs], h1, h2⟩
        · exact ⟨s, by simp [hs], h1, h2⟩

/-- Nothing in the result was not asked for. -/
theorem joined_sound (rs : List Rec) : ∀ s ∈ joined rs,
    (∃ r ∈ rs, r.ct = s.ct ∧ r.map = s.map ∧ r.mask = s.mask ∧ r.nrt = s.nrt) ∧
    ∀ i, s.meas.getLsbD i = true → ∃ r ∈ rs, r.ct = s.ct ∧ r.meas.getLsbD i = true := by
  induction rs with
  | nil => simp [joined]
  | cons r rs ih =>
    intro s hs
    unfold joined at hs
    have old : s ∈ joined rs →
        (∃ r' ∈ r :: rs, r'.ct = s.ct ∧ r'.map = s.map ∧ r'.mask = s.mask ∧ r'.nrt = s.nrt) ∧
        ∀ i, s.meas.getLsbD i = true → ∃ r' ∈ r :: rs, r'.ct = s.ct ∧ r'.meas.getLsbD i = true := by
      intro h
      obtain ⟨⟨q, h1, h2⟩, h3⟩ := ih s h
      refine ⟨⟨q, by simp [h1], h2⟩, fun i hi => ?_⟩
      obtain ⟨q, h1, h2⟩ := h3 i hi
      exact ⟨q, by simp [h1], h2⟩
    split at hs
    · rw [List.mem_singleton.1 hs]
      exact ⟨⟨r, by simp, rfl, rfl, rfl, rfl⟩, fun i hi => ⟨r, by simp, rfl, hi⟩⟩
    · next s0 ss h =>
      split at hs
      · next he =>
        rcases List.mem_cons.1 hs with hs | hs
        · subst hs
          refine ⟨⟨r, by simp, rfl, rfl, rfl, rfl⟩, fun i hi => ?_⟩
          dsimp only at hi ⊢
          rw [BitVec.getLsbD_or, Bool.or_eq_true] at hi
          rcases hi with hi | hi
          · exact ⟨r, by simp, rfl, hi⟩
          · obtain ⟨q, h1, h2, h3⟩ := (ih s0 (by rw [h]; simp)).2 i hi
            exact ⟨q, by simp [h1], by rw [h2, he], h3⟩
        · exact old (by rw [h]; simp [hs])
      · rcases List.mem_cons.1 hs with hs | hs
        · subst hs
          exact ⟨⟨s, by simp, rfl, rfl, rfl, rfl⟩, fun i hi => ⟨s, by simp, rfl, hi⟩⟩
        · exact old (by rw [h]; exact hs)

/-- From times in order, times in strict order. -/
theorem joined_sorted {rs : List Rec} (h : rs.Pairwise (fun a b => a.ct ≤ b.ct)) :
    (joined rs).Pairwise (fun a b => a.ct < b.ct) := by
  have hle : (joined rs).Pairwise (fun a b => a.ct ≤ b.ct) := by
    induction rs with
    | nil => simp [joined]
    | cons r rs ih =>
      rw [List.pairwise_cons] at h
      have hi := ih h.2
      have hr : ∀ s ∈ joined rs, r.ct ≤ s.ct := by
        intro s hs
        obtain ⟨⟨q, h1, h2, -⟩, -⟩ := joined_sound rs s hs
        rw [← h2]; exact h.1 q h1
      unfold joined
      split
      · simp
      · next s ss hj =>
        rw [hj] at hi hr
        split
        · rw [List.pairwise_cons] at hi ⊢
          refine ⟨fun a ha => ?_, hi.2⟩
          dsimp only
          exact hr a (by simp [ha])
        · rw [List.pairwise_cons]
          exact ⟨hr, hi⟩
  have hc := joined_chain rs
  generalize joined rs = l at *
  induction l with
  | nil => simp
  | cons a l ih =>
    rw [List.pairwise_cons] at hle ⊢
    cases l with
    | nil => simp
    | cons b l =>
      rw [List.isChain_cons_cons] at hc
      have hi := ih hle.2 hc.2
      refine ⟨fun x hx => ?_, hi⟩
      have hab : a.ct < b.ct := lt_of_le_of_ne (hle.1 b (by simp)) hc.1
      rcases List.mem_cons.1 hx with rfl | hx
      · exact hab
      · exact lt_trans hab ((List.pairwise_cons.1 hi).1 x hx)

end Jaxions.MeasList
