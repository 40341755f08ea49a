import Verif.Lemmas.MeasList

/-
C44: the measurement list file is read as written.
-/

namespace Jaxions.MeasList

open Spec

/-- Each line is stored under the columns named in the header, in any order and for any
choice of the columns, and lines in the past are dropped.  `rs` are the entries the
lines ask for, by the names alone. -/
theorem C44_columns (num : Num) (g : Given) (z : ℚ) {h : List String} (hh : Header h)
    {body : List (List String)} {rs : List Rec} (hrs : body.mapM (entry num g h) = some rs) :
    ∃ perm m, readheader h [0, 1, 2, 3, 4] = some (perm, h.length) ∧
      readLines num g z perm h.length body = some (m, rs.filter fun r => decide (z ≤ r.ct)) := by
  obtain ⟨perm, h1, h2⟩ := readheader_proper hh
  obtain ⟨m, h3⟩ := readLines_spec num g z hh.once hh.known h2 hrs
  exact ⟨perm, m, h1, h3⟩

/-- The same for the old format, a file without a header: the columns are the time and
the measurements, and the first line counts. -/
theorem C44_old (num : Num) (g : Given) (z : ℚ) {body : List (List String)} {rs : List Rec}
    (hno : ∀ w ∈ body.headD [], w ∉ known)
    (hrs : body.mapM (entry num g ["ct", "meas"]) = some rs) :
    ∃ m, readheader (body.headD []) [0, 1, 2, 3, 4] = some ([0, 1, 2, 3, 4], 0) ∧
      readLines num g z [0, 1, 2, 3, 4] 2 body =
        some (m, rs.filter fun r => decide (z ≤ r.ct)) := by
  obtain ⟨m, h3⟩ := readLines_spec num g z (h := ["ct", "meas"]) (perm := [0, 1, 2, 3, 4])
    (by decide) (by decide)
    (by
      intro k w hw
      match k with
      | 0 => cases hw; decide
      | 1 => cases hw; decide
      | k + 2 => simp at hw) hrs
  exact ⟨m, readheader_none hno _, h3⟩

/-- The merging, for any list: the result exists, neighbours have different times, each
line is found at its time with all its measurements, nothing is measured that was not
asked for at that time, and the end of the run is the time of the last line. -/
theorem C44_merge (rs : List Rec) : ∃ ms, merge rs = some ms ∧
    ms.IsChain (fun a b => a.ct ≠ b.ct) ∧
    (∀ r ∈ rs, ∃ s ∈ ms, s.ct = r.ct ∧ r.meas ||| s.meas = s.meas) ∧
    (∀ s ∈ ms, (∃ r ∈ rs, r.ct = s.ct) ∧ ∀ i, s.meas.getLsbD i = true →
      ∃ r ∈ rs, r.ct = s.ct ∧ r.meas.getLsbD i = true) ∧
    ms.getLast?.map Rec.ct = rs.getLast?.map Rec.ct := by
  refine ⟨joined rs, merge_eq rs, joined_chain rs, joined_covers rs, fun s hs => ?_,
    joined_getLast rs⟩
  obtain ⟨⟨r, h1, h2, -⟩, h3⟩ := joined_sound rs s hs
  exact ⟨⟨r, h1, h2⟩, h3⟩

/-- From lines with times in order, the times of the list are strictly increasing. -/
theorem C44_increasing {rs : List Rec} (h : rs.Pairwise fun a b => a.ct ≤ b.ct) :
    ∃ ms, merge rs = some ms ∧ ms.Pairwise fun a b => a.ct < b.ct :=
  ⟨joined rs, merge_eq rs, joined_sorted h⟩

/-- Nothing at all is lost when the lines of one time ask for the same maps, masks and
kinds. -/
theorem C44_nothing_lost_partial {rs : List Rec}
    (h : ∀ a ∈ rs, ∀ b ∈ rs, a.ct = b.ct → a.map = b.map ∧ a.mask = b.mask ∧ a.nrt = b.nrt) :
    ∃ ms, merge rs = some ms ∧ ∀ r ∈ rs, ∃ s ∈ ms, s.ct = r.ct ∧ r.meas ||| s.meas = s.meas ∧
      s.map = r.map ∧ s.mask = r.mask ∧ s.nrt = r.nrt := by
  refine ⟨joined rs, merge_eq rs, fun r hr => ?_⟩
  obtain ⟨s, hs, h1, h2⟩ := joined_covers rs r hr
  obtain ⟨⟨q, hq, q1, q2, q3, q4⟩, -⟩ := joined_sound rs s hs
  obtain ⟨e1, e2, e3⟩ := h q hq r hr (q1.trans h1)
  exact ⟨s, hs, h1, h2, by rw [← q2, e1], by rw [← q3, e2], by rw [← q4, e3]⟩

/-- In general something is lost: of two lines with one time, the maps, masks and kinds
of the second one are forgotten. -/
theorem C44_maps_lost (a b : Rec) (h : a.ct = b.ct) :
    merge [a, b] = some [{ a with meas := a.meas ||| b.meas }] := by
  rw [merge_eq]
  simp [joined, h]

/-- The whole file, for times in order: the list that drives the run has exactly the
times of the lines that are not in the past, strictly increasing, and the run ends at
the last one.  There is none when all lines are in the past: the code then reads the
last entry of an empty list. -/
theorem C44_file (num : Num) (g : Given) (z : ℚ) {h : List String} (hh : Header h)
    {body : List (List String)} {rs : List Rec} (hrs : body.mapM (entry num g h) = some rs)
    (hord : rs.Pairwise fun a b => a.ct ≤ b.ct) :
    (readFile num g z (h :: body) = none ↔ ∀ r ∈ rs, r.ct < z) ∧
    ∀ ms zf, readFile num g z (h :: body) = some (ms, zf) →
      ms.Pairwise (fun a b => a.ct < b.ct) ∧
      (∀ t, t ∈ ms.map Rec.ct ↔ z ≤ t ∧ t ∈ rs.map Rec.ct) ∧
      (ms.map Rec.ct).getLast? = some zf := by
  obtain ⟨perm, m, h1, h2⟩ := C44_columns num g z hh hrs
  have hne : h.length ≠ 0 := fun hc => hh.some (List.length_eq_zero_iff.1 hc)
  have key : readFile num g z (h :: body) =
      ((joined (rs.filter fun r => decide (z ≤ r.ct))).getLast?).bind fun last =>
        some (joined (rs.filter fun r => decide (z ≤ r.ct)), last.ct) := by
    unfold readFile
    simp only [List.headD_cons, List.tail_cons, h1, Option.bind_eq_bind, Option.bind_some,
      if_neg hne, h2, merge_eq, Option.pure_def]
  rw [key]
  have hmem : ∀ t, t ∈ (joined (rs.filter fun r => decide (z ≤ r.ct))).map Rec.ct ↔
      z ≤ t ∧ t ∈ rs.map Rec.ct := by
    intro t
    constructor
    · intro ht
      obtain ⟨s, hs, rfl⟩ := List.mem_map.1 ht
      obtain ⟨⟨r, hr, e, -⟩, -⟩ := joined_sound _ s hs
      rw [List.mem_filter] at hr
      rw [← e]
      exact ⟨by simpa using hr.2, List.mem_map_of_mem hr.1⟩
    · rintro ⟨hz, ht⟩
      obtain ⟨r, hr, rfl⟩ := List.mem_map.1 ht
      obtain ⟨s, hs, e, -⟩ := joined_covers (rs.filter fun r => decide (z ≤ r.ct)) r
        (List.mem_filter.2 ⟨hr, by simpa using hz⟩)
      exact List.mem_map.2 ⟨s, hs, e⟩
  constructor
  · rw [Option.bind_eq_none_iff]
    constructor
    · intro hn r hr
      by_contra hc
      have hx : joined (rs.filter fun r => decide (z ≤ r.ct)) ≠ [] := by
        rw [ne_eq, joined_eq_nil]
        intro he
        have : r ∈ rs.filter fun r => decide (z ≤ r.ct) :=
          List.mem_filter.2 ⟨hr, by simpa using hc⟩
        rw [he] at this
        cases this
      have := hn _ (List.getLast?_eq_some_getLast hx)
      cases this
    · intro hp last hl
      exfalso
      have hf : rs.filter (fun r => decide (z ≤ r.ct)) = [] := by
        rw [List.filter_eq_nil_iff]
        intro r hr
        simpa using hp r hr
      rw [hf] at hl
      cases hl
  · intro ms zf hs
    rw [Option.bind_eq_some_iff] at hs
    obtain ⟨last, hl, hs⟩ := hs
    simp only [Option.some.injEq, Prod.mk.injEq] at hs
    obtain ⟨rfl, rfl⟩ := hs
    refine ⟨joined_sorted (hord.filter _), hmem, ?_⟩
    rw [List.getLast?_map, hl]
    rfl

/-- A name that is not known shifts the columns: the word under it is taken for the
measurements and the column of the measurements is not read. -/
theorem C44_unknown_name (num : Num) (g : Given) (z t : ℚ) (v : BitVec 32) (a b c : String)
    (ha : num.stof a = some t) (hb : num.stoi b = some v) (hv : v.msb = false) (hz : z ≤ t) :
    readFile num g z [["ct", "kgb", "meas"], [a, b, c]] =
      some ([⟨t, v, 0 ||| g.map, 0 ||| g.mask, 0 ||| g.nrt⟩], t) := by
  have e1 : readheader ["ct", "kgb", "meas"] [0, 1, 2, 3, 4] = some ([0, 1, 1, 3, 4], 2) := by
    decide
  have e2 : readline num [a, b, c] none [0, 1, 1, 3, 4] 2 = some (some t, [v, 0, 0, 0]) := by
    show ((lineWord num [a, b, c] [0, 1, 1, 3, 4] (none, [0, 0, 0, 0]) 0).bind fun p =>
      (lineWord num [a, b, c] [0, 1, 1, 3, 4] p 1).bind some) = _
    simp [lineWord, ha, hb]
  unfold readFile
  simp [e1, readLines, addLine, e2, merge_eq, joined, not_lt.2 hz, hv]

/-- A time that is missing on the first line is used without having been set. -/
theorem C44_first_time_unset (num : Num) (g : Given) (z : ℚ) (perm : List ℕ)
    (n : ℕ) (lines : List (List String)) : readLines num g z perm n ([] :: lines) = none := by
  unfold readLines
  rw [List.foldlM_cons]
  simp [addLine, readline]

/-! ### A case -/

/-- A conversion of some words. -/
def whole : Num where
  stof w := ([("1", 1), ("3", 3), ("7", 7)] : List (String × ℚ)).lookup w
  stoi w := ([("1", 1), ("2", 2), ("4", 4), ("5", 5), ("8", 8), ("-1", -1)] :
    List (String × BitVec 32)).lookup w

example : Header ["mask", "ct", "meas"] :=
  ⟨by simp, by decide, by decide⟩

/-- Columns in another order, a line in the past, a default request, two lines of one
time. -/
example : (readFile whole ⟨64, 1, 0, 0⟩ 2
      [["mask", "ct", "meas"], ["1", "1", "5"], ["2", "3", "4"], ["8", "3", "1"],
        ["1", "7", "-1"]]).map
      (fun p => decide (p = ([⟨3, 5, 1, 2, 0⟩, ⟨7, 64, 1, 1, 0⟩], 7))) = some true := by
  decide +kernel

end Jaxions.MeasList
