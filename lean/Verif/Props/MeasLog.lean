import Verif.Lemmas.MeasLog
import Verif.Props.MeasList
import Mathlib.Analysis.SpecialFunctions.Log.Deriv
import Mathlib.Analysis.Complex.ExponentialBounds

/-!
C86: the list of measurements made by `--measlistlog`.
-/

namespace Jaxions.MeasLog

open Spec

variable {p : Par}

/-- What is written: measurement number `k` is at the time when the logarithm is `k` steps of
`1/dump` from the first value, and the last one is at `zFinl`.  The loop ends. -/
theorem C86_list (ok : Ok p) (hd : 0 < p.dump) (hf : first p < kappa p p.zFinl) {turns : ℕ}
    (ht : count p < turns) :
    ∃ l, create p false turns = .written (l ++ [p.zFinl]) ∧ l.length = count p ∧
      ∀ k (hk : k < l.length), 0 < l[k] ∧ kappa p l[k] = first p + k / p.dump := by
  have e := loop_eq hd turns (z0 p) (by rw [logf_eq]; exact ht)
  rw [logf_eq] at e
  have hc : ⌈(kappa p p.zFinl - z0 p) * p.dump⌉₊ = count p := rfl
  rw [hc, z0_eq] at e
  have hp := (count_pos hd).2 hf
  refine ⟨(List.range (count p)).map fun k : ℕ => time p (first p + k / p.dump), ?_, by simp, ?_⟩
  · unfold create
    rw [if_neg (by simp), z0_eq, e]
    have hl : ((List.range (count p)).map fun k : ℕ => time p (first p + k / p.dump)).getLast? =
        some (time p (first p + ((count p - 1 : ℕ) : ℝ) / p.dump)) := by
      obtain ⟨m, hm⟩ := Nat.exists_eq_succ_of_ne_zero hp.ne'
      rw [hm, List.range_succ]
      simp
    simp only [hl]
    rw [if_pos]
    intro hz
    have h1 := step_lt hd (p := p) (k := count p - 1) (by omega)
    rw [← kappa_time ok (first p + ((count p - 1 : ℕ) : ℝ) / p.dump), hz] at h1
    exact lt_irrefl _ h1
  · intro k hk
    simp only [List.getElem_map, List.getElem_range]
    exact ⟨time_pos ok _, kappa_time ok _⟩

/-- The times are in order, without two that are equal, and none is after the end. -/
theorem C86_increasing (ok : Ok p) (hd : 0 < p.dump) {turns : ℕ} {l : List ℝ}
    (ht : count p < turns) (h : create p false turns = .written l) :
    l.Pairwise (· < ·) ∧ l.getLast? = some p.zFinl := by
  by_cases hf : first p < kappa p p.zFinl
  · obtain ⟨m, e, hm, hk⟩ := C86_list ok hd hf ht
    have hd' : (0 : ℝ) < p.dump := by exact_mod_cast hd
    rw [e] at h
    cases h
    refine ⟨?_, by simp⟩
    rw [List.pairwise_append]
    refine ⟨?_, by simp, ?_⟩
    · rw [List.pairwise_iff_getElem]
      intro i j hi hj hij
      rw [← kappa_lt ok (hk i hi).1 (hk j hj).1, (hk i hi).2, (hk j hj).2]
      have : (i : ℝ) / p.dump < j / p.dump := div_lt_div_of_pos_right (by exact_mod_cast hij) hd'
      linarith
    · intro a ha b hb
      rw [List.mem_singleton] at hb
      subst hb
      obtain ⟨i, hi, rfl⟩ := List.getElem_of_mem ha
      rw [← kappa_lt ok (hk i hi).1 ok.zFinl, (hk i hi).2]
      exact step_lt hd (hm ▸ hi)
  · exfalso
    have e := loop_eq hd turns (z0 p) (by rw [logf_eq]; exact ht)
    have hc : ⌈(logf p - z0 p) * p.dump⌉₊ = 0 := by
      rw [logf_eq]
      have := mt (count_pos hd (p := p)).1 hf
      exact Nat.eq_zero_of_not_pos this
    rw [hc] at e
    unfold create at h
    rw [if_neg (by simp), e] at h
    simp at h

/-- The steps of the logarithm are `1/dump`, but for the last one, which is not longer. -/
theorem C86_steps (ok : Ok p) (hd : 0 < p.dump) (hf : first p < kappa p p.zFinl) {turns : ℕ}
    (ht : count p < turns) : ∃ l, create p false turns = .written l ∧ l.length = count p + 1 ∧
      (∀ h : 0 < l.length, kappa p l[0] = first p) ∧
      (∀ k (h : k + 2 < l.length), kappa p l[k + 1] - kappa p l[k] = 1 / p.dump) ∧
      ∀ k (h : k + 2 = l.length),
        0 < kappa p l[k + 1] - kappa p l[k] ∧ kappa p l[k + 1] - kappa p l[k] ≤ 1 / p.dump := by
  have hd' : (0 : ℝ) < p.dump := by exact_mod_cast hd
  have hp := (count_pos hd).2 hf
  obtain ⟨m, e, hm, hk⟩ := C86_list ok hd hf ht
  refine ⟨_, e, by simp [hm], ?_, ?_, ?_⟩
  · intro h
    rw [List.getElem_append_left (show 0 < m.length by omega), (hk 0 (by omega)).2]
    simp
  · intro k h
    have h' : k + 1 < m.length := by simp at h; omega
    rw [List.getElem_append_left h', List.getElem_append_left (by omega), (hk _ h').2,
      (hk k (by omega)).2]
    push_cast
    ring
  · intro k h
    have h' : k + 1 = m.length := by simp at h; omega
    rw [List.getElem_append_left (show k < m.length by omega), (hk k (by omega)).2]
    have e1 : (m ++ [p.zFinl])[k + 1]'(by omega) = p.zFinl := by
      rw [List.getElem_append_right (show m.length ≤ k + 1 by omega)]
      simp
    rw [e1]
    have h1 := step_lt hd (p := p) (k := k) (by omega)
    have h2 := step_ge hd (p := p)
    rw [← hm, ← h'] at h2
    push_cast at h2
    rw [add_div] at h2
    constructor <;> linarith

/-- A list without a header is read like one with the header `ct meas`. -/
theorem C86_headless (num : MeasList.Num) (g : MeasList.Given) (z : ℚ) {body : List (List String)}
    {rs : List MeasList.Rec} (hno : ∀ w ∈ body.headD [], w ∉ ["ct", "meas", "map", "mask", "kgv"])
    (hrs : body.mapM (MeasList.Spec.entry num g ["ct", "meas"]) = some rs) :
    MeasList.readFile num g z body = MeasList.readFile num g z (["ct", "meas"] :: body) := by
  obtain ⟨m, h1, h2⟩ := MeasList.C44_old num g z hno hrs
  have h3 : MeasList.readheader ["ct", "meas"] [0, 1, 2, 3, 4] = some ([0, 1, 2, 3, 4], 2) := by
    decide
  unfold MeasList.readFile
  simp only [List.headD_cons, List.tail_cons, h1, h2, h3, Option.bind_eq_bind, Option.bind_some,
    if_true, OfNat.ofNat_ne_zero, if_false]

theorem joined_meas {m : BitVec 32} (rs : List MeasList.Rec) (h : ∀ r ∈ rs, r.meas = m) :
    ∀ s ∈ MeasList.joined rs, s.meas = m := by
  induction rs with
  | nil => simp [MeasList.joined]
  | cons a rs ih =>
    have h1 := ih fun r hr => h r (List.mem_cons_of_mem _ hr)
    have h2 := h a (List.mem_cons_self ..)
    unfold MeasList.joined
    cases e : MeasList.joined rs with
    | nil => simpa using h2
    | cons s ss =>
      rw [e] at h1
      by_cases hc : s.ct = a.ct
      · simp only [if_pos hc, List.mem_cons, forall_eq_or_imp]
        exact ⟨by rw [h2, h1 s (List.mem_cons_self ..), BitVec.or_self],
          fun t ht => h1 t (List.mem_cons_of_mem _ ht)⟩
      · simp only [if_neg hc, List.mem_cons, forall_eq_or_imp]
        exact ⟨h2, h1 s (List.mem_cons_self ..), fun t ht => h1 t (List.mem_cons_of_mem _ ht)⟩

theorem readFile_old (num : MeasList.Num) (g : MeasList.Given) (z : ℚ) {body : List (List String)}
    {rs ms : List MeasList.Rec} {zf : ℚ} (hno : ∀ w ∈ body.headD [], w ∉ ["ct", "meas", "map", "mask", "kgv"])
    (hrs : body.mapM (MeasList.Spec.entry num g ["ct", "meas"]) = some rs)
    (h : MeasList.readFile num g z body = some (ms, zf)) :
    ms = MeasList.joined (rs.filter fun r => decide (z ≤ r.ct)) := by
  obtain ⟨m, h1, h2⟩ := MeasList.C44_old num g z hno hrs
  unfold MeasList.readFile at h
  simp only [h1, h2, Option.bind_eq_bind, Option.bind_some, if_true, MeasList.merge_eq,
    Option.pure_def] at h
  rw [Option.bind_eq_some_iff] at h
  obtain ⟨last, -, h⟩ := h
  simp only [Option.some.injEq, Prod.mk.injEq] at h
  exact h.1.symm

/-- The file read by a run at the time `z`: the measurements are at the times of the list from `z`
on, as far as the printed digits tell them apart, all of the kind asked for, and the run ends at
`zFinl`.  With all times in the past there is none. -/
theorem C86_read (ok : Ok p) (hd : 0 < p.dump) {turns : ℕ} {l : List ℝ} (ht : count p < turns)
    (h : create p false turns = .written l) {num : MeasList.Num} {fmt : ℝ → String}
    {fmtInt : BitVec 32 → String} {rd : ℝ → ℚ} (hr : Reads num fmt fmtInt rd) (g : MeasList.Given)
    (meas : BitVec 32) (hm : meas.msb = false) (z : ℚ) :
    (MeasList.readFile num g z (lines fmt fmtInt meas l) = none ↔ rd p.zFinl < z) ∧
    ∀ ms zf, MeasList.readFile num g z (lines fmt fmtInt meas l) = some (ms, zf) →
      ms.Pairwise (fun a b => a.ct < b.ct) ∧
      (∀ t, t ∈ ms.map MeasList.Rec.ct ↔ z ≤ t ∧ ∃ u ∈ l, rd u = t) ∧ zf = rd p.zFinl ∧
      ∀ s ∈ ms, s.meas = meas ∧ s.map = g.map ∧ s.mask = g.mask ∧ s.nrt = g.nrt := by
  obtain ⟨hinc, hlast⟩ := C86_increasing ok hd ht h
  let rec0 : ℝ → MeasList.Rec := fun t =>
    ⟨rd t, meas, 0 ||| g.map, 0 ||| g.mask, 0 ||| g.nrt⟩
  have hent : ∀ t, MeasList.Spec.entry num g ["ct", "meas"] [fmt t, fmtInt meas] = some (rec0 t) := by
    intro t
    simp [MeasList.Spec.entry, MeasList.Spec.under, MeasList.Spec.number, hr.time, hr.int, hm, rec0,
      Option.filter_some]
  have hrs : (lines fmt fmtInt meas l).mapM (MeasList.Spec.entry num g ["ct", "meas"]) =
      some (l.map rec0) := by
    unfold lines
    clear hinc hlast h
    induction l with
    | nil => rfl
    | cons a l ih => simp [hent, ih]
  have hno : ∀ w ∈ (lines fmt fmtInt meas l).headD [], w ∉ ["ct", "meas", "map", "mask", "kgv"] := by
    intro w hw
    cases l with
    | nil => simp [lines] at hw
    | cons a l =>
      simp only [lines, List.map_cons, List.headD_cons, List.mem_cons, List.not_mem_nil,
        or_false] at hw
      rcases hw with rfl | rfl
      · exact hr.name a
      · exact hr.nameInt meas
  have hord : (l.map rec0).Pairwise fun a b => a.ct ≤ b.ct := by
    rw [List.pairwise_map]
    exact hinc.imp fun hab => hr.order hab.le
  have hall : ∀ t ∈ l, rd t ≤ rd p.zFinl := by
    intro t htl
    obtain ⟨ys, rfl⟩ := List.getLast?_eq_some_iff.1 hlast
    rw [List.pairwise_append] at hinc
    rcases List.mem_append.1 htl with h1 | h1
    · exact hr.order (hinc.2.2 t h1 _ (by simp)).le
    · rw [List.mem_singleton.1 h1]
  have hlm : p.zFinl ∈ l := by
    obtain ⟨ys, rfl⟩ := List.getLast?_eq_some_iff.1 hlast
    simp
  have hms : ∀ ms zf, MeasList.readFile num g z (lines fmt fmtInt meas l) = some (ms, zf) →
      ∀ s ∈ ms, s.meas = meas ∧ s.map = g.map ∧ s.mask = g.mask ∧ s.nrt = g.nrt := by
    intro ms zf hs s hsm
    rw [readFile_old num g z hno hrs hs] at hsm
    obtain ⟨⟨r, hr', -, q1, q2, q3⟩, -⟩ := MeasList.joined_sound _ s hsm
    obtain ⟨t, -, rfl⟩ := List.mem_map.1 (List.mem_filter.1 hr').1
    refine ⟨joined_meas _ ?_ s hsm, by rw [← q1]; simp [rec0], by rw [← q2]; simp [rec0],
      by rw [← q3]; simp [rec0]⟩
    intro r' hr''
    obtain ⟨t', -, rfl⟩ := List.mem_map.1 (List.mem_filter.1 hr'').1
    rfl
  rw [C86_headless num g z hno hrs] at hms ⊢
  obtain ⟨h1, h2⟩ := MeasList.C44_file num g z (h := ["ct", "meas"])
    ⟨by simp, by decide, by decide⟩ hrs hord
  refine ⟨?_, ?_⟩
  · rw [h1]
    simp only [List.mem_map, forall_exists_index, and_imp, forall_apply_eq_imp_iff₂]
    exact ⟨fun ha => ha _ hlm, fun ha t htl => (hall t htl).trans_lt ha⟩
  · intro ms zf hs
    obtain ⟨q1, q2, q3⟩ := h2 ms zf hs
    have q4 : ∀ t, t ∈ ms.map MeasList.Rec.ct ↔ z ≤ t ∧ ∃ u ∈ l, rd u = t := by
      intro t
      rw [q2 t]
      simp [rec0]
    refine ⟨q1, q4, ?_, hms ms zf hs⟩
    have hz : z ≤ rd p.zFinl := by
      by_contra hc
      rw [h1.2 (by
        simp only [List.mem_map, forall_exists_index, and_imp, forall_apply_eq_imp_iff₂]
        exact fun t htl => (hall t htl).trans_lt (not_le.1 hc))] at hs
      cases hs
    obtain ⟨ys, e⟩ := List.getLast?_eq_some_iff.1 q3
    have hmem : rd p.zFinl ∈ ms.map MeasList.Rec.ct := (q4 _).2 ⟨hz, _, hlm, rfl⟩
    have hzf : zf ∈ ms.map MeasList.Rec.ct := by rw [e]; simp
    obtain ⟨-, u, hu, rfl⟩ := (q4 zf).1 hzf
    refine le_antisymm (hall u hu) ?_
    have hsort : (ms.map MeasList.Rec.ct).Pairwise (· < ·) := by
      rw [List.pairwise_map]
      exact q1
    rw [e, List.pairwise_append] at hsort
    rw [e] at hmem
    rcases List.mem_append.1 hmem with h3 | h3
    · exact (hsort.2.2 _ h3 _ (by simp)).le
    · rw [List.mem_singleton.1 h3]

/-- When the list would start at the end or later, the code compares a variable that was never
set. -/
theorem C86_undefined (hd : 0 < p.dump) {turns : ℕ} (ht : count p < turns) :
    create p false turns = .undefined ↔ kappa p p.zFinl ≤ first p := by
  have e := loop_eq hd turns (z0 p) (by rw [logf_eq]; exact ht)
  rw [logf_eq] at e
  have hc : ⌈(kappa p p.zFinl - z0 p) * p.dump⌉₊ = count p := rfl
  rw [hc] at e
  rw [← not_lt, ← count_pos hd]
  unfold create
  rw [if_neg (by simp), e]
  constructor
  · intro h hp
    obtain ⟨m, hm⟩ := Nat.exists_eq_succ_of_ne_zero hp.ne'
    rw [hm, List.range_succ] at h
    simp at h
  · intro h
    rw [Nat.eq_zero_of_not_pos h]
    rfl

/-- **C86** The list is refused exactly if the file is there already, whatever the parameters: an
existing list is kept and a missing one never refused. -/
theorem C86_kept (p : Par) (found : Bool) (turns : ℕ) :
    create p found turns = .refused ↔ found = true := by
  cases found
  · simp only [Bool.false_eq_true, iff_false]
    unfold create
    rw [if_neg (by simp)]
    cases loop p turns (z0 p) with
    | none => simp
    | some l => cases h : l.getLast? <;> simp [h]
  · simp [create]

/-- With `--dump 0` the list is the first time and the last one. -/
theorem C86_no_dump (ok : Ok p) (hd : p.dump = 0) (hf : first p < kappa p p.zFinl) {turns : ℕ}
    (ht : 0 < turns) : ∃ t, create p false turns = .written [t, p.zFinl] ∧ 0 < t ∧
      kappa p t = first p ∧ t < p.zFinl := by
  obtain ⟨n, rfl⟩ := Nat.exists_eq_succ_of_ne_zero ht.ne'
  have hlt : time p (first p) < p.zFinl := by
    rw [← kappa_lt ok (time_pos ok _) ok.zFinl, kappa_time ok]
    exact hf
  refine ⟨time p (first p), ?_, time_pos ok _, kappa_time ok _, hlt⟩
  have e : loop p (n + 1) (z0 p) = some [time p (first p)] := by
    unfold loop
    rw [if_pos (by rw [logf_eq]; exact hf)]
    simp [next, hd, z0_eq]
  unfold create
  rw [if_neg (by simp), e]
  simp [hlt.ne]

/-- The program says that `dump` is the number of measurements per interval of the decimal
logarithm.  In the first such interval there are more than twice as many. -/
theorem C86_per_decade (ok : Ok p) (hd : 0 < p.dump) (hf : first p + Real.log 10 ≤ kappa p p.zFinl)
    {turns : ℕ} (ht : count p < turns) :
    ∃ l, create p false turns = .written l ∧ 2 * p.dump < l.length ∧
      ∀ k (h : k < l.length), k ≤ 2 * p.dump →
      first p ≤ kappa p l[k] ∧ kappa p l[k] < first p + Real.log 10 := by
  have hd' : (0 : ℝ) < p.dump := by exact_mod_cast hd
  have h10 : 2 < Real.log 10 := by
    have h1 : Real.log 8 < Real.log 10 := Real.log_lt_log (by norm_num) (by norm_num)
    have h2 : Real.log 8 = 3 * Real.log 2 := by
      rw [show (8 : ℝ) = 2 ^ 3 by norm_num, Real.log_pow]
      norm_num
    have := Real.log_two_gt_d9
    linarith
  obtain ⟨m, e, hm, hk⟩ := C86_list ok hd (by linarith) ht
  have hlen : 2 * p.dump < m.length := by
    rw [hm]
    unfold count
    rw [Nat.lt_ceil]
    push_cast
    have : 2 * (p.dump : ℝ) < Real.log 10 * p.dump := mul_lt_mul_of_pos_right h10 hd'
    have h2 : Real.log 10 * p.dump ≤ (kappa p p.zFinl - first p) * p.dump :=
      mul_le_mul_of_nonneg_right (by linarith) hd'.le
    linarith
  refine ⟨_, e, by simp; omega, ?_⟩
  intro k h hk2
  rw [List.getElem_append_left (by omega), (hk k (by omega)).2]
  have h0 : 0 ≤ (k : ℝ) / p.dump := by positivity
  have h2 : (k : ℝ) / p.dump ≤ 2 := by
    rw [div_le_iff₀ hd']
    exact_mod_cast hk2
  constructor <;> linarith

/-! ### A case -/

/-- 128 points, a box of 4, `msa = 1`, from `logi = 1` to the time 4 with 5 steps per unit. -/
noncomputable def demo : Par := ⟨128, 4, 1, 4, 1, true, 5, false⟩

theorem demo_ok : Ok demo := ⟨by simp [demo], by simp [demo], by simp [demo], by simp [demo]⟩

theorem demo_kappa : kappa demo demo.zFinl = Real.log 128 := by
  simp only [kappa, demo, Bool.false_eq_true, if_false]
  norm_num

theorem log128 : Real.log 128 = 7 * Real.log 2 := by
  rw [show (128 : ℝ) = 2 ^ 7 by norm_num, Real.log_pow]
  norm_num

theorem demo_starts : first demo < kappa demo demo.zFinl := by
  rw [demo_kappa, log128]
  have := Real.log_two_gt_d9
  simp only [first, demo, if_true]
  linarith

/-- 20 steps and the end. -/
theorem demo_count : count demo = 20 := by
  have h1 := Real.log_two_gt_d9
  have h2 := Real.log_two_lt_d9
  unfold count
  rw [demo_kappa, log128, Nat.ceil_eq_iff (by norm_num)]
  simp only [first, demo, if_true]
  norm_num
  constructor <;> linarith

example : ∃ l, create demo false 1000 = .written l ∧ l.Pairwise (· < ·) ∧ l.getLast? = some 4 := by
  have hc : count demo < 1000 := by rw [demo_count]; omega
  obtain ⟨l, e, -⟩ := C86_list demo_ok (by simp [demo]) demo_starts hc
  exact ⟨_, e, C86_increasing demo_ok (by simp [demo]) hc e⟩

/-- Per decade. -/
example : first demo + Real.log 10 ≤ kappa demo demo.zFinl := by
  rw [demo_kappa]
  simp only [first, demo, if_true]
  have h1 : Real.log 128 = Real.log 10 + Real.log (128 / 10) := by
    rw [← Real.log_mul (by norm_num) (by norm_num)]
    norm_num
  have h2 : Real.log 8 ≤ Real.log (128 / 10) := Real.log_le_log (by norm_num) (by norm_num)
  have h3 : Real.log 8 = 3 * Real.log 2 := by
    rw [show (8 : ℝ) = 2 ^ 3 by norm_num, Real.log_pow]
    norm_num
  have := Real.log_two_gt_d9
  linarith

/-- Started after the end: `--zi 10`. -/
example : create { demo with zInit := 10 } false 1 = .undefined := by
  have h2 := Real.log_two_lt_d9
  have hle : kappa { demo with zInit := 10 } ({ demo with zInit := 10 } : Par).zFinl ≤
      first { demo with zInit := 10 } := by
    show kappa demo demo.zFinl ≤ (10 : ℝ)
    rw [demo_kappa, log128]
    linarith
  refine (C86_undefined (by simp [demo]) ?_).2 hle
  have := mt (count_pos (p := { demo with zInit := 10 }) (by simp [demo])).1 (not_lt.2 hle)
  omega

/-- Words that come back: as many letters as the integer part. -/
example : Reads ⟨fun w => some ((w.length - 6 : ℕ) : ℚ), fun w => some (BitVec.ofNat 32 (w.length - 6))⟩
    (fun t => String.ofList (List.replicate (⌊t⌋₊ + 6) '1'))
    (fun v => String.ofList (List.replicate (v.toNat + 6) '1')) (fun t => (⌊t⌋₊ : ℚ)) where
  time _ := by simp
  order _ _ h := by exact Nat.cast_le.2 (Nat.floor_mono h)
  int v := by simp
  name t := by
    intro h
    have h1 : ∀ w ∈ ["ct", "meas", "map", "mask", "kgv"], w.length < 6 := by decide
    have := h1 _ h
    simp at this
  nameInt v := by
    intro h
    have h1 : ∀ w ∈ ["ct", "meas", "map", "mask", "kgv"], w.length < 6 := by decide
    have := h1 _ h
    simp at this

end Jaxions.MeasLog
