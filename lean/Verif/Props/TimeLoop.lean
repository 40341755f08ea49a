import Verif.Lemmas.TimeLoop

/-
C40: listed measurement times are hit exactly once and in order.
-/

namespace Jaxions.TimeLoop

/-- A start of the loop at the time `z` with the entry `i`. -/
def start (z : ℚ) (i : ℕ) : St := ⟨z, i, none, none, [], []⟩

theorem times_of_done {ct : List ℚ} {i0 n : ℕ} {done : List Meas}
    (h : done.map (fun m => (m.what, some m.time)) =
      (List.range' i0 n).map (fun k => (some k, ct[k]?))) (hn : i0 + n ≤ ct.length) :
    done.map Meas.time = (ct.drop i0).take n ∧
    ∀ m ∈ done, ∃ k, m.what = some k ∧ ct[k]? = some m.time := by
  constructor
  · have h1 : done.map (fun m => some m.time) = ((ct.drop i0).take n).map some := by
      have h2 := congrArg (List.map Prod.snd) h
      rw [List.map_map, List.map_map] at h2
      refine h2.trans ?_
      apply List.ext_getElem
      · simp; omega
      · intro k h3 h4
        simp only [List.length_map, List.length_range'] at h3
        simp [List.getElem?_eq_getElem (show i0 + k < ct.length by omega)]
    have h3 := congrArg (List.map fun o : Option ℚ => o.getD 0) h1
    simpa [List.map_map, Function.comp_def] using h3
  · intro m hm
    have : (m.what, some m.time) ∈ (List.range' i0 n).map (fun k => (some k, ct[k]?)) := by
      rw [← h]; exact List.mem_map.2 ⟨m, hm, rfl⟩
    obtain ⟨k, _, hk⟩ := List.mem_map.1 this
    simp only [Prod.mk.injEq] at hk
    exact ⟨k, hk.1.symm, hk.2⟩

theorem take_eq_filter {l : List ℚ} {n : ℕ} {z : ℚ}
    (h1 : ∀ (k : ℕ) (t : ℚ), k < n → l[k]? = some t → t ≤ z)
    (h2 : ∀ (k : ℕ) (t : ℚ), n ≤ k → l[k]? = some t → z < t) :
    l.take n = l.filter fun t => decide (t ≤ z) := by
  rw [← List.take_append_drop n l, List.filter_append, List.filter_eq_self.2, List.filter_eq_nil_iff.2]
  · simp
  · intro t ht
    obtain ⟨k, hk⟩ := List.mem_iff_getElem?.1 ht
    rw [List.getElem?_drop] at hk
    have := h2 _ t (Nat.le_add_right _ _) hk
    simpa using this
  · intro t ht
    obtain ⟨k, hk⟩ := List.mem_iff_getElem?.1 ht
    rw [List.getElem?_take] at hk
    split at hk
    · next hlt => simpa using h1 k t hlt hk
    · cases hk

/-- As long as the loop runs, after any number of turns with any positive automatic
steps: the listed times up to now have been measured, each once, in order, at exactly
that time and with what its entry asks for; no step was longer than the automatic one,
and time always went on. -/
theorem C40_running {ct : List ℚ} (hs : ct.Pairwise (· < ·)) {zF : ℚ}
    (hF : ct.getLast? = some zF) {i0 : ℕ} {z t0 : ℚ} (h0 : ct[i0]? = some t0) (hz : z < t0)
    {us : List Turn} (hu : ∀ u ∈ us, 0 < u.dz) {s : St}
    (h : loop ct zF (start z i0) us = some (s, false)) :
    s.done.map Meas.time = (ct.drop i0).filter (fun t => decide (t ≤ s.z)) ∧
    (∀ m ∈ s.done, ∃ k, m.what = some k ∧ ct[k]? = some m.time) ∧
    s.z = z + s.steps.sum ∧ s.steps.length = us.length ∧
    (∀ (k : ℕ) (d : ℚ) (u : Turn), s.steps[k]? = some d → us[k]? = some u → 0 < d ∧ d ≤ u.dz) := by
  have hg : Good ct i0 z (start z i0) :=
    ⟨Nat.le_refl _, ⟨t0, h0, hz⟩, fun k t hk hk0 => absurd hk (by simp [start]; omega),
      by simp [start], by simp [start]⟩
  obtain ⟨s', b, ds, e1, e2, e3, e4, e5, -, -⟩ := loop_spec hs hF us (start z i0) hg hu
  rw [h] at e1
  simp only [Option.some.injEq, Prod.mk.injEq] at e1
  obtain ⟨rfl, rfl⟩ := e1
  obtain ⟨g, e6, -⟩ := e5 rfl
  have e2 : s.steps = ds := e2
  obtain ⟨t, ht, htz⟩ := g.next
  have hlen := (List.getElem?_eq_some_iff.1 ht).1
  have hle := g.le
  obtain ⟨f1, f2⟩ := times_of_done g.done (by omega)
  refine ⟨?_, f2, g.sum, by rw [e2, e6], by rw [e2]; exact e4⟩
  rw [f1]
  refine take_eq_filter (fun k t' hk ht' => ?_) (fun k t' hk ht' => ?_)
  · rw [List.getElem?_drop] at ht'
    exact g.past _ t' (by omega) (by omega) ht'
  · rw [List.getElem?_drop] at ht'
    rcases Nat.eq_or_lt_of_le (show s.i ≤ i0 + k by omega) with e | e
    · rw [← e, ht] at ht'
      cases ht'
      exact htz
    · exact lt_trans htz (sorted_lt hs ht ht' e)

/-- The whole run.  When the listed times before the last one keep a distance of 1e-10
from it, the automatic steps are at least `δ` and there are enough turns, then all
listed times after the start but the last one are measured inside the loop, each once,
in order, exactly; one measurement follows at the end, less than 1e-10 before the last
listed time or exactly at it, and in the second case with what its entry asks for. -/
theorem C40_run {ct : List ℚ} (hs : ct.Pairwise (· < ·)) {zF : ℚ}
    (hF : ct.getLast? = some zF) {i0 : ℕ} {z t0 : ℚ} {restart : Bool}
    (hi : first ct z restart = some i0) (h0 : ct[i0]? = some t0) (hz : z < t0)
    (hsep : ∀ t ∈ ct.dropLast, t ≤ zF - 1 / 10 ^ 10) {us : List Turn} {δ : ℚ} (hδ : 0 < δ)
    (hu : ∀ u ∈ us, δ ≤ u.dz) (hn : zF - z ≤ δ * (us.length - ct.length : ℚ)) :
    ∃ s ms fin, run ct z restart us = some s ∧ s.done = ms ++ [fin] ∧
      ms.map Meas.time = (ct.drop i0).dropLast ∧
      (∀ m ∈ ms, ∃ k, m.what = some k ∧ ct[k]? = some m.time) ∧
      zF - 1 / 10 ^ 10 < fin.time ∧ fin.time ≤ zF ∧
      (fin.time = zF → fin.what = some (ct.length - 1)) ∧
      ((∀ u ∈ us, u.toTheta = false) → ∀ m ∈ s.done, m.maps = m.what) := by
  have hg : Good ct i0 z (start z i0) :=
    ⟨Nat.le_refl _, ⟨t0, h0, hz⟩, fun k t hk hk0 => absurd hk (by simp [start]; omega),
      by simp [start], by simp [start]⟩
  obtain ⟨s, b, ds, e1, e2, e3, e4, e5, e6, e7⟩ := loop_spec hs hF us (start z i0) hg
    (fun u h => lt_of_lt_of_le hδ (hu u h))
  have hi0 := (List.getElem?_eq_some_iff.1 h0).1
  have hb : b = true := by
    by_contra hc
    have hc : b = false := by simpa using hc
    obtain ⟨g, a1, a2⟩ := e5 hc
    have a3 := a2 δ hu hδ.le
    obtain ⟨t, ht, htz⟩ := g.next
    have hlt := (List.getElem?_eq_some_iff.1 ht).1
    have hl := (le_last hs hF ht).1
    have hsum := g.sum
    rw [e2] at hsum
    have hsum : s.z = z + ds.sum := hsum
    have hlq : (s.i : ℚ) ≤ ct.length := by exact_mod_cast hlt.le
    have h00 : (0 : ℚ) ≤ (start z i0).i := by exact_mod_cast Nat.zero_le _
    have a4 : δ * (us.length - ct.length : ℚ) ≤ δ * (us.length + (start z i0).i - s.i) :=
      mul_le_mul_of_nonneg_left (by linarith) hδ.le
    linarith
  have L := e6 hb
  obtain ⟨t, ht, htz⟩ := L.next
  obtain ⟨l1, l2, l3⟩ := le_last hs hF ht
  have hlt := (List.getElem?_eq_some_iff.1 ht).1
  have hle := L.le
  have hlast : s.i = ct.length - 1 := by
    by_contra hne
    have hmem : t ∈ ct.dropLast := by
      rw [List.mem_iff_getElem?]
      refine ⟨s.i, ?_⟩
      rw [List.getElem?_dropLast, if_pos (by omega)]
      exact ht
    have := hsep t hmem
    have := L.close
    linarith
  obtain ⟨f1, f2⟩ := times_of_done L.done (by omega)
  refine ⟨{ s with done := s.done ++ [⟨s.what, s.maps, s.z⟩] }, s.done, ⟨s.what, s.maps, s.z⟩,
    ?_, rfl, ?_, f2, L.close, le_trans htz l1, L.last, fun hth => ?_⟩
  · unfold run
    rw [hF, hi]
    show ((loop ct zF (start z i0) us).bind fun p => _) = _
    rw [e1]
    rfl
  · rw [f1, List.dropLast_eq_take, List.length_drop]
    congr 1
    omega
  · obtain ⟨m1, m2⟩ := e7 (by simp [start]) rfl hth
    intro m hm
    rcases List.mem_append.1 hm with hm | hm
    · exact m1 m hm
    · rw [List.mem_singleton.1 hm]; exact m2

/-- Time never goes beyond the last listed time; the loop is left only less than 1e-10
before it or at it, and when the turns are used up first, time is still before it. -/
theorem C40_last {ct : List ℚ} (hs : ct.Pairwise (· < ·)) {zF : ℚ} (hF : ct.getLast? = some zF)
    {i0 : ℕ} {z t0 : ℚ} (h0 : ct[i0]? = some t0) (hz : z < t0)
    {us : List Turn} (hu : ∀ u ∈ us, 0 < u.dz) :
    ∃ s b, loop ct zF (start z i0) us = some (s, b) ∧ s.z ≤ zF ∧
      (b = false → s.z < zF) ∧ (b = true → zF - 1 / 10 ^ 10 < s.z) := by
  have hg : Good ct i0 z (start z i0) :=
    ⟨Nat.le_refl _, ⟨t0, h0, hz⟩, fun k t hk hk0 => absurd hk (by simp [start]; omega),
      by simp [start], by simp [start]⟩
  obtain ⟨s, b, ds, e1, -, -, -, e5, e6, -⟩ := loop_spec hs hF us (start z i0) hg hu
  refine ⟨s, b, e1, ?_, fun hb => ?_, fun hb => (e6 hb).close⟩
  · cases b with
    | false =>
      obtain ⟨t, ht, htz⟩ := (e5 rfl).1.next
      exact le_trans htz.le (le_last hs hF ht).1
    | true =>
      obtain ⟨t, ht, htz⟩ := (e6 rfl).next
      exact le_trans htz (le_last hs hF ht).1
  · obtain ⟨t, ht, htz⟩ := (e5 hb).1.next
    exact lt_of_lt_of_le htz (le_last hs hF ht).1

/-- Which entry comes first: the second one exactly if the run is no restart and starts
less than one part in ten thousand away from the first listed time. -/
theorem C40_first {t z : ℚ} (ht : 0 < t) (ts : List ℚ) :
    first (t :: ts) z true = some 0 ∧
    (first (t :: ts) z false = some 1 ↔ t - t / 10000 < z ∧ z < t + t / 10000) ∧
    (first (t :: ts) z false = some 0 ↔ ¬ (t - t / 10000 < z ∧ z < t + t / 10000)) := by
  have key : |1 - z / t| < 1 / 10000 ↔ t - t / 10000 < z ∧ z < t + t / 10000 := by
    have e : (1 - z / t) = (t - z) / t := by rw [sub_div, div_self ht.ne']
    rw [e, abs_lt, lt_div_iff₀ ht, div_lt_iff₀ ht]
    constructor
    · rintro ⟨h1, h2⟩; constructor <;> linarith
    · rintro ⟨h1, h2⟩; constructor <;> linarith
  refine ⟨by simp [first], ?_, ?_⟩
  · rw [← key]
    by_cases h : |1 - z / t| < 1 / 10000 <;> simp [first]
  · rw [← key]
    by_cases h : |1 - z / t| < 1 / 10000 <;> simp [first]

/-! ### Where the claim fails -/

/-- A listed time that is not the start but within one part in ten thousand of it is
taken as done: the run goes past it without stopping. -/
theorem C40_near_start_skipped :
    run [100005 / 100000, 2, 3] 1 false (List.replicate 10 ⟨1 / 2, false⟩) =
      some ⟨3, 2, some 2, some 2,
        [⟨some 1, some 1, 2⟩, ⟨some 2, some 2, 3⟩], [1 / 2, 1 / 2, 1 / 2, 1 / 2]⟩ := by
  decide +kernel

/-- After a restart at a listed time the first step is a full automatic one; the listed
times inside it are never measured. -/
theorem C40_restart_jumps {z t1 t2 dz : ℚ} (h1 : z < t1) (h2 : t1 < z + dz) (h3 : z + dz < t2)
    (h4 : z + dz ≤ t2 - 1 / 10 ^ 10) :
    loop [z, t1, t2] t2 (start z 0) [⟨dz, false⟩] =
      some (⟨z + dz, 0, none, none, [], [dz]⟩, false) ∧
    skip [z, t1, t2] (z + dz) 0 = some 2 := by
  have ho : over t2 (z + dz) = false := by
    rw [← Bool.not_eq_true, over_iff h3.le]
    linarith
  constructor
  · have e1 : skip [z, t1, t2] z 0 = some 0 := by simp [skip]
    have e2 : aim [z, t1, t2] z dz 0 = some ⟨dz, false, false⟩ := by simp [aim]
    unfold loop turn
    simp [start, e1, e2, ho, loop]
  · unfold skip
    simp [show z < z + dz by linarith, h2, not_lt.2 h3.le]

/-- A list whose only time is the start makes the first turn read outside the list. -/
theorem C40_single_outside {z : ℚ} (hz : z ≠ 0) (u : Turn) (us : List Turn) :
    run [z] z false (u :: us) = none := by
  have e1 : first [z] z false = some 1 := by
    unfold first
    simp [hz]
  unfold run
  simp [e1, loop, turn, skip]

/-- With the fixed step `(zFinl-zInit)/nSteps` every listed time that is not a multiple
of it costs part of a step, and the turns are used up before the last listed time. -/
theorem C40_fixed_step_short :
    (run [3 / 2, 3] 1 false (List.replicate 2 ⟨(3 - 1) / 2, false⟩)).map (fun s => s.done) =
      some [⟨some 0, some 0, 3 / 2⟩, ⟨some 0, some 0, 5 / 2⟩] := by
  decide +kernel

/-- A step that ends less than 1e-10 before the last listed time ends the run without
loading the last entry: the last measurement repeats the request of the one before. -/
theorem C40_last_not_loaded :
    (run [2, 3] 1 false [⟨1, false⟩, ⟨1 - 1 / 10 ^ 11, false⟩]).map (fun s => s.done) =
      some [⟨some 0, some 0, 2⟩, ⟨some 0, some 0, 3 - 1 / 10 ^ 11⟩] := by
  decide +kernel

/-- When the field changes to the angle in the turn that reaches a listed time, the maps
and masks of its entry are replaced by those of the command line. -/
theorem C40_theta_maps :
    (run [2, 3] 1 false [⟨1, true⟩, ⟨1, false⟩]).map (fun s => s.done) =
      some [⟨some 0, none, 2⟩, ⟨some 1, some 1, 3⟩] := by
  decide +kernel

/-! ### A case -/

example : first [3 / 2, 2, 3] 1 false = some 0 := by decide +kernel

example : (run [3 / 2, 2, 3] 1 false (List.replicate 10 ⟨2 / 5, false⟩)).map (fun s => (s.done, s.steps))
    = some ([⟨some 0, some 0, 3 / 2⟩, ⟨some 1, some 1, 2⟩, ⟨some 2, some 2, 3⟩],
        [2 / 5, 1 / 10, 2 / 5, 1 / 10, 2 / 5, 2 / 5, 1 / 5]) := by
  decide +kernel

example : (3 : ℚ) - 1 ≤ 2 / 5 * (8 - 3) := by norm_num

end Jaxions.TimeLoop
