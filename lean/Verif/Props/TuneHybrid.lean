import Verif.Spec.TuneHybrid
import Mathlib.Tactic.Linarith
import Mathlib.Tactic.NormNum

/-!
# C97: the choice of the calculation of the gravitational potential
-/

namespace Jaxions.TuneHybrid

/-- What is known after some passes. -/
structure Known (m : Mode) (fos : List ℕ) (w : State × ℝ × ℕ × List (Mode × ℝ)) : Prop where
  hybrid : w.1.hybrid = true
  modes : w.2.2.2.map Prod.fst = m :: fos.map byFactor
  least : ∀ q ∈ w.2.2.2, w.2.1 ≤ q.2
  best : ((if w.2.2.1 = 1 then m else byFactor w.2.2.1), w.2.1) ∈ w.2.2.2
  which : w.2.2.1 = 1 ∨ w.2.2.1 ∈ fos

theorem pass_known (clock : ℕ → Mode → ℝ) {m : Mode} {fos : List ℕ} {fo : ℕ} (h1 : fo ≠ 1)
    {w : State × ℝ × ℕ × List (Mode × ℝ)} (h : Known m fos w) :
    Known m (fos ++ [fo]) (pass clock w fo) ∧ (pass clock w fo).1.redfft = fo := by
  obtain ⟨s, d, b, l⟩ := w
  obtain ⟨hh, hm, hl, hb, hw⟩ := h
  simp only at hh hm hl hb hw
  have hmode : ({ s with redfft := fo, smsteps := 2 * fo, smstep2 := 2 * fo, plan := some fo } :
      State).mode = byFactor fo := by
    unfold State.mode byFactor
    rw [if_pos hh]
  unfold pass
  simp only [hmode]
  generalize clock l.length (byFactor fo) = t
  by_cases ht : t < d
  · rw [if_pos ht]
    refine ⟨⟨hh, ?_, ?_, ?_, ?_⟩, rfl⟩
    · simp [hm]
    · intro q hq
      rcases List.mem_append.1 hq with hq | hq
      · exact ht.le.trans (hl q hq)
      · rw [List.mem_singleton.1 hq]
    · simp [h1]
    · exact Or.inr (by simp)
  · rw [if_neg ht]
    refine ⟨⟨hh, ?_, ?_, ?_, ?_⟩, rfl⟩
    · simp [hm]
    · intro q hq
      rcases List.mem_append.1 hq with hq | hq
      · exact hl q hq
      · rw [List.mem_singleton.1 hq]
        exact not_lt.1 ht
    · exact List.mem_append_left _ hb
    · rcases hw with h | h
      · exact Or.inl h
      · exact Or.inr (List.mem_append_left _ h)

theorem fold_known (clock : ℕ → Mode → ℝ) (s : State) :
    Known s.mode [2, 4, 8, 16] ([2, 4, 8, 16].foldl (pass clock)
      ({ s with hybrid := true }, clock 0 s.mode, 1, [(s.mode, clock 0 s.mode)])) ∧
    ([2, 4, 8, 16].foldl (pass clock)
      ({ s with hybrid := true }, clock 0 s.mode, 1, [(s.mode, clock 0 s.mode)])).1.redfft = 16 := by
  have h0 : Known s.mode [] ({ s with hybrid := true }, clock 0 s.mode, 1, [(s.mode, clock 0 s.mode)]) := by
    refine ⟨rfl, rfl, ?_, ?_, Or.inl rfl⟩
    · intro q hq
      rw [List.mem_singleton.1 hq]
    · simp
  have h1 := (pass_known clock (fo := 2) (by decide) h0).1
  have h2 := (pass_known clock (fo := 4) (by decide) h1).1
  have h3 := (pass_known clock (fo := 8) (by decide) h2).1
  exact pass_known clock (fo := 16) (by decide) h3

theorem last_pass (clock : ℕ → Mode → ℝ) (w : State × ℝ × ℕ × List (Mode × ℝ)) (fo : ℕ) :
    (pass clock w fo).1 = { w.1 with redfft := fo, smsteps := 2 * fo, smstep2 := 2 * fo, plan := some fo } := by
  unfold pass
  dsimp only
  split_ifs <;> rfl

theorem fold_state (clock : ℕ → Mode → ℝ) (s : State) (d : ℝ) (l : List (Mode × ℝ)) :
    ([2, 4, 8, 16].foldl (pass clock) ({ s with hybrid := true }, d, 1, l)).1 =
      ⟨true, 16, 32, 32, some 16⟩ := by
  simp only [List.foldl_cons, List.foldl_nil, last_pass]

/-- **C97** After tuning the plan and the smoothing fit the reduction, whatever the state before and the
times; the reduction is 2, 4, 8 or 16. The same holds at the start and after the mode is set by hand. -/
theorem C97_sound (clock : ℕ → Mode → ℝ) (s : State) (b : Bool) :
    Sound start ∧ Sound (tune clock s).1 ∧ (tune clock s).1.redfft ∈ [2, 4, 8, 16] ∧
      (Sound s → Sound (setHybrid b s)) := by
  refine ⟨⟨rfl, rfl, rfl⟩, ?_, ?_, fun h => h⟩
  · unfold tune
    simp only [fold_state]
    split_ifs
    · exact ⟨rfl, rfl, rfl⟩
    · exact ⟨rfl, rfl, rfl⟩
  · have hk := (fold_known clock s).1.which
    unfold tune
    simp only [fold_state]
    split_ifs with h
    · simp
    · rcases hk with hk | hk
      · exact absurd hk h
      · exact hk

/-- **C97** Tuning compares the full calculation with the reductions by 2, 4, 8 and 16, each once and with
everything fitting, and afterwards the potential is calculated in a way none of the others was faster
than, if the mode was not reduced before. -/
theorem C97_fastest (clock : ℕ → Mode → ℝ) {s : State} (hs : s.hybrid = false) :
    (tune clock s).2.map Prod.fst = ways ∧
      ∃ t, ((tune clock s).1.mode, t) ∈ (tune clock s).2 ∧ ∀ q ∈ (tune clock s).2, t ≤ q.2 := by
  obtain ⟨⟨-, hm, hl, hb, -⟩, -⟩ := fold_known clock s
  have hfull : s.mode = .full := by unfold State.mode; rw [hs]; rfl
  refine ⟨?_, ?_⟩
  · have : (tune clock s).2.map Prod.fst = s.mode :: [2, 4, 8, 16].map byFactor := hm
    rw [this, hfull]
    rfl
  · refine ⟨_, ?_, hl⟩
    have hmode : (tune clock s).1.mode = (if ([2, 4, 8, 16].foldl (pass clock)
      ({ s with hybrid := true }, clock 0 s.mode, 1, [(s.mode, clock 0 s.mode)])).2.2.1 = 1 then s.mode
        else byFactor ([2, 4, 8, 16].foldl (pass clock)
      ({ s with hybrid := true }, clock 0 s.mode, 1, [(s.mode, clock 0 s.mode)])).2.2.1) := by
      unfold tune
      simp only [fold_state]
      split_ifs with h
      · rw [hfull]; rfl
      · rfl
    rw [hmode]
    exact hb

/-- A clock that only depends on the mode. -/
def byMode (f : ℝ) (r : ℕ → ℝ) (_ : ℕ) : Mode → ℝ
  | .full => f
  | .reduced red _ _ _ => r red

/-- **C97** Violated on more than one rank: every rank decides by its own clock. Ranks whose clocks agree
decide alike; for two clocks that differ by little at two measurements they use lattices of different
sizes in one calculation. -/
theorem C97_ranks_wrong {ε : ℝ} (hε : 0 < ε) :
    ∃ c c' : ℕ → Mode → ℝ, (∀ k m, |c k m - c' k m| ≤ ε) ∧
      (tune c start).1.mode = byFactor 2 ∧ (tune c' start).1.mode = byFactor 4 := by
  refine ⟨byMode (4 * ε) fun r => if r = 2 then ε else 2 * ε,
    byMode (4 * ε) fun r => if r = 4 then ε else 2 * ε, ?_, ?_, ?_⟩
  · intro k m
    cases m with
    | full => simp [byMode, hε.le]
    | reduced r _ _ _ =>
      simp only [byMode]
      rw [abs_le]
      split_ifs <;> constructor <;> linarith
  · have a1 : ε < 4 * ε := by linarith
    have a2 : ¬ 2 * ε < ε := by linarith
    simp [tune, pass, start, State.mode, byMode, byFactor, a1, a2]
  · have a1 : 2 * ε < 4 * ε := by linarith
    have a2 : ε < 2 * ε := by linarith
    have a3 : ¬ 2 * ε < ε := by linarith
    simp [tune, pass, start, State.mode, byMode, byFactor, a1, a2, a3]

/-- **C97** Ranks whose clocks show the same decide alike. -/
theorem C97_ranks {c c' : ℕ → Mode → ℝ} (h : ∀ k ≤ 4, ∀ m, c k m = c' k m) (s : State) :
    tune c s = tune c' s := by
  have hp : ∀ (w : State × ℝ × ℕ × List (Mode × ℝ)) (fo : ℕ), w.2.2.2.length ≤ 4 →
      pass c w fo = pass c' w fo := by
    intro w fo hw
    unfold pass
    simp only [h _ hw]
  have hlen : ∀ (w : State × ℝ × ℕ × List (Mode × ℝ)) (fo : ℕ),
      (pass c' w fo).2.2.2.length = w.2.2.2.length + 1 := by
    intro w fo
    unfold pass
    dsimp only
    split_ifs <;> simp
  have key : ∀ w : State × ℝ × ℕ × List (Mode × ℝ), w.2.2.2.length = 1 →
      [2, 4, 8, 16].foldl (pass c) w = [2, 4, 8, 16].foldl (pass c') w := by
    intro w hw
    simp only [List.foldl_cons, List.foldl_nil]
    rw [hp _ 2 (by omega), hp _ 4 (by rw [hlen]; omega), hp _ 8 (by rw [hlen, hlen]; omega),
      hp _ 16 (by rw [hlen, hlen, hlen]; omega)]
  unfold tune
  dsimp only
  rw [key _ rfl, h 0 (by decide)]

/-- **C97** Violated by a second tuning: when the reduced calculation is on, what is timed as the full one
is the reduced one with the old factor, the full calculation is never measured, and it may be chosen
although it is the slowest of all. -/
theorem C97_again_wrong (slow : ℝ) : ∃ (clock : ℕ → Mode → ℝ) (s : State),
    (∃ c, s = (tune c start).1) ∧ (∀ q ∈ (tune clock s).2, q.1 ≠ .full) ∧
      (tune clock s).1.mode = .full ∧ ∀ k m, m ≠ .full → clock k .full - clock k m = slow := by
  refine ⟨byMode (slow + 1) fun _ => 1, ⟨true, 2, 4, 4, some 2⟩, ⟨byMode 3 fun r => if r = 2 then 1 else 2, ?_⟩,
    ?_, ?_, ?_⟩
  · simp [tune, pass, start, State.mode, byMode]
  · have := (fold_known (byMode (slow + 1) fun _ => 1) ⟨true, 2, 4, 4, some 2⟩).1.modes
    intro q hq hf
    have hq' := List.mem_map_of_mem (f := Prod.fst) hq
    rw [show (tune (byMode (slow + 1) fun _ => 1) ⟨true, 2, 4, 4, some 2⟩).2.map Prod.fst = _ from this,
      hf] at hq'
    simp [State.mode, byFactor] at hq'
  · simp [tune, pass, State.mode, byMode]
  · intro k m hm
    cases m with
    | full => exact absurd rfl hm
    | reduced => simp [byMode]

/-! ### Examples -/

/-- The reduction by 8 is the fastest. -/
example : (tune (byMode 9 fun r => if r = 8 then 1 else 5) start).1.mode = byFactor 8 := by
  norm_num [tune, pass, start, State.mode, byMode, byFactor]

/-- The full calculation is the fastest. -/
example : (tune (byMode 1 fun r => r) start).1.mode = .full := by
  norm_num [tune, pass, start, State.mode, byMode]

end Jaxions.TuneHybrid
