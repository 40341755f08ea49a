import Verif.Lemmas.PropChoice

/-
C33: any combination of propagator options that is accepted leads to exactly one
integrator and one laplacian mode; incompatible combinations are refused.
-/

namespace Jaxions.PropChoice

open Spec

/-- C33: the command line is refused exactly for an unknown integrator, a number of
neighbours out of range, or a positive number of neighbours (the last one given)
with a spectral mode, for every sequence of options. -/
theorem C33_refused (os : List Opt) : parse os = none ↔ Refused os :=
  (parse_spec os).1

example : parse [.lap 2, .prop (some .leap), .spec] = none := by decide
example : parse [.prop (some .leap), .fspec, .prop (some .leap)] = some ⟨20, false, true, -1⟩ := by
  decide

/-- At most one integrator is asked for. -/
theorem C33_asked_unique {os : List Opt} {i j : Integ} (hi : Asked os i) (hj : Asked os j) :
    i = j := by
  rcases hi with ⟨h1, h2⟩ | ⟨h1, h2⟩ <;> rcases hj with ⟨h3, h4⟩ | ⟨h3, h4⟩
  · exact h4 i h1
  · exact absurd h1 (h3 i)
  · exact absurd h3 (h1 j)
  · rw [h2, h4]

/-- The integrators the switch can reach: the compiled ones, except that the fourth
order Omelyan integrator is there when the second order one is. -/
def Reachable (b : Build) (i : Integ) : Prop :=
  Compiled b (if i = .om4 then .om2 else i) = true

/-- C33: after an accepted command line and with a potential that has a propagator,
the propagator made has the one integrator asked for, the laplacian mode asked for,
the potential and the options of the field, and it is made exactly when that
integrator is compiled in and a spectral mode is not used with the GPU or low
memory.  For every sequence of options, every build and every earlier propagator. -/
theorem C33_resolve {os : List Opt} {v : Vars} (hv : parse os = some v) (b : Build)
    (info : FieldInfo) {pot : ℕ} (hp : pot ∈ potCases) (prev : Option Prop') (p : Prop') :
    initPropagator b v.pType info pot prev = .made p ↔
      Asked os p.integ ∧ Reachable b p.integ ∧ p.cls = mode os ∧ p.pot = pot ∧ p.info = info ∧
        (mode os = .base ∨ (info.gpu = false ∧ info.lowMem = false)) := by
  have hpt := ((parse_spec os).2 v hv).1
  have hav : ∀ i, avail b i = true ↔ Reachable b i := by
    intro i
    cases i <;> simp [avail, Reachable, Compiled]
  unfold initPropagator
  rw [hpt]
  cases hi : integOf b (enc (final (flagsOf os)) &&& MASK) with
  | none =>
    dsimp only
    constructor
    · intro h
      cases h
    · rintro ⟨h1, h2, -⟩
      have := (integOf_final b os p.integ).2 ⟨h1, (hav _).2 h2⟩
      rw [hi] at this
      cases this
  | some i =>
    have h0 := (integOf_final b os i).1 hi
    dsimp only
    rw [if_pos hp, class_final]
    by_cases hc : mode os ≠ .base ∧ (info.gpu = true ∨ info.lowMem = true)
    · rw [if_pos hc]
      constructor
      · intro h
        cases h
      · rintro ⟨-, -, -, -, -, h | h⟩
        · exact absurd h hc.1
        · rcases hc.2 with h' | h'
          · rw [h.1] at h'; cases h'
          · rw [h.2] at h'; cases h'
    · rw [if_neg hc]
      rw [Outcome.made.injEq]
      constructor
      · rintro rfl
        refine ⟨h0.1, (hav i).1 h0.2, rfl, rfl, rfl, ?_⟩
        by_cases hm : mode os = .base
        · exact Or.inl hm
        · right
          have : ¬ (info.gpu = true ∨ info.lowMem = true) := fun hx => hc ⟨hm, hx⟩
          simpa [not_or] using this
      · obtain ⟨i', c', pot', info'⟩ := p
        rintro ⟨h1, -, h3, h4, h5, -⟩
        dsimp only at h1 h3 h4 h5
        rw [C33_asked_unique h1 h0.1, h3, h4, h5]

/-- C33: in that case there is no other outcome than a propagator or the end of the
program. -/
theorem C33_made_or_exit (b : Build) (t : ℕ) (info : FieldInfo) {pot : ℕ} (hp : pot ∈ potCases)
    (prev : Option Prop') :
    initPropagator b t info pot prev = .exit ∨ ∃ p, initPropagator b t info pot prev = .made p := by
  unfold initPropagator
  cases integOf b (t &&& MASK) with
  | none => exact Or.inl rfl
  | some i =>
    dsimp only
    rw [if_pos hp]
    by_cases hc : classOf t ≠ .base ∧ (info.gpu = true ∨ info.lowMem = true)
    · rw [if_pos hc]; exact Or.inl rfl
    · rw [if_neg hc]; exact Or.inr ⟨_, rfl⟩

/-- C33: no option at all gives the Runge-Kutta-Nyström integrator with the stencil
laplacian, in the default build. -/
theorem C33_default (info : FieldInfo) {pot : ℕ} (hp : pot ∈ potCases) (prev : Option Prop') :
    ∃ v, parse [] = some v ∧
      initPropagator Build.default v.pType info pot prev = .made ⟨.rkn4, .base, pot, info⟩ := by
  have h : parse [] = some ⟨129, false, false, -1⟩ := by decide
  refine ⟨_, h, (C33_resolve h Build.default info hp prev _).2 ?_⟩
  refine ⟨Or.inr ⟨by simp [Named], rfl⟩, rfl, rfl, rfl, rfl, Or.inl rfl⟩

example : (1024 + 8 : ℕ) ∈ potCases := by decide
example : ∃ v, parse [.spec, .prop (some .leap), .prop (some .leap)] = some v ∧
    initPropagator ⟨true, true, true, true, true⟩ v.pType ⟨false, false⟩ 1032 none =
      .made ⟨.leap, .spec, 1032, ⟨false, false⟩⟩ := ⟨_, rfl, by decide⟩

/-- C33: two different integrators named on an accepted command line end the
program, in every build and for every potential and field. -/
theorem C33_two_integrators {os : List Opt} {v : Vars} (hv : parse os = some v) {i j : Integ}
    (hi : Named os i) (hj : Named os j) (hij : i ≠ j) (b : Build) (info : FieldInfo) (pot : ℕ)
    (prev : Option Prop') : initPropagator b v.pType info pot prev = .exit := by
  have hpt := ((parse_spec os).2 v hv).1
  unfold initPropagator
  rw [hpt]
  cases hk : integOf b (enc (final (flagsOf os)) &&& MASK) with
  | none => rfl
  | some k =>
    exfalso
    rcases ((integOf_final b os k).1 hk).1 with ⟨-, h⟩ | ⟨h, -⟩
    · exact hij ((h i hi).trans (h j hj).symm)
    · exact h i hi

example : ∃ v, parse [.prop (some .leap), .prop (some .om2)] = some v ∧
    initPropagator ⟨true, true, true, true, true⟩ v.pType ⟨false, false⟩ 1032 none = .exit :=
  ⟨_, rfl, by decide⟩

/-- C33: the field is folded before a step exactly when a number of neighbours was
given or no spectral mode was. -/
theorem C33_fold {os : List Opt} {v : Vars} (hv : parse os = some v) :
    folds v.pType = true ↔ (∃ n, Opt.lap n ∈ os) ∨ (Opt.spec ∉ os ∧ Opt.fspec ∉ os) := by
  rw [((parse_spec os).2 v hv).1]
  exact folds_final os

/-- C33: the number of neighbours passed on is the last one given, or −1 (to be
chosen) when none is. -/
theorem C33_neighbours {os : List Opt} {v : Vars} (hv : parse os = some v) :
    v.nng = (lastLap os).getD (-1) ∧ -1 ≤ v.nng ∧ v.nng ≤ 6 := by
  have h := ((parse_spec os).2 v hv).2
  refine ⟨h, ?_⟩
  have hr : ¬ Refused os := fun hx => by
    rw [← C33_refused, hv] at hx
    cases hx
  cases hl : lastLap os with
  | none => rw [hl] at h; simp only [Option.getD_none] at h; omega
  | some n =>
    rw [hl] at h
    simp only [Option.getD_some] at h
    have hm : Opt.lap n ∈ os := by
      have := List.mem_of_getLast? hl
      rw [List.mem_filterMap] at this
      obtain ⟨o, ho, he⟩ := this
      cases o with
      | lap k => simp only [Option.some.injEq] at he; exact he ▸ ho
      | prop i => cases he
      | spec => cases he
      | fspec => cases he
    by_cases hb : n < 0 ∨ 6 < n
    · exact absurd (Or.inr (Or.inl ⟨n, hm, hb⟩)) hr
    · omega

/-- The order of the options does not matter, except that the last number of
neighbours counts. -/
theorem C33_order {os os' : List Opt} {v v' : Vars} (hm : ∀ o, o ∈ os ↔ o ∈ os')
    (hv : parse os = some v) (hv' : parse os' = some v') : v.pType = v'.pType := by
  rw [((parse_spec os).2 v hv).1, ((parse_spec os').2 v' hv').1]
  have : flagsOf os = flagsOf os' := by
    unfold flagsOf
    congr 1
    · rw [Bool.eq_iff_iff, List.any_eq_true, List.any_eq_true]
      simp only [hm]
    all_goals simp only [hm]
  rw [this]

/-! ### Where the claim fails -/

/-- C33 fails: the two spectral modes together are accepted, and the full one is
dropped without a message. -/
theorem C33_both_spectral :
    ∃ v, parse [.spec, .fspec] = some v ∧
      initPropagator Build.default v.pType ⟨false, false⟩ 1032 none =
        .made ⟨.rkn4, .spec, 1032, ⟨false, false⟩⟩ := ⟨_, rfl, by decide⟩

/-- C33 fails: `--lap 0` with a spectral mode is accepted, and then the field is
folded before each step of a spectral propagator. -/
theorem C33_lap0_spec :
    ∃ v, parse [.lap 0, .spec] = some v ∧ classOf v.pType = .spec ∧ folds v.pType = true :=
  ⟨_, rfl, by decide, by decide⟩

/-- C33 fails: the fourth order Omelyan integrator alone in the build is refused,
and it is accepted when only the second order one is in the build. -/
theorem C33_om4 :
    ∃ v, parse [.prop (some .om4)] = some v ∧
      initPropagator ⟨false, false, false, false, true⟩ v.pType ⟨false, false⟩ 1032 none = .exit ∧
      initPropagator ⟨false, false, false, true, false⟩ v.pType ⟨false, false⟩ 1032 none =
        .made ⟨.om4, .base, 1032, ⟨false, false⟩⟩ := ⟨_, rfl, by decide, by decide⟩

/-- C33 fails: with a potential outside the table of `prop-def-mac.h` the first call
goes through a null pointer and later calls keep the propagator of another
potential, whenever the integrator is available. -/
theorem C33_potential {b : Build} {t pot : ℕ} {i : Integ} (hi : integOf b (t &&& MASK) = some i)
    (hp : pot ∉ potCases) (info : FieldInfo) :
    initPropagator b t info pot none = .crash ∧
    ∀ p, initPropagator b t info pot (some p) = .kept p := by
  unfold initPropagator
  rw [hi]
  dsimp only
  simp only [if_neg hp, implies_true, and_self]

/-- Every potential with the second or third Peccei-Quinn term, or with the variant
QCD term, is outside: a potential in the table has the first term and not the
others. -/
theorem C33_potential_table {pot : ℕ} (hp : pot ∈ potCases) :
    pot &&& 3584 = 1024 ∧ pot &&& 4 = 0 := by
  have h : ∀ q ∈ potCases, q &&& 3584 = 1024 ∧ q &&& 4 = 0 := by decide +kernel
  exact h pot hp

example : (2048 + 2 : ℕ) ∉ potCases := by decide

/-- C33 fails: a spectral mode with the non-relativistic or Paxion field is accepted
and the step calls a function that was never set; so is low memory. -/
theorem C33_kernel_unset {p : Prop'} {f : Fld} : kernel p f = none ↔
    (f = .naxion ∨ f = .paxion) ∧
      (p.cls ≠ .base ∨ p.info.gpu = true ∨ p.info.lowMem = true) := by
  obtain ⟨i, c, pot, ⟨g, l⟩⟩ := p
  cases f <;> cases c <;> cases g <;> cases l <;> simp [kernel]

end Jaxions.PropChoice
