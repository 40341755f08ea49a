import Verif.Lemmas.Header
import Mathlib.Algebra.Ring.Defs
import Mathlib.Data.Rat.Defs
import Mathlib.Algebra.Ring.Rat

/-
C36: writing a configuration and reading it back gives the same potential.
C41: header text fits its buffers.
C47: the cosmological parameters saved are the ones read back.
-/

namespace Jaxions.Header

open Spec

/-! ### C36 -/

/-- C36: the potential of a fresh run is the one asked for, the last option of each
kind counting, for every sequence of options. -/
theorem C36_fresh (os : List PotOpt) : freshPot os = ((asked os).num, askedZero os) := by
  unfold freshPot
  rw [potParse_spec]
  dsimp only
  rw [type_num]
  rfl

example : freshPot [.vqcdC, .gam, .vqcdL, .vPQ2] = (16 + 16384 + 2048, false) := by decide

/-- C36: the exact condition for a round trip.  A run with any sequence of options,
saved and started again without options, has the same potential if and only if it
has the first PQ potential, does not evolve the angle only, and a vanishing coupling
comes with the vanishing QCD potential. -/
theorem C36_exact (os : List PotOpt) :
    restartPot [] (savePot (freshPot os)) = freshPot os ↔
      (asked os).pq = .p1 ∧ (asked os).evol ≠ .theta ∧
        (askedZero os = true → (asked os).q = .q0) := by
  rw [C36_fresh, restart_spec]
  simp only [Prod.mk.injEq]
  have e0 : lastOf zeroOf [] = none := rfl
  have e1 : asked [] = ⟨.q1, .p1, .none, .full⟩ := rfl
  constructor
  · rintro ⟨h, -⟩
    have h := num_inj h
    unfold used at h
    rw [e0, e1] at h
    revert h
    rcases ha : asked os with ⟨q, pq, d, e⟩
    simp only [Option.getD_none, List.any_nil, Bool.false_eq_true, if_false, if_true,
      Pot.mk.injEq]
    rintro ⟨h1, h2, -, h4⟩
    refine ⟨h2.symm, ?_, ?_⟩
    · rintro rfl
      simp at h4
    · intro hz
      rw [if_pos hz] at h1
      exact h1.symm
  · rintro ⟨h1, h2, h3⟩
    refine ⟨?_, rfl⟩
    congr 1
    unfold used
    rw [e0, e1]
    revert h1 h2 h3
    rcases ha : asked os with ⟨q, pq, d, e⟩
    simp only [Option.getD_none, List.any_nil, Bool.false_eq_true, if_false, if_true,
      Pot.mk.injEq]
    rintro rfl h2 h3
    refine ⟨?_, rfl, trivial, ?_⟩
    · by_cases hz : askedZero os = true
      · rw [if_pos hz, h3 hz]
      · rw [if_neg hz]
    · cases e <;> simp at h2 ⊢

example : restartPot [] (savePot (freshPot [.vqcdC, .gamall, .onlyrho])) =
    (32 + 1024 + 32768 + 8192, false) := by decide +kernel

/-- C36: in particular the QCD potential and the damping are always kept when the
coupling does not vanish. -/
theorem C36_qcd_damping (os : List PotOpt) (hz : askedZero os = false) :
    (restartPot [] (savePot (freshPot os))).1 &&& V_QCD = (freshPot os).1 &&& V_QCD ∧
    (restartPot [] (savePot (freshPot os))).1 &&& V_DAMP = (freshPot os).1 &&& V_DAMP := by
  rw [C36_fresh, restart_spec]
  dsimp only
  rw [(num_masks _).1, (num_masks _).1, (num_masks _).2.2.1, (num_masks _).2.2.1]
  unfold used
  simp [hz, lastOf, asked]

/-- C36 fails: the other PQ potentials come back as the first one, because the
reader compares with texts that are never written. -/
theorem C36_pq_lost : restartPot [] (savePot (freshPot [.vPQ2])) = freshPot [.vPQ1] ∧
    restartPot [] (savePot (freshPot [.vPQ3])) = freshPot [] := by decide +kernel

/-- C36 fails: evolution of the angle only comes back as full evolution. -/
theorem C36_theta_lost :
    restartPot [] (savePot (freshPot [.onlytheta])) = freshPot [] := by decide +kernel

/-- C36: what a run started from a file uses.  For every saved potential and every
sequence of options: any option about the potential, damping or evolution makes the
QCD and PQ potentials those of the command line, with its defaults, and not those of
the file. -/
theorem C36_restart (os : List PotOpt) (p : Pot) (z : Bool) (hp : os.any isPot = true) :
    (restartPot os (savePot (p.num, z))).1 &&& V_PQ = (asked os).pq.bit ∧
    ((lastOf zeroOf os).getD z = false →
      (restartPot os (savePot (p.num, z))).1 &&& V_QCD = (asked os).q.bit) := by
  rw [restart_spec]
  dsimp only
  rw [(num_masks _).1, (num_masks _).2.1]
  unfold used
  simp only [hp, if_true, true_and]
  intro h
  rw [h]
  rfl

/-- C36: damping and evolution given as options override the file, and otherwise the
file is used (where angle only evolution counts as full). -/
theorem C36_restart_damping (os : List PotOpt) (p : Pot) (z : Bool) :
    (restartPot os (savePot (p.num, z))).1 &&& V_DAMP = (wanted os p).damp.bit := by
  rw [restart_spec]
  dsimp only
  rw [(num_masks _).2.2.1]
  unfold used wanted asked
  dsimp only
  have hne : ∀ d, lastOf dampOf os = some d → d ≠ .none := by
    intro d hd
    have := List.mem_of_getLast? hd
    rw [List.mem_filterMap] at this
    obtain ⟨o, -, ho⟩ := this
    rintro rfl
    cases o <;> simp [dampOf] at ho
  cases hd : lastOf dampOf os with
  | none => simp
  | some d =>
    simp only [Option.getD_some]
    rw [if_neg (hne d hd)]

/-- C36 fails: the option for damping alone changes the QCD potential of the file,
for every saved potential other than the default one. -/
theorem C36_damping_changes_potential (p : Pot) (hp : p.q ≠ .q1) :
    (restartPot [.gam] (savePot (p.num, false))).1 &&& V_QCD ≠ p.num &&& V_QCD := by
  rw [(C36_restart [.gam] p false rfl).2 rfl, (num_masks p).1]
  have : (asked [.gam]).q = .q1 := rfl
  rw [this]
  revert hp
  cases p.q <;> decide

/-! ### C47 -/

/-- C47: the exact condition for the cosmological parameters to survive: expansion
exponent one, no decay time, and no exponent of a fixed λ. -/
theorem C47_exact {α : Type} [Zero α] [One α] [Neg α] (c : Cosm α) (l : LamType) :
    readCosm (saveCosm c l) = some (c, l) ↔
      c.frw = 1 ∧ c.dectime = -1 ∧ (l = .fixed → c.lz2e = 0) := by
  obtain ⟨c1, c2, c3, c4, c5, c6, c7, c8, c9, c10, c11⟩ := c
  unfold readCosm saveCosm
  cases l with
  | z2 =>
    rw [if_pos (show lamText .z2 = "z2" from rfl)]
    simp only [Option.some.injEq, Prod.mk.injEq, Cosm.mk.injEq, true_and, and_true]
    constructor
    · rintro ⟨h1, h2⟩
      exact ⟨h2.symm, h1.symm, fun h => by cases h⟩
    · rintro ⟨h1, h2, -⟩
      exact ⟨h2.symm, h1.symm⟩
  | fixed =>
    rw [if_neg (show ¬ lamText .fixed = "z2" by decide),
      if_pos (show lamText .fixed = "Fixed" from rfl)]
    simp only [Option.some.injEq, Prod.mk.injEq, Cosm.mk.injEq, true_and, and_true]
    constructor
    · rintro ⟨h1, h2, h3⟩
      exact ⟨h3.symm, h2.symm, fun _ => h1.symm⟩
    · rintro ⟨h1, h2, h3⟩
      exact ⟨(h3 trivial).symm, h2.symm, h1.symm⟩

/-- C47: all other parameters always survive. -/
theorem C47_others {α : Type} [Zero α] [One α] [Neg α] (c : Cosm α) (l : LamType) :
    ∃ c', readCosm (saveCosm c l) = some (c', l) ∧ c'.lSize = c.lSize ∧ c'.lambda = c.lambda ∧
      c'.indi3 = c.indi3 ∧ c'.gamma = c.gamma ∧ c'.nQcd = c.nQcd ∧ c'.nQcdr = c.nQcdr ∧
      c'.zThRes = c.zThRes ∧ c'.zRestore = c.zRestore ∧ (l = .z2 → c'.lz2e = c.lz2e) := by
  unfold readCosm saveCosm
  cases l with
  | z2 =>
    rw [if_pos (show lamText .z2 = "z2" from rfl)]
    exact ⟨_, rfl, rfl, rfl, rfl, rfl, rfl, rfl, rfl, rfl, fun _ => rfl⟩
  | fixed =>
    rw [if_neg (show ¬ lamText .fixed = "z2" by decide),
      if_pos (show lamText .fixed = "Fixed" from rfl)]
    exact ⟨_, rfl, rfl, rfl, rfl, rfl, rfl, rfl, rfl, rfl, fun h => by cases h⟩

/-- C47 fails: a run without expansion, or with another expansion law, comes back
with radiation domination. -/
theorem C47_frw_lost (c : Cosm ℚ) (l : LamType) (c' : Cosm ℚ) (l' : LamType)
    (h : readCosm (saveCosm c l) = some (c', l')) : c'.frw = 1 ∧ c'.dectime = -1 := by
  unfold readCosm at h
  split at h
  · simp only [Option.some.injEq, Prod.mk.injEq] at h
    rw [← h.1]
    exact ⟨rfl, rfl⟩
  · split at h
    · simp only [Option.some.injEq, Prod.mk.injEq] at h
      rw [← h.1]
      exact ⟨rfl, rfl⟩
    · cases h

example : (⟨6, 1, 2, 1, 0, -1, 7, 7, 100, 100, 0⟩ : Cosm ℚ).frw = 0 ∧
    readCosm (saveCosm (⟨6, 1, 2, 1, 0, -1, 7, 7, 100, 100, 0⟩ : Cosm ℚ) .z2) =
      some (⟨6, 1, 2, 1, 0, -1, 7, 7, 100, 100, 1⟩, .z2) := by decide +kernel

/-! ### C41 -/

theorem qcdText_length (p : ℕ) : (qcdText p).length ≤ 12 := by
  unfold qcdText
  split <;> decide

theorem pqText_length (p : ℕ) : (pqText p).length ≤ 5 := by
  unfold pqText
  split <;> decide

theorem dampText_length (p : ℕ) : (dampText p).length ≤ 4 := by
  unfold dampText
  split <;> decide

theorem evolText_length (p : ℕ) : (evolText p).length ≤ 8 := by
  unfold evolText
  split <;> decide

/-- C41: every text printed fits in its buffer, for every field type, precision,
potential and initial conditions, except the one of parametric resonance. -/
theorem C41_text (s : TextState) (b : Buf) :
    sprintfOk b (textOf s b) ↔ (b ≠ .smStr ∨ s.sm ≠ .parres) := by
  unfold sprintfOk
  cases b with
  | prec =>
    simp only [ne_eq, reduceCtorEq, not_false_eq_true, true_or, iff_true, textOf, Buf.size]
    cases s.double <;> decide
  | fStr =>
    simp only [ne_eq, reduceCtorEq, not_false_eq_true, true_or, iff_true, textOf, Buf.size]
    have h : ∀ i : Fin 5, (fieldText i).length + 1 ≤ 16 := by decide
    exact h _
  | lStr =>
    simp only [ne_eq, reduceCtorEq, not_false_eq_true, true_or, iff_true, textOf, Buf.size]
    cases s.lam <;> decide
  | rStr =>
    simp only [ne_eq, reduceCtorEq, not_false_eq_true, true_or, iff_true, textOf, Buf.size]
    have := evolText_length s.pot
    omega
  | dStr =>
    simp only [ne_eq, reduceCtorEq, not_false_eq_true, true_or, iff_true, textOf, Buf.size]
    have := dampText_length s.pot
    omega
  | vStr =>
    simp only [ne_eq, reduceCtorEq, not_false_eq_true, true_or, iff_true, textOf, Buf.size]
    have := qcdText_length s.pot
    omega
  | vPQStr =>
    simp only [ne_eq, reduceCtorEq, not_false_eq_true, true_or, iff_true, textOf, Buf.size]
    have := pqText_length s.pot
    omega
  | icStr =>
    simp only [ne_eq, reduceCtorEq, not_false_eq_true, true_or, iff_true, textOf, Buf.size]
    cases s.ic <;> decide
  | smStr =>
    simp only [ne_eq, not_true_eq_false, false_or, textOf, Buf.size]
    cases s.sm <;> decide

/-- C41: every text fits in the attribute. -/
theorem C41_attribute (s : TextState) (b : Buf) : (textOf s b).length < attrLength := by
  by_cases h : b ≠ .smStr ∨ s.sm ≠ .parres
  · have := (C41_text s b).2 h
    unfold sprintfOk at this
    unfold attrLength
    have hs : b.size ≤ 32 := by cases b <;> decide
    omega
  · simp only [ne_eq, not_or, not_not] at h
    rw [h.1]
    show (smText s.sm).length < attrLength
    rw [h.2]
    decide

/-- C41 fails: the transfer of a text attribute stays in the buffer only for the two
long buffers, so that saving reads and reading writes past the end of all others. -/
theorem C41_transfer (b : Buf) : transferOk b ↔ b = .vStr ∨ b = .vPQStr := by
  cases b <;> simp [transferOk, attrLength, Buf.size]

/-- C41 fails: of the five buffers that `readConf` reads into, four are overrun, in
every read of a file. -/
theorem C41_read_overrun : (readBufs.filter fun b => decide (b.size < attrLength)) =
    [.fStr, .prec, .lStr, .icStr] := by decide

/-- C41: the file name fits for every name the command line accepts (96 characters)
with the default directory, for every index up to nine digits. -/
theorem C41_path (name : String) (index : ℕ) (hn : name.length ≤ 96)
    (hi : (Nat.toDigits 10 index).length ≤ 9) : pathOk "out/m" name index := by
  unfold pathOk indexLength
  have : ("out/m" : String).length = 5 := by decide
  omega

/-- C41: with another directory it fits exactly up to a length of the directory and
name; the program accepts directories up to 1021 characters (parse.cpp:2647). -/
theorem C41_path_iff (dir name : String) (index : ℕ) (hi : (Nat.toDigits 10 index).length ≤ 5) :
    pathOk dir name index ↔ dir.length + name.length ≤ 248 := by
  unfold pathOk indexLength
  rw [Nat.max_eq_left hi]
  omega

example : ¬ pathOk (String.ofList (List.replicate 300 'a')) "axion" 7 := by
  unfold pathOk
  decide +kernel

/-- Every save writes the attribute "Precision" twice: the second creation fails and
its error message is formatted without its argument. -/
theorem C41_duplicate_attribute (t r : Bool) : failedAttrs [] (rootAttrs t r) = ["Precision"] := by
  cases t <;> cases r <;> decide +kernel

end Jaxions.Header
