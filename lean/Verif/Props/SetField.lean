import Verif.Model.FieldType
import Mathlib.Tactic.Ring
/-
C15: field type switches and the memory layout.
-/
namespace Jaxions.SetField
open Jaxions FType

/-- Number of reals per site of a field type, as a user counts them: a complex field has two. -/
def reals : FType → Nat
  | .saxion => 2 | .sxRd => 2 | .naxion => 2
  | .axion => 1 | .axionMod => 1 | .wkb => 1 | .axRd => 1 | .axModRd => 1
  | .paxion => 1 | .faxion => 1

/-- Element size, lane count and field type agree; lanes times element size is the alignment. -/
def Consistent (bytes align : Nat) (s : Lay) : Prop :=
  s.fSize = bytes * reals s.type ∧ s.shift * s.fSize = align

/-- The calls after which the layout is right: everything except a switch to NAXION from something
that is not axion like (on a GPU: from something that is), and a switch to AXION from the one
component types PAXION and FAXION. -/
def Sound (s : Lay) (new : FType) : Prop :=
  s.type = .wkb ∨
  match new with
  | .axion | .axionMod => s.type ≠ .paxion ∧ s.type ≠ .faxion
  | .naxion =>
    ((s.type = .axion ∨ s.type = .axionMod ∨ s.type = .axRd ∨ s.type = .axModRd) ∧ s.gpu = false) ∨
    ((s.type = .saxion ∨ s.type = .sxRd ∨ s.type = .naxion) ∧ s.gpu = true)
  | _ => True

instance (s : Lay) (new : FType) : Decidable (Sound s new) := by
  unfold Sound
  cases new <;> simp only <;> infer_instance

/-- The bit test spelled out. -/
theorem axionBit_eq (t : FType) : t.axionBit =
    match t with
    | .axion | .axionMod | .wkb | .axRd | .axModRd => true
    | _ => false := by
  cases t <;> decide

theorem create_consistent (t : FType) (bytes align : Nat) (gpu : Bool)
    (hd : bytes * reals t ∣ align) : Consistent bytes align (Lay.create t bytes align gpu) := by
  have hn : t.nData = reals t := by cases t <;> rfl
  constructor
  · simp [Lay.create, hn]
  · simp only [Lay.create, hn]
    exact Nat.div_mul_cancel hd

theorem consistent_iff (bytes q : Nat) (hb : 0 < bytes) (s : Lay) :
    Consistent bytes (2 * bytes * q) s ↔
      (reals s.type = 2 ∧ s.fSize = 2 * bytes ∧ s.shift = q) ∨
      (reals s.type = 1 ∧ s.fSize = bytes ∧ s.shift = 2 * q) := by
  have hr : reals s.type = 2 ∨ reals s.type = 1 := by cases s.type <;> simp [reals]
  unfold Consistent
  rcases hr with h | h <;> rw [h]
  · constructor
    · rintro ⟨h1, h2⟩
      left
      refine ⟨rfl, by omega, ?_⟩
      rw [h1, show s.shift * (bytes * 2) = 2 * bytes * s.shift by ring] at h2
      exact Nat.eq_of_mul_eq_mul_left (by omega) h2
    · rintro (⟨_, h1, h2⟩ | ⟨h1, _⟩)
      · rw [h1, h2]; constructor <;> ring
      · omega
  · constructor
    · rintro ⟨h1, h2⟩
      right
      refine ⟨rfl, by omega, ?_⟩
      rw [h1, show s.shift * (bytes * 1) = bytes * s.shift by ring,
        show 2 * bytes * q = bytes * (2 * q) by ring] at h2
      exact Nat.eq_of_mul_eq_mul_left hb h2
    · rintro (⟨h1, _⟩ | ⟨_, h1, h2⟩)
      · omega
      · rw [h1, h2]; constructor <;> ring

/-- One call: from a consistent layout, the layout after `setField` is consistent exactly when the
call is sound. -/
theorem C15_one_call (bytes q : Nat) (hb : 0 < bytes) (hq : 0 < q) (s : Lay)
    (hc : Consistent bytes (2 * bytes * q) s) (new : FType) :
    Consistent bytes (2 * bytes * q) (setField s new) ↔ Sound s new := by
  rw [consistent_iff bytes q hb] at hc ⊢
  obtain ⟨t, f, sh, g⟩ := s
  cases t <;> simp only [reals, Nat.reduceEqDiff, false_and, false_or, or_false, true_and] at hc <;>
    obtain ⟨rfl, rfl⟩ := hc <;> cases new <;> cases g <;>
    simp [setField, axionBit_eq, Sound, reals] <;> omega

/-- Any sequence of sound calls from any constructor keeps the layout consistent. -/
theorem C15_sequence (bytes q : Nat) (hb : 0 < bytes) (hq : 0 < q) (t0 : FType) (gpu : Bool)
    (calls : List FType)
    (hsound : ∀ pre new post, calls = pre ++ new :: post →
      Sound (pre.foldl setField (Lay.create t0 bytes (2 * bytes * q) gpu)) new) :
    Consistent bytes (2 * bytes * q) (calls.foldl setField (Lay.create t0 bytes (2 * bytes * q) gpu)) := by
  have hd : bytes * reals t0 ∣ 2 * bytes * q := by
    have hr : reals t0 = 2 ∨ reals t0 = 1 := by cases t0 <;> simp [reals]
    rcases hr with h | h <;> rw [h]
    · exact ⟨q, by ring⟩
    · exact ⟨2 * q, by ring⟩
  have h0 := create_consistent t0 bytes (2 * bytes * q) gpu hd
  generalize Lay.create t0 bytes (2 * bytes * q) gpu = s at *
  induction calls generalizing s with
  | nil => exact h0
  | cons c cs ih =>
    simp only [List.foldl_cons]
    apply ih
    · intro pre new post h
      exact hsound (c :: pre) new post (by rw [h]; rfl)
    · exact (C15_one_call bytes q hb hq s h0 c).mpr (hsound [] c cs rfl)

/-- A call that is refused (WKB field, axion to axion, saxion from a two component field, paxion
from a field that is not axion like, unknown target) leaves the field as it was. -/
theorem C15_refused (s : Lay) (new : FType)
    (h : s.type = .wkb ∨ new = .wkb ∨ new = .sxRd ∨ new = .axRd ∨ new = .axModRd ∨ new = .faxion ∨
      ((new = .axion ∨ new = .axionMod) ∧ (s.type = .axion ∨ s.type = .axionMod)) ∨
      (new = .saxion ∧ (s.type = .saxion ∨ s.type = .naxion ∨ s.type = .paxion)) ∨
      (new = .paxion ∧ (s.type = .saxion ∨ s.type = .naxion ∨ s.type = .paxion))) :
    setField s new = s := by
  obtain ⟨t, f, sh, g⟩ := s
  cases t <;> cases new <;> simp_all [setField, axionBit_eq]

/-- Finding: the switch to NAXION that is reported as an error still halves the lane count and
changes the type, because of a missing pair of braces. -/
theorem C15_naxion_not_refused (bytes q : Nat) (hb : 0 < bytes) (hq : 0 < q) :
    let s := Lay.create .saxion bytes (2 * bytes * q) false
    Consistent bytes (2 * bytes * q) s ∧ (setField s .naxion).type = .naxion ∧
    (setField s .naxion).shift ≠ s.shift ∧ ¬ Consistent bytes (2 * bytes * q) (setField s .naxion) := by
  have hd : bytes * reals .saxion ∣ 2 * bytes * q := ⟨q, by simp only [reals]; ring⟩
  have h0 := create_consistent .saxion bytes (2 * bytes * q) false hd
  have hsh : (Lay.create .saxion bytes (2 * bytes * q) false).shift = q := by
    simp only [Lay.create, FType.nData]
    rw [show 2 * bytes * q = bytes * 2 * q by ring]
    exact Nat.mul_div_cancel_left q (by omega)
  refine ⟨h0, rfl, ?_, ?_⟩
  · have : (setField (Lay.create .saxion bytes (2 * bytes * q) false) .naxion).shift =
        (Lay.create .saxion bytes (2 * bytes * q) false).shift / 2 := by
      simp [setField, Lay.create, axionBit_eq]
    rw [this, hsh]
    omega
  · rw [C15_one_call bytes q hb hq _ h0]
    simp [Sound, Lay.create]

/-- Finding: a PAXION field set to AXION gets half the element size of an axion field. -/
theorem C15_paxion_to_axion (bytes q : Nat) (hb : 0 < bytes) (hq : 0 < q) (gpu : Bool) :
    ¬ Consistent bytes (2 * bytes * q)
      (setField (setField (Lay.create .axion bytes (2 * bytes * q) gpu) .paxion) .axion) := by
  have hd : bytes * reals .axion ∣ 2 * bytes * q := ⟨2 * q, by simp only [reals]; ring⟩
  have h0 := create_consistent .axion bytes (2 * bytes * q) gpu hd
  have h1 := (C15_one_call bytes q hb hq _ h0 .paxion).mpr (by simp [Sound])
  rw [C15_one_call bytes q hb hq _ h1]
  simp [Sound, setField, Lay.create, axionBit_eq]

/-- Memory used by `m` (with ghosts) in layout `s`. -/
def mNeeds (s : Lay) (v3 : Nat) : Nat := v3 * s.fSize

/-- A field created as SAXION always has room for its elements, whatever sound calls are made: `m`
and `v` fit their own blocks. -/
theorem C15_fits_from_saxion (bytes q v3 n2 Lz : Nat) (hb : 0 < bytes) (hq : 0 < q) (gpu : Bool)
    (calls : List FType)
    (hsound : ∀ pre new post, calls = pre ++ new :: post →
      Sound (pre.foldl setField (Lay.create .saxion bytes (2 * bytes * q) gpu)) new) :
    let s := calls.foldl setField (Lay.create .saxion bytes (2 * bytes * q) gpu)
    ∃ mB vB, allocBytes .saxion v3 n2 Lz bytes = some (mB, vB, true) ∧
      v3 * s.fSize ≤ mB ∧ n2 * (Lz + 2) * s.fSize ≤ vB := by
  intro s
  have hc := C15_sequence bytes q hb hq .saxion gpu calls hsound
  refine ⟨_, _, rfl, ?_, ?_⟩
  all_goals
    apply Nat.mul_le_mul_left
    show s.fSize ≤ bytes * 2
    rw [hc.1]
    apply Nat.mul_le_mul_left
    cases (calls.foldl setField (Lay.create .saxion bytes (2 * bytes * q) gpu)).type <;> simp [reals]

/-- For a field created as AXION the block of `m` in front of `v` holds exactly the one component
field, so every accepted switch to a two component type (SAXION, NAXION) makes `m` run into `v`.
For SAXION the source prints a warning; for NAXION `m` even leaves the whole block as soon as there
is more than one ghost slice per side. -/
theorem C15_axion_created_overlap (bytes q n2 Lz Ng : Nat) (hb : 0 < bytes)
    (hn : 0 < n2) (hL : 0 < Lz) (new : FType) (hnew : new = .saxion ∨ new = .naxion) :
    let s := setField (Lay.create .axion bytes (2 * bytes * q) false) new
    ∃ mB vB, allocBytes .axion (n2 * (Lz + 2 * Ng)) n2 Lz bytes = some (mB, vB, false) ∧
      s.type = new ∧ mB < mNeeds s (n2 * (Lz + 2 * Ng)) ∧
      (mB + vB < mNeeds s (n2 * (Lz + 2 * Ng)) ↔ 1 < Ng) := by
  intro s
  have hs : s.fSize = bytes * 1 * 2 ∧ s.type = new := by
    rcases hnew with h | h <;> subst h <;> constructor <;>
      simp [s, setField, Lay.create, axionBit_eq, FType.nData]
  refine ⟨_, _, rfl, hs.2, ?_, ?_⟩ <;> simp only [mNeeds, hs.1, FType.nData, Nat.mul_one]
  · have : 0 < n2 * (Lz + 2 * Ng) * bytes :=
      Nat.mul_pos (Nat.mul_pos hn (by omega)) hb
    have e : n2 * (Lz + 2 * Ng) * (bytes * 2) = 2 * (n2 * (Lz + 2 * Ng) * bytes) := by ring
    omega
  · have hp : 0 < n2 * bytes := Nat.mul_pos hn hb
    have e1 : n2 * (Lz + 2 * Ng) * bytes + n2 * (Lz + 2) * bytes =
        (n2 * bytes) * (2 * Lz + 2 * Ng + 2) := by ring
    have e2 : n2 * (Lz + 2 * Ng) * (bytes * 2) = (n2 * bytes) * (2 * Lz + 4 * Ng) := by ring
    rw [e1, e2]
    constructor
    · intro h
      have := Nat.lt_of_mul_lt_mul_left h
      omega
    · intro h
      exact Nat.mul_lt_mul_of_pos_left (by omega) hp

-- single precision, AVX2 (32 bytes): saxion 4 lanes -> axion 8 lanes -> naxion 4 lanes -> axion
example : ([FType.axion, .naxion, .axion].foldl setField (Lay.create .saxion 4 32 false)) =
    ⟨.axion, 4, 8, false⟩ := by decide
example : ∀ pre new post, [FType.axion, .naxion, .axion] = pre ++ new :: post →
    Sound (pre.foldl setField (Lay.create .saxion 4 32 false)) new := by
  intro pre new post h
  match pre, h with
  | [], h => obtain ⟨rfl, _⟩ := List.cons.inj h; decide
  | [_], h =>
    simp only [List.cons_append, List.nil_append, List.cons.injEq] at h
    obtain ⟨rfl, rfl, _⟩ := h; decide
  | [_, _], h =>
    simp only [List.cons_append, List.nil_append, List.cons.injEq] at h
    obtain ⟨rfl, rfl, rfl, _⟩ := h; decide
  | _ :: _ :: _ :: _, h => simp at h

end Jaxions.SetField
