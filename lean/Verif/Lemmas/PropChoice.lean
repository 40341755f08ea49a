import Verif.Spec.PropChoice
import Mathlib.Data.List.Induction
import Mathlib.Data.List.Basic

namespace Jaxions.PropChoice

open Spec

/-- The bits of `pType`. -/
structure Flags where
  base : Bool
  spec : Bool
  fspec : Bool
  leap : Bool
  om2 : Bool
  om4 : Bool
  rkn4 : Bool
  mleap : Bool

def enc (f : Flags) : ℕ :=
  f.base.toNat + 2 * f.spec.toNat + 4 * f.fspec.toNat + 16 * f.leap.toNat + 32 * f.om2.toNat +
    64 * f.om4.toNat + 128 * f.rkn4.toNat + 256 * f.mleap.toNat

def isLap : Opt → Bool
  | .lap _ => true
  | _ => false

def flagsOf (os : List Opt) : Flags where
  base := os.any isLap
  spec := decide (Opt.spec ∈ os)
  fspec := decide (Opt.fspec ∈ os)
  leap := decide (Opt.prop (some .leap) ∈ os)
  om2 := decide (Opt.prop (some .om2) ∈ os)
  om4 := decide (Opt.prop (some .om4) ∈ os)
  rkn4 := decide (Opt.prop (some .rkn4) ∈ os)
  mleap := decide (Opt.prop (some .mleap) ∈ os)

theorem enc_or : ∀ b0 b1 b2 b3 b4 b5 b6 b7 : Bool,
    (enc ⟨b0, b1, b2, b3, b4, b5, b6, b7⟩ ||| 1 = enc ⟨true, b1, b2, b3, b4, b5, b6, b7⟩) ∧
    (enc ⟨b0, b1, b2, b3, b4, b5, b6, b7⟩ ||| 2 = enc ⟨b0, true, b2, b3, b4, b5, b6, b7⟩) ∧
    (enc ⟨b0, b1, b2, b3, b4, b5, b6, b7⟩ ||| 4 = enc ⟨b0, b1, true, b3, b4, b5, b6, b7⟩) ∧
    (enc ⟨b0, b1, b2, b3, b4, b5, b6, b7⟩ ||| 16 = enc ⟨b0, b1, b2, true, b4, b5, b6, b7⟩) ∧
    (enc ⟨b0, b1, b2, b3, b4, b5, b6, b7⟩ ||| 32 = enc ⟨b0, b1, b2, b3, true, b5, b6, b7⟩) ∧
    (enc ⟨b0, b1, b2, b3, b4, b5, b6, b7⟩ ||| 64 = enc ⟨b0, b1, b2, b3, b4, true, b6, b7⟩) ∧
    (enc ⟨b0, b1, b2, b3, b4, b5, b6, b7⟩ ||| 128 = enc ⟨b0, b1, b2, b3, b4, b5, true, b7⟩) ∧
    (enc ⟨b0, b1, b2, b3, b4, b5, b6, b7⟩ ||| 256 = enc ⟨b0, b1, b2, b3, b4, b5, b6, true⟩) := by
  decide +kernel

structure Inv (os : List Opt) (v : Vars) : Prop where
  pType : v.pType = enc (flagsOf os)
  spectral : v.spectral = decide (Opt.spec ∈ os)
  fpectral : v.fpectral = decide (Opt.fspec ∈ os)
  nng : v.nng = (lastLap os).getD (-1)

theorem lastLap_snoc_lap (os : List Opt) (n : ℤ) : lastLap (os ++ [.lap n]) = some n := by
  simp [lastLap]

theorem lastLap_snoc {os : List Opt} {o : Opt} (h : isLap o = false) :
    lastLap (os ++ [o]) = lastLap os := by
  cases o with
  | lap n => simp [isLap] at h
  | prop i => simp [lastLap]
  | spec => simp [lastLap]
  | fspec => simp [lastLap]

/-- One option: it is refused, or the invariant is kept. -/
theorem inv_option {os : List Opt} {v : Vars} (h : Inv os v) (o : Opt) :
    (option v o = none ↔ o = .prop none ∨ ∃ n, o = .lap n ∧ (n < 0 ∨ 6 < n)) ∧
    ∀ v', option v o = some v' → Inv (os ++ [o]) v' := by
  cases o with
  | prop i =>
    cases i with
    | none =>
      refine ⟨by simp [option], ?_⟩
      intro v' hv'
      cases hv'
    | some i =>
      refine ⟨by simp [option], ?_⟩
      intro v' hv'
      simp only [option, Option.some.injEq] at hv'
      subst hv'
      refine ⟨?_, by simp [h.spectral], by simp [h.fpectral], ?_⟩
      · dsimp only
        rw [h.pType, h.spectral, h.fpectral]
        unfold flagsOf SPEC FSPEC
        cases i <;>
          by_cases h1 : Opt.spec ∈ os <;> by_cases h2 : Opt.fspec ∈ os <;>
          simp [h1, h2, Integ.bit, enc_or, isLap]
      · dsimp only
        rw [h.nng, lastLap_snoc (by simp [isLap])]
  | spec =>
    refine ⟨by simp [option], ?_⟩
    intro v' hv'
    simp only [option, Option.some.injEq] at hv'
    subst hv'
    refine ⟨?_, by simp, by simp [h.fpectral], ?_⟩
    · dsimp only
      rw [h.pType]
      unfold flagsOf SPEC
      simp [enc_or, isLap]
    · dsimp only
      rw [h.nng, lastLap_snoc (by simp [isLap])]
  | fspec =>
    refine ⟨by simp [option], ?_⟩
    intro v' hv'
    simp only [option, Option.some.injEq] at hv'
    subst hv'
    refine ⟨?_, by simp [h.spectral], by simp, ?_⟩
    · dsimp only
      rw [h.pType]
      unfold flagsOf FSPEC
      simp [enc_or, isLap]
    · dsimp only
      rw [h.nng, lastLap_snoc (by simp [isLap])]
  | lap n =>
    unfold option
    dsimp only
    by_cases hn : n < 0 ∨ n > 6
    · rw [if_pos hn]
      refine ⟨by simpa using hn, ?_⟩
      intro v' hv'
      cases hv'
    · rw [if_neg hn]
      refine ⟨by simpa using hn, ?_⟩
      intro v' hv'
      rw [Option.some.injEq] at hv'
      subst hv'
      refine ⟨?_, by simp [h.spectral], by simp [h.fpectral], ?_⟩
      · dsimp only
        rw [h.pType]
        unfold flagsOf BASE
        simp [enc_or, isLap]
      · dsimp only
        rw [lastLap_snoc_lap]
        rfl

theorem inv_fold (os : List Opt) :
    (os.foldlM option Vars.init = none ↔
      Opt.prop none ∈ os ∨ ∃ n, Opt.lap n ∈ os ∧ (n < 0 ∨ 6 < n)) ∧
    ∀ v, os.foldlM option Vars.init = some v → Inv os v := by
  induction os using List.reverseRecOn with
  | nil =>
    refine ⟨by simp, ?_⟩
    intro v hv
    have : v = Vars.init := by simpa using hv.symm
    subst this
    exact ⟨by simp [Vars.init, flagsOf, enc], by simp [Vars.init], by simp [Vars.init],
      by simp [Vars.init, lastLap]⟩
  | append_singleton os o ih =>
    rw [List.foldlM_append]
    cases hf : os.foldlM option Vars.init with
    | none =>
      rw [hf] at ih
      refine ⟨?_, by intro v hv; cases hv⟩
      have := ih.1.1 rfl
      simp only [Option.bind_eq_bind, Option.bind_none, true_iff]
      rcases this with h | ⟨n, h1, h2⟩
      · exact Or.inl (List.mem_append_left _ h)
      · exact Or.inr ⟨n, List.mem_append_left _ h1, h2⟩
    | some v =>
      rw [hf] at ih
      have hnot : ¬ (Opt.prop none ∈ os ∨ ∃ n, Opt.lap n ∈ os ∧ (n < 0 ∨ 6 < n)) := by
        intro hx
        exact absurd (ih.1.2 hx) (by simp)
      obtain ⟨h1, h2⟩ := inv_option (ih.2 v rfl) o
      simp only [Option.bind_eq_bind, Option.bind_some, List.foldlM_cons, List.foldlM_nil]
      have e : ((option v o).bind fun s => pure s) = option v o := by
        cases option v o <;> rfl
      rw [e]
      refine ⟨?_, h2⟩
      rw [h1]
      constructor
      · rintro (rfl | ⟨n, rfl, hn⟩)
        · exact Or.inl (by simp)
        · exact Or.inr ⟨n, by simp, hn⟩
      · rintro (hx | ⟨n, hx, hn⟩)
        · rcases List.mem_append.1 hx with hx | hx
          · exact absurd (Or.inl hx) hnot
          · left; exact (List.mem_singleton.1 hx).symm
        · rcases List.mem_append.1 hx with hx | hx
          · exact absurd (Or.inr ⟨n, hx, hn⟩) hnot
          · right; exact ⟨n, (List.mem_singleton.1 hx).symm, hn⟩

/-- The flags after the checks. -/
def final (f : Flags) : Flags :=
  { f with
    rkn4 := f.rkn4 || !(f.leap || f.om2 || f.om4 || f.mleap)
    base := f.base || !(f.spec || f.fspec) }

theorem enc_tables : ∀ b0 b1 b2 b3 b4 b5 b6 b7 : Bool,
    ((enc ⟨b0, b1, b2, b3, b4, b5, b6, b7⟩ &&& 496 = 0) ↔
      (b3 || b4 || b5 || b6 || b7) = false) ∧
    ((enc ⟨b0, b1, b2, b3, b4, b5, b6, b7⟩ &&& 15 = 0) ↔ (b0 || b1 || b2) = false) ∧
    (((enc ⟨b0, b1, b2, b3, b4, b5, b6, b7⟩ &&& 15) &&& 4 = 0) ↔ b2 = false) ∧
    (((enc ⟨b0, b1, b2, b3, b4, b5, b6, b7⟩ &&& 15) &&& 2 = 0) ↔ b1 = false) ∧
    ((enc ⟨b0, b1, b2, b3, b4, b5, b6, b7⟩ &&& 4 = 0) ↔ b2 = false) ∧
    ((enc ⟨b0, b1, b2, b3, b4, b5, b6, b7⟩ &&& 2 = 0) ↔ b1 = false) ∧
    ((enc ⟨b0, b1, b2, b3, b4, b5, b6, b7⟩ &&& 1 = 0) ↔ b0 = false) := by
  decide +kernel

theorem enc_mask : ∀ b0 b1 b2 b3 b4 b5 b6 b7 : Bool,
    enc ⟨b0, b1, b2, b3, b4, b5, b6, b7⟩ &&& 496 =
      16 * b3.toNat + 32 * b4.toNat + 64 * b5.toNat + 128 * b6.toNat + 256 * b7.toNat := by
  decide +kernel

/-- The checks after the loop, on flags. -/
theorem finish_spec {os : List Opt} {v : Vars} (h : Inv os v) :
    (finish v = none ↔ ∃ n, lastLap os = some n ∧ 0 < n ∧ (Opt.spec ∈ os ∨ Opt.fspec ∈ os)) ∧
    ∀ v', finish v = some v' → v'.pType = enc (final (flagsOf os)) ∧ v'.nng = v.nng := by
  have hs : (flagsOf os).spec = decide (Opt.spec ∈ os) := rfl
  have hf : (flagsOf os).fspec = decide (Opt.fspec ∈ os) := rfl
  have hcond : (v.nng > 0 ∧ (Opt.fspec ∈ os ∨ Opt.spec ∈ os)) ↔
      ∃ n, lastLap os = some n ∧ 0 < n ∧ (Opt.spec ∈ os ∨ Opt.fspec ∈ os) := by
    rw [h.nng]
    cases lastLap os with
    | none => simp
    | some n => simp [or_comm]
  rw [← hcond]
  unfold finish
  rw [h.pType]
  generalize flagsOf os = f at *
  obtain ⟨b0, b1, b2, b3, b4, b5, b6, b7⟩ := f
  dsimp only at hs hf
  have hp : (if enc ⟨b0, b1, b2, b3, b4, b5, b6, b7⟩ &&& MASK = 0 then
      enc ⟨b0, b1, b2, b3, b4, b5, b6, b7⟩ ||| Integ.rkn4.bit
      else enc ⟨b0, b1, b2, b3, b4, b5, b6, b7⟩) =
      enc ⟨b0, b1, b2, b3, b4, b5, b6 || !(b3 || b4 || b5 || b7), b7⟩ := by
    unfold MASK Integ.bit
    by_cases hx : (b3 || b4 || b5 || b6 || b7) = false
    · rw [if_pos ((enc_tables ..).1.2 hx), (enc_or ..).2.2.2.2.2.2.1]
      simp only [Bool.or_eq_false_iff] at hx
      simp [hx]
    · rw [if_neg (fun hy => hx ((enc_tables ..).1.1 hy))]
      congr 2
      revert hx
      cases b3 <;> cases b4 <;> cases b5 <;> cases b6 <;> cases b7 <;> simp
  dsimp only
  rw [hp]
  unfold LAPMASK SPEC FSPEC BASE
  have e4 := (enc_tables b0 b1 b2 b3 b4 b5 (b6 || !(b3 || b4 || b5 || b7)) b7).2.2.1
  have e2 := (enc_tables b0 b1 b2 b3 b4 b5 (b6 || !(b3 || b4 || b5 || b7)) b7).2.2.2.1
  have e15 := (enc_tables b0 b1 b2 b3 b4 b5 (b6 || !(b3 || b4 || b5 || b7)) b7).2.1
  have hiff : ((enc ⟨b0, b1, b2, b3, b4, b5, b6 || !(b3 || b4 || b5 || b7), b7⟩ &&& 15) &&& 4
        ≠ 0 ∨ (enc ⟨b0, b1, b2, b3, b4, b5, b6 || !(b3 || b4 || b5 || b7), b7⟩ &&& 15) &&& 2
        ≠ 0) ↔ (Opt.fspec ∈ os ∨ Opt.spec ∈ os) := by
    rw [ne_eq, ne_eq, e4, e2, hs, hf]
    simp
  by_cases hc : v.nng > 0 ∧ (Opt.fspec ∈ os ∨ Opt.spec ∈ os)
  · rw [if_pos ⟨hc.1, hiff.2 hc.2⟩]
    refine ⟨by simp [hc], ?_⟩
    intro v' hv'
    cases hv'
  · rw [if_neg (fun hx => hc ⟨hx.1, hiff.1 hx.2⟩)]
    refine ⟨by simp [hc], ?_⟩
    intro v' hv'
    rw [Option.some.injEq] at hv'
    subst hv'
    refine ⟨?_, rfl⟩
    dsimp only
    by_cases hx : (b0 || b1 || b2) = false
    · rw [if_pos (e15.2 hx), (enc_or ..).1]
      simp only [Bool.or_eq_false_iff] at hx
      simp [final, hx]
    · rw [if_neg (fun hy => hx (e15.1 hy))]
      unfold final
      congr 2
      revert hx
      cases b0 <;> cases b1 <;> cases b2 <;> simp

/-- Which integrators are named, as a function. -/
def nm (l o2 o4 r m : Bool) : Integ → Bool
  | .leap => l
  | .om2 => o2
  | .om4 => o4
  | .rkn4 => r
  | .mleap => m

def allI (p : Integ → Bool) : Bool := p .leap && p .om2 && p .om4 && p .rkn4 && p .mleap

theorem allI_iff (p : Integ → Bool) : allI p = true ↔ ∀ i, p i = true := by
  unfold allI
  constructor
  · intro h i
    simp only [Bool.and_eq_true] at h
    cases i <;> simp [h]
  · intro h
    simp [h]

def askedB (n : Integ → Bool) (i : Integ) : Bool :=
  (n i && allI (fun j => !n j || decide (j = i))) || (allI (fun j => !n j) && decide (i = .rkn4))

/-- The available integrators, as in the switch. -/
def avail (b : Build) : Integ → Bool
  | .om4 => b.om2
  | i => Compiled b i

theorem integ_table : ∀ r m l o2 o4 : Bool, ∀ b3 b4 b5 b6 b7 : Bool,
    allI (fun i => decide (integOf ⟨r, m, l, o2, o4⟩
      (16 * b3.toNat + 32 * b4.toNat + 64 * b5.toNat +
        128 * (b6 || !(b3 || b4 || b5 || b7)).toNat + 256 * b7.toNat) = some i) ==
      (askedB (nm b3 b4 b5 b6 b7) i && avail ⟨r, m, l, o2, o4⟩ i)) = true := by
  decide +kernel

theorem asked_iff (os : List Opt) (i : Integ) :
    Asked os i ↔ askedB (nm (flagsOf os).leap (flagsOf os).om2 (flagsOf os).om4
      (flagsOf os).rkn4 (flagsOf os).mleap) i = true := by
  have hn : ∀ j, nm (flagsOf os).leap (flagsOf os).om2 (flagsOf os).om4
      (flagsOf os).rkn4 (flagsOf os).mleap j = true ↔ Named os j := by
    intro j
    cases j <;> simp [nm, flagsOf, Named]
  have hn' : ∀ j, nm (flagsOf os).leap (flagsOf os).om2 (flagsOf os).om4
      (flagsOf os).rkn4 (flagsOf os).mleap j = false ↔ ¬ Named os j := by
    intro j
    rw [← hn, Bool.not_eq_true]
  unfold askedB Asked
  simp only [Bool.or_eq_true, Bool.and_eq_true, allI_iff, decide_eq_true_eq,
    Bool.not_eq_true', hn, hn']
  have : (∀ j, ¬ Named os j ∨ j = i) ↔ ∀ j, Named os j → j = i :=
    ⟨fun h j hj => (h j).resolve_left (fun hx => hx hj), fun h j => by
      by_cases hj : Named os j
      · exact Or.inr (h j hj)
      · exact Or.inl hj⟩
  rw [this]

/-- The switch finds the integrator asked for. -/
theorem integOf_final (b : Build) (os : List Opt) (i : Integ) :
    integOf b (enc (final (flagsOf os)) &&& MASK) = some i ↔ Asked os i ∧ avail b i = true := by
  rw [asked_iff]
  generalize flagsOf os = f
  obtain ⟨b0, b1, b2, b3, b4, b5, b6, b7⟩ := f
  obtain ⟨r, m, l, o2, o4⟩ := b
  unfold final MASK
  dsimp only
  rw [enc_mask]
  have h := (allI_iff _).1 (integ_table r m l o2 o4 b3 b4 b5 b6 b7) i
  rw [beq_iff_eq] at h
  rw [← Bool.and_eq_true, ← h, decide_eq_true_eq]

/-- The laplacian mode. -/
theorem class_final (os : List Opt) : classOf (enc (final (flagsOf os))) = mode os := by
  have hs : (flagsOf os).spec = decide (Opt.spec ∈ os) := rfl
  have hf : (flagsOf os).fspec = decide (Opt.fspec ∈ os) := rfl
  generalize flagsOf os = f at *
  obtain ⟨b0, b1, b2, b3, b4, b5, b6, b7⟩ := f
  dsimp only at hs hf
  unfold classOf mode final FSPEC SPEC
  dsimp only
  simp only [ne_eq, (enc_tables ..).2.2.2.2.1, (enc_tables ..).2.2.2.2.2.1, hs, hf]
  by_cases h1 : Opt.spec ∈ os <;> by_cases h2 : Opt.fspec ∈ os <;> simp [h1, h2]

theorem folds_final (os : List Opt) :
    folds (enc (final (flagsOf os))) = true ↔
      (∃ n, Opt.lap n ∈ os) ∨ (Opt.spec ∉ os ∧ Opt.fspec ∉ os) := by
  have hs : (flagsOf os).spec = decide (Opt.spec ∈ os) := rfl
  have hf : (flagsOf os).fspec = decide (Opt.fspec ∈ os) := rfl
  have hb : (flagsOf os).base = true ↔ ∃ n, Opt.lap n ∈ os := by
    unfold flagsOf
    dsimp only
    rw [List.any_eq_true]
    constructor
    · rintro ⟨o, ho, h⟩
      cases o with
      | lap n => exact ⟨n, ho⟩
      | prop i => simp [isLap] at h
      | spec => simp [isLap] at h
      | fspec => simp [isLap] at h
    · rintro ⟨n, hn⟩
      exact ⟨_, hn, rfl⟩
  rw [← hb]
  generalize flagsOf os = f at *
  obtain ⟨b0, b1, b2, b3, b4, b5, b6, b7⟩ := f
  dsimp only at hs hf ⊢
  unfold folds final BASE
  simp only [ne_eq, decide_eq_true_eq, (enc_tables ..).2.2.2.2.2.2, hs, hf]
  by_cases h1 : Opt.spec ∈ os <;> by_cases h2 : Opt.fspec ∈ os <;> cases b0 <;> simp [h1, h2]

theorem parse_spec (os : List Opt) :
    (parse os = none ↔ Refused os) ∧
    ∀ v, parse os = some v → v.pType = enc (final (flagsOf os)) ∧
      v.nng = (lastLap os).getD (-1) := by
  obtain ⟨h1, h2⟩ := inv_fold os
  unfold parse
  cases hf : os.foldlM option Vars.init with
  | none =>
    rw [hf] at h1
    refine ⟨?_, by intro v hv; cases hv⟩
    have := h1.1 rfl
    refine ⟨fun _ => ?_, fun _ => rfl⟩
    rcases this with h | h
    · exact Or.inl h
    · exact Or.inr (Or.inl h)
  | some v =>
    rw [hf] at h1
    have hi := h2 v hf
    obtain ⟨h3, h4⟩ := finish_spec hi
    have hnot : ¬ (Opt.prop none ∈ os ∨ ∃ n, Opt.lap n ∈ os ∧ (n < 0 ∨ 6 < n)) := by
      intro hx
      exact absurd (h1.2 hx) (by simp)
    simp only [Option.bind_eq_bind, Option.bind_some]
    refine ⟨?_, ?_⟩
    · rw [h3]
      constructor
      · exact fun h => Or.inr (Or.inr h)
      · rintro (h | h | h)
        · exact absurd (Or.inl h) hnot
        · exact absurd (Or.inr h) hnot
        · exact h
    · intro v' hv'
      obtain ⟨h5, h6⟩ := h4 v' hv'
      exact ⟨h5, h6.trans hi.nng⟩

end Jaxions.PropChoice
