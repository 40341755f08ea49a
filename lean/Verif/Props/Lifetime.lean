import Verif.Model.Lifetime
import Verif.Props.MemAlloc
/-
C16 applied to the life of a `Scalar`: what is left over after the destructor.
-/
namespace Jaxions.Lifetime
open Jaxions Mem

/-- Addresses the C library may hand out: distinct, not null. -/
def Good (a : Blk → Nat) : Prop := (∀ x, a x ≠ 0) ∧ ∀ x y, a x = a y → x = y

/-- Tracked blocks left over after construction with type `t`, use, and destruction with type `t'`. -/
def leftover (t t' : FType) (a : Blk → Nat) (s : Sizes) : Option (List (Nat × Kind × Nat)) :=
  (ctor t a s).bind fun c => (run .empty (c ++ dtor t t' a s)).map (·.table)

theorem inj {a : Blk → Nat} (h : Good a) (x y : Blk) : a x = a y ↔ x = y :=
  ⟨h.2 x y, fun e => e ▸ rfl⟩

/-- A field that keeps the type it was created with gives everything back. -/
theorem C16_field_released (t : FType) (ht : t ≠ .paxion ∧ t ≠ .faxion ∧ t ≠ .naxion)
    (a : Blk → Nat) (ha : Good a) (s : Sizes) : leftover t t a s = some [] := by
  have hi := inj ha
  have h0 := ha.1
  obtain ⟨t1, t2, t3⟩ := ht
  cases t <;> first
    | exact absurd rfl t1
    | exact absurd rfl t2
    | exact absurd rfl t3
    | simp [leftover, ctor, ctorFields, ctorM2, dtor, vPtr, run, step, Mem.insert, lookup, erase,
        cfree, State.empty, FType.saxionBit, FType.code, hi, h0]

/-- Also after switching between types that are both axion like. -/
theorem C16_axion_like_released (t t' : FType)
    (ht : t = .axion ∨ t = .axionMod) (ht' : t' = .naxion ∨ t' = .paxion ∨ t' = .axion)
    (a : Blk → Nat) (ha : Good a) (s : Sizes) : leftover t t' a s = some [] := by
  have hi := inj ha
  have h0 := ha.1
  rcases ht with rfl | rfl <;> rcases ht' with rfl | rfl | rfl <;>
    simp [leftover, ctor, ctorFields, ctorM2, dtor, vPtr, run, step, Mem.insert, lookup, erase, cfree,
      State.empty, FType.saxionBit, FType.code, hi, h0]

/-- Finding: a field created as SAXION and switched to AXION (the usual course of a simulation)
never releases `v`, because the destructor decides by the current type. -/
theorem C16_switched_field_leaks (t' : FType) (ht' : t' = .axion ∨ t' = .axionMod)
    (a : Blk → Nat) (ha : Good a) (s : Sizes) :
    (setField ⟨.saxion, 8, 4, false⟩ t').type = t' ∧
    leftover .saxion t' a s = some [(a .v, .align, s.vB)] := by
  have hi := inj ha
  have h0 := ha.1
  rcases ht' with rfl | rfl <;> refine ⟨by decide, ?_⟩ <;>
    simp [leftover, ctor, ctorFields, ctorM2, dtor, vPtr, run, step, Mem.insert, lookup, erase, cfree,
      State.empty, FType.saxionBit, FType.code, hi, h0]

/-- Finding: a field created as AXION and switched to SAXION has its destructor free an address in
the middle of a block. `hv`: no block starts there, as the block of `m` extends beyond it. -/
theorem C16_axion_to_saxion_bad_free (a : Blk → Nat) (ha : Good a) (s : Sizes) (hm : 0 < s.mB)
    (hv : ∀ x, a x ≠ a .m + s.mB) :
    (setField ⟨.axion, 4, 8, false⟩ .saxion).type = .saxion ∧
    leftover .axion .saxion a s = none := by
  have hi := inj ha
  have h0 := ha.1
  have hv' : ∀ x, a .m + s.mB ≠ a x := fun x h => hv x h.symm
  have hz : ¬ (a .m = 0 ∧ s.mB = 0) := fun h => h0 .m h.1
  have hm' : s.mB ≠ 0 := by omega
  refine ⟨by decide, ?_⟩
  simp [leftover, ctor, ctorFields, ctorM2, dtor, vPtr, run, step, Mem.insert, lookup, erase, cfree,
    State.empty, FType.saxionBit, FType.code, hi, h0, hv', hm']

/-- Finding: a field created as PAXION requests its first three blocks twice (missing `break`) and
keeps seven blocks for good. -/
theorem C16_paxion_leaks (a : Blk → Nat) (ha : Good a) (s : Sizes) :
    leftover .paxion .paxion a s = some
      [(a .m0, .align, s.mB), (a .v0, .align, s.mB), (a .str0, .track, s.n3),
       (a .v, .align, s.mB), (a .rho, .align, s.mB), (a .vho, .align, s.mB),
       (a .g, .align, 3 * s.mB)] := by
  have hi := inj ha
  have h0 := ha.1
  simp [leftover, ctor, ctorFields, ctorM2, dtor, vPtr, run, step, Mem.insert, lookup, erase, cfree,
    State.empty, FType.saxionBit, FType.code, hi, h0]

/-- Addresses used in the examples. -/
def sampleAddr : Blk → Nat
  | .m => 64 | .v => 1088 | .m2 => 2112 | .str => 4096 | .z => 5120 | .R => 5184 | .rho => 6144
  | .vho => 7168 | .g => 8192 | .m0 => 12288 | .v0 => 13312 | .str0 => 14336

example : Good sampleAddr := by
  constructor
  · intro x; cases x <;> decide
  · intro x y; cases x <;> cases y <;> decide
example : leftover .saxion .axion sampleAddr ⟨1024, 640, 512, 64⟩ = some [(1088, .align, 640)] := by
  decide

end Jaxions.Lifetime
