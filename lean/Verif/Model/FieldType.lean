/-
Field types and the type switch of a `Scalar` (include/enum-field.h:9-23,
lib/scalar/scalarField.cpp).
-/
namespace Jaxions

/-- include/enum-field.h:9-23 (the two bare bits `FIELD_MOD`, `FIELD_REDUCED` are not field types a
constructor accepts and are left out). -/
inductive FType where
  | saxion | axion | axionMod | wkb | sxRd | axRd | axModRd | naxion | paxion | faxion
deriving DecidableEq, Repr

namespace FType

/-- Numerical codes, include/enum-field.h:11-22. -/
def code : FType → Nat
  | saxion => 1 | axion => 2 | axionMod => 130 | wkb => 6 | sxRd => 257 | axRd => 258
  | axModRd => 386 | naxion => 512 | paxion => 1024 | faxion => 2048

/-- The C++ test `fieldType & FIELD_AXION`. -/
def axionBit (t : FType) : Bool := t.code &&& axion.code != 0

/-- The C++ test `fieldType & FIELD_SAXION`. -/
def saxionBit (t : FType) : Bool := t.code &&& saxion.code != 0

/-- `nData` chosen by the constructor, scalarField.cpp:138-162. -/
def nData : FType → Nat
  | saxion | sxRd | naxion => 2
  | _ => 1

end FType

/-- The members of `Scalar` that `setField` reads and writes. `shift` is the number of sites per
vector, `gpu` is `device == DEV_GPU`. -/
structure Lay where
  type : FType
  fSize : Nat
  shift : Nat
  gpu : Bool
deriving DecidableEq, Repr

/-- Constructor, scalarField.cpp:138-199: `fSize = bytes*nData`, `shift = mAlign/fSize`. -/
def Lay.create (t : FType) (bytes align : Nat) (gpu : Bool) : Lay :=
  ⟨t, bytes * t.nData, align / (bytes * t.nData), gpu⟩

/-- `Scalar::setField`, scalarField.cpp:1051-1115, without the device pointer of the low memory GPU
mode. The `else` of the NAXION case governs only `fSize *= 2` (no braces in the source). -/
def setField (s : Lay) (new : FType) : Lay :=
  if s.type = .wkb then s else
  match new with
  | .axionMod | .axion =>
    if s.type.axionBit then s
    else { s with fSize := s.fSize / 2, shift := s.shift * 2, type := new }
  | .saxion =>
    if s.type.axionBit then { s with fSize := s.fSize * 2, shift := s.shift / 2, type := new } else s
  | .naxion =>
    let s1 := if !s.type.axionBit then s else { s with fSize := s.fSize * 2 }
    let s2 := if !s1.gpu then { s1 with shift := s1.shift / 2 } else s1
    { s2 with type := .naxion }
  | .paxion => if !s.type.axionBit then s else { s with type := .paxion }
  | _ => s

/-- Bytes allocated for `m` and for `v` by the constructor, scalarField.cpp:209-252, and whether
`v` is its own block (`true`) or the tail of the block of `m` (`false`). `none`: the constructor
exits (NAXION is missing in the switch). For PAXION the case falls through into FAXION; the blocks
kept in the end are the ones of the FAXION case, of the same sizes. -/
def allocBytes (t : FType) (v3 n2 Lz bytes : Nat) : Option (Nat × Nat × Bool) :=
  let mB := v3 * (bytes * t.nData)
  let vB := n2 * (Lz + 2) * (bytes * t.nData)
  match t with
  | .saxion | .sxRd => some (mB, vB, true)
  | .axionMod | .axModRd | .axion | .axRd | .wkb => some (mB, vB, false)
  | .paxion | .faxion => some (mB, mB, true)
  | .naxion => none

end Jaxions
