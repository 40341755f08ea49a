import Verif.Model.MemAlloc
import Verif.Model.FieldType
/-
Blocks requested by the constructor and released by the destructor of `Scalar`, CPU build
(lib/scalar/scalarField.cpp:209-368 and 535-567).
-/
namespace Jaxions.Lifetime
open Jaxions Mem

/-- Names of the blocks. `m0`, `v0`, `str0` are the ones requested by the PAXION case before it
falls through into the FAXION case and overwrites the three pointers. -/
inductive Blk where
  | m | v | m2 | str | z | R | rho | vho | g | m0 | v0 | str0
deriving DecidableEq, Repr

/-- Sizes the constructor computes: bytes of `m`, of `v`, of the string data, alignment. -/
structure Sizes where
  mB : Nat
  vB : Nat
  n3 : Nat
  al : Nat

/-- scalarField.cpp:209-252: `m`, `v`, string data. `none`: NAXION is not in the switch, the
program exits. -/
def ctorFields (t : FType) (a : Blk → Nat) (s : Sizes) : Option (List Ev) :=
  match t with
    | .saxion | .sxRd => some
        [.alloc .align (a .m) s.mB, .alloc .align (a .v) s.vB, .alloc .track (a .str) s.n3]
    | .axionMod | .axModRd | .axion | .axRd | .wkb => some
        [.alloc .align (a .m) (s.mB + s.vB), .alloc .track (a .str) s.n3]
    | .paxion => some
        [.alloc .align (a .m0) s.mB, .alloc .align (a .v0) s.mB, .alloc .track (a .str0) s.n3,
         .alloc .align (a .m) s.mB, .alloc .align (a .v) s.mB, .alloc .align (a .rho) s.mB,
         .alloc .align (a .vho) s.mB, .alloc .align (a .g) (3 * s.mB), .alloc .track (a .str) s.n3]
    | .faxion => some
        [.alloc .align (a .m) s.mB, .alloc .align (a .v) s.mB, .alloc .align (a .rho) s.mB,
         .alloc .align (a .vho) s.mB, .alloc .align (a .g) (3 * s.mB), .alloc .track (a .str) s.n3]
    | .naxion => none

/-- scalarField.cpp:272-318: `m2` (`lowmem` off, not low memory GPU). -/
def ctorM2 (t : FType) (a : Blk → Nat) (s : Sizes) : List Ev :=
  match t with
    | .saxion => [.alloc .align (a .m2) s.mB]
    | .axionMod | .axion | .faxion | .paxion => [.alloc .align (a .m2) (2 * s.mB)]
    | _ => []

/-- The constructor: fields, `m2`, and 367-368 (`z`, `R`). -/
def ctor (t : FType) (a : Blk → Nat) (s : Sizes) : Option (List Ev) :=
  (ctorFields t a s).map fun f =>
    f ++ ctorM2 t a s ++ [.alloc .align (a .z) s.al, .alloc .align (a .R) s.al]

/-- The pointer `v` of a field constructed with type `t`: its own block, or `mB` bytes into the block
of `m` (scalarField.cpp:233). -/
def vPtr (t : FType) (a : Blk → Nat) (s : Sizes) : Nat :=
  match t with
  | .axionMod | .axModRd | .axion | .axRd | .wkb => a .m + s.mB
  | _ => a .v

/-- Destructor, scalarField.cpp:542-567: `created` decides which pointers are set, `t` is the field
type at the end of the life of the field. -/
def dtor (created t : FType) (a : Blk → Nat) (s : Sizes) : List Ev :=
  [.free (a .m)] ++
  (if t.saxionBit then [.free (vPtr created a s)] else []) ++
  (match created with
    | .saxion | .axionMod | .axion | .faxion | .paxion => [.free (a .m2)]
    | _ => []) ++
  [.free (a .str), .free (a .z), .free (a .R)]

end Jaxions.Lifetime
