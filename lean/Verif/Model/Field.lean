import Verif.Basic.Heap
/-
Memory layout of a `Scalar` object on one rank.

Source: /repo/include/scalar/scalarField.h:91-109 (pointer accessors),
        /repo/lib/scalar/scalarField.cpp:44-54 (sizes), 209-252 (allocations).

Simplifications: elements (`cFloat`) instead of bytes; `m`, `v`, `m2` are three separate
allocations (in the AXION case the code places `v` directly behind `m` in one allocation, so an
overrun of `m` that the model reports as undefined would silently hit `v` there).
-/
namespace Jaxions

/-- The three arrays of a field. -/
inductive Reg | m | v | m2
  deriving DecidableEq, Repr

/-- An element address. -/
structure Loc where
  reg : Reg
  idx : Nat
  deriving DecidableEq, Repr

/-- Sizes of a field.  `n1` = length in x and y, `Lz` = local depth, `Ng` = ghost slices,
`shift` = SIMD lanes (`DataAlign()/DataSize()`), `pax` = field type is PAXION
(scalarField.cpp:44-54, 195; scalarField.h:99). -/
structure Geo where
  n1 : Nat
  Lz : Nat
  Ng : Nat
  shift : Nat
  pax : Bool := false
  deriving Repr

namespace Geo
variable (g : Geo)

/-- scalarField.cpp:48 `n2 = nLx*nLx`. -/
def n2 : Nat := g.n1 * g.n1
/-- scalarField.cpp:49 `n3 = nLx*nLx*nLz`. -/
def n3 : Nat := g.Lz * g.n2
/-- scalarField.cpp:54 `v3 = nLx*nLx*(nLz + 2*Ngg)`. -/
def v3 : Nat := (g.Lz + 2 * g.Ng) * g.n2

/-- Allocated elements: `mBytes = v3*fSize`; `vBytes = n2*(nLz+2)*fSize` except for PAXION where
`v` also gets `mBytes` (scalarField.cpp:209-210, 218-219, 232, 239-240, 282). -/
def size : Reg → Nat
  | .m => g.v3
  | .v => if g.pax then g.v3 else (g.Lz + 2) * g.n2
  | .m2 => g.v3

/-- scalarField.h:91. -/
def mStart (i : Nat) : Loc := ⟨.m, g.Ng * g.n2 + i⟩
/-- scalarField.h:92. -/
def mFrontGhost (_g : Geo) (i : Nat) : Loc := ⟨.m, i⟩
/-- scalarField.h:93. -/
def mBackGhost (i : Nat) : Loc := ⟨.m, g.Ng * g.n2 + g.n3 + i⟩
/-- scalarField.h:99. -/
def vStart (i : Nat) : Loc := ⟨.v, (if g.pax then g.Ng * g.n2 else 0) + i⟩
/-- scalarField.h:106. -/
def m2Start (i : Nat) : Loc := ⟨.m2, g.Ng * g.n2 + i⟩
/-- scalarField.h:107. -/
def m2FrontGhost (_g : Geo) (i : Nat) : Loc := ⟨.m2, i⟩

end Geo

/-- The heap holds exactly the three arrays of geometry `g`. -/
def Alloc {α : Type _} (g : Geo) (h : Heap Loc α) : Prop :=
  ∀ a : Loc, (h a).isSome ↔ a.idx < g.size a.reg

/-- A field in memory: contents and the two layout flags (`folded`, `M2folded`,
scalarField.cpp:125-126). -/
structure Fld (α : Type _) where
  heap : Heap Loc α
  folded : Bool
  m2folded : Bool := false

end Jaxions
