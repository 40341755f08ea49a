import Verif.Model.Folder
import Mathlib.Data.Nat.Notation

/-
Saving a configuration: what happens to the field in memory and to the files.

Source: lib/io/readWrite.pHdf5.cpp, `writeConf` 222-745: unfolding 239-250, return to
position space 252-257, file name 269-274, creation 277-281, slab loop 689-716, close
719-731, the commented out fold back 738-744; lib/scalar/fourier.cpp:119-200
(`iftField`); lib/propagator/propagator.cpp:354-358 (fold before a base propagator).

Simplifications.  The backward transforms are parameters (one for `m`, one for `v`).
The file is a list of elements (attributes and data sets alike) put one by one between
the creation, which empties the file, and the close.  GPU transfers are left out.
-/

namespace Jaxions.Save

/-- Field in memory with the two momentum space flags (scalarField.cpp:128-129). -/
structure Mem (α : Type _) where
  fld : Fld α
  mMom : Bool
  vMom : Bool

/-- fourier.cpp:119-147,195-200: `iftField(FIELD_MV)` of a Saxion.  Each part returns at once when its flag is
not set, the first return skips the second part too. -/
def iftMV {α : Type} (bm bv : Heap Loc α → Option (Heap Loc α)) (s : Mem α) : Option (Mem α) :=
  if s.mMom = false then some s
  else (bm s.fld.heap).bind fun h1 =>
    let s1 : Mem α := { s with fld := { s.fld with heap := h1 }, mMom := false }
    if s1.vMom = false then some s1
    else (bv h1).bind fun h2 =>
      some { s1 with fld := { s1.fld with heap := h2, folded := false }, vMom := false }

/-- The part of `writeConf` that touches the field: 239-257.  Nothing is undone at the
end (738-744 is commented out). -/
def saveMem {α : Type} (g : Geo) (sched : Sched) (bm bv : Heap Loc α → Option (Heap Loc α))
    (s : Mem α) : Option (Mem α) :=
  (unfoldField g sched s.fld).bind fun f =>
    let s1 : Mem α := { s with fld := f }
    if s1.mMom || s1.vMom then iftMV bm bv s1 else some s1

/-- propagator.cpp:354-358: what `propagate` does first; `base` says whether the
propagator is one of the base family. -/
def beforeStep {α : Type} (g : Geo) (sched : Sched) (base : Bool) (f : Fld α) :
    Option (Fld α) :=
  if base && !f.folded then foldField g sched f else some f

/-- File names: `outName.restart` or `outName.%05d` (269-274). -/
inductive Path where
  | restart
  | conf (index : ℕ)
  deriving DecidableEq, Repr

/-- 271-274. -/
def pathOf (restart : Bool) (index : ℕ) : Path := if restart then .restart else .conf index

/-- A file: the elements put so far, and whether it was closed. -/
structure File (β : Type) where
  data : ℕ → Option β
  closed : Bool

abbrev Disk (β : Type) := Path → Option (File β)

/-- Effects on one file. -/
inductive Ev (β : Type) where
  /-- `H5Fcreate` with `H5F_ACC_TRUNC`, 277 -/
  | create
  /-- an attribute or an element of a slab -/
  | put (i : ℕ) (b : β)
  /-- `H5Fclose`, 731 -/
  | close

/-- One effect on the disk. -/
def evStep {β : Type} (p : Path) (d : Disk β) : Ev β → Disk β
  | .create => fun q => if q = p then some ⟨fun _ => none, false⟩ else d q
  | .put i b => fun q =>
      if q = p then (d p).map fun f => ⟨fun j => if j = i then some b else f.data j, f.closed⟩
      else d q
  | .close => fun q => if q = p then (d p).map fun f => ⟨f.data, true⟩ else d q

/-- One call of `writeConf`: its arguments, whether the creation works, and the elements
in the order in which they reach the file. -/
structure Call (β : Type) where
  restart : Bool
  index : ℕ
  created : Bool
  items : List (ℕ × β)

def Call.path {β : Type} (c : Call β) : Path := pathOf c.restart c.index

/-- The effects of a call, in order: 277-731.  If the creation fails the function
returns (279-280). -/
def Call.events {β : Type} (c : Call β) : List (Ev β) :=
  if c.created then .create :: c.items.map (fun x => .put x.1 x.2) ++ [.close] else []

/-- The disk after the first `k` effects of a call: a crash at that point leaves this. -/
def crash {β : Type} (c : Call β) (k : ℕ) (d : Disk β) : Disk β :=
  (c.events.take k).foldl (evStep c.path) d

/-- The disk after a call. -/
def finish {β : Type} (d : Disk β) (c : Call β) : Disk β := crash c c.events.length d

end Jaxions.Save
