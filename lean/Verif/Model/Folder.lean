import Verif.Model.Field
/-
Model of /repo/lib/scalar/folder.cpp.

A parallel loop is the list of its element copies passed through an arbitrary reordering
`sched` (thread schedule).
-/
namespace Jaxions

variable {α : Type _}

/-- A thread schedule reorders the element copies of the parallel loop of slice `iz`. -/
abbrev Sched := Nat → List (Loc × Loc) → List (Loc × Loc)

/-- folder.cpp:43-52 (`foldField`, parallel loop body for slice `iz`):
`oIdx = (iy+sy*(n1/shift))*n1 + ix`, `dIdx = iz*n2 + iy*n1*shift + ix*shift + sy`,
`m[dIdx] = mg1[oIdx]; v[dIdx] = mg2[oIdx]`. -/
def foldOps (g : Geo) (iz : Nat) : List (Loc × Loc) :=
  (List.range (g.n1 / g.shift)).flatMap fun iy =>
    (List.range g.n1).flatMap fun ix =>
      (List.range g.shift).flatMap fun sy =>
        let oIdx := (iy + sy * (g.n1 / g.shift)) * g.n1 + ix
        let dIdx := iz * g.n2 + (iy * g.n1 * g.shift + ix * g.shift + sy)
        [(g.mStart dIdx, g.mFrontGhost oIdx), (g.vStart dIdx, g.mBackGhost oIdx)]

/-- folder.cpp:83-92 (`unfoldField`, loop body). -/
def unfoldOps (g : Geo) (iz : Nat) : List (Loc × Loc) :=
  (List.range (g.n1 / g.shift)).flatMap fun iy =>
    (List.range g.n1).flatMap fun ix =>
      (List.range g.shift).flatMap fun sy =>
        let oIdx := iy * g.n1 * g.shift + ix * g.shift + sy
        let dIdx := iz * g.n2 + ((iy + sy * (g.n1 / g.shift)) * g.n1 + ix)
        [(g.mStart dIdx, g.mFrontGhost oIdx), (g.vStart dIdx, g.mBackGhost oIdx)]

/-- One slice: two `memcpy` to the ghost slices (folder.cpp:39-40, 79-80), then the loop. -/
def moveSlice (g : Geo) (sched : Sched) (ops : Nat → List (Loc × Loc)) (iz : Nat)
    (h : Heap Loc α) : Option (Heap Loc α) := do
  let h ← memcpy g.mFrontGhost (fun i => g.mStart (g.n2 * iz + i)) g.n2 h
  let h ← memcpy g.mBackGhost (fun i => g.vStart (g.n2 * iz + i)) g.n2 h
  copyCells (sched iz (ops iz)) h

/-- folder.cpp:21-59 `Folder::foldField` on the CPU. -/
def foldField (g : Geo) (sched : Sched) (f : Fld α) : Option (Fld α) :=
  if f.folded then some f
  else do
    let h ← loop g.Lz (moveSlice g sched (foldOps g)) f.heap
    some { f with heap := h, folded := true }

/-- folder.cpp:61-99 `Folder::unfoldField` on the CPU. -/
def unfoldField (g : Geo) (sched : Sched) (f : Fld α) : Option (Fld α) :=
  if !f.folded then some f
  else do
    let h ← loop g.Lz (moveSlice g sched (unfoldOps g)) f.heap
    some { f with heap := h, folded := false }

/-- The two requests of the folder (folder.cpp:350, 407: FOLD_ALL, UNFOLD_ALL). -/
inductive FoldReq | fold | unfold
  deriving DecidableEq, Repr

/-- folder.cpp:335 `Folder::operator()`. -/
def folderCall (g : Geo) (sched : Sched) (f : Fld α) : FoldReq → Option (Fld α)
  | .fold => foldField g sched f
  | .unfold => unfoldField g sched f

/-- A history of folder calls, each with its own thread schedule. -/
def folderRun (g : Geo) : List (FoldReq × Sched) → Fld α → Option (Fld α)
  | [], f => some f
  | (r, s) :: rs, f => (folderCall g s f r).bind (folderRun g rs)

/-- folder.cpp:130-140 (`unfoldField2D`, folded case). -/
def unfold2DOps (g : Geo) (sZ : Nat) : List (Loc × Loc) :=
  (List.range (g.n1 / g.shift)).flatMap fun iy =>
    (List.range g.n1).flatMap fun ix =>
      (List.range g.shift).flatMap fun sy =>
        let oIdx := sZ * g.n2 + iy * g.n1 * g.shift + ix * g.shift + sy
        let dIdx := (iy + sy * (g.n1 / g.shift)) * g.n1 + ix
        [(g.mFrontGhost dIdx, g.mStart oIdx), (g.mBackGhost dIdx, g.vStart oIdx)]

/-- Outcome of a slice request: refused (the function returns at once) or done. -/
inductive SliceOut (α : Type _) where
  | refused
  | done (f : Fld α)

/-- folder.cpp:105-145 `unfoldField2D(sZ)`: guard `sZ > Depth()`, plain copy if not folded. -/
def unfoldField2D (g : Geo) (sched : Sched) (sZ : Nat) (f : Fld α) : Option (SliceOut α) :=
  if sZ > g.Lz then some .refused
  else if !f.folded then do
    let h ← memcpy g.mFrontGhost (fun i => g.mStart (g.n2 * sZ + i)) g.n2 f.heap
    let h ← memcpy g.mBackGhost (fun i => g.vStart (g.n2 * sZ + i)) g.n2 h
    some (.done { f with heap := h })
  else do
    let h ← copyCells (sched 0 (unfold2DOps g sZ)) f.heap
    some (.done { f with heap := h })

/-- folder.cpp:174-184 (`unfoldField2DYZ`, not folded): loops over `iy`, `iz`. -/
def sliceYZOpsPlain (g : Geo) (sX : Nat) : List (Loc × Loc) :=
  (List.range g.n1).flatMap fun iy =>
    (List.range g.Lz).flatMap fun iz =>
      let oIdx := iz * g.n2 + iy * g.n1 + sX
      let dIdx := iz * g.n1 + iy
      [(g.mFrontGhost dIdx, g.mStart oIdx), (g.mBackGhost dIdx, g.vStart oIdx)]

/-- folder.cpp:196-206 (`unfoldField2DYZ`, folded). -/
def sliceYZOpsFolded (g : Geo) (sX : Nat) : List (Loc × Loc) :=
  (List.range (g.n1 / g.shift)).flatMap fun iy =>
    (List.range g.shift).flatMap fun sy =>
      (List.range g.Lz).flatMap fun iz =>
        let oIdx := iz * g.n2 + iy * g.n1 * g.shift + sX * g.shift + sy
        let dIdx := iz * g.n1 + (iy + sy * (g.n1 / g.shift))
        [(g.mFrontGhost dIdx, g.mStart oIdx), (g.mBackGhost dIdx, g.vStart oIdx)]

/-- folder.cpp:152-212 `unfoldField2DYZ(sX)`: guard `sX > Length()`. -/
def unfoldField2DYZ (g : Geo) (sched : Sched) (sX : Nat) (f : Fld α) : Option (SliceOut α) :=
  if sX > g.n1 then some .refused
  else do
    let ops := if f.folded then sliceYZOpsFolded g sX else sliceYZOpsPlain g sX
    let h ← copyCells (sched 0 ops) f.heap
    some (.done { f with heap := h })

end Jaxions
