import Verif.Model.Tiles
/-
Model of the kernel calls of one substep of the CPU propagators.

Source: /repo/include/propagator/propClass.h:
 `tRunCpu` 537-541, 550-554, 570-574 and `sRunCpu` 686-690, 702-706, 723-727 (guarded last call),
 `lowCpu` 766-769, 786-789, `nRunCpu` and `pRunCpu` (unguarded last call).
-/
namespace Jaxions

/-- One kernel call on the index range `[Vo, Vf)` (propXeon.h:57 `if (Vo>Vf) return`,
143-144 `z0 = Vo/(Lx*Lx)`, `zF = Vf/(Lx*Lx)`). -/
def kernelVisits (Lx step bSizeY bSizeZ Vo Vf : Nat) : List Nat :=
  if Vo > Vf then []
  else Tile.visits ⟨Lx * step, Lx / step, step, Vo / (Lx * Lx), Vf / (Lx * Lx), bSizeY, bSizeZ⟩

/-- Call made while the ghost messages are in flight: `kernel(2*BO, V)`. -/
def bulkCall (BO V : Nat) : Nat × Nat := (2 * BO, V)

/-- Calls made after the wait: `kernel(BO, 2*BO); if (V>BO) kernel(V, V+BO)`; in `lowCpu`,
`nRunCpu`, `pRunCpu` the last one has no condition (`guarded = false`). -/
def boundaryCalls (guarded : Bool) (BO V : Nat) : List (Nat × Nat) :=
  (BO, 2 * BO) :: (if !guarded || V > BO then [(V, V + BO)] else [])

/-- All vector sites updated in one substep on a field with `Lz` slices and `Ng` ghost slices;
`BO = Ng*S` (propClass.h:515), `V = Size()`, `S = Surf()`. -/
def substepVisits (guarded : Bool) (Lx step bSizeY bSizeZ Lz Ng : Nat) : List Nat :=
  let S := Lx * Lx
  let BO := Ng * S
  let V := Lz * S
  (bulkCall BO V :: boundaryCalls guarded BO V).flatMap fun c =>
    kernelVisits Lx step bSizeY bSizeZ c.1 c.2

end Jaxions
