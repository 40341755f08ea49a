import Verif.Basic.Heap
import Verif.Model.Index
import Mathlib.Algebra.Field.Defs
import Mathlib.Algebra.Module.Defs

/-!
# Smoothing

`iteraXeon` and `smoothXeon` (`lib/gen/smoothXeon.cpp`).  Exact arithmetic: values in a module over the
field of the constants (complex numbers over the reals in the code).
-/

namespace Jaxions
namespace Smooth

/-- `n` ranks with `Lx × Lx × Lz` sites and `Ng` ghost slices. -/
structure Grid where
  Lx : Nat
  Lz : Nat
  n : Nat
  Ng : Nat

/-- `field->Surf()`. -/
def Grid.S (g : Grid) : Nat := g.Lx * g.Lx

/-- `field->Size()`. -/
def Grid.V (g : Grid) : Nat := g.Lx * g.Lx * g.Lz

/-- `iPx`, `iMx` (`smoothXeon.cpp:25-38`).  `idx - Lx + 1` in `size_t`; it is not negative there. -/
def nbrX (Lx idx : Nat) : Nat × Nat :=
  if (idx2Vec idx Lx).1 = 0 then (idx + 1, idx + Lx - 1)
  else if (idx2Vec idx Lx).1 = Lx - 1 then (idx + 1 - Lx, idx - 1)
  else (idx + 1, idx - 1)

/-- `iPy`, `iMy` (`smoothXeon.cpp:40-53`). -/
def nbrY (Lx S idx : Nat) : Nat × Nat :=
  if (idx2Vec idx Lx).2.1 = 0 then (idx + Lx, idx + S - Lx)
  else if (idx2Vec idx Lx).2.1 = Lx - 1 then (idx + Lx - S, idx - Lx)
  else (idx + Lx, idx - Lx)

variable {K E : Type} [Field K] [AddCommGroup E] [Module K E]

/-- Value of a site (`smoothXeon.cpp:55-58`); `m` is addressed from `mStart()`. -/
def site (g : Grid) (alpha : K) (m : Heap Int E) (idx : Nat) : Option E := do
  let c ← m idx
  let px ← m (nbrX g.Lx idx).1
  let mx ← m (nbrX g.Lx idx).2
  let py ← m (nbrY g.Lx g.S idx).1
  let my ← m (nbrY g.Lx g.S idx).2
  let pz ← m (idx + g.S)
  let mz ← m (idx - g.S)
  some (alpha • c + ((1 / 6 : K) * (1 - alpha)) • (px + mx + py + my + pz + mz))

/-- `iteraXeon`: the sites in the order in which the threads happen to do them. -/
def itera (g : Grid) (alpha : K) (order : List Nat) (m : Heap Int E) (m2 : Heap Nat E) :
    Option (Heap Nat E) :=
  order.foldlM (fun m2 idx => do m2.write idx (← site g alpha m idx)) m2

/-- The `memcpy` of `smoothXeon` (`smoothXeon.cpp:74`), from `m2Cpu()` to `mStart()`. -/
def copyBack (g : Grid) (m2 : Heap Nat E) (m : Heap Int E) : Option (Heap Int E) :=
  loop g.V (fun idx m => do m.write idx (← m2 idx)) m

/-- `exchangeGhosts(FIELD_M)` on all ranks (C09). -/
def exchange (g : Grid) (w : Nat → Heap Int E) : Nat → Heap Int E := fun r i =>
  if -((g.Ng * g.S : Nat) : Int) ≤ i ∧ i < 0 then w ((r + g.n - 1) % g.n) (i + g.V)
  else if (g.V : Int) ≤ i ∧ i < g.V + (g.Ng * g.S : Nat) then w ((r + 1) % g.n) (i - g.V)
  else w r i

/-- `m` and `m2` of all ranks. -/
structure World (E : Type) where
  m : Nat → Heap Int E
  m2 : Nat → Heap Nat E

/-- One iteration (`smoothXeon.cpp:70-76`). -/
def iteration (g : Grid) (alpha : K) (order : Nat → List Nat) (w : World E) : Option (World E) := do
  let w ← loop g.n (fun r w => do
    let m2 ← itera g alpha (order r) (w.m r) (w.m2 r)
    let m ← copyBack g m2 (w.m r)
    some ⟨fun r' => if r' = r then m else w.m r', fun r' => if r' = r then m2 else w.m2 r'⟩) w
  some { w with m := exchange g w.m }

/-- `smoothXeon`. -/
def smoothXeon (g : Grid) (alpha : K) (iter : Nat) (order : Nat → Nat → List Nat) (w : World E) :
    Option (World E) :=
  loop iter (fun it w => iteration g alpha (order it) w) { w with m := exchange g w.m }

end Smooth
end Jaxions
