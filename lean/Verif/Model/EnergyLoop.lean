import Verif.Model.Stencil
import Verif.Model.Simd
import Mathlib.Algebra.Order.Field.Basic
/-
Loop shared by the CPU energy kernels, and the part of `energy` that joins the ranks.

Sources: /repo/lib/energy/energyThetaXeon.cpp:101-257 and /repo/lib/energy/energyXeon.cpp:136-742:
each vector of the physical slices is visited once, the terms of its lanes are added to the OpenMP
reduction variables and, for a map, stored at the unfolded number of the site.  The reduction adds
partial sums of the threads in an unspecified order; in exact arithmetic this is the sum in the
order of `order`, which is arbitrary.  /repo/lib/energy/energy.cpp:191-207 adds the ranks.
-/
namespace Jaxions.Energy

open Stencil

/-- First address, number of vectors: `for (idx = Vo; idx < Vf; idx += step)` with `Vo = Ng*Sf`,
`Vf = Vo + Size` (energyThetaXeon.cpp:102, 503-504). -/
def visits (s : Shape) (Lz : Nat) : List Nat :=
  (List.range ((Lz * s.Sf + s.step - 1) / s.step)).map fun k => s.NN * s.Sf + k * s.step

/-- `iNx = X[0]/step + (X[1]+ih*YC)*Lx + X[2]*Sf` with the coordinates of energyThetaXeon.cpp:106-113
(250; energyXeon.cpp:152-161 and 637). -/
def siteOf (s : Shape) (c : Nat × Nat) : Nat :=
  c.1 % s.XC / s.step + (c.1 / s.XC % s.YC + c.2 * s.YC) * s.Lx + (c.1 / s.XC / s.YC - s.NN) * s.Sf

variable {K : Type} [Field K]

/-- The numbers of one site in the order of the result array (enum-field.h:370-398). -/
abbrev Terms (K : Type) := Nat → K

/-- One lane: add its terms, write its map entries.  `f` gives both. -/
def step (f : Nat × Nat → Option (Terms K × List (Nat × K))) (st : Terms K × Heap Nat K)
    (c : Nat × Nat) : Option (Terms K × Heap Nat K) := do
  let t ← f c
  let m2 ← writeAll t.2 st.2
  return (fun q => st.1 q + t.1 q, m2)

/-- The whole loop. -/
def run (s : Shape) (f : Nat × Nat → Option (Terms K × List (Nat × K))) (order : List Nat)
    (m2 : Heap Nat K) : Option (Terms K × Heap Nat K) :=
  (lanes s order).foldlM (step f) (fun _ => 0, m2)

/-- energy.cpp:194-203: the sum over the ranks divided by the number of sites of the whole lattice
(first eleven entries). -/
def joined (ranks : List (Terms K)) (total : Nat) (q : Nat) : K :=
  (ranks.map (· q)).sum * (1 / (total : K))

end Jaxions.Energy
