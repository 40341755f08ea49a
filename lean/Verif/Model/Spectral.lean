import Verif.Model.Field
import Verif.Basic.Cells
import Mathlib.Data.Nat.Notation

/-
The spectral propagators of one rank.

Source: include/propagator/propClass.h, `tSpecCpu` 581-637 and `sSpecCpu` 800-856;
include/propagator/sPropXeon.h:131-134,196,265-266 and 355-358,417,493-494 (Saxion
kernel); include/propagator/sPropThetaXeon.h:79-100,156-178 (Axion kernel);
lib/propagator/laplacian.cpp:64-107.

Sizes are counted in sites (a site of a Saxion is a complex number).  The arithmetic
of a site (kick, drift, damping, potential) is the parameter `upd`, the spectral
Laplacian is the parameter `lap`, a function of the list of the values it is given.
A vector instruction is the list of its lanes; the lanes of a parallel loop run in any
order.  The padding of `m2` is left unchanged by the model of the transform.
-/

namespace Jaxions.Spectral

variable {K : Type}

/-- What a stage does to one site: value, velocity, Laplacian to new value and
velocity. -/
abbrev Upd (K : Type) := K → K → K → K × K

/-- The lanes of the loop `for (idx = Vo; idx < Vf; idx += step)`: start of the vector
and number of the lane. -/
def lanes (Vo Vf step : ℕ) : List (ℕ × ℕ) :=
  (List.range ((Vf - Vo + (step - 1)) / step)).flatMap fun j =>
    (List.range step).map fun l => (Vo + j * step, l)

/-- One lane: `idxMz = idx - Sf`, loads from `m[idx]`, `v[idxMz]`, `m2`, stores to `v`
and `m`. -/
def kLane (upd : Upd K) (Sf : ℕ) (m2ix : ℕ → ℕ) (h : Heap Loc K) (p : ℕ × ℕ) :
    Option (Heap Loc K) :=
  (h ⟨.m2, m2ix (p.1 - Sf) + p.2⟩).bind fun c =>
  (h ⟨.m, p.1 + p.2⟩).bind fun a =>
  (h ⟨.v, p.1 - Sf + p.2⟩).bind fun b =>
  (h.write ⟨.v, p.1 - Sf + p.2⟩ (upd a b c).2).bind fun h1 =>
    h1.write ⟨.m, p.1 + p.2⟩ (upd a b c).1

/-- The kernel, for the lanes in some order. -/
def kernel (upd : Upd K) (Sf : ℕ) (m2ix : ℕ → ℕ) (order : List (ℕ × ℕ)) (h : Heap Loc K) :
    Option (Heap Loc K) :=
  order.foldlM (kLane upd Sf m2ix) h

/-- `applyLaplacian`: laplacian.cpp:64-107, the values at `src` give the Laplacian at
`dst`. -/
def applyLap (lap : List K → ℕ → K) (src dst : ℕ → Loc) (V : ℕ) (h : Heap Loc K) :
    Option (Heap Loc K) :=
  mapCells lap src V dst V h

/-- Geometry of a rank. -/
structure Rank where
  Lx : ℕ
  Lz : ℕ
  Ng : ℕ
  step : ℕ

def Rank.S (r : Rank) : ℕ := r.Lx * r.Lx
def Rank.V (r : Rank) : ℕ := r.Lz * r.S

/-- Stage of `sSpecCpu`, 828-838: the Laplacian is taken from `mStart` (the plan "SpSx",
fftCode.cpp:110,236), the kernel runs over `[S, V+S)` whatever the ghost width. -/
def saxStage (r : Rank) (lap : List K → ℕ → K) (upd : Upd K) (order : List (ℕ × ℕ))
    (h : Heap Loc K) : Option (Heap Loc K) :=
  (applyLap lap (fun i => ⟨.m, r.Ng * r.S + i⟩) (fun i => ⟨.m2, i⟩) r.V h).bind
    (kernel upd r.S (fun i => i) order)

/-- Place of site `i` in the padded array: sPropThetaXeon.h:83. -/
def padIx (Lx i : ℕ) : ℕ := i % Lx + i / Lx * (Lx + 2)

/-- Stage of `tSpecCpu`, 609-622: rows copied from `mCpu + Surf` to the padded `m2`, the
Laplacian in place, the kernel over `[S, V+S)`. -/
def axStage (r : Rank) (lap : List K → ℕ → K) (upd : Upd K) (order : List (ℕ × ℕ))
    (h : Heap Loc K) : Option (Heap Loc K) :=
  (copyCells ((List.range (r.Lz * r.Lx)).flatMap fun sl => (List.range r.Lx).map fun x =>
      (⟨.m2, sl * (r.Lx + 2) + x⟩, ⟨.m, r.S + (sl * r.Lx + x)⟩)) h).bind fun h1 =>
  (applyLap lap (fun i => ⟨.m2, padIx r.Lx i⟩) (fun i => ⟨.m2, padIx r.Lx i⟩) r.V h1).bind
    (kernel upd r.S (padIx r.Lx) order)

/-- All stages of a step (each with the coefficients and time of its own `upd`, and its
own order of the lanes): 825-838, 841-855. -/
def runStages (stage : Upd K → List (ℕ × ℕ) → Heap Loc K → Option (Heap Loc K)) :
    List (Upd K × List (ℕ × ℕ)) → Heap Loc K → Option (Heap Loc K)
  | [], h => some h
  | s :: ss, h => (stage s.1 s.2 h).bind (runStages stage ss)

end Jaxions.Spectral
