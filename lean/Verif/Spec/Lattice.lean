import Verif.Model.Cluster
/-
Specification for C10: the whole periodic lattice held in one place, no ghosts, no messages.
-/
namespace Jaxions.Cluster

/-- The whole lattice, slices `0 .. N-1`. -/
structure Lattice (P Q : Type) where
  m : Nat → P
  m2 : Nat → P
  v : Nat → Q

variable {P Q : Type}

namespace Lattice

/-- Source field of a substep, after the drift that may precede it. -/
def drifted (G : Lattice P Q) (op : Op P Q) (z : Nat) : P :=
  op.pre ((if op.toM2 then G.m else G.m2) z) (G.v z)

/-- New field and velocity of slice `z`: the law applied to the slices around `z`, periodically. -/
def kicked (Ng N : Nat) (G : Lattice P Q) (op : Op P Q) (z : Nat) : P × Q :=
  op.law (fun o => G.drifted op ((z + o + N - Ng) % N)) (G.v z)

/-- One substep of the whole lattice. -/
def step (Ng N : Nat) (G : Lattice P Q) (op : Op P Q) : Lattice P Q where
  m := if op.toM2 then G.drifted op else fun z => (kicked Ng N G op z).1
  m2 := if op.toM2 then fun z => (kicked Ng N G op z).1 else G.drifted op
  v := fun z => (kicked Ng N G op z).2

/-- A list of substeps. -/
def run (Ng N : Nat) (G : Lattice P Q) (prog : List (Op P Q)) : Lattice P Q :=
  prog.foldl (step Ng N) G

end Lattice

/-- The lattice held by the ranks together: slice `z` is slice `z % Lz` of rank `z / Lz`. -/
def gather (g : Grid) (w : World P Q) : Lattice P Q where
  m := fun z => (w.rank (z / g.Lz)).m (g.Ng + z % g.Lz)
  m2 := fun z => (w.rank (z / g.Lz)).m2 (g.Ng + z % g.Lz)
  v := fun z => (w.rank (z / g.Lz)).v (z % g.Lz)

/-- Two lattices agree on their `N` slices. -/
def Lattice.Same (N : Nat) (G H : Lattice P Q) : Prop :=
  ∀ z, z < N → G.m z = H.m z ∧ G.m2 z = H.m2 z ∧ G.v z = H.v z

/-- Start of a run: nothing under way, every rank before its first substep.  Field, velocity, `m2`
and the ghost slices are arbitrary. -/
def Initial (g : Grid) (w : World P Q) : Prop :=
  (∀ r, r < g.n → (w.rank r).pc = 0 ∧ (w.rank r).phase = .idle) ∧ ∀ r d, w.chan r d = []

/-- End of a run: every rank has completed all substeps. -/
def Finished (g : Grid) (prog : List (Op P Q)) (w : World P Q) : Prop :=
  ∀ r, r < g.n → (w.rank r).pc = prog.length ∧ (w.rank r).phase = .idle

/-- The law of every substep depends only on slices at distance at most `Ng`. -/
def Local (Ng : Nat) (prog : List (Op P Q)) : Prop :=
  ∀ op ∈ prog, ∀ f f' q, (∀ o, o ≤ 2 * Ng → f o = f' o) → op.law f q = op.law f' q

end Jaxions.Cluster
