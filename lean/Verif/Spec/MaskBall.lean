import Verif.Model.MaskBall

/-!
# What masking has to do

Sites of the whole lattice are `(r, x, y, z)`: rank, and position in the rank.
-/

namespace Jaxions
namespace MaskBall

/-- The lattices covered: the ball is not wider than the slab nor than the lattice. -/
structure Fits (c : Cfg) : Prop where
  radius : 0 ≤ c.radius
  thick : 1 < c.Lz
  slab : c.rz ≤ c.Lz
  wide : c.rz ≤ c.Ly
  size : c.Ly < 2 ^ 62

/-- Storage position of a site in its rank. -/
def pos (c : Cfg) (x y z : Nat) : Nat := c.Ly * c.Ly * z + c.Ly * y + x

/-- Two sites of the periodic lattice are within the radius. -/
def Near (c : Cfg) (r x y z r' x' y' z' : Nat) : Prop :=
  ∃ dx dy dz : Int, ((dx * dx + dy * dy + dz * dz : Int) : ℚ) ≤ c.radius * c.radius ∧
    ((x' : Int) + dx) % c.Ly = x ∧ ((y' : Int) + dy) % c.Ly = y ∧
    ((r' * c.Lz + z' : Nat) + dz) % ((c.ranks * c.Lz : Nat) : Int) = (r * c.Lz + z : Nat)

/-- Some defect is within the radius. -/
def InBall (c : Cfg) (defect : Nat → Nat → Bool) (r x y z : Nat) : Prop :=
  ∃ r' x' y' z', r' < c.ranks ∧ x' < c.Ly ∧ y' < c.Ly ∧ z' < c.Lz ∧
    defect r' (pos c x' y' z') = true ∧ Near c r x y z r' x' y' z'

/-- Every iteration is done by exactly one of the threads. -/
def Shares (l : List Nat) (threads : Nat) (dist : Nat → List Nat) : Prop :=
  (∀ t, threads ≤ t → dist t = []) ∧ ((List.range threads).flatMap dist).Perm l

/-- The loop ran to its end in some order of the threads. -/
def Ran (c : Cfg) (m : Nat → Bool) (gh : Bool → Nat → Int) (dist : Nat → List Nat)
    (acts : Nat → List Act) (m' : Nat → Bool) (gh' : Bool → Nat → Int) : Prop :=
  ∃ sched s, run c sched (start m gh dist acts) = some s ∧ (∀ t, s.todo t = []) ∧
    s.mask = m' ∧ s.gh = gh'

/-- An execution of `maskball` on all ranks: marks before and after, with `threads` threads. -/
structure Exec (c : Cfg) (defect : Nat → Nat → Bool) (threads : Nat) (m m' : Nat → Nat → Bool) where
  dist : Nat → Nat → List Nat
  distB : Nat → Nat → List Nat
  m1 : Nat → Nat → Bool
  m2 : Nat → Nat → Bool
  gh : Nat → Bool → Nat → Int
  gh2 : Nat → Bool → Nat → Int
  shares : ∀ r < c.ranks, Shares (boundary c) threads (dist r)
  sharesB : ∀ r < c.ranks, Shares (bulk c) threads (distB r)
  /-- boundary loop, from cleared ghosts (`spectrum.cpp:566-571`) -/
  first : ∀ r < c.ranks, Ran c (m r) (fun _ _ => 0) (dist r) (sliceActs c (defect r)) (m1 r) (gh r)
  /-- bulk loop -/
  second : ∀ r < c.ranks, Ran c (m1 r) (gh r) (distB r) (bulkActs c (defect r)) (m2 r) (gh2 r)
  /-- exchange and marking of what was received -/
  third : ∀ r < c.ranks, receive c (gh ((r + c.ranks - 1) % c.ranks) true)
    (gh ((r + 1) % c.ranks) false) (m2 r) = some (m' r)

end MaskBall
end Jaxions
