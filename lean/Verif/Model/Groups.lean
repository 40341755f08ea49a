import Verif.Model.Tracker

/-
The groups of dense points of a rank in Paxion mode: the search of the points and the grouping
of neighbours.

Source: include/axiton/trackerClass.h, class `Group` 57-93, `SearchAxitons` 409-469 (Paxion
case), `GroupTags` 504-698, `AddGroup` 746-753; include/utils/index.h 29-65.

The tags of `sData` and the labels `m2h` are arrays counted from their start; only the bits
`STRING_XY_POSITIVE` (member of a group) and `STRING_WALL` (neighbours already looked at) are
read, so `STRING_MASK` is left out.  Labels are counts, exact integers here.  The loop of the
search may run on any number of threads; the loop over the candidates of `GroupTags` changes
shared data without protection and is taken in the order of the list, as one thread does it.
The `while` loop has a count of turns; the theorems show that it ends before the count does.
Reading a site outside the slab is the outcome `none`.  The exchange of the last slices and the
file written at the end (647-694) change neither the list of groups nor the labels of the slab
and are left out, and so is the energy kernel that fills `m2` (C65).
-/

namespace Jaxions.Groups

/-- The arrays `sData` and `m2h`. -/
structure Mem where
  xy : ℕ → Bool
  wall : ℕ → Bool
  m2h : ℕ → ℕ

/-- `Group`, 57-93. -/
structure Group where
  gid : ℕ
  pts : List ℕ
  deriving DecidableEq

/-- What the tracker keeps, 129-134, and the two arrays. -/
structure St where
  mem : Mem
  cidx : List ℕ
  halo : List Group

/-- A new tracker, 170-240; the arrays hold anything. -/
def start (mem : Mem) : St := ⟨mem, [], []⟩

/-- One assignment to an array. -/
def set {A : Type} (f : ℕ → A) (k : ℕ) (a : A) : ℕ → A := fun i => if i = k then a else f i

/-- The iterations of one thread of the search, 441-466: `a` is its own copy of `accepted`. -/
def accept (hit : ℕ → Bool) : List ℕ → ℕ → (ℕ → ℕ) → (ℕ → ℕ)
  | [], _, h => h
  | i :: l, a, h => if hit i then accept hit l (a + 1) (set h i a) else accept hit l a h

/-- `SearchAxitons`, 409-469: `hit i` tells `|m2[i]| > m2lim`, `threads` are the iterations of
each thread, `order` is the order of the iterations as seen by the critical section.  The
private copies of the variables of `reduction(+:...)` begin at 0 (440). -/
def search (g : Geo) (folded : Bool) (hit : ℕ → Bool) (threads : List (List ℕ)) (order : List ℕ)
    (t : St) : St :=
  { t with
    mem := ⟨fun _ => false, fun _ => false,
      threads.foldl (fun h l => accept hit l 0 h) fun _ => 0⟩
    cidx := t.cidx ++ (order.filter hit).map fun i => if folded then Tracker.unfoldidx g i else i }

/-- Where a site is stored, 538-539, 577, 615, 628. -/
def pos (g : Geo) (folded : Bool) (i : ℕ) : ℕ := if folded then Tracker.foldidx g i else i

/-- The neighbours looked at, 593-607. -/
def nebo (g : Geo) (i : ℕ) : List ℤ :=
  let O := idx2VecNeighO i g.n1
  [O.px, O.mx, O.py, O.my] ++ (if i < g.n3 - g.n2 then [(i : ℤ) + g.n2] else []) ++
    (if g.n2 < i then [(i : ℤ) - g.n2] else [])

/-- The group being built, with `npointsincrease`. -/
structure Run where
  mem : Mem
  pts : List ℕ
  inc : ℕ

/-- One neighbour, 610-626; `AddPoint` is 81-91. -/
def join (g : Geo) (folded : Bool) (gid : ℕ) (r : Run) (n : ℕ) : Run :=
  let k := pos g folded n
  if r.mem.xy k then r
  else if 0 < r.mem.m2h k then
    { mem := { r.mem with xy := set r.mem.xy k true, m2h := set r.mem.m2h k gid }
      pts := if n ∈ r.pts then r.pts else r.pts ++ [n]
      inc := if n ∈ r.pts then r.inc else r.inc + 1 }
  else r

/-- One point of the copied list, 589-630. -/
def visit (g : Geo) (folded : Bool) (gid : ℕ) (r : Run) (i : ℕ) : Option Run :=
  if (nebo g i).all fun n => decide (0 ≤ n) && decide (n < g.n3) then
    let r := ((nebo g i).map Int.toNat).foldl (join g folded gid) r
    some { r with mem := { r.mem with wall := set r.mem.wall (pos g folded i) true } }
  else none

/-- The copy of the points whose neighbours were not looked at, 571-586: the list and the
tags. -/
def copied (g : Geo) (folded : Bool) (r : Run) : List ℕ :=
  r.pts.filter fun i => !r.mem.wall (pos g folded i)

def tagged (g : Geo) (folded : Bool) (r : Run) : Mem :=
  { r.mem with xy := (copied g folded r).foldl (fun f i => set f (pos g folded i) true) r.mem.xy }

/-- One turn of the `while` loop, 565-633. -/
def turn (g : Geo) (folded : Bool) (gid : ℕ) (r : Run) : Option Run :=
  (copied g folded r).foldlM (visit g folded gid) ⟨tagged g folded r, r.pts, 0⟩

/-- The `while` loop, at most `k` turns. -/
def loop (g : Geo) (folded : Bool) (gid : ℕ) : ℕ → Run → Option Run
  | 0, _ => none
  | k + 1, r => if r.inc = 0 then some r else (turn g folded gid r).bind (loop g folded gid k)

/-- The loop over the candidates: arrays, list of groups, `groupId`. -/
structure Grp where
  mem : Mem
  halo : List Group
  gid : ℕ

/-- One candidate, 533-645.  The tag read first is that of `idx`, not of `midx` (547). -/
def seed (g : Geo) (folded : Bool) (s : Grp) (i : ℕ) : Option Grp :=
  if i < g.n3 then
    if s.mem.wall i then some s
    else (loop g folded s.gid (g.n3 + 2) ⟨s.mem, [i], 1⟩).bind fun r =>
      some ⟨r.mem, s.halo ++ [⟨s.gid, r.pts⟩], s.gid + 1⟩
  else none

/-- `GroupTags`, 504-698: the tracker after it and the value returned. -/
def groupTags (g : Geo) (folded : Bool) (t : St) : Option (St × ℕ) :=
  (t.cidx.foldlM (seed g folded) ⟨t.mem, t.halo, 1⟩).map fun s =>
    ({ t with mem := s.mem, halo := s.halo }, s.gid)

end Jaxions.Groups
