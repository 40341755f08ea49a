/-
Model of the N-body snapshot of the "halo" kind (`createGadget_Halo`,
lib/gadget/gadget_output.cpp:801-1710): how many particles every rank and every point gets, how
the slabs of particles are filled, and how ranks with too many particles hand them to ranks with
too few.

Simplifications: the densities are real numbers; a random number generator is any value in the
support of its distribution; the displacement of a particle inside its cell (the function `place`
of the model of the other kind) is left out of a particle, which is named by its point; integers
other than the readjusted target do not wrap.
-/
import Verif.Model.GadgetVoid
import Mathlib.Algebra.Order.Archimedean.Real.Basic
import Mathlib.Algebra.Order.Floor.Ring
import Mathlib.Algebra.BigOperators.Group.Finset.Basic
import Mathlib.Data.Int.Notation
import Mathlib.Data.Nat.Notation

namespace Jaxions
namespace Halo
open Gadget (Grid Part begin_ advance)

/-! ### How many particles a rank is to hold -/

/-- gadget_output.cpp:1063-1064: `(size_t) round(x)` for `0 ≤ x`; halves go up. -/
noncomputable def roundTo (x : ℝ) : ℕ := ⌊x + 1 / 2⌋.toNat

/-- gadget_output.cpp:1063-1064: the particles of a rank, from the densities `c` of its points
(already divided by `neweMean`, so `eMean_local*rOff/neweMean` is their sum). -/
noncomputable def share (n3 : ℕ) (c : ℕ → ℝ) : ℕ := roundTo (∑ i ∈ Finset.range n3, c i)

/-- gadget_output.cpp:1070-1087: rank 0 takes up the difference, in 64 bit unsigned arithmetic,
in both branches with the same expression. -/
def target (nPrt : ℕ) (total : ℕ) (rank mine : ℕ) : ℕ :=
  if total > nPrt then
    if rank = 0 then (mine + (nPrt + 2 ^ 64 - total % 2 ^ 64)) % 2 ^ 64 else mine
  else
    if rank = 0 then (mine + (nPrt + 2 ^ 64 - total % 2 ^ 64)) % 2 ^ 64 else mine

/-! ### How many particles a point gets -/

/-- `std::binomial_distribution<int>(1, p)`: which values can be drawn; `p` outside of `[0, 1]`
breaks the precondition of the distribution. -/
def drawable (p : ℝ) (d : ℕ) : Prop := 0 ≤ p ∧ p ≤ 1 ∧ ((d = 0 ∧ p < 1) ∨ (d = 1 ∧ 0 < p))

/-- gadget_output.cpp:1236-1244: the first number of particles of a point of density `c`, with
draw `d`. -/
noncomputable def firstCount (c : ℝ) (d : ℕ) : ℤ := ⌊c⌋ + d

/-- gadget_output.cpp:1238-1240: the probability of the draw. -/
noncomputable def firstProb (c : ℝ) : ℝ := c - ⌊c⌋

/-- The numbers per point, and the running sum of a rank. -/
structure Bal where
  n : ℕ → ℤ
  tPart : ℤ

/-- gadget_output.cpp:1277-1290: which of the two branches is taken at a point. -/
inductive Act where
  | add
  | sub
  | keep

/-- gadget_output.cpp:1277 and 1284. -/
noncomputable def act (c : ℝ) (n tPart goal : ℤ) : Act :=
  if c > n ∧ tPart < goal then .add
  else if c < n ∧ tPart > goal then .sub
  else .keep

/-- gadget_output.cpp:1279 and 1286: the probability used by a branch. -/
noncomputable def actProb (c : ℝ) (n : ℤ) : Act → ℝ
  | .add => c - n
  | .sub => n - c
  | .keep => 0

/-- gadget_output.cpp:1281-1282 and 1288-1289: the change of the number at the point. -/
def actChange (d : ℕ) : Act → ℤ
  | .add => d
  | .sub => -d
  | .keep => 0

/-- gadget_output.cpp:1269-1292: one turn of the balancing loop at cell `i`, with draw `d`.  `c`
is `axData`, read as reals. -/
noncomputable def turnAt (c : ℕ → ℝ) (goal : ℤ) (i d : ℕ) (s : Bal) : Bal :=
  let ch := actChange d (act (c i) (s.n i) s.tPart goal)
  { n := fun j => if j = i then s.n j + ch else s.n j, tPart := s.tPart + ch }

/-- gadget_output.cpp:1263 `uniform_int_distribution(0, slab*Lz)`: both ends can be drawn. -/
def cellDrawn (n3 i : ℕ) : Prop := i ≤ n3

/-- One turn that the random numbers allow: gadget_output.cpp:1267-1292. -/
def Turn (c : ℕ → ℝ) (goal : ℤ) (allowed : ℕ → Prop) (s s' : Bal) : Prop :=
  s.tPart ≠ goal ∧ ∃ i d, allowed i ∧ drawable (actProb (c i) (s.n i) (act (c i) (s.n i) s.tPart goal)) d ∧
    s' = turnAt c goal i d s

/-- Any number of turns. -/
inductive Turns (c : ℕ → ℝ) (goal : ℤ) (allowed : ℕ → Prop) : Bal → Bal → Prop
  | nil (s) : Turns c goal allowed s s
  | cons {s t u} : Turn c goal allowed s t → Turns c goal allowed t u → Turns c goal allowed s u

/-- gadget_output.cpp:1228-1248: after the first bunch. -/
noncomputable def start (n3 : ℕ) (c : ℕ → ℝ) (d : ℕ → ℕ) : Bal :=
  { n := fun i => firstCount (c i) (d i)
    tPart := ∑ i ∈ Finset.range n3, firstCount (c i) (d i) }

/-! ### One slab of one rank -/

/-- gadget_output.cpp:1427-1452: `k` particles of the point `c` go to the buffer; when it is full
the rest is kept in `remain`. -/
def putSite (S : ℕ) (c : Part) : ℕ → ℕ → List Part → List Part × ℕ
  | 0, remain, buf => (buf, remain)
  | k + 1, remain, buf =>
    if (buf ++ [c]).length = S then (buf ++ [c], k)
    else putSite S c k remain (buf ++ [c])

/-- gadget_output.cpp:1422-1460: the points from `c` on, of which there are `steps`; the result
is `lPos`, `remain` and the buffer. -/
def fillFrom (g : Grid) (n : ℕ → ℕ) : ℕ → Part → ℕ → List Part → ℕ × ℕ × List Part
  | 0, c, remain, buf => (c.idx, remain, buf)
  | steps + 1, c, remain, buf =>
    if buf.length < g.S then
      let p := putSite g.S c (n c.idx) remain buf
      fillFrom g n steps (advance g c) p.2 p.1
    else (c.idx, remain, buf)

/-- gadget_output.cpp:1373-1460: first the particles left over from the last point of the slab
before, then the next points. -/
def slabFill (g : Grid) (rank : ℕ) (n : ℕ → ℕ) (lPos remain : ℕ) : ℕ × ℕ × List Part :=
  let buf := if remain ≠ 0 then List.replicate remain (begin_ g rank (lPos - 1)) else []
  fillFrom g n (g.n3 - lPos) (begin_ g rank lPos) 0 buf

/-! ### Particles handed from rank to rank -/

/-- What a rank has: the numbers `axTmp`, `lPos`, `remain`, `excess`, `missing`, the buffer of
the slab, and what it has written to the file. -/
structure Rk where
  n : ℕ → ℕ
  lPos : ℕ
  remain : ℕ
  excess : ℤ
  missing : ℤ
  buf : List Part
  out : List Part

/-- What the sender does: the numbers and position after, the number of particles sent, and the
message: `iPos`, `ePos` and the numbers per point. -/
structure Sent where
  n : ℕ → ℕ
  lPos : ℕ
  remain : ℕ
  sent : ℕ
  iPos : ℕ
  ePos : ℕ
  counts : List ℕ

/-- gadget_output.cpp:1568-1596: the loop over the points; `room` is `slab - i`. -/
def sendLoop (want : ℕ) : ℕ → (ℕ → ℕ) → ℕ → ℕ → List ℕ → (ℕ → ℕ) × ℕ × ℕ × ℕ × List ℕ
  | 0, n, l, s, acc => (n, l, s, l, acc)
  | room + 1, n, l, s, acc =>
    let k := min (n l) (want - s)
    let n' := fun j => if j = l then n l - k else n j
    if s + k < want then sendLoop want room n' (l + 1) (s + k) (acc ++ [k])
    else (n', l, s + k, l + 1, acc ++ [k])

/-- gadget_output.cpp:1540-1599: the sender, asked for `want` particles; `none`: it leaves the
loop by the `break` of line 1565 without sending anything, and the receiver waits for ever. -/
def send (S : ℕ) (n : ℕ → ℕ) (lPos remain want : ℕ) : Option Sent :=
  let k := if remain ≠ 0 then min remain want else 0
  let iPos := if remain ≠ 0 then lPos - 1 else lPos
  let acc := if remain ≠ 0 then [k] else []
  let i := if remain ≠ 0 then 1 else 0
  if k = want then none
  else
    let r := sendLoop want (S - i) n lPos k acc
    some { n := r.1, lPos := r.2.1, remain := remain - k, sent := r.2.2.1, iPos := iPos
           ePos := r.2.2.2.1, counts := r.2.2.2.2 }

/-- gadget_output.cpp:1502-1534: the receiver puts the particles of the message in its buffer. -/
def receive (g : Grid) : Part → List ℕ → List Part → List Part
  | _, [], buf => buf
  | c, k :: ks, buf => receive g (advance g c) ks (buf ++ List.replicate k c)

/-- gadget_output.cpp:1335-1338 and 1611-1614. -/
def argMax (f : ℕ → ℤ) : ℕ → ℕ
  | 0 => 0
  | 1 => 0
  | k + 2 => if f (k + 1) > f (argMax f (k + 1)) then k + 1 else argMax f (k + 1)

/-- gadget_output.cpp:1340-1343 and 1616-1619. -/
def argMin (f : ℕ → ℤ) : ℕ → ℕ
  | 0 => 0
  | 1 => 0
  | k + 2 => if f (k + 1) < f (argMin f (k + 1)) then k + 1 else argMin f (k + 1)

/-- gadget_output.cpp:1543-1547: how many particles are to be sent. -/
def wanted (missing excess : ℤ) : ℤ := if missing > excess then excess else missing

/-- gadget_output.cpp:1462, 1468 and 1627 `aMiss`; one rank alone does not come here. -/
def aMiss (g : Grid) (st : ℕ → Rk) : ℤ :=
  if g.ranks > 1 then ((List.range g.ranks).map fun r => (st r).missing).sum else 0

/-- gadget_output.cpp:1478-1602, the sender and the receiver of one turn; `none`: the ranks wait
for ever.  A rank that is to send to itself waits for its own answer. -/
def exchange (g : Grid) (st : ℕ → Rk) : Option (ℕ → Rk) :=
  let s := argMax (fun r => (st r).excess) g.ranks
  let d := argMin (fun r => (st r).excess) g.ranks
  if s = d then none
  else
    let a := st s
    let b := st d
    match send g.S a.n a.lPos a.remain (wanted b.missing a.excess).toNat with
    | none => none
    | some m =>
      let a' := { a with n := m.n, lPos := m.lPos, remain := m.remain, excess := a.excess - m.sent }
      let b' := { b with
        missing := b.missing - m.sent
        excess := b.excess + m.sent
        buf := receive g (begin_ g s m.iPos) (m.counts.take (m.ePos - m.iPos)) b.buf }
      some fun r => if r = s then a' else if r = d then b' else st r

/-- gadget_output.cpp:1473-1628: the loop of exchanges and what becomes of it. -/
inductive Exchanges (g : Grid) : (ℕ → Rk) → Option (ℕ → Rk) → Prop
  | done {st} : ¬ aMiss g st > 0 → Exchanges g st (some st)
  | stuck {st} : aMiss g st > 0 → exchange g st = none → Exchanges g st none
  | more {st st' o} : aMiss g st > 0 → exchange g st = some st' → Exchanges g st' o →
      Exchanges g st o

/-- gadget_output.cpp:1373-1463: every rank fills its slab. -/
def fillRank (g : Grid) (rank : ℕ) (k : Rk) : Rk :=
  let f := slabFill g rank k.n k.lPos k.remain
  { k with lPos := f.1, remain := f.2.1, buf := f.2.2, missing := g.S - f.2.2.length }

/-- gadget_output.cpp:1634-1638: the slab goes to the file. -/
def writeRank (g : Grid) (k : Rk) : Rk := { k with out := k.out ++ k.buf.take g.S }

/-- gadget_output.cpp:1359-1649: so many slabs; `none`: the ranks wait for ever. -/
inductive Slabs (g : Grid) : ℕ → (ℕ → Rk) → Option (ℕ → Rk) → Prop
  | zero (st) : Slabs g 0 st (some st)
  | stuck {N st} : Exchanges g (fun r => fillRank g r (st r)) none → Slabs g (N + 1) st none
  | succ {N st st' o} : Exchanges g (fun r => fillRank g r (st r)) (some st') →
      Slabs g N (fun r => writeRank g (st' r)) o → Slabs g (N + 1) st o

/-- gadget_output.cpp:1309-1326: the start; `tPart` is the sum of the numbers of the rank. -/
def begin0 (g : Grid) (nPrt : ℕ) (n : ℕ → ℕ → ℕ) : ℕ → Rk := fun r =>
  { n := n r, lPos := 0, remain := 0
    excess := (((List.range g.n3).map (n r)).sum : ℤ) - ((nPrt / g.ranks : ℕ) : ℤ)
    missing := 0, buf := [], out := [] }

/-- gadget_output.cpp:1349 `Nslabs`. -/
def nSlabs (g : Grid) (nPrt : ℕ) : ℕ := nPrt / g.S / g.ranks

/-! ### Where the numbers are

All in `m2`, counted in 4 byte cells from `m2Cpu`; the positions are at `Gadget.posCell`. -/

/-- gadget_output.cpp:1223: `axData[i]`. -/
def dataCell (i : ℕ) : ℕ := i

/-- gadget_output.cpp:1216: `axTmp[i]`. -/
def countCell (g : Grid) (i : ℕ) : ℕ := g.S * g.Lz + i

/-- gadget_output.cpp:1488 and 1549: `axTmp[gAddr + i]`. -/
def msgCell (g : Grid) (i : ℕ) : ℕ := countCell g (g.S * g.Lz + i)

end Halo
end Jaxions
