import Verif.Model.Index
import Verif.Model.Field
import Mathlib.Data.Nat.Notation
import Mathlib.Data.Int.Notation

/-
The axiton tracker of one rank, and the loop that prints the axitons of all ranks.

Source: include/axiton/trackerClass.h, class `Axiton` 28-51, `Tracker` 97-257, `ReadAxitons`
279-316, `SearchAxitons` 347-408 (Axion case), `AddAxiton` 721-741, `PrintAxitons` 756-847,
`foldidx` 908-915, `unfoldidx` 917-925.

The fields are read as arrays counted from `mStart` and `vStart`, of any type of numbers.
The parallel loop of the search is an arbitrary order of the sites (the insertion is in a
critical section).  The iterations of the loop of `ReadAxitons` touch separate objects and
are done in the order of the list.  `ReadAxitons` has no return statement although it
returns `int`; it is taken to return normally.
-/

namespace Jaxions.Tracker

/-- `foldidx`, 908-915; also 382-386 in the search. -/
def foldidx (g : Geo) (idx : ℕ) : ℕ :=
  let X := idx2Vec idx g.n1
  let sy := X.2.1 / (g.n1 / g.shift)
  let iiy := X.2.1 - sy * g.n1 / g.shift
  X.2.2 * g.n2 + g.shift * (iiy * g.n1 + X.1) + sy

/-- `unfoldidx`, 917-925. -/
def unfoldidx (g : Geo) (fidx : ℕ) : ℕ :=
  let sy := fidx % g.shift
  let iz := fidx / g.n2
  let tem := (fidx - iz * g.n2 - sy) / g.shift
  let iiy := tem / g.n1
  let ix := tem % g.n1
  iz * g.n2 + (iiy + sy * g.n1 / g.shift) * g.n1 + ix

/-- The coordinates printed, 813-822. -/
def printed (g : Geo) (rank idx : ℕ) : ℕ × ℕ × ℕ :=
  let x2 := idx / g.n2
  let xy := idx - x2 * g.n2
  let iiy := xy / (g.n1 * g.shift)
  let xy := xy - iiy * (g.n1 * g.shift)
  let x0 := xy / g.shift
  let sy := xy - x0 * g.shift
  (x0, iiy + sy * (g.n1 / g.shift), x2 + rank * g.Lz)

/-- `Axiton`, 29-51. -/
structure Axiton (K : Type) where
  idx : ℕ
  i0 : ℕ
  m : List K
  v : List K
  deriving DecidableEq

/-- The lists of the tracker, 131-140; `limit` is an `int`. -/
structure St (K : Type) where
  axilist : List (Axiton K)
  idxlist : List ℕ
  ct : List K
  limit : ℤ
  index : ℕ
  deriving DecidableEq

/-- 189-199: `nMax` of the command line, -2 stands for 100, is divided among the ranks. -/
def init (K : Type) (nMax : ℤ) (P : ℕ) : St K :=
  ⟨[], [], [], (if nMax = -2 then 100 else nMax).tdiv P, 0⟩

/-- `idxlist.size() >= limit` compares as `size_t`. -/
def full {K : Type} (t : St K) : Bool := decide ((t.limit % 2 ^ 64).toNat ≤ t.idxlist.length)

/-- `AddAxiton`, 721-741. -/
def addAxiton {K : Type} (t : St K) (id : ℕ) : St K × Bool :=
  if full t then (t, false)
  else if id ∈ t.idxlist then (t, false)
  else ({ t with axilist := t.axilist ++ [⟨id, t.index, [], []⟩], idxlist := t.idxlist ++ [id] },
    true)

/-- What the search looks for, 358-374: thresholds already multiplied. -/
structure Crit (K : Type) where
  big : K → Bool
  fast : K → Bool
  addifm : Bool
  addifv : Bool

def Crit.hit {K : Type} (c : Crit K) (a b : K) : Bool :=
  (c.big a && c.addifm) || (c.fast b && c.addifv)

/-- The arrays of field and velocity from `mStart` and `vStart`. -/
structure Arr (K : Type) where
  m : ℕ → Option K
  v : ℕ → Option K
  folded : Bool

/-- One site of the search. -/
def searchSite {K : Type} (g : Geo) (c : Crit K) (f : Arr K) (t : St K) (i : ℕ) : Option (St K) :=
  (f.m i).bind fun a => (f.v i).bind fun b =>
    some (if c.hit a b then (addAxiton t (if f.folded then i else foldidx g i)).1 else t)

/-- `SearchAxitons`, 322-408: nothing is done before the threshold time. -/
def search {K : Type} (g : Geo) (c : Crit K) (late : Bool) (f : Arr K) (order : List ℕ)
    (t : St K) : Option (St K) :=
  if late then order.foldlM (searchSite g c f) t else some t

/-- Where a series is read, 289-311. -/
def readIx {K : Type} (g : Geo) (f : Arr K) (idx : ℕ) : ℕ :=
  if f.folded then idx else foldidx g idx

/-- `AddPoint`, 43. -/
def addPoint {K : Type} (g : Geo) (f : Arr K) (a : Axiton K) : Option (Axiton K) :=
  (f.m (readIx g f a.idx)).bind fun x => (f.v (readIx g f a.idx)).bind fun y =>
    some { a with m := a.m ++ [x], v := a.v ++ [y] }

/-- `ReadAxitons`, 279-316. -/
def read {K : Type} (g : Geo) (f : Arr K) (z : K) (t : St K) : Option (St K) :=
  (t.axilist.mapM (addPoint g f)).bind fun l =>
    some { t with axilist := l, ct := t.ct ++ [z], index := t.index + 1 }

/-- What happens to the tracker in a run. -/
inductive Ev (K : Type) where
  | search (c : Crit K) (late : Bool) (f : Arr K) (order : List ℕ)
  | read (f : Arr K) (z : K)

def step {K : Type} (g : Geo) (t : St K) : Ev K → Option (St K)
  | .search c late f order => search g c late f order t
  | .read f z => read g f z t

def run {K : Type} (g : Geo) (t : St K) (es : List (Ev K)) : Option (St K) := es.foldlM (step g) t

/-- One turn of the printing loop, 789-839: `writtingrank`, `locax` and what was written.
Undefined if the rank has no such axiton. -/
def printStep (nAx : List ℕ) (s : (ℕ × ℕ) × List (ℕ × ℕ)) : Option ((ℕ × ℕ) × List (ℕ × ℕ)) :=
  (nAx[s.1.1]?).bind fun n =>
    let w := if n ≤ s.1.2 then (s.1.1 + 1, 0) else s.1
    (nAx[w.1]?).bind fun n' =>
      if w.2 < n' then some ((w.1, w.2 + 1), s.2 ++ [w]) else none

def printSteps (nAx : List ℕ) : ℕ → (ℕ × ℕ) × List (ℕ × ℕ) → Option ((ℕ × ℕ) × List (ℕ × ℕ))
  | 0, s => some s
  | k + 1, s => (printStep nAx s).bind (printSteps nAx k)

/-- The loop over all axitons of all ranks, 774-839: the pairs rank, number written. -/
def printAll (nAx : List ℕ) : Option (List (ℕ × ℕ)) :=
  (printSteps nAx nAx.sum ((0, 0), [])).map Prod.snd

end Jaxions.Tracker
