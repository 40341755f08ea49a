import Mathlib.Data.Nat.Notation
import Mathlib.Data.Rat.Defs

/-
Reading the list of measurements, `measfile.dat`.

Source: test/vaxions.cpp:834-989 (`mysplit`, `readheader`, `readmeasline2`,
`readmeasfile`).

A line is the list of its words (`mysplit`, 834-840).  The conversions `std::stof` and
`std::stoi` are parameters: they give `none` where the C++ functions throw, and the
rounding of `stof` to single precision is inside them.  The five parallel vectors of
`MeasFileParms` always have the same length and are one list of records here.  The
outcome `none` of the functions below stands for an exception, an access outside a
vector or the use of a variable that was never set.
-/

namespace Jaxions.MeasList

/-- The conversions of words. -/
structure Num where
  stof : String → Option ℚ
  stoi : String → Option (BitVec 32)

/-- The names known to `readheader`, 855-864, with their numbers. -/
def code (w : String) : Option ℕ :=
  if w = "ct" then some 0
  else if w = "meas" then some 1
  else if w = "map" then some 2
  else if w = "mask" then some 3
  else if w = "kgv" then some 4
  else none

/-- One word of `readheader`, 853-865: word number `k` sets `perm[k]`; words that are not
known leave `perm[k]` as it was and are not counted. -/
def headerWord (p : List ℕ × ℕ) (wk : String × ℕ) : Option (List ℕ × ℕ) :=
  match code wk.1 with
  | none => some p
  | some c => if wk.2 < p.1.length then some (p.1.set wk.2 c, p.2 + 1) else none

/-- `readheader`, 842-868. -/
def readheader (words : List String) (perm : List ℕ) : Option (List ℕ × ℕ) :=
  words.zipIdx.foldlM headerWord (perm, 0)

/-- One turn of the loop of `readmeasline2`, 882-888. -/
def lineWord (num : Num) (words : List String) (perm : List ℕ)
    (p : Option ℚ × List (BitVec 32)) (k : ℕ) : Option (Option ℚ × List (BitVec 32)) :=
  match perm[k]?, words[k]? with
  | some 0, some w => (num.stof w).map fun t => (some t, p.2)
  | some (c + 1), some w =>
    if c < p.2.length then (num.stoi w).map fun v => (p.1, p.2.set c v) else none
  | _, _ => none

/-- `readmeasline2`, 870-891.  `ctime` is the caller's variable, `none` while it has no
value; the second part is `lint`. -/
def readline (num : Num) (words : List String) (ctime : Option ℚ) (perm : List ℕ)
    (nMax : ℕ) : Option (Option ℚ × List (BitVec 32)) :=
  (List.range (min words.length nMax)).foldlM (lineWord num words perm) (ctime, [0, 0, 0, 0])

/-- One entry of the list: `ct`, `meas`, `map`, `mask`, `nrt`. -/
structure Rec where
  ct : ℚ
  meas : BitVec 32
  map : BitVec 32
  mask : BitVec 32
  nrt : BitVec 32
  deriving DecidableEq

/-- The choices of the command line: `defaultmeasType` and `deninfa.maty`, `mask`,
`nrt`. -/
structure Given where
  meas : BitVec 32
  map : BitVec 32
  mask : BitVec 32
  nrt : BitVec 32

/-- One turn of the loop over the lines, 932-960, at the time `z` of the field.  The
state is the variable `mesi` and the entries so far. -/
def addLine (num : Num) (g : Given) (z : ℚ) (perm : List ℕ) (nHeader : ℕ)
    (p : Option ℚ × List Rec) (words : List String) : Option (Option ℚ × List Rec) := do
  let (mesi, lint) ← readline num words p.1 perm nHeader
  let l0 ← lint[0]?
  let l1 ← lint[1]?
  let l2 ← lint[2]?
  let l3 ← lint[3]?
  let t ← mesi
  let l0 := if l0.msb then g.meas else l0
  if t < z then pure (mesi, p.2)
  else pure (mesi, p.2 ++ [⟨t, l0, l1 ||| g.map, l2 ||| g.mask, l3 ||| g.nrt⟩])

/-- The loop over the lines. -/
def readLines (num : Num) (g : Given) (z : ℚ) (perm : List ℕ) (nHeader : ℕ)
    (lines : List (List String)) : Option (Option ℚ × List Rec) :=
  lines.foldlM (addLine num g z perm nHeader) (none, [])

/-- One turn of the loop that merges equal times, 962-974: entry `i` with the time of the
one before it adds its `meas` to that one and is erased. -/
def mergeAt (l : List Rec) (i : ℕ) : Option (List Rec) :=
  match l[i]?, l[i - 1]? with
  | some a, some b =>
    if a.ct = b.ct then
      some ((l.set (i - 1) { b with meas := b.meas ||| a.meas }).eraseIdx i)
    else some l
  | _, _ => none

/-- The loop, from the last entry down to the second one. -/
def merge (rs : List Rec) : Option (List Rec) :=
  (List.range (rs.length - 1)).foldlM (fun l j => mergeAt l (rs.length - 1 - j)) rs

/-- `readmeasfile`, 893-989, with the file as a list of lines: the list of measurements
and the new `zFinl`, its last time (980). -/
def readFile (num : Num) (g : Given) (z : ℚ) (lines : List (List String)) :
    Option (List Rec × ℚ) := do
  -- 917-928; `getline` on an empty file leaves the string empty
  let (perm, n) ← readheader (lines.headD []) [0, 1, 2, 3, 4]
  let (_, rs) ← if n = 0 then readLines num g z perm 2 lines
    else readLines num g z perm n lines.tail
  let ms ← merge rs
  let last ← ms.getLast?
  pure (ms, last.ct)

end Jaxions.MeasList
