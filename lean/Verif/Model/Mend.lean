import Verif.Basic.Heap
import Mathlib.Algebra.Order.Field.Basic

/-!
# Mending the angle

`mendTheta` (`lib/scalar/mendTheta.cpp`, `lib/scalar/mendThetaXeon.cpp`): a line along z through the
site (0,0), in every slice a line along y at x = 0, and all lines along x.  Arithmetic is exact over
an ordered field; `abs` is the absolute value.  The counters of jumps and the
mark `STRING_WALL` that the double precision kernel adds to the byte of a mended site are left out, as is the ghost
exchange with MPI calls that fail.  `while` loops have fuel; running out of it is `none`.
-/

namespace Jaxions
namespace Mend

variable {K : Type} [Field K] [LinearOrder K]

/-! ## The scalar loop -/

/-- Body of the scalar loops (`mendThetaXeon.cpp:904-917, 925-938, 1056-1068`): `mel` is the
reference, `zP = π R`, `w = 2 π`. -/
def bumpS (zP w mel : K) (a : K × K) : K × K :=
  let mDf := a.1 - mel
  if mDf > zP then (a.1 - 2 * zP, a.2 - w)
  else if mDf < zP then (a.1 + 2 * zP, a.2 + w)
  else a

/-- `while (abs(mDf) > zP)` (`mendThetaXeon.cpp:904, 925, 1056`). -/
def whileS (zP w mel : K) : Nat → K × K → Option (K × K)
  | 0, a => if |a.1 - mel| > zP then none else some a
  | fuel + 1, a => if |a.1 - mel| > zP then whileS zP w mel fuel (bumpS zP w mel a) else some a

/-! ## The line along z, rank after rank -/

/-- Arrays of all ranks: `mCpu`, with `NN` ghost slices on each side, and `vCpu`, without. -/
structure Ranks (K : Type) where
  m : Nat → Heap Nat K
  v : Nat → Heap Nat K

/-- Replace the arrays of one rank. -/
def Ranks.set (s : Ranks K) (r : Nat) (m v : Heap Nat K) : Ranks K :=
  ⟨fun q => if q = r then m else s.m q, fun q => if q = r then v else s.v q⟩

/-- The loop over the slices of the rank whose turn it is (`mendThetaXeon.cpp:1043-1072`). -/
def lineSlice (fuel : Nat) (zP w : K) (Sf NN : Nat) (s : Heap Nat K × Heap Nat K) (i : Nat) :
    Option (Heap Nat K × Heap Nat K) := do
  let idx := i * Sf
  let mel ← s.1 (idx + Sf * (NN - 1))
  let mPz ← s.1 (idx + Sf * NN)
  let vPz ← s.2 idx
  let a ← whileS zP w mel fuel (mPz, vPz)
  let m ← s.1.write (idx + Sf * NN) a.1
  let v ← s.2.write idx a.2
  return (m, v)

/-- Turn of one rank (`mendThetaXeon.cpp:1015-1073`): it gets the value below its first slice from
the rank before it (`MPI_Send`/`MPI_Recv`, or the copy of line 1026 for a single rank) and runs. -/
def lineRank (fuel : Nat) (zP w : K) (Sf Lz NN n : Nat) (s : Ranks K) (r : Nat) :
    Option (Ranks K) := do
  let bck := (r + n - 1) % n
  let g ← s.m bck (Sf * (Lz + NN - 1))
  let m ← (s.m r).write (Sf * (NN - 1)) g
  let (m, v) ← (List.range Lz).foldlM (lineSlice fuel zP w Sf NN) (m, s.v r)
  return s.set r m v

/-- `mendThetaLine` (`mendThetaXeon.cpp:1000-1077`): the ranks take turns, `commSync` in between. -/
def mendLine (fuel : Nat) (zP w : K) (Sf Lz NN n : Nat) (s : Ranks K) : Option (Ranks K) :=
  (List.range n).foldlM (lineRank fuel zP w Sf Lz NN n) s

/-! ## The line along y of each slice -/

/-- Arrays of one rank; `str` is `sData`. -/
structure St (K : Type) where
  m : Heap Nat K
  v : Heap Nat K
  m2 : Heap Nat K
  str : Heap Nat Nat

/-- Shape of a folded slice (`mendThetaXeon.cpp:78-79, 431-432, 845-846`). -/
structure Geo where
  Lx : Nat
  step : Nat
deriving DecidableEq

def Geo.XC (g : Geo) : Nat := g.Lx * g.step
def Geo.YC (g : Geo) : Nat := g.Lx / g.step
def Geo.Sf (g : Geo) : Nat := g.Lx * g.Lx

/-- `idx - Vo` and `idxPy - Vo` (`mendThetaXeon.cpp:870-881, 883-894`). -/
def sliceIdx (g : Geo) (vIdx yPt : Nat) : Nat × Nat :=
  if yPt = g.YC - 1 then (g.Sf - g.XC + vIdx, (vIdx + 1) % g.step)
  else (yPt * g.XC + vIdx, yPt * g.XC + vIdx + g.XC)

/-- One iteration of the two scans (`mendThetaXeon.cpp:864-957`), `zSl` counted without ghosts.
The pairs are `(vIdx, yPt)`. -/
def sliceScan (fuel : Nat) (zP w : K) (g : Geo) (NN t0 z : Nat) (m v : Heap Nat K)
    (m2 : Heap Nat K) (c : Nat × Nat) : Option (Heap Nat K) := do
  let (i, p) := sliceIdx g c.1 c.2
  let (iB, pB) := sliceIdx g (g.step - 1 - c.1) (g.YC - 1 - c.2)
  let Vo := (z + NN) * g.Sf
  let mel ← m2 (t0 + i)
  let mPy ← m (Vo + p)
  let vPy ← v (z * g.Sf + p)
  let a ← whileS zP w mel fuel (mPy, vPy)
  let melB ← m (Vo + iB)
  let mPyB ← m2 (t0 + 2 * g.step + pB)
  let vPyB ← v (z * g.Sf + iB)
  let b ← whileS zP w mPyB fuel (melB, vPyB)
  let m2 ← if p ≠ 0 then (m2.write (t0 + p) a.1).bind fun h => h.write (t0 + p + g.step) a.2
    else some m2
  if iB ≠ 0 then
    (m2.write (t0 + iB + 2 * g.step) b.1).bind fun h => h.write (t0 + iB + 3 * g.step) b.2
  else some m2

/-- One iteration of the writing loop (`mendThetaXeon.cpp:960-986`). -/
def sliceWrite (g : Geo) (NN t0 z : Nat) (m2 : Heap Nat K) (s : Heap Nat K × Heap Nat K)
    (c : Nat × Nat) : Option (Heap Nat K × Heap Nat K) := do
  let p := (sliceIdx g c.1 c.2).2
  let f ← m2 (t0 + p)
  let b ← m2 (t0 + p + 2 * g.step)
  if f = b ∧ p ≠ 0 then do
    let m ← s.1.write ((z + NN) * g.Sf + p) f
    let u ← m2 (t0 + p + g.step)
    let v ← s.2.write (z * g.Sf + p) u
    return (m, v)
  else return s

/-- `for (vIdx …) for (yPt …)`. -/
def sliceOrder (g : Geo) : List (Nat × Nat) :=
  (List.range g.step).flatMap fun v => (List.range g.YC).map fun y => (v, y)

/-- Iteration of the loop over slices (`mendThetaXeon.cpp:850-987`); `t0 = nThread*Sf`. -/
def sliceZ (fuel : Nat) (zP w : K) (g : Geo) (NN t0 : Nat) (s : St K) (z : Nat) :
    Option (St K) := do
  let x ← s.m ((z + NN) * g.Sf)
  let m2 ← s.m2.write t0 x
  let m2 ← m2.write (t0 + 2 * g.step) x
  let m2 ← (sliceOrder g).foldlM (sliceScan fuel zP w g NN t0 z s.m s.v) m2
  let (m, v) ← (sliceOrder g).foldlM (sliceWrite g NN t0 z m2) (s.m, s.v)
  return ⟨m, v, m2, s.str⟩

/-- `mendThetaSlice` (`mendThetaXeon.cpp:828-995`): slices in the order `order`, with the thread that
takes each. -/
def mendSlice (fuel : Nat) (zP w : K) (g : Geo) (NN : Nat) (order : List (Nat × Nat)) (s : St K) :
    Option (St K) :=
  order.foldlM (fun s c => sliceZ fuel zP w g NN (c.2 * g.Sf) s c.1) s

/-! ## The lines along x -/

/-- `load_pd`/`load_ps` of `n` lanes. -/
def loadV {α : Type} [Zero α] (n : Nat) (h : Heap Nat α) (a : Nat) : Option (Nat → α) :=
  if ∀ k < n, (h (a + k)).isSome then some fun k => (h (a + k)).getD 0 else none

/-- `store_pd`/`store_ps`. -/
def storeV {α : Type} (n : Nat) (h : Heap Nat α) (a : Nat) (x : Nat → α) : Option (Heap Nat α) :=
  if ∀ k < n, (h (a + k)).isSome then
    some fun j => if a ≤ j ∧ j < a + n then some (x (j - a)) else h j
  else none

/-- How the file is compiled: the AVX-512 double precision loops declare their masks again inside
the body (`mendThetaXeon.cpp:165-166, 193-194`), so that the outer masks keep their first values. -/
inductive Build | double | single | doubleAvx512
deriving DecidableEq, Repr

/-- `cmp(mDf, pVec, _CMP_GE_OQ)` and `cmp(mDf, mVec, _CMP_LT_OQ)` of one lane
(`mendThetaXeon.cpp:143-144, 199-215`). -/
def maskP (zP d : K) : Bool := decide (d ≥ zP)
@[inherit_doc maskP]
def maskM (zP d : K) : Bool := decide (d < -zP)

/-- `mask_sub`, `mask_add` of one lane (`mendThetaXeon.cpp:155-158, 183-186`). -/
def bump (zP w : K) (p q : Bool) (a : K × K) : K × K :=
  let a := if p then (a.1 - zP * 2, a.2 - w) else a
  if q then (a.1 + zP * 2, a.2 + w) else a

/-- Some lane is marked. -/
def anyLane (n : Nat) (f : Nat → Bool) : Bool := (List.range n).any f

/-- `while (mask != 0)` with masks computed again (`mendThetaXeon.cpp:243-295` and all the loops in
single precision). -/
def whileV (zP w : K) (n : Nat) (ref : Nat → K) : Nat → (Nat → K × K) → Option (Nat → K × K)
  | 0, a =>
    if anyLane n fun k => maskP zP ((a k).1 - ref k) || maskM zP ((a k).1 - ref k) then none
    else some a
  | fuel + 1, a =>
    if anyLane n fun k => maskP zP ((a k).1 - ref k) || maskM zP ((a k).1 - ref k) then
      whileV zP w n ref fuel fun k =>
        bump zP w (maskP zP ((a k).1 - ref k)) (maskM zP ((a k).1 - ref k)) (a k)
    else some a

/-- The loop of the AVX-512 double precision build (`mendThetaXeon.cpp:154-168, 182-196`): `p` and
`q` are the outer masks. -/
def whileStuck (zP w : K) (n : Nat) (ref : Nat → K) (p q : Nat → Bool) :
    Nat → (Nat → K × K) → Option (Nat → K × K)
  | 0, a =>
    if anyLane n fun k => maskP zP ((a k).1 - ref k) || maskM zP ((a k).1 - ref k) then none
    else some a
  | fuel + 1, a =>
    if anyLane n fun k => maskP zP ((a k).1 - ref k) || maskM zP ((a k).1 - ref k) then
      whileStuck zP w n ref p q fuel fun k => bump zP w (p k) (q k) (a k)
    else some a

/-- The loop of a build. -/
def whileB (b : Build) (zP w : K) (n fuel : Nat) (ref : Nat → K) (a : Nat → K × K) :
    Option (Nat → K × K) :=
  match b with
  | .doubleAvx512 => whileStuck zP w n ref (fun k => maskP zP ((a k).1 - ref k))
      (fun k => maskM zP ((a k).1 - ref k)) fuel a
  | _ => whileV zP w n ref fuel a

/-- What a forward jump leaves in the byte of a site (`mendThetaXeon.cpp:150, 223, 509, 593`). -/
def Build.fwd : Build → Nat → Nat
  | .single, o => o ||| 1
  | _, _ => 1
/-- What a backward jump leaves (`mendThetaXeon.cpp:178, 224, 545, 594`). -/
def Build.bwd : Build → Nat → Nat
  | .single, o => o ||| 2
  | .double, _ => 2
  | .doubleAvx512, _ => 1
/-- The condition on the byte for writing (`mendThetaXeon.cpp:369, 765`). -/
def Build.writes : Build → Nat → Bool
  | .single, o => o == 3
  | _, o => decide (o > 0)

/-- `for k: if (hit) strdaa[a+k*YC*Lx] = …`. -/
def mark (n a stride : Nat) (hit : Nat → Bool) (f : Nat → Nat) (h : Heap Nat Nat) :
    Option (Heap Nat Nat) :=
  (List.range n).foldlM (fun h k =>
    if hit k then (h (a + k * stride)).bind fun o => h.write (a + k * stride) (f o) else some h) h

/-- What the scans of one row keep: `m2`, `strdaa`, `cha`. -/
structure Row (K : Type) where
  m2 : Heap Nat K
  str : Heap Nat Nat
  cha : Bool

/-- One iteration of the scans (`mendThetaXeon.cpp:113-303, 467-681`), `xPt = ix*step`; `mb`, `vb`,
`sb` are the addresses of the row in `m`, `v` and `strdaa`, `t0 = nThread*4*XC`.  The code marks
both scans before the first loop or, for AVX-512, each scan before its loop; the lanes have
different bytes, so that only the order forward, backward in each byte matters. -/
def rowScan (b : Build) (fuel : Nat) (zP w : K) (g : Geo) (mb vb sb t0 : Nat) (m v : Heap Nat K)
    (s : Row K) (ix : Nat) : Option (Row K) := do
  let xPt := ix * g.step
  let idx := t0 + xPt
  let idx2 := idx + g.step
  let idx2B := t0 + 3 * g.XC - xPt - g.step
  let idxB := if xPt = 0 then idx2B + g.step - g.XC else idx2B + g.step
  let mel ← loadV g.step s.m2 idx
  let mPx ← loadV g.step m (mb + xPt + g.step)
  let vPx ← loadV g.step v (vb + xPt + g.step)
  let melB ← loadV g.step s.m2 idxB
  let mBMx ← loadV g.step m (mb + g.XC - xPt - g.step)
  let vBMx ← loadV g.step v (vb + g.XC - xPt - g.step)
  let hitF := fun k => maskP zP (mPx k - mel k) || maskM zP (mPx k - mel k)
  let hitB := fun k => maskP zP (mBMx k - melB k) || maskM zP (mBMx k - melB k)
  let str ← mark g.step (sb + ix + 1) (g.YC * g.Lx) hitF b.fwd s.str
  let str ← mark g.step (sb + g.Lx - ix - 1) (g.YC * g.Lx) hitB b.bwd str
  let F ← whileB b zP w g.step fuel mel fun k => (mPx k, vPx k)
  let B ← whileB b zP w g.step fuel melB fun k => (mBMx k, vBMx k)
  let m2 ← storeV g.step s.m2 idx2 fun k => (F k).1
  let m2 ← storeV g.step m2 (idx2 + g.XC) fun k => (F k).2
  let m2 ← storeV g.step m2 idx2B fun k => (B k).1
  return ⟨m2, str, s.cha || anyLane g.step hitF || anyLane g.step hitB⟩

/-- One iteration of the correcting loop (`mendThetaXeon.cpp:311-403, 690-807`).  The build in double
precision stores lane by lane under the condition, the one in single precision stores a vector whose
other lanes keep the old value. -/
def rowWrite (b : Build) (g : Geo) (mb vb sb t0 : Nat) (m2 : Heap Nat K) (str : Heap Nat Nat)
    (s : Heap Nat K × Heap Nat K) (ix : Nat) : Option (Heap Nat K × Heap Nat K) := do
  let xPt := ix * g.step
  let fl ← if ∀ k < g.step, (str (sb + ix + 1 + k * (g.YC * g.Lx))).isSome then
      some fun k => (str (sb + ix + 1 + k * (g.YC * g.Lx))).getD 0 else none
  if anyLane g.step fun k => fl k != 0 then do
    let idx2 := t0 + xPt + g.step
    let mel ← loadV g.step s.1 (mb + xPt + g.step)
    let F ← loadV g.step m2 idx2
    let B ← loadV g.step m2 (idx2 + 2 * g.XC)
    if anyLane g.step fun k => decide (F k = B k) && decide (fl k > 0) then do
      let old ← loadV g.step s.2 (vb + xPt + g.step)
      let vv ← loadV g.step m2 (idx2 + g.XC)
      let m ← storeV g.step s.1 (mb + xPt + g.step) fun k =>
        if F k = B k ∧ b.writes (fl k) then F k else mel k
      let v ← storeV g.step s.2 (vb + xPt + g.step) fun k =>
        if F k = B k ∧ b.writes (fl k) then vv k else old k
      return (m, v)
    else return s
  else return s

/-- One row (`mendThetaXeon.cpp:98-405`, 452-810): `zSl`, `yLn`, thread; `mo` is the offset of
`mStart` in `m`. -/
def mendRow (b : Build) (fuel : Nat) (zP w : K) (g : Geo) (mo : Nat) (s : St K)
    (c : (Nat × Nat) × Nat) : Option (St K) := do
  let Vo := c.1.1 * g.Sf
  let t0 := c.2 * 4 * g.XC
  let mb := mo + Vo + c.1.2 * g.XC
  let vb := Vo + c.1.2 * g.XC
  let sb := Vo + c.1.2 * g.Lx
  let mel ← loadV g.step s.m mb
  let m2 ← storeV g.step s.m2 t0 mel
  let m2 ← storeV g.step m2 (t0 + 2 * g.XC) mel
  let r ← (List.range (g.Lx - 1)).foldlM (rowScan b fuel zP w g mb vb sb t0 s.m s.v)
    ⟨m2, s.str, false⟩
  let (m, v) ← if r.cha then
      (List.range (g.Lx - 1)).foldlM (rowWrite b g mb vb sb t0 r.m2 r.str) (s.m, s.v)
    else some (s.m, s.v)
  return ⟨m, v, r.m2, r.str⟩

/-- `mendThetaKernelXeon` (`mendThetaXeon.cpp:39-825`): `strdaa` set to zero, then the rows in the
order in which the threads take them. -/
def mendKernel (b : Build) (fuel : Nat) (zP w : K) (g : Geo) (Lz mo : Nat)
    (order : List ((Nat × Nat) × Nat)) (s : St K) : Option (St K) := do
  let str ← storeV (g.Sf * Lz) s.str 0 fun _ => 0
  order.foldlM (mendRow b fuel zP w g mo) { s with str := str }

/-! ## All ranks -/

/-- All slices, each with some thread. -/
def SliceOrder (Lz T : Nat) (order : List (Nat × Nat)) : Prop :=
  (order.map Prod.fst).Perm (List.range Lz) ∧ ∀ c ∈ order, c.2 < T

/-- All rows, each with some thread. -/
def RowOrder (g : Geo) (Lz T : Nat) (order : List ((Nat × Nat) × Nat)) : Prop :=
  (order.map Prod.fst).Perm ((List.range Lz).flatMap fun z => (List.range g.YC).map fun y => (z, y)) ∧
    ∀ c ∈ order, c.2 < T

/-- `mendThetaXeon` on one rank after the line (`mendThetaXeon.cpp:1079-1125`). -/
def mendRank (b : Build) (fuel : Nat) (zP w : K) (g : Geo) (Lz NN : Nat)
    (slices : List (Nat × Nat)) (rows : List ((Nat × Nat) × Nat)) (s : St K) : Option (St K) :=
  (mendSlice fuel zP w g NN slices s).bind (mendKernel b fuel zP w g Lz (NN * g.Sf) rows)

/-- `mendThetaXeon` on `n` ranks (`mendThetaXeon.cpp:1079-1125`): the line along z over all of them;
after it they do not communicate (only counters are summed), so that each rank runs on its own.
`slices` and `rows` say how the threads of each rank take the iterations. -/
def mendTheta (b : Build) (fuel : Nat) (zP w : K) (g : Geo) (Lz NN n : Nat)
    (slices : Nat → List (Nat × Nat)) (rows : Nat → List ((Nat × Nat) × Nat)) (s : Nat → St K) :
    Option (Nat → St K) := do
  let l ← mendLine fuel zP w g.Sf Lz NN n ⟨fun r => (s r).m, fun r => (s r).v⟩
  (List.range n).foldlM (fun t r => do
    let q ← mendRank b fuel zP w g Lz NN (slices r) (rows r) { s r with m := l.m r, v := l.v r }
    return fun i => if i = r then q else t i) s

/-- The conversion of one site to an angle (`thetaXeon.cpp:33-43`): `a = arg`, `da` its derivative,
`F = frw*R/z`. -/
def toTheta (R F a da : K) : K × K := (R * a, R * da + F * a)

/-- `F` of `thetaXeon.cpp:33`. -/
def slope (frw R z : K) : K := frw * R / z

end Mend
end Jaxions
