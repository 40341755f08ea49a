import Verif.Model.StringMap
import Mathlib.Analysis.Real.Sqrt

/-!
# Length and speed of strings

`setCross` and `stringlength` (`lib/strings/length.cpp:18-441`).  Arithmetic is exact; a quotient by
zero (infinite or not a number in the code) has no value here.  The sums over cells
(`reduction(+:…)`) are taken in the order of the loops.  The arrays are read as total functions of
the address; which addresses are read is a separate definition.  `stringlength2`
(`length.cpp:449-845`), which nothing calls, is not modelled.
-/

namespace Jaxions
namespace StrLen

open Winding

section cross
variable {K : Type} [Field K] [LinearOrder K]

/-- A quotient; dividing by zero gives no number. -/
def quo (x y : K) : Option K := if y = 0 then none else some (x / y)

/-- `nodereal`/`nodeimag` (`length.cpp:31-62`), two consecutive elements of the vector being one
entry here: the points of the four sides where one component vanishes. -/
def nodes (m mu mv muv : K) : List (Option (K × K)) :=
  (if m * mu ≤ 0 then [(quo m (m - mu)).map fun t => (t, 0)] else []) ++
  (if mu * muv ≤ 0 then [(quo mu (mu - muv)).map fun t => (1, t)] else []) ++
  (if muv * mv ≤ 0 then [(quo mv (mv - muv)).map fun t => (t, 1)] else []) ++
  (if mv * m ≤ 0 then [(quo m (m - mv)).map fun t => (0, t)] else [])

/-- The intersection of the line through two points with the line through two others
(`length.cpp:67-75`). -/
def meet (r0 r1 i0 i1 : K × K) : Option (K × K) :=
  let Ar := r0.1 - r1.1
  let Br := r1.2 - r0.2
  let Cr := r0.2 * r1.1 - r1.2 * r0.1
  let Ai := i0.1 - i1.1
  let Bi := i1.2 - i0.2
  let Ci := i0.2 * i1.1 - i1.2 * i0.1
  do
    let du ← quo (-(Cr * Ai - Ci * Ar)) (Br * Ai - Bi * Ar)
    let dv ← quo (-(Cr * Bi - Ci * Br)) (Ar * Bi - Ai * Br)
    return (du, dv)

/-- `setCross` (`length.cpp:18-82`): where in a plaquette the string is. -/
def setCross (m mu mv muv : Cx K) : Option (K × K) :=
  match nodes m.re mu.re mv.re muv.re, nodes m.im mu.im mv.im muv.im with
  | [r0, r1], [i0, i1] => do
    let r0 ← r0
    let r1 ← r1
    let i0 ← i0
    let i1 ← i1
    meet r0 r1 i0 i1
  | _, _ => some (1 / 2, 1 / 2)

end cross

/-! ## Addresses -/

/-- Addresses of the eight corners of a cell (`length.cpp:149-163`). -/
structure Corner (α : Type) where
  o : α
  x : α
  y : α
  z : α
  xy : α
  yz : α
  zx : α
  xyz : α

/-- `idx`, `ixM`, `iyM`, `izM`, `ixyM`, `iyzM`, `izxM`, `ixyzM` (`length.cpp:149-163`). -/
def corner (Lx ix iy iz : ℕ) : Corner ℕ :=
  let zi := Lx * Lx * iz
  let zp := Lx * Lx * (iz + 1)
  let yi := Lx * iy
  let yp := Lx * ((iy + 1) % Lx)
  { o := ix + yi + zi
    x := (ix + 1) % Lx + yi + zi
    y := ix + yp + zi
    z := ix + yi + zp
    xy := (ix + 1) % Lx + yp + zi
    yz := ix + yp + zp
    zx := (ix + 1) % Lx + yi + zp
    xyz := (ix + 1) % Lx + yp + zp }

/-! ## Length -/

/-- A point: `pos_x`, `pos_y`, `pos_z`. -/
structure Pt where
  x : ℝ
  y : ℝ
  z : ℝ

/-- The square root written out everywhere in `length.cpp:219-279`. -/
noncomputable def gap (p q : Pt) : ℝ :=
  Real.sqrt ((q.x - p.x) * (q.x - p.x) + (q.y - p.y) * (q.y - p.y) + (q.z - p.z) * (q.z - p.z))

/-- What six points add: the fifteen sums `dl1` … `dl15` (`length.cpp:232-278`).  The second line of
each ends in `;`, so that the third line is a statement of its own and is not part of the sum. -/
noncomputable def six (p0 p1 p2 p3 p4 p5 : Pt) : ℝ :=
  let dl1 := gap p0 p1 + gap p2 p3
  let dl2 := gap p0 p1 + gap p2 p4
  let dl3 := gap p0 p1 + gap p2 p5
  let dl4 := gap p0 p2 + gap p1 p3
  let dl5 := gap p0 p2 + gap p1 p4
  let dl6 := gap p0 p2 + gap p1 p5
  let dl7 := gap p0 p3 + gap p1 p2
  let dl8 := gap p0 p3 + gap p1 p4
  let dl9 := gap p0 p3 + gap p1 p5
  let dl10 := gap p0 p4 + gap p1 p2
  let dl11 := gap p0 p4 + gap p1 p3
  let dl12 := gap p0 p4 + gap p1 p5
  let dl13 := gap p0 p5 + gap p1 p2
  let dl14 := gap p0 p5 + gap p1 p3
  let dl15 := gap p0 p5 + gap p1 p4
  (dl1 + dl2 + dl3 + dl4 + dl5 + dl6 + dl7 + dl8 + dl9 + dl10 + dl11 + dl12 + dl13 + dl14 + dl15) / 15

/-- What a cell adds to `length` (`length.cpp:217-283`). -/
noncomputable def cellLen : List Pt → ℝ
  | [p0, p1] => gap p0 p1
  | [p0, p1, p2, p3] =>
    ((gap p0 p1 + gap p2 p3) + (gap p0 p2 + gap p1 p3) + (gap p0 p3 + gap p1 p2)) / 3
  | [p0, p1, p2, p3, p4, p5] => six p0 p1 p2 p3 p4 p5
  | _ => 0

/-- One of the six blocks of `length.cpp:172-215`: if the bit is set, a point is pushed, made from
the result of `setCross`. -/
def push (c : Bool) (at_ : Option (ℝ × ℝ)) (f : ℝ × ℝ → Pt) : List (Option Pt) :=
  if c then [at_.map f] else []

/-- The points of one cell, in the order they are pushed (`length.cpp:172-215`).  `rz` is
`rank*Lz + iz`, `last` says that `iz < Lz - 1` fails. -/
noncomputable def ends (ma : ℕ → Cx ℝ) (sd : ℕ → ℕ) (Lx ix iy iz : ℕ) (rz : ℕ) (last : Bool) :
    List (Option Pt) :=
  let c := corner Lx ix iy iz
  push (sd c.o &&& StringMap.XY != 0) (setCross (ma c.o) (ma c.x) (ma c.y) (ma c.xy))
    (fun d => ⟨ix + d.1, iy + d.2, rz⟩) ++
  push (sd c.o &&& StringMap.YZ != 0) (setCross (ma c.o) (ma c.y) (ma c.z) (ma c.yz))
    (fun d => ⟨ix, iy + d.1, rz + d.2⟩) ++
  push (sd c.o &&& StringMap.ZX != 0) (setCross (ma c.o) (ma c.z) (ma c.x) (ma c.zx))
    (fun d => ⟨ix + d.2, iy, rz + d.1⟩) ++
  push (sd c.x &&& StringMap.YZ != 0) (setCross (ma c.x) (ma c.xy) (ma c.zx) (ma c.xyz))
    (fun d => ⟨ix + 1, iy + d.1, rz + d.2⟩) ++
  push (sd c.y &&& StringMap.ZX != 0) (setCross (ma c.y) (ma c.yz) (ma c.xy) (ma c.xyz))
    (fun d => ⟨ix + d.2, iy + 1, rz + d.1⟩) ++
  (if last then []
   else push (sd c.z &&& StringMap.XY != 0) (setCross (ma c.z) (ma c.zx) (ma c.yz) (ma c.xyz))
    (fun d => ⟨ix + d.1, iy + d.2, rz + 1⟩))

/-- What the cell `(ix, iy, iz)` adds (`length.cpp:217-283`); no number if a point used is not
one. -/
noncomputable def cell (ma : ℕ → Cx ℝ) (sd : ℕ → ℕ) (Lx Lz rank ix iy iz : ℕ) : Option ℝ :=
  let l := ends ma sd Lx ix iy iz (rank * Lz + iz) (!decide (iz + 1 < Lz))
  if l.length = 2 ∨ l.length = 4 ∨ l.length = 6 then (l.mapM id).map cellLen else some 0

/-- `strLen_local` (`length.cpp:142-290`). -/
noncomputable def rankLen (ma : ℕ → Cx ℝ) (sd : ℕ → ℕ) (Lx Lz rank : ℕ) : Option ℝ :=
  (List.range Lz).foldlM (fun l iz => (List.range Lx).foldlM (fun l iy => (List.range Lx).foldlM
    (fun l ix => (cell ma sd Lx Lz rank ix iy iz).map (l + ·)) l) l) 0

/-- `strLen` after the `MPI_Allreduce` (`length.cpp:292`). -/
noncomputable def totalLen (n : ℕ) (ma : ℕ → ℕ → Cx ℝ) (sd : ℕ → ℕ → ℕ) (Lx Lz : ℕ) : Option ℝ :=
  (List.range n).foldlM (fun l r => (rankLen (ma r) (sd r) Lx Lz r).map (l + ·)) 0

/-! ## Speed -/

/-- `abs(z)*abs(z)`. -/
def absSq (z : Cx ℝ) : ℝ := z.re * z.re + z.im * z.im

/-- `ma[i]/Rscale` (`length.cpp:336`). -/
noncomputable def phi (R : ℝ) (m : Cx ℝ) : Cx ℝ := ⟨m.re / R, m.im / R⟩

/-- `(va[i]-Hc*ma[i])/(Rscale*Rscale)` (`length.cpp:337`). -/
noncomputable def dphi (R Hc : ℝ) (m v : Cx ℝ) : Cx ℝ :=
  ⟨(v.re - Hc * m.re) / (R * R), (v.im - Hc * m.im) / (R * R)⟩

/-- `c` (`length.cpp:310`). -/
noncomputable def cst : ℝ := 0.41238

/-- `g2v2a` … `g2v2d` (`length.cpp:339-340`); `conj(phi)*dphi + phi*conj(dphi)` is
`2 (phi.re dphi.re + phi.im dphi.im)`. -/
noncomputable def g2v2 (mssq R Hc : ℝ) (m v : Cx ℝ) : ℝ :=
  let p := phi R m
  let d := dphi R Hc m v
  let w : Cx ℝ := ⟨2 * (p.re * d.re + p.im * d.im), 0⟩
  absSq d * (1 + absSq p / (8 * cst * cst)) / (mssq * cst * cst) +
    absSq w / (16 * mssq * cst * cst * cst * cst)

/-- The four sums of the loop: `gamma`, `gamma2`, `vel`, `vel2` (`length.cpp:304-307`). -/
structure Speed where
  gamma : ℝ
  gamma2 : ℝ
  vel : ℝ
  vel2 : ℝ

/-- What one pierced plaquette adds (`length.cpp:356-360`, 376-380, 396-400), for the average `q` of
the four corners. -/
noncomputable def Speed.add (s : Speed) (q : ℝ) : Speed :=
  let g := Real.sqrt (1 + q)
  { gamma := s.gamma + g
    gamma2 := s.gamma2 + (1 + q)
    vel := s.vel + g * Real.sqrt (q / (1 + q))
    vel2 := s.vel2 + g * q / (1 + q) }

/-- The corners of the plaquettes of a cell that are pierced (`length.cpp:342-401`). -/
def plaqs (sd : ℕ → ℕ) (Lx ix iy iz : ℕ) : List (ℕ × ℕ × ℕ × ℕ) :=
  let c := corner Lx ix iy iz
  (if sd c.o &&& StringMap.XY != 0 then [(c.o, c.x, c.y, c.xy)] else []) ++
  (if sd c.o &&& StringMap.YZ != 0 then [(c.o, c.y, c.z, c.yz)] else []) ++
  (if sd c.o &&& StringMap.ZX != 0 then [(c.o, c.z, c.x, c.zx)] else [])

/-- `(g2v2a + g2v2b + g2v2c + g2v2d)/4.` of a plaquette (`length.cpp:355, 375, 395`). -/
noncomputable def plaqQ (mssq R Hc : ℝ) (ma va : ℕ → Cx ℝ) (p : ℕ × ℕ × ℕ × ℕ) : ℝ :=
  let g := fun i => g2v2 mssq R Hc (ma i) (va i)
  (g p.1 + g p.2.1 + g p.2.2.1 + g p.2.2.2) / 4

/-- The cells of a rank in the order of the loops. -/
def cells (Lx Lz : ℕ) : List (ℕ × ℕ × ℕ) :=
  (List.range Lz).flatMap fun iz => (List.range Lx).flatMap fun iy =>
    (List.range Lx).map fun ix => (ix, iy, iz)

/-- The averages of the pierced plaquettes of a rank. -/
noncomputable def rankQ (mssq R Hc : ℝ) (ma va : ℕ → Cx ℝ) (sd : ℕ → ℕ) (Lx Lz : ℕ) : List ℝ :=
  ((cells Lx Lz).flatMap fun c => plaqs sd Lx c.1 c.2.1 c.2.2).map (plaqQ mssq R Hc ma va)

/-- The loop over a rank (`length.cpp:317-406`). -/
noncomputable def rankSpeed (mssq R Hc : ℝ) (ma va : ℕ → Cx ℝ) (sd : ℕ → ℕ) (Lx Lz : ℕ) : Speed :=
  (rankQ mssq R Hc ma va sd Lx Lz).foldl Speed.add ⟨0, 0, 0, 0⟩

/-- `strDeng`, `strVel`, `strVel2`, `strGam` (`length.cpp:408-421`). -/
structure Result where
  strDeng : ℝ
  strVel : Option ℝ
  strVel2 : Option ℝ
  strGam : Option ℝ

/-- The four `MPI_Allreduce` and the quotients (`length.cpp:413-421`). -/
noncomputable def totalSpeed (l : List Speed) : Result :=
  let gamma := (l.map (·.gamma)).sum
  { strDeng := gamma
    strVel := quo (l.map (·.vel)).sum gamma
    strVel2 := quo (l.map (·.vel2)).sum gamma
    strGam := quo (l.map (·.gamma2)).sum gamma }

/-- `(int) bckgnd->Frw()` (`scalarField.cpp:1205`): towards zero. -/
noncomputable def trunc (x : ℝ) : ℤ := if 0 ≤ x then ⌊x⌋ else ⌈x⌉

/-- `Scalar::HubbleConformal` (`scalarField.cpp:1200-1209`). -/
noncomputable def hubbleConformal (frw z : ℝ) : Option ℝ :=
  if trunc frw = 0 ∨ trunc frw = 1 then some 0 else quo frw z

end StrLen
end Jaxions
