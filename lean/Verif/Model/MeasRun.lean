import Mathlib.Data.Nat.Notation
import Mathlib.Data.Int.Notation

/-
What one call of `Measureme` stores.

  lib/meas/measa.cpp:28-1023               Measureme
  include/enum-field.h:601-616, 663-690,
    693-727, 748-760                       numbers of the options and of the states
  lib/energy/energy.cpp:137-213            energy
  lib/reducer/reducer.cpp:283-338          reduction of the energy
  lib/projector/projector.cpp:90-99        projectField
  lib/spectrum/spectrum.cpp:746-818        pRun
  lib/spectrum/spectrum.cpp:1003-1075, 1568-1745, 1749-1900   nRun, nSRun
  lib/spectrum/spectrum.cpp:2073-2159      smoothFourier
  lib/spectrum/spectrum.cpp:2739-2800, 3415-3765   masker
  lib/strings/strings.cpp:340-380, lib/strings/stringXeon.cpp:1042-1050   strings, strings2
  lib/io/readWrite.pHdf5.cpp:2133-2190, 2654-2790, 2922-3012, 3150-3205, 4049-4060, 4299-4307

The program is a list of calls that depends on the request only; each call changes what the work
arrays hold and may store something.  Arrays are followed by what they hold, not by their numbers
(the numbers are the subject of C24, C26, C29, C35, C72-C76).  An array has a tag, which is what the
code tests, and a content.

Not modelled: low memory, GPU, cumulative masks, attributes of the file header, the sets compiled
with USE_NN_BINS, Nyx output, text of the log.
-/

namespace Jaxions.MeasRun

/-- `w & b`, as a condition. -/
def on (w b : ℕ) : Bool := w &&& b != 0

/-- `FieldType`, the kinds `Measureme` tells apart. -/
inductive Kind
  | saxion | axion | naxion | paxion
  deriving DecidableEq, Repr

/-! Numbers of enum-field.h:693-727. -/
abbrev BINTHETA : ℕ := 1
abbrev BINRHO : ℕ := 2
abbrev BINLOGTHETA2 : ℕ := 4
abbrev BINDELTA : ℕ := 8
abbrev STRING : ℕ := 32
abbrev STRINGMAP : ℕ := 64
abbrev STRINGCOO : ℕ := 128
abbrev ENERGY : ℕ := 256
abbrev ENERGY3DMAP : ℕ := 512
abbrev REDENE3DMAP : ℕ := 1024
abbrev CONF3D : ℕ := 4096
abbrev MASK : ℕ := 8192
abbrev PSP_A : ℕ := 16384
abbrev PSP_S : ℕ := 32768
abbrev NSP_A : ℕ := 65536
abbrev NSP_S : ℕ := 131072
abbrev NNSPEC : ℕ := 262144
abbrev MULTICON : ℕ := 524288
abbrev SPECTRUM : ℕ := 516096
abbrev NEEDENERGY : ℕ := 575240
abbrev NEEDENERGYM2 : ℕ := 574984

/-! Numbers of enum-field.h:748-760. -/
abbrev XYMV : ℕ := 5
abbrev YZMV : ℕ := 48
abbrev XYPE : ℕ := 1024
abbrev XYPE2 : ℕ := 2048
abbrev XYE : ℕ := 65536

/-- `SpectrumMaskType`, enum-field.h:601-616, without `SPMASK_SAXI`. -/
inductive M
  | flat | vil | vil2 | redo | gaus | diff | ball | axit | axit2 | axitv
  deriving DecidableEq, Repr

def M.bit : M → ℕ
  | .flat => 1 | .vil => 2 | .vil2 => 4 | .redo => 8 | .gaus => 16 | .diff => 32 | .ball => 64
  | .axit => 512 | .axit2 => 1024 | .axitv => 2048

/-- `masklab`, measa.cpp:488, 572. -/
def M.lab : M → String
  | .flat => "0" | .vil => "Vi" | .vil2 => "Vi2" | .redo => "Red" | .gaus => "Gau" | .diff => "Dif"
  | .ball => "Bal" | .axit => "Axit" | .axit2 => "Axit2" | .axitv => "V"

/-- `mulmask`, measa.cpp:490, 575. -/
def M.mul : M → Bool
  | .flat | .vil | .vil2 => false
  | _ => true

/-- `prntmsk`, measa.cpp:574: nine entries, eight of them given; the ninth is `false`. -/
def M.prnt : M → Bool
  | .flat | .axit2 => false
  | _ => true

/-- `maskara`, measa.cpp:489. -/
def maskara8 : List M := [.vil, .vil2, .ball, .redo, .gaus, .diff, .axit, .axit2]

/-- `maskara`, measa.cpp:573. -/
def maskara9 : List M := .flat :: maskara8

/-- How numbers are printed: `%.2f` and `%03d`. -/
structure Fmt (R : Type) where
  lab : R → String
  d3 : ℕ → String

/-- What is asked for. -/
structure Req (R : Type) where
  field : Kind
  /-- `info.measdata`, `info.maty`, `info.mask`, `info.nrt`, `info.strmeas` -/
  meas : ℕ
  maps : ℕ
  mask : ℕ
  nrt : ℕ
  strmeas : ℕ
  /-- `info.rmask_tab`; `info.i_rmask` is its length, parse.cpp:2725-2729 -/
  radii : List R
  redmap : ℤ
  index : ℕ
  maskenergyonly : Bool
  /-- `MMomSpace() || VMomSpace()` -/
  mom : Bool
  /-- `sDStatus() == SD_MENDMAP` on entry -/
  mend : Bool
  /-- `p3DthresholdMB/strDen > 1` -/
  few : Bool
  /-- `AxionMassSq() > 0` -/
  massive : Bool
  /-- `dsteps`, measa.cpp:334 -/
  steps : ℕ

variable {R : Type}

/-- measa.cpp:68-75. -/
def Req.eff (q : Req R) : ℕ :=
  match q.field with
  | .saxion => q.mask &&& 127
  | .axion => q.mask &&& (1 ||| 512 ||| 1024 ||| 2048)
  | _ => q.mask

/-- `irmask`, measa.cpp:80-87. -/
def Req.irmask (q : Req R) : ℕ := if q.radii.length = 0 then 1 else q.radii.length

/-- Name of a data set or of a group of attributes: the group, and the parts that are joined
by `_`. -/
structure Name where
  group : String
  parts : List String
  deriving DecidableEq, Repr

/-- A mask: its kind, its radius (`none` for the 0.0 of measa.cpp:86), and whether what it was made
from was what it should be. -/
structure Msk (R : Type) where
  kind : M
  r : Option R
  ok : Bool

/-- `StatusM2`. -/
inductive Tag
  | energy | energyFFT | coords | dirty | mask | antimask | smooth
  deriving DecidableEq, Repr

/-- Content of `m2` or of its second half. -/
inductive Body (R : Type)
  | junk | energy | energyFFT | smooth (i : ℕ) | reduced | coords | mask (m : Msk R) | antimask (m : Msk R)

/-- `binP`. -/
inductive Power (R : Type)
  | zero | energy | junk
  /-- of the energy without what the mask covers -/
  | masked (m : Msk R)
  /-- of the mask -/
  | mask (m : Msk R)

/-- Axion spectra with and without the correction by the table, saxion spectra. -/
inductive How
  | lut | pure | sax
  deriving DecidableEq, Repr

/-- Where a run for a spectrum finds the mask. -/
inductive Seen (R : Type)
  | self | sData (m : Option (Msk R)) | array (b : Body R)

/-- `binK`, `binG`, `binV`, `binVnl`. -/
inductive Num (R : Type)
  | zero | run (h : How) (k : M) (s : Seen R)

/-- What is stored. -/
inductive Val (R : Type)
  | slice | accel | hist (set : String) | contrast (b : Body R) | density (b : Body R) | plane (b : Body R)
  /-- a projection, of the square or not; `none`: what happened to be in the ghost slice -/
  | proj (p : Option (Bool × Body R))
  | power (p : Power R) | num (n : Num R) | averages | masked (m : Option (Msk R))
  | strings | stringMap (full : Bool) | coords (b : Body R) | strEnergy (m : Option (Msk R))
  | modes | meank

/-- `sData()` and its tag. -/
structure SD (R : Type) where
  /-- bits 1 `SD_MAP`, 4 `SD_MASK`, 8 `SD_AXITONMASK` -/
  map : Bool
  mask : Bool
  axi : Bool
  /-- the map of strings has a byte per site of the lattice, not per site of a reduced one -/
  full : Bool
  /-- the sites with `STRING_MASK` -/
  marked : Option (Msk R)

structure St (R : Type) where
  m2 : Tag × Body R
  m2h : Tag × Body R
  sd : SD R
  /-- `Reduced()` -/
  red : Bool
  /-- what the projection left in the front ghost slice -/
  pj : Option (Bool × Body R)
  P : Power R
  N : Num R
  /-- the group `/string` is in the file -/
  grp : Bool

/-- Outcome of a call that may store: an existing name is an error that is reported, or the end of
the program. -/
inductive Ev (R : Type)
  | put (n : Name) (v : Val R)
  | hard (n : Name) (v : Val R)
  /-- the configuration, in a file of its own -/
  | save
  /-- `rmasklabel[ii]` outside the vector -/
  | ub

inductive Out
  | energy | mask | antimask
  deriving DecidableEq, Repr

inductive Src
  | P | N
  deriving DecidableEq, Repr

/-- Calls of `Measureme`.  `i` is `ii`, the number of the radius. -/
inductive Cmd
  | save | strMap (data : Bool) | dirty | accel | slices (yz : Bool) | energyMap | eDens | contrast
  | ePlane | project (sq : Bool) | pMap (n : Name) | newSpec | label (i : ℕ)
  | masker (k : M) (i : ℕ) (out : Out) | array (n : Name) (s : Src) | pRun | smooth (i : ℕ)
  | contrastAt (n : Name) | reduce | energySum | averages | strings | strings2 | strCo
  | strEnergy (i : ℕ) | maskedEnergy (i : ℕ) | nRun (k : M) (h : How) (grad : Bool) | nSRun (k : M)
  | modes | meank | hist (set : String)

def Body.isEnergy : Body R → Bool
  | .energy => true
  | _ => false

def Body.fft : Body R → Body R
  | .energy => .energyFFT
  | .energyFFT => .energyFFT
  | _ => .junk

def Body.power : Body R → Power R
  | .energyFFT => .energy
  | _ => .junk

/-- Masks made from the map of strings, spectrum.cpp:2871. -/
def M.ofMap : M → Bool
  | .redo | .gaus | .diff | .ball => true
  | _ => false

/-- Masks that need the tag `SD_MAP` (spectrum.cpp:2752-2774) and whose spectra need `SD_MASK`
(1011-1034). -/
def M.tagged : M → Bool
  | .redo | .gaus | .diff => true
  | _ => false

def M.axiton : M → Bool
  | .axit | .axit2 | .axitv => true
  | _ => false

/-- `masker`, spectrum.cpp:2739-3765.  Not written out, because measa.cpp:68-75 does not let it
happen: masks of axitons for the complex field, masks of strings for the angle.  `SPMASK_AXITV` is given
the radius 0 whatever was asked, 2645-2649. -/
def masker (f : Kind) (k : M) (r : Option R) (out : Out) (s : St R) : St R :=
  match f with
  | .saxion =>
    if k.axiton || k == .flat || (k.tagged && !s.sd.map) then s
    else
      let m : Msk R := ⟨k, r, !k.ofMap || s.sd.full⟩
      { s with
        P := .mask m
        m2 := match out with
          | .antimask => (.antimask, .antimask m)
          | _ => (.mask, .mask m)
        m2h := (s.m2h.1, .mask m)
        sd := { s.sd with
          marked := if k.ofMap then some m else s.sd.marked
          mask := if k.tagged then true else s.sd.mask
          axi := if k.tagged then false else s.sd.axi } }
  | .axion =>
    if !k.axiton || (s.m2.1 != .energy && s.m2h.1 != .energy) then s
    else
      let e := if s.m2.1 = .energy then s.m2.2 else s.m2h.2
      let m : Msk R := ⟨k, if k = .axitv then none else r, e.isEnergy⟩
      let marked := if k = .axitv then s.sd.marked else some m
      { s with
        P := .masked m
        m2h := (.energy, e)
        m2 := match out with
          | .energy => (.energy, e)
          | .mask => (.mask, .mask m)
          | .antimask => (.antimask, .antimask m)
        sd := if k = .axit2 then ⟨false, false, true, s.sd.full, marked⟩
          else { s.sd with marked := marked } }
  | _ => s

/-- `pRun`, spectrum.cpp:761-815. -/
def pRun (s : St R) : St R :=
  if s.m2.1 = .energyFFT then { s with P := s.m2.2.power }
  else if s.m2.1 = .energy then
    { s with P := s.m2.2.fft.power, m2 := (.energyFFT, s.m2.2.fft) }
  else if s.m2h.1 = .energy then
    { s with P := s.m2h.2.fft.power, m2 := (.energyFFT, s.m2h.2.fft) }
  else s

/-- What `smoothFourier` makes of an array of amplitudes. -/
def Body.smoothed (i : ℕ) : Body R → Body R
  | .energyFFT => .smooth i
  | _ => .junk

/-- `smoothFourier`, spectrum.cpp:2080-2158. -/
def smooth (i : ℕ) (s : St R) : St R :=
  let from_ (b : Body R) : St R := { s with m2 := (.smooth, b.smoothed i), m2h := (.energyFFT, b) }
  if s.m2.1 = .energyFFT ∧ s.m2h.1 = .energyFFT then { s with m2 := (.smooth, s.m2.2.smoothed i) }
  else if s.m2.1 = .energyFFT then from_ s.m2.2
  else if s.m2h.1 = .energyFFT then from_ s.m2h.2
  else if s.m2.1 = .energy then from_ s.m2.2.fft
  else if s.m2h.1 = .energy then from_ s.m2h.2.fft
  else s

/-- Reduction of the energy, reducer.cpp:283-338. -/
def reduce (s : St R) : St R :=
  if s.m2.1 = .energy ∨ s.m2.1 = .energyFFT then
    { s with
      m2 := (.energy, match s.m2.2.fft with | .energyFFT => .reduced | _ => .junk)
      red := true }
  else s

/-- Where `nRun` and `nSRun` find the mask: kgvops.cpp:270-290 and spectrum.cpp:1944-1976 for the
complex field, spectrum.cpp:1590-1735 for the angle. -/
def seen (f : Kind) (k : M) (s : St R) : Seen R :=
  match f, k with
  | .saxion, .redo | .saxion, .ball => .sData s.sd.marked
  | .saxion, .gaus | .saxion, .diff => .array s.m2h.2
  | .axion, .axit => .array s.m2.2
  | .axion, .axit2 => .sData s.sd.marked
  | _, _ => .self

/-- `nRun`, spectrum.cpp:1003-1045, 1568-1745.  The second half of the array is used for the gradient
along z, 1160-1180, 1532-1545.  For kinds without a case the bins are set to zero and nothing more. -/
def nRun (f : Kind) (k : M) (h : How) (grad : Bool) (s : St R) : St R :=
  if (k.tagged && !s.sd.mask) || (k == .axit2 && !s.sd.axi) || k == .axitv then s
  else
    match f with
    | .saxion =>
      if k.axiton then s
      else { s with
        N := .run h k (seen f k s), m2 := (.dirty, .junk)
        m2h := (s.m2h.1, if grad then .junk else s.m2h.2) }
    | .axion =>
      if k.axiton || k == .flat then { s with N := .run h k (seen f k s), m2 := (.dirty, .junk) } else s
    | _ => { s with N := .zero }

/-- `nSRun`, spectrum.cpp:1749-1900, 2033; called for the complex field only. -/
def nSRun (k : M) (s : St R) : St R :=
  match k with
  | .flat | .vil | .vil2 | .ball => { s with N := .run .sax k (seen .saxion k s), m2 := (.dirty, .junk) }
  | .redo => if s.sd.mask then { s with N := .run .sax k (seen .saxion k s), m2 := (.dirty, .junk) } else s
  | _ => s

/-- `%.2f` of a radius. -/
def rlab (F : Fmt R) (q : Req R) (i : ℕ) : String :=
  match q.radii[i]? with
  | some r => F.lab r
  | none => ""

/-- `PRELABEL`, measa.cpp:509-512, 594-597. -/
def preLabel (F : Fmt R) (q : Req R) (k : M) (i : ℕ) : List String :=
  if k.mul then [k.lab, rlab F q i] else [k.lab]

/-- One call.  `pos` is `rmask > 0.` of a label, readWrite.pHdf5.cpp:2732-2743. -/
def step (F : Fmt R) (pos : R → Bool) (q : Req R) (s : St R) : Cmd → St R × List (Ev R)
  | .save => (s, [.save])
  | .strMap data =>
    ({ s with grp := true }, (if s.grp then [] else [.put ⟨"/string", []⟩ .strings]) ++
      (if data then [.put ⟨"/string", ["data"]⟩ (.stringMap s.sd.full)] else []))
  | .dirty =>
    ({ s with m2 := (.dirty, .junk), m2h := (.dirty, .junk),
              sd := ⟨false, false, false, s.sd.full, s.sd.marked⟩ }, [])
  | .accel => (s, [.put ⟨"/bins", ["fsacceleration"]⟩ .accel])
  | .slices yz =>
    let g := if yz then "/mapp" else "/map"
    (s, [.hard ⟨g, ["m"]⟩ .slice, .hard ⟨g, ["v"]⟩ .slice])
  | .energyMap => ({ s with m2 := (.energy, .energy), red := false }, [])
  | .eDens =>
    (s, [.hard ⟨if s.red then "/energy/rdensity" else "/energy/density", ["theta"]⟩ (.density s.m2.2)])
  | .contrast => (s, [.put ⟨"/bins", ["contB"]⟩ (.contrast s.m2.2)])
  | .ePlane => (s, if s.m2.1 = .energy ∨ s.m2.1 = .antimask ∨ s.m2.1 = .mask then
      [.hard ⟨"/map", ["E"]⟩ (.plane s.m2.2)] else [])
  | .project sq =>
    (if s.m2.1 = .energy ∨ s.m2.1 = .antimask ∨ s.m2.1 = .mask ∨ s.m2.1 = .smooth then
      { s with pj := some (sq, s.m2.2) } else s, [])
  | .pMap n => (s, [.hard n (.proj s.pj)])
  | .newSpec => ({ s with P := .zero, N := .zero }, [])
  | .label i => (s, if q.radii.length ≤ i then [.ub] else [])
  | .masker k i out => (masker q.field k q.radii[i]? out s, [])
  | .array n .P => (s, [.put n (.power s.P)])
  | .array n .N => (s, [.put n (.num s.N)])
  | .pRun => (pRun s, [])
  | .smooth i => (smooth i s, [])
  | .contrastAt n => (s, [.put n (.contrast s.m2.2)])
  | .reduce => (reduce s, [])
  | .energySum => ({ s with red := false }, [])
  | .averages => (s, [.put ⟨"/energy", []⟩ .averages])
  | .strings => ({ s with sd := ⟨true, false, false, !s.red, none⟩ }, [])
  | .strings2 => ({ s with sd := ⟨true, false, false, !s.red, none⟩, m2 := (.coords, .coords) }, [])
  | .strCo => ({ s with grp := true }, (if s.grp then [] else [.put ⟨"/string", []⟩ .strings]) ++
      [.put ⟨"/string", ["codata"]⟩ (.coords s.m2.2)])
  | .strEnergy i =>
    (s, if s.grp then [.put ⟨"/string", ["rmask", rlab F q i]⟩ (.strEnergy s.sd.marked)] else [])
  | .maskedEnergy i =>
    ({ s with red := if s.sd.mask then false else s.red },
      match q.radii[i]? with
      | some r => if pos r then [.put ⟨"/energy", ["Redmask", F.lab r]⟩
          (.masked (if s.sd.mask then s.sd.marked else none))] else []
      | none => [])
  | .nRun k h g => (nRun q.field k h g s, [])
  | .nSRun k => (nSRun k s, [])
  | .modes => (s, [.put ⟨"/nSpectrum", ["nmodes"]⟩ .modes])
  | .meank => (s, [.put ⟨"/nSpectrum", ["averagek"]⟩ .meank])
  | .hist set => (s, [.put ⟨"/bins", [set]⟩ (.hist set)])

/-- The events of a list of calls. -/
def trace (F : Fmt R) (pos : R → Bool) (q : Req R) : List Cmd → St R → List (Ev R)
  | [], _ => []
  | c :: cs, s => (step F pos q s c).2 ++ trace F pos q cs (step F pos q s c).1

/-- The state after a list of calls. -/
def after (F : Fmt R) (pos : R → Bool) (q : Req R) (cs : List Cmd) (s : St R) : St R :=
  cs.foldl (fun s c => (step F pos q s c).1) s

/-! ### The calls -/

/-- `if (b) l`. -/
def when {α : Type} (b : Bool) (l : List α) : List α := if b then l else []

/-- One mask of measa.cpp:290-320. -/
def maskedPower (q : Req R) (k : M) (name : ℕ → List String) (lab : Bool) : List Cmd :=
  when (q.field == .axion && on q.eff k.bit)
    ((List.range q.irmask).flatMap fun i => when lab [.label i] ++
      [.masker k i .energy, .array ⟨"/pSpectrum", name i⟩ .P])

/-- measa.cpp:290-324: masked spectra of the energy, then the spectrum itself. -/
def powers (F : Fmt R) (q : Req R) : List Cmd :=
  maskedPower q .axit (fun i => ["sPmasked", rlab F q i]) true ++
    maskedPower q .axit2 (fun i => ["sPmasked2", rlab F q i]) true ++
    maskedPower q .axitv (fun _ => ["sPmaskedV"]) false ++ [.pRun, .array ⟨"/pSpectrum", ["sP"]⟩ .P]

/-- measa.cpp:327-367. -/
def multi (F : Fmt R) (q : Req R) : List Cmd :=
  (List.range (q.steps + 1)).flatMap fun i =>
    [.smooth i, .contrastAt ⟨"/bins", ["cont" ++ F.d3 i ++ "B"]⟩, .project false,
      .pMap ⟨"/map", ["P" ++ F.d3 i]⟩]

/-- measa.cpp:217-415. -/
def energyBlock (F : Fmt R) (q : Req R) (a : ℕ) : List Cmd :=
  let mapsneed := on q.maps XYPE2 || on q.maps XYPE || on q.maps XYE
  when (on a NEEDENERGY || mapsneed)
    ((if on a NEEDENERGYM2 || mapsneed then
        [.energyMap] ++ when (on a ENERGY3DMAP) [.eDens] ++ when (on a BINDELTA) [.contrast] ++
        when (on q.maps XYE) [.ePlane] ++
        when (on q.maps XYPE) [.project false, .pMap ⟨"/map", ["P"]⟩] ++
        when (on q.maps XYPE2) [.project true, .pMap ⟨"/map", ["P"]⟩] ++
        when (on a (PSP_A ||| REDENE3DMAP ||| PSP_S ||| MULTICON))
          ([.newSpec] ++ when (on a (PSP_A ||| REDENE3DMAP ||| MULTICON))
            (powers F q ++ when (on a MULTICON) (multi F q) ++
              when (on a REDENE3DMAP && decide (0 < q.redmap)) [.reduce, .eDens]))
      else [.energySum]) ++ [.averages])

/-- measa.cpp:426-463.  `mask & SPMASK_REDO | SPMASK_GAUS | SPMASK_DIFF` is `(mask & 8) | 16 | 32`. -/
def stringBlock (q : Req R) (a : ℕ) : List Cmd :=
  when (q.field == .saxion &&
      (on a (STRING ||| STRINGMAP ||| STRINGCOO ||| MASK) || ((q.eff &&& 8) ||| 16 ||| 32) != 0))
    (if !on a STRINGCOO then
        [.strings] ++
        (if on a STRINGMAP then when q.few [.strMap true] else when (!on a MASK) [.strMap false])
      else [.strings2] ++ when (on a STRINGMAP) [.strMap true] ++ [.strCo])

/-- Numbers of the radii a mask is used with: all, or the first (`break`, measa.cpp:553-554, 775-776). -/
def Req.rounds (q : Req R) (k : M) : List ℕ := if k.mul then List.range q.irmask else [0]

/-- measa.cpp:482-557. -/
def maskPass (F : Fmt R) (q : Req R) : List Cmd :=
  (maskara8.filter fun k => on q.eff k.bit).flatMap fun k => (q.rounds k).flatMap fun i =>
    when k.mul [.label i] ++
    [.masker k i .antimask, .array ⟨"/mSpectrum", "W" :: preLabel F q k i⟩ .P, .project false,
      .pMap ⟨"/map", "W" :: preLabel F q k i⟩]

/-- `NRUN_*`, enum-field.h:618-629. -/
def nsets (F : Fmt R) (q : Req R) (k : M) (i : ℕ) (names : List (ℕ × String × Bool)) : List Cmd :=
  names.flatMap fun (b, n, needsMass) => when (on q.nrt b && (!needsMass || q.massive))
    [.array ⟨"/eSpectrum", n :: preLabel F q k i⟩ .N]

/-- One radius of one mask, measa.cpp:594-776. -/
def round (F : Fmt R) (q : Req R) (a : ℕ) (k : M) (i : ℕ) : List Cmd :=
  when k.mul [.label i] ++
  when k.prnt ([.masker k i .mask] ++
    when (!(on a MASK)) [.array ⟨"/mSpectrum", "W" :: preLabel F q k i⟩ .P] ++
    when (on q.strmeas 4 && k == .redo) [.strEnergy i] ++
    when (k == .redo) [.maskedEnergy i]) ++
  when (!(k == .redo && q.maskenergyonly))
    (when (on q.nrt 15) ([.nRun k .lut (on q.nrt 2)] ++
        nsets F q k i [(1, "sK", false), (2, "sG", false), (4, "sV", true), (8, "sS", true)]) ++
     when (on q.nrt 240) ([.nRun k .pure (on q.nrt 32)] ++
        nsets F q k i [(16, "sCK", false), (32, "sCG", false), (64, "sCV", true), (128, "sCS", true)]) ++
     when (q.field == .saxion && on a NSP_S) ([.nSRun k] ++
        nsets F q k i [(1, "sKS", false), (2, "sGS", false), (4, "sVS", false)]))

/-- measa.cpp:564-836.  The block for `SPMASK_SAXI` (782-793) needs a bit that line 69 takes away. -/
def numberPass (F : Fmt R) (q : Req R) (a : ℕ) : List Cmd :=
  when (on a (NSP_A ||| NSP_S ||| NNSPEC))
    (((maskara9.filter fun k => on q.eff k.bit).flatMap fun k =>
        (q.rounds k).flatMap fun i => round F q a k i) ++
      when (q.index == 0 || on a NNSPEC) [.modes, .meank])

/-- measa.cpp:474-837. -/
def spectrumBlock (F : Fmt R) (q : Req R) (a : ℕ) : List Cmd :=
  when (on a SPECTRUM) ([.newSpec] ++ when (on a MASK) (maskPass F q) ++ numberPass F q a)

/-- measa.cpp:841-930. -/
def binBlock (q : Req R) (a : ℕ) : List Cmd :=
  match q.field with
  | .saxion => when (on a BINTHETA) [.hist "thetaB"] ++ when (on a BINRHO) [.hist "rhoB"] ++
      when (on a BINLOGTHETA2) [.hist "logtheta2B"]
  | .axion => when (on a BINTHETA) [.hist "thetaB"] ++ when (on a BINLOGTHETA2) [.hist "logtheta2B"]
  | .naxion => when (on a BINTHETA) [.hist "thetaP2"]
  | .paxion => []

/-- measa.cpp:162-966, when there is something to measure. -/
def body (F : Fmt R) (q : Req R) (a : ℕ) : List Cmd :=
  when (q.field == .axion && q.mend && on a MASK) [.strMap true] ++ [.dirty] ++
  when q.mom [.accel] ++ when (on q.maps XYMV) [.slices false] ++
  when (on q.maps YZMV) [.slices true] ++
  energyBlock F q a ++ stringBlock q a ++ spectrumBlock F q a ++ binBlock q a

/-- `measa` after measa.cpp:141-150. -/
def Req.left (q : Req R) : ℕ := if on q.meas CONF3D then q.meas ^^^ CONF3D else q.meas

/-- `Measureme`, measa.cpp:28-1023. -/
def calls (F : Fmt R) (q : Req R) : List Cmd :=
  when (on q.meas CONF3D) [.save] ++ (if q.left = 0 then [] else body F q q.left)

/-- A fresh file; `red` is what the last call left, `full` belongs to what is in `sData()`. -/
def start (red full : Bool) (marked : Option (Msk R)) : St R where
  m2 := (.dirty, .junk)
  m2h := (.dirty, .junk)
  sd := ⟨false, false, false, full, marked⟩
  red := red
  pj := none
  P := .zero
  N := .zero
  grp := false

/-! ### The file -/

abbrev File (R : Type) := List (Name × Val R)

inductive Halt (R : Type)
  /-- read outside a vector -/
  | ub
  /-- `exit(0)` -/
  | exit (f : File R)

/-- The sets in the file.  `writeArray` reports that a set is there already and leaves it
(readWrite.pHdf5.cpp:2958-3005); maps and densities end the program (3202, 4306). -/
def store : List (Ev R) → File R → Except (Halt R) (File R)
  | [], f => .ok f
  | .put n v :: es, f => store es (if n ∈ f.map Prod.fst then f else f ++ [(n, v)])
  | .hard n v :: es, f => if n ∈ f.map Prod.fst then .error (.exit f) else store es (f ++ [(n, v)])
  | .save :: es, f => store es f
  | .ub :: _, _ => .error .ub

/-- The measurement file after a call of `Measureme`. -/
def run (F : Fmt R) (pos : R → Bool) (q : Req R) (s : St R) : Except (Halt R) (File R) :=
  store (trace F pos q (calls F q) s) []

end Jaxions.MeasRun
