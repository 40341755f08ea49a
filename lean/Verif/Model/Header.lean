import Mathlib.Data.Nat.Notation

/-
The header of a configuration file.

Source: lib/io/readWrite.pHdf5.cpp, `writeConf` 228-229 (buffers), 306-317, 326-400,
408-434 (texts), 447-510 (attributes), 511-622 (initial conditions), `readConf`
764-766 (buffers), 858-886 and 912-1127 (parameters and potential); 36-39 (`caspr`);
57-66 (`writeAttribute`); lib/utils/parse.cpp 940-1012, 1228-1300, 1584-1605 (options),
2621-2622 and 2740-2808 (`createCosmos`); include/cosmos/cosmos.h:36-37.
-/

namespace Jaxions.Header

/-! ### Bits of `VqcdType`, enum-field.h:104-130 -/

def V_QCD : ℕ := 63
def V_PQ : ℕ := 3584
def V_DAMP : ℕ := 49152
def V_EVOL_THETA : ℕ := 4096
def V_EVOL_RHO : ℕ := 8192
def V_DAMP_RHO : ℕ := 16384
def V_DAMP_ALL : ℕ := 32768

/-- The four texts about the potential in the group `/potential`. -/
structure PotTexts where
  qcd : String
  pq : String
  damp : String
  evol : String
  deriving DecidableEq, Repr

/-- readWrite.pHdf5.cpp:408-417: `default` stands on the first case. -/
def qcdText (p : ℕ) : String :=
  match p &&& V_QCD with
  | 32 => "VQcd Cos"
  | 2 => "VQcd 1"
  | 1 => "VQcd 0"
  | 4 => "VQcd Variant"
  | 16 => "VQcd Linear"
  | 8 => "VQcd N = 2"
  | _ => "VQcd Cos"

/-- readWrite.pHdf5.cpp:419-424. -/
def pqText (p : ℕ) : String :=
  match p &&& V_PQ with
  | 1024 => "VPQ 1"
  | 2048 => "VPQ 2"
  | 512 => "VPQ 3"
  | _ => "VPQ 1"

/-- readWrite.pHdf5.cpp:426-431. -/
def dampText (p : ℕ) : String :=
  match p &&& V_DAMP with
  | 16384 => "Rho"
  | 32768 => "All"
  | _ => "None"

/-- readWrite.pHdf5.cpp:433-437: only the bit `V_EVOL_RHO` is looked at. -/
def evolText (p : ℕ) : String :=
  match p &&& V_EVOL_RHO with
  | 8192 => "Only Rho"
  | _ => "Full"

/-- What `writeConf` stores about the potential. -/
def writePot (p : ℕ) : PotTexts := ⟨qcdText p, pqText p, dampText p, evolText p⟩

/-- readWrite.pHdf5.cpp:1011-1052: QCD part; `cmd` is `myCosmos->QcdPot()`, set from
the command line. -/
def readQcd (i3zero : Bool) (cmd : ℕ) (t : PotTexts) : ℕ :=
  if i3zero then 1
  else if cmd &&& V_QCD = 0 then
    if t.qcd = "VQcd 1" then 2
    else if t.qcd = "VQcd Variant" ∨ t.qcd = "VQcd 2" then 4
    else if t.qcd = "VQcd 0" then 1
    else if t.qcd = "VQcd Linear" then 16
    else if t.qcd = "VQcd Cos" then 32
    else if t.qcd = "VQcd N = 2" then 8
    else 2
  else cmd &&& V_QCD

/-- readWrite.pHdf5.cpp:1056-1074: PQ part. -/
def readPq (cmd : ℕ) (t : PotTexts) : ℕ :=
  if cmd &&& V_PQ = 0 then
    if t.pq = "VPQ 1" then 1024
    else if t.pq = "VPQ2" then 2048
    else if t.pq = "VPQ3" then 512
    else 1024
  else cmd &&& V_PQ

/-- readWrite.pHdf5.cpp:1077-1093: damping. -/
def readDamp (cmd : ℕ) (t : PotTexts) : ℕ :=
  if cmd &&& V_DAMP = 0 then
    if t.damp = "Rho" then V_DAMP_RHO
    else if t.damp = "All" then V_DAMP_ALL
    else 0
  else cmd &&& V_DAMP

/-- readWrite.pHdf5.cpp:1100-1127: evolution. -/
def readEvol (cmd : ℕ) (t : PotTexts) : ℕ :=
  if cmd &&& (V_EVOL_RHO ||| V_EVOL_THETA) = 0 then
    if t.evol = "Only Rho" then V_EVOL_RHO else 0
  else if cmd &&& V_EVOL_THETA ≠ 0 ∧ cmd &&& V_EVOL_RHO ≠ 0 then 0
  else if cmd &&& V_EVOL_RHO ≠ 0 then cmd &&& V_EVOL_RHO
  else cmd &&& V_EVOL_THETA

/-- The potential after `readConf`. -/
def readPot (i3zero : Bool) (cmd : ℕ) (t : PotTexts) : ℕ :=
  readQcd i3zero cmd t ||| readPq cmd t ||| readDamp cmd t ||| readEvol cmd t

/-! ### The options -/

/-- QCD potentials. -/
inductive Qcd where
  | q0 | q1 | qV | q2 | qL | qC
  deriving DecidableEq, Repr

def Qcd.bit : Qcd → ℕ
  | .q0 => 1 | .q1 => 2 | .qV => 4 | .q2 => 8 | .qL => 16 | .qC => 32

inductive Pq where
  | p1 | p2 | p3
  deriving DecidableEq, Repr

def Pq.bit : Pq → ℕ
  | .p1 => 1024 | .p2 => 2048 | .p3 => 512

inductive Damp where
  | none | rho | all
  deriving DecidableEq, Repr

def Damp.bit : Damp → ℕ
  | .none => 0 | .rho => 16384 | .all => 32768

inductive Evol where
  | full | rho | theta
  deriving DecidableEq, Repr

def Evol.bit : Evol → ℕ
  | .full => 0 | .rho => 8192 | .theta => 4096

/-- Options about the potential; `--ind3` with zero or another value. -/
inductive PotOpt where
  | vqcdC | vqcdV | vqcdL | vqcd0 | n2
  | vPQ1 | vPQ2 | vPQ3
  | onlyrho | onlytheta
  | gam | dectime | gamall
  | ind3 (zero : Bool)
  deriving DecidableEq, Repr

/-- The variables they set (parse.cpp:24, 73, 110-113). -/
structure PotVars where
  uPot : Bool
  q : Qcd
  pq : Pq
  damp : Damp
  evol : Evol
  /-- `none`: `uI3` is false -/
  ind3 : Option Bool
  deriving DecidableEq, Repr

def PotVars.init : PotVars := ⟨false, .q1, .p1, .none, .full, none⟩

/-- One option. -/
def potOption (v : PotVars) : PotOpt → PotVars
  | .vqcdC => { v with uPot := true, q := .qC }
  | .vqcdV => { v with uPot := true, q := .qV }
  | .vqcdL => { v with uPot := true, q := .qL }
  | .vqcd0 => { v with uPot := true, q := .q0, ind3 := some true }
  | .n2 => { v with uPot := true, q := .q2 }
  | .vPQ1 => { v with uPot := true, pq := .p1 }
  | .vPQ2 => { v with uPot := true, pq := .p2 }
  | .vPQ3 => { v with uPot := true, pq := .p3 }
  | .onlyrho => { v with uPot := true, evol := .rho }
  | .onlytheta => { v with uPot := true, evol := .theta }
  | .gam | .dectime => { v with uPot := true, damp := .rho }
  | .gamall => { v with uPot := true, damp := .all }
  | .ind3 z => { v with ind3 := some z, q := if z then .q0 else v.q }

def potParse (os : List PotOpt) : PotVars := os.foldl potOption .init

/-- parse.cpp:2621-2622. -/
def PotVars.type (v : PotVars) : ℕ := v.q.bit ||| v.pq.bit ||| (v.damp.bit ||| v.evol.bit)

/-- What a file holds about the potential: the texts and whether `Indi3` is zero. -/
structure PotFile where
  texts : PotTexts
  i3zero : Bool
  deriving DecidableEq, Repr

/-- A fresh run, parse.cpp:2794-2807: potential, and whether `indi3` is zero (the
default is 1). -/
def freshPot (os : List PotOpt) : ℕ × Bool :=
  let v := potParse os
  (v.type, v.ind3.getD false)

/-- The file it writes. -/
def savePot (r : ℕ × Bool) : PotFile := ⟨writePot r.1, r.2⟩

/-- A run started from a file with the options `os`: parse.cpp:2749-2775 and
readWrite.pHdf5.cpp:951-957, 1011-1129. -/
def restartPot (os : List PotOpt) (f : PotFile) : ℕ × Bool :=
  let v := potParse os
  let cmd := if v.uPot then v.type else 0
  let i3 := v.ind3.getD f.i3zero
  (readPot i3 cmd f.texts, i3)

/-! ### The cosmological parameters -/

/-- The members of `Cosmos` that a run depends on. -/
structure Cosm (α : Type) where
  lSize : α
  lambda : α
  lz2e : α
  indi3 : α
  gamma : α
  dectime : α
  nQcd : α
  nQcdr : α
  zThRes : α
  zRestore : α
  frw : α
  deriving DecidableEq, Repr

/-- `LambdaType`. -/
inductive LamType where
  | fixed | z2
  deriving DecidableEq, Repr

/-- The attributes stored, readWrite.pHdf5.cpp:454-510: the decay time is not among
them. -/
structure CosmFile (α : Type) where
  lSize : α
  lambda : α
  lz2e : α
  lamText : String
  indi3 : α
  gamma : α
  nQcd : α
  nQcdr : α
  zThRes : α
  zRestore : α
  frw : α
  deriving DecidableEq, Repr

def lamText : LamType → String
  | .z2 => "z2"
  | .fixed => "Fixed"

def saveCosm {α : Type} (c : Cosm α) (l : LamType) : CosmFile α :=
  ⟨c.lSize, c.lambda, c.lz2e, lamText l, c.indi3, c.gamma, c.nQcd, c.nQcdr, c.zThRes, c.zRestore,
    c.frw⟩

/-- `readConf` without overriding options: every member has the sentinel of the
constructor (cosmos.h:36-37), so it is read, except `frw`, which keeps the value 1
of the constructor (readWrite.pHdf5.cpp:864-874), and the decay time, which keeps −1.
`none`: unknown text of the type of λ, the program ends. -/
def readCosm {α : Type} [Zero α] [One α] [Neg α] (f : CosmFile α) : Option (Cosm α × LamType) :=
  if f.lamText = "z2" then
    some (⟨f.lSize, f.lambda, f.lz2e, f.indi3, f.gamma, -1, f.nQcd, f.nQcdr, f.zThRes, f.zRestore,
      1⟩, .z2)
  else if f.lamText = "Fixed" then
    some (⟨f.lSize, f.lambda, 0, f.indi3, f.gamma, -1, f.nQcd, f.nQcdr, f.zThRes, f.zRestore,
      1⟩, .fixed)
  else none

/-! ### Texts and buffers -/

/-- `char` arrays of the two functions, readWrite.pHdf5.cpp:228, 765. -/
inductive Buf where
  | prec | fStr | lStr | rStr | dStr | vStr | vPQStr | icStr | smStr
  deriving DecidableEq, Repr

def Buf.size : Buf → ℕ
  | .vStr => 32
  | .vPQStr => 32
  | _ => 16

/-- `length`, the size of a text attribute (229, 766). -/
def attrLength : ℕ := 32

/-- Initial conditions (enum-field.h:299-311). -/
inductive CType where
  | none | smooth | kmax | vilgor | vilgork | vilgors | tkachev | read | lola | cole | spax
  | thermal | string
  deriving DecidableEq, Repr

/-- readWrite.pHdf5.cpp:511-568. -/
def icText : CType → String
  | .smooth => "Smooth"
  | .kmax => "kMax"
  | .vilgor => "VilGor"
  | .vilgork => "VilGor"
  | .vilgors => "VilGor"
  | .lola => "Lola"
  | .cole => "Cole"
  | .tkachev => "Tkachev"
  | .thermal => "Thermal"
  | .spax => "Axion Spectrum"
  | _ => "None"

/-- Sub types (enum-field.h:317-329). -/
inductive SmType where
  | rand | stringxy | stringyz | minicluster0 | minicluster | axnoise | saxnoise | ax1mode | parres
  | axiton | strwave | thetavel | velrand
  deriving DecidableEq, Repr

/-- readWrite.pHdf5.cpp:570-622. -/
def smText : SmType → String
  | .rand => "Random"
  | .stringxy => "String XY"
  | .stringyz => "String YZ"
  | .minicluster => "Minicluster"
  | .minicluster0 => "Minicluster 0"
  | .axnoise => "Axion noise"
  | .saxnoise => "Saxion noise"
  | .ax1mode => "Axion one mode"
  | .axiton => "Minicluster 0"
  | .parres => "Parametric Resonance"
  | .strwave => "String + wave"
  | _ => "None"

/-- Everything the texts depend on. -/
structure TextState where
  double : Bool
  /-- text of the field type, 326-371 -/
  field : Fin 5
  lam : LamType
  pot : ℕ
  ic : CType
  sm : SmType

/-- readWrite.pHdf5.cpp:326-371. -/
def fieldText : Fin 5 → String
  | 0 => "Saxion"
  | 1 => "Axion Mod"
  | 2 => "Axion"
  | 3 => "Naxion"
  | 4 => "Paxion"

/-- The text printed into each buffer. -/
def textOf (s : TextState) : Buf → String
  | .prec => if s.double then "Double" else "Single"
  | .fStr => fieldText s.field
  | .lStr => lamText s.lam
  | .rStr => evolText s.pot
  | .dStr => dampText s.pot
  | .vStr => qcdText s.pot
  | .vPQStr => pqText s.pot
  | .icStr => icText s.ic
  | .smStr => smText s.sm

/-- `sprintf (buffer, text)` stays in the buffer: the text and its terminator. -/
def sprintfOk (b : Buf) (text : String) : Prop := text.length + 1 ≤ b.size

/-- `H5Awrite` or `H5Aread` with the text type stays in the buffer: it transfers
`attrLength` bytes whatever the text. -/
def transferOk (b : Buf) : Prop := attrLength ≤ b.size

/-- The buffers read by `readConf`: `vStr` serves for all four texts of the
potential, `icStr` for both of the initial conditions. -/
def readBufs : List Buf := [.fStr, .prec, .lStr, .vStr, .icStr]

/-- Length of `%05d` of a natural number. -/
def indexLength (n : ℕ) : ℕ := max 5 (Nat.toDigits 10 n).length

/-- `sprintf(base, "%s/%s.%05d", outDir, outName, index)` into `char base[256]`
(272-277). -/
def pathOk (dir name : String) (index : ℕ) : Prop :=
  dir.length + 1 + name.length + 1 + indexLength index + 1 ≤ 256

/-- The attributes of the root group in the order of their creation (447-472). -/
def rootAttrs (temperature restart : Bool) : List String :=
  ["Field type", "Precision", "Precision", "Size", "Depth", "Saxion mass", "Axion mass",
    "Physical size", "z", "R", "Frw"] ++ (if temperature then ["Temperature"] else []) ++
  ["zInitial", "zFinal", "nSteps", "Current step"] ++ (if restart then ["index"] else [])

/-- `H5Acreate2` fails for a name that exists; then `writeAttribute` (57-66) formats
an error message with a missing argument.  The names for which that happens. -/
def failedAttrs : List String → List String → List String
  | _, [] => []
  | seen, a :: l => if a ∈ seen then a :: failedAttrs seen l else failedAttrs (a :: seen) l

end Jaxions.Header
