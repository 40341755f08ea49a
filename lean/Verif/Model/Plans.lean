import Mathlib.Data.Nat.Notation

/-
The registry of FFT plans.

Source: lib/fft/fftCode.cpp and include/fft/fftCode.h.

FFTW itself is modelled by its contract only: a planner call returns a new
handle, `destroy_plan` of a handle that is not alive (or of a pointer which was
never set) is undefined, `destroy_plan` and `execute` of a null pointer are a
no-op and undefined respectively.  Simplifications: the planner never fails; a
constructor call that ends the program with `exit(0)` (fftCode.cpp:106-109 and
the `lowmem` checks, e.g. 156-159) is not a history; wisdom files, timings and
messages other than errors are left out; the references returned by `fetchPlan`
are not kept over a removal.
-/

namespace Jaxions.Plans

/-- include/enum-field.h:492-513, `FFTtype`. -/
inductive Kind where
  | noType | ccMM | ccM2M2 | ccMM2 | ccVM2 | spSx | spAx | pspecSx | pspecAx
  | rdSxM | rdSxV | rhoSx | rcMMwkb | rcVVwkb | rcM2M2wkb | ccVV | ccM2M
  | rcM2M | rcM2V | rcM2SM2S
  deriving DecidableEq, Repr

/-- The cases of the two switches over `type`, fftCode.cpp:136-311 and 337-509.
`FFT_NOTYPE` and `FFT_PSPEC_SX` have none and reach `default`, which only logs
"No FFT plan selected". -/
def Kind.hasCase : Kind → Bool
  | .noType | .pspecSx => false
  | _ => true

/-- `FieldPrecision` (include/enum-field.h). -/
inductive Prec where
  | none | single | double
  deriving DecidableEq, Repr

/-- The two bits of `FFTdir` (`FFT_FWD`, `FFT_BCK`; both is `FFT_FWDBCK`). -/
structure Dir where
  fwd : Bool
  bck : Bool
  deriving DecidableEq, Repr

/-- A plan pointer: null, never set, or what the planner returned. -/
inductive Ptr where
  | null
  | wild
  | handle (n : ℕ)
  deriving DecidableEq, Repr

/-- The members of `FFTplan` that matter, include/fft/fftCode.h:16-24.  `owner`
is the field whose memory the planner was given. -/
structure Plan where
  owner : ℕ
  fwd : Ptr
  bck : Ptr
  dir : Dir
  prec : Prec
  deriving DecidableEq, Repr

/-- The default constructor, include/fft/fftCode.h:33. -/
def Plan.empty : Plan := ⟨0, .null, .null, ⟨false, false⟩, .none⟩

/-- The errors logged through this interface. -/
inductive Err where
  /-- "No FFT plan selected." and "Invalid field precision. Plan not created." -/
  | notCreated
  /-- "Invalid field precision, plan not executed." -/
  | notRun
  /-- "Invalid field precision, can't remove plan (probably it doesn't even exist)." -/
  | notRemoved
  /-- "Invalid field precision." at the end of `closeFFT` -/
  | notClosed
  deriving DecidableEq, Repr

/-- The static state of the file (fftCode.cpp:10-12), the handles FFTW has given
out (`made`), those destroyed (`gone`, in order), those still usable (`live`),
the transforms executed and the errors logged. -/
structure State (N : Type) where
  plans : List (N × Plan)
  init : Bool
  made : List ℕ
  live : List ℕ
  gone : List ℕ
  ran : List (ℕ × ℕ)
  errs : List Err
  deriving DecidableEq

variable {N : Type} [DecidableEq N] [LT N] [DecidableRel (α := N) (· < ·)]

/-- `std::map::find`. -/
def find (name : N) (l : List (N × Plan)) : Option Plan :=
  (l.find? (fun e => e.1 = name)).map (·.2)

/-- Insertion of a new key in a `std::map`, which keeps the names sorted. -/
def insert (name : N) (p : Plan) : List (N × Plan) → List (N × Plan)
  | [] => [(name, p)]
  | e :: l => if name < e.1 then (name, p) :: e :: l else e :: insert name p l

/-- `std::map::erase` of a key. -/
def erase (name : N) (l : List (N × Plan)) : List (N × Plan) :=
  l.filter (fun e => e.1 ≠ name)

/-- One call of the FFTW planner: a handle never given out before. -/
def planner (s : State N) : ℕ × State N :=
  let n := s.made.length
  (n, { s with made := s.made ++ [n], live := s.live ++ [n] })

/-- The constructor of a plan, fftCode.cpp:102-520: the switch over the
precision, then over the type, then `if (dFft & FFT_FWD)`, `if (dFft & FFT_BCK)`.
Pointers not assigned stay unset. -/
def construct (owner : ℕ) (kind : Kind) (prec : Prec) (dir : Dir) (s : State N) :
    Plan × State N :=
  let p : Plan := ⟨owner, .wild, .wild, dir, prec⟩
  if prec = .none then (p, { s with errs := s.errs ++ [.notCreated] })
  else if kind.hasCase then
    let (p, s) := if dir.fwd then
        let (n, s) := planner s; ({ p with fwd := .handle n }, s) else (p, s)
    if dir.bck then
        let (n, s) := planner s; ({ p with bck := .handle n }, s) else (p, s)
  else (p, { s with errs := s.errs ++ [.notCreated] })

/-- fftCode.cpp:634-729, `initFFT`: an unknown precision leaves the flag. -/
def initFFT (prec : Prec) (s : State N) : State N :=
  if s.init then s else if prec = .none then s else { s with init := true }

/-- fftCode.cpp:731-744, `initPlan`. -/
def initPlan (owner : ℕ) (kind : Kind) (prec : Prec) (dir : Dir) (name : N)
    (s : State N) : State N :=
  match find name s.plans with
  | none =>
    let (p, s) := construct owner kind prec dir s
    { s with plans := insert name p s.plans }
  | some _ => s

/-- fftCode.cpp:746-748, `fetchPlan`: `operator[]` inserts a default plan under
a name it does not know. -/
def fetchPlan (name : N) (s : State N) : Plan × State N :=
  match find name s.plans with
  | some p => (p, s)
  | none => (Plan.empty, { s with plans := insert name Plan.empty s.plans })

/-- `fftw_execute`. -/
def execute (owner : ℕ) (p : Ptr) (s : State N) : Option (State N) :=
  match p with
  | .handle n => if n ∈ s.live then some { s with ran := s.ran ++ [(n, owner)] } else none
  | _ => none

/-- The direction given to `run`, which takes exactly one of the two. -/
inductive Way where
  | fwd | bck
  deriving DecidableEq, Repr

/-- fftCode.cpp:525-595, `FFTplan::run`. -/
def runPlan (p : Plan) (way : Way) (s : State N) : Option (State N) :=
  if p.prec = .none then some { s with errs := s.errs ++ [.notRun] }
  else match way with
    | .fwd => execute p.owner p.fwd s
    | .bck => execute p.owner p.bck s

/-- `fftw_destroy_plan`. -/
def destroyPtr (p : Ptr) (s : State N) : Option (State N) :=
  match p with
  | .null => some s
  | .wild => none
  | .handle n =>
    if n ∈ s.live then some { s with live := s.live.erase n, gone := s.gone ++ [n] }
    else none

/-- fftCode.cpp:751-781, `destroyPlan`. -/
def destroyPlan (p : Plan) (s : State N) : Option (State N) :=
  if p.prec = .none then some { s with errs := s.errs ++ [.notRemoved] }
  else do
    let s ← if p.dir.fwd then destroyPtr p.fwd s else some s
    if p.dir.bck then destroyPtr p.bck s else some s

/-- fftCode.cpp:783-793, `removePlan`. -/
def removePlan (name : N) (s : State N) : Option (State N) := do
  let (p, s) := fetchPlan name s
  let s ← destroyPlan p s
  some { s with plans := erase name s.plans }

/-- The loop of `closeFFT`, fftCode.cpp:812-832, over the plans in name order;
the second component is the variable `prec`, `none` while it has not been
assigned. -/
def closeLoop : List (N × Plan) → Option Prec → State N → Option (Option Prec × State N)
  | [], prec, s => some (prec, s)
  | (name, p) :: l, _, s => do
    let s ← destroyPlan p s
    closeLoop l (some p.prec) { s with plans := erase name s.plans }

/-- fftCode.cpp:795-857, `closeFFT`.  The final switch reads `prec`, which is
unset when there was no plan. -/
def closeFFT (s : State N) : Option (State N) :=
  if s.init then do
    let (prec, s) ← closeLoop s.plans none s
    match prec with
    | none => none
    | some .none => some { s with errs := s.errs ++ [.notClosed] }
    | some _ => some { s with init := false }
  else some s

/-- Assignment through the reference returned by `fetchPlan`, as in
test/gravi2.cpp:165 and 304: `auto &p = fetchPlan(dst); p = fetchPlan(src);`. -/
def assign (dst src : N) (s : State N) : State N :=
  let (_, s) := fetchPlan dst s
  let (p, s) := fetchPlan src s
  { s with plans := s.plans.map (fun e => if e.1 = dst then (e.1, p) else e) }

/-- The calls a program can make. -/
inductive Call (N : Type) where
  | start (prec : Prec)
  | create (owner : ℕ) (kind : Kind) (prec : Prec) (dir : Dir) (name : N)
  | fetch (name : N)
  | run (name : N) (way : Way)
  | remove (name : N)
  | close
  | assign (dst src : N)

/-- The effect of one call; `none` is undefined behaviour. -/
def step (s : State N) : Call N → Option (State N)
  | .start prec => some (initFFT prec s)
  | .create owner kind prec dir name => some (initPlan owner kind prec dir name s)
  | .fetch name => some (fetchPlan name s).2
  | .run name way => let (p, s) := fetchPlan name s; runPlan p way s
  | .remove name => removePlan name s
  | .close => closeFFT s
  | .assign dst src => some (assign dst src s)

/-- The state when the program starts (fftCode.cpp:10-12). -/
def start : State N := ⟨[], false, [], [], [], [], []⟩

/-- A history of calls. -/
def history (cs : List (Call N)) : Option (State N) := cs.foldlM step start

end Jaxions.Plans
