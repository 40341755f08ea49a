import Verif.Model.Header

/-
What the potential options ask for: the last option of each kind counts.
-/

namespace Jaxions.Header.Spec

/-- The last value of a kind. -/
def lastOf {β : Type} (f : PotOpt → Option β) (os : List PotOpt) : Option β :=
  (os.filterMap f).getLast?

def qcdOf : PotOpt → Option Qcd
  | .vqcdC => some .qC
  | .vqcdV => some .qV
  | .vqcdL => some .qL
  | .vqcd0 => some .q0
  | .n2 => some .q2
  | .ind3 true => some .q0
  | _ => none

def pqOf : PotOpt → Option Pq
  | .vPQ1 => some .p1
  | .vPQ2 => some .p2
  | .vPQ3 => some .p3
  | _ => none

def dampOf : PotOpt → Option Damp
  | .gam | .dectime => some .rho
  | .gamall => some .all
  | _ => none

def evolOf : PotOpt → Option Evol
  | .onlyrho => some .rho
  | .onlytheta => some .theta
  | _ => none

/-- Whether the coupling to QCD is set to zero. -/
def zeroOf : PotOpt → Option Bool
  | .vqcd0 => some true
  | .ind3 z => some z
  | _ => none

/-- Options that select a potential, a damping or an evolution. -/
def isPot : PotOpt → Bool
  | .ind3 _ => false
  | _ => true

/-- A potential by its four parts. -/
structure Pot where
  q : Qcd
  pq : Pq
  damp : Damp
  evol : Evol
  deriving DecidableEq, Repr

/-- Its number. -/
def Pot.num (p : Pot) : ℕ := p.q.bit + p.pq.bit + p.damp.bit + p.evol.bit

/-- The potential the options ask for. -/
def asked (os : List PotOpt) : Pot :=
  ⟨(lastOf qcdOf os).getD .q1, (lastOf pqOf os).getD .p1, (lastOf dampOf os).getD .none,
    (lastOf evolOf os).getD .full⟩

/-- Whether they ask for a vanishing coupling. -/
def askedZero (os : List PotOpt) : Bool := (lastOf zeroOf os).getD false

/-- What a run started from a file with the options `os` should use: each part given
on the command line overrides the file, the others come from the file. -/
def wanted (os : List PotOpt) (file : Pot) : Pot :=
  ⟨(lastOf qcdOf os).getD file.q, (lastOf pqOf os).getD file.pq,
    (lastOf dampOf os).getD file.damp, (lastOf evolOf os).getD file.evol⟩

end Jaxions.Header.Spec
