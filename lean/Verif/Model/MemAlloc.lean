/-
Tracked memory, lib/utils/memAlloc.cpp, on top of an abstract C heap.
Pointers are natural numbers, 0 is the null pointer.
-/
namespace Jaxions.Mem

/-- `AllocType`, include/enum-field.h:364-368 (`ALLOC_TRACK = 0`, `ALLOC_ALIGN = 1`). -/
inductive Kind where
  | track | align
deriving DecidableEq, Repr

/-- memAlloc.cpp:8-10: `allocTable`, `trackAlignMem`, `trackAllocMem`, together with the set of
blocks the C library considers allocated. The counters are integers so that an underflow of the
`size_t` counters would be visible as a negative number. -/
structure State where
  table : List (Nat × Kind × Nat)
  alignMem : Int
  allocMem : Int
  heap : List Nat
deriving DecidableEq, Repr

def State.empty : State := ⟨[], 0, 0, []⟩

/-- `unordered_map::insert`: does nothing if the key exists. -/
def insert (t : List (Nat × Kind × Nat)) (p : Nat) (v : Kind × Nat) : List (Nat × Kind × Nat) :=
  if t.any (·.1 == p) then t else t ++ [(p, v)]

/-- `unordered_map::operator[]`: a missing key gets the value initialised pair, i.e.
`(ALLOC_TRACK, 0)`. -/
def lookup (t : List (Nat × Kind × Nat)) (p : Nat) : Kind × Nat :=
  match t.find? (·.1 == p) with
  | some e => e.2
  | none => (.track, 0)

/-- `unordered_map::erase`. -/
def erase (t : List (Nat × Kind × Nat)) (p : Nat) : List (Nat × Kind × Nat) :=
  t.filter (·.1 != p)

/-- C `free`: null is ignored, freeing something that is not an allocated block is undefined. -/
def cfree (heap : List Nat) (p : Nat) : Option (List Nat) :=
  if p = 0 then some heap
  else if p ∈ heap then some (heap.filter (· != p)) else none

/-- One call. The pointer of an allocation is the one the C library returns. `otherAlloc`,
`otherFree`: memory the program takes and releases without the tracker. -/
inductive Ev where
  | alloc (k : Kind) (p n : Nat)
  | free (p : Nat)
  | otherAlloc (p : Nat)
  | otherFree (p : Nat)
deriving DecidableEq, Repr

/-- `alignAlloc` (memAlloc.cpp:12-41, success case; the other cases leave the program),
`trackAlloc` (58-70), `trackFree` (43-57). `none` is undefined behaviour. -/
def step (s : State) : Ev → Option State
  | .alloc .align p n => some
      { s with heap := p :: s.heap, alignMem := s.alignMem + n, table := insert s.table p (.align, n) }
  | .alloc .track p n => some
      { s with heap := p :: s.heap, table := insert s.table p (.track, n), allocMem := s.allocMem + n }
  | .free p =>
      let e := lookup s.table p
      (cfree s.heap p).map fun h =>
        match e.1 with
        | .align => ⟨erase s.table p, s.alignMem - e.2, s.allocMem, h⟩
        | .track => ⟨erase s.table p, s.alignMem, s.allocMem - e.2, h⟩
  | .otherAlloc p => some { s with heap := p :: s.heap }
  | .otherFree p => (cfree s.heap p).map fun h => { s with heap := h }

def run (s : State) : List Ev → Option State
  | [] => some s
  | e :: es => (step s e).bind fun s' => run s' es

end Jaxions.Mem
