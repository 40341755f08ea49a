import Mathlib.Data.Nat.Notation
import Mathlib.Data.Int.Notation

/-
The logger: construction, packing and transport of log messages.

Source: include/utils/logger.h.

The vector `msgStack` is modelled slot by slot, because the MPI request of a
message lives in the slot (`Msg::req`, line 46) and neither the move constructor
(66-67) nor the assignment operator (80-90) carries it over.  MPI is modelled in
the way most favourable to the code: a message given to `MPI_Isend` is buffered
and is delivered once, whatever happens to the slot afterwards.  Which requests
have completed when a call tests them is arbitrary.  One thread per rank.
-/

namespace Jaxions.Log

/-! ### Text -/

/-- `MSG_SIZE` (logger.h:27) and `basePack` (32). -/
def msgSize : ℕ := 2048
def basePack : ℕ := 40

/-- What a byte of the local buffer holds: a character or the terminating zero. -/
inductive Byte (α : Type) where
  | char (c : α)
  | zero
  deriving DecidableEq, Repr

/-- `vsnprintf (buffer, lim, …)`: at most `lim - 1` characters of the formatted
text, then a zero; the bytes after it are not set. -/
def vsnprintf {α : Type} (lim : ℕ) (text : List α) : List (Byte α) :=
  (text.take (lim - 1)).map .char ++ [.zero]

/-- The constructor of a message, logger.h:51-62: `size` is what `vsnprintf`
returns, the length of the whole text, and `data.assign(buffer, size)` reads that
many bytes of a buffer of `MSG_SIZE - basePack`.  Reading a byte that was not set
or lies outside the buffer is `none`. -/
def construct {α : Type} (text : List α) : Option (List (Byte α)) :=
  let buffer := vsnprintf (msgSize - 1 - basePack) text
  if text.length ≤ buffer.length then some (buffer.take text.length) else none

/-- `LogLevel` (enum-field.h:400-405). -/
inductive Level where
  | msg | debug | error
  deriving DecidableEq, Repr

/-- The numbers of the enumeration. -/
def Level.num : Level → ℕ
  | .msg => 1048576
  | .debug => 2097152
  | .error => 4194304

/-- lib/utils/logger.cpp:6, `levelTable`. -/
def levelTable : List String := [" Msg ", "Debug", "Error"]

/-- The label printed, logger.h:129: `levelTable[level >> 21]`. -/
def label (l : Level) : Option String := levelTable[l.num / 2 ^ 21]?

/-- A message (the members that are sent). -/
structure Msg (α : Type) where
  time : ℤ
  thread : ℤ
  level : Level
  rank : ℤ
  data : List (Byte α)
  deriving DecidableEq

/-- A packed message: five words, then the bytes of the text. -/
structure Packed (α : Type) where
  words : List ℤ
  bytes : List (Byte α)

/-- logger.h:101-113, `pack`; the copy must fit in `packed[MSG_SIZE]`. -/
def pack {α : Type} (m : Msg α) : Option (Packed α) :=
  if basePack + m.data.length ≤ msgSize then
    some ⟨[m.time, m.thread, m.level.num, m.data.length, m.rank], m.data⟩
  else none

/-- The cast `(LogLevel)` of a word. -/
def levelOf (w : ℤ) : Option Level :=
  if w = 1048576 then some .msg else if w = 2097152 then some .debug
  else if w = 4194304 then some .error else none

/-- logger.h:68-77, the constructor from a packed message. -/
def unpack {α : Type} (p : Packed α) : Option (Msg α) := do
  let time ← p.words[0]?
  let thread ← p.words[1]?
  let level ← levelOf (← p.words[2]?)
  let size ← p.words[3]?
  let rank ← p.words[4]?
  if size.toNat ≤ p.bytes.length then
    some ⟨time, thread, level, rank, p.bytes.take size.toNat⟩
  else none

/-! ### A rank other than zero -/

/-- A slot of the vector: the message it holds and its request, which is the
number of the `MPI_Isend` that set it. -/
structure Slot (α : Type) where
  msg : α
  req : Option ℕ
  deriving DecidableEq, Repr

/-- The vector, its capacity, and everything given to `MPI_Isend` so far, in
order. -/
structure Sender (α : Type) where
  slots : List (Slot α)
  cap : ℕ
  sent : List α
  deriving DecidableEq, Repr

variable {α : Type}

/-- `msgStack.push_back`: when the vector is full it is moved to a new buffer of
twice the size, and the move constructor resets every request (logger.h:66-67). -/
def push (m : α) (s : Sender α) : Sender α :=
  if s.slots.length < s.cap then { s with slots := s.slots ++ [⟨m, none⟩] }
  else { s with
    slots := s.slots.map (fun t => ⟨t.msg, none⟩) ++ [⟨m, none⟩]
    cap := max 1 (2 * s.cap) }

/-- What `erase` leaves behind an erased slot whose request is `r`: each message
moves down one slot by `operator=` (logger.h:80-90), the requests stay. -/
def shift : Option ℕ → List (Slot α) → List (Slot α)
  | _, [] => []
  | r, t :: l => ⟨t.msg, r⟩ :: shift t.req l

theorem length_shift (r : Option ℕ) (l : List (Slot α)) : (shift r l).length = l.length := by
  induction l generalizing r with
  | nil => rfl
  | cons t l ih => simp [shift, ih]

/-- logger.h:352-367, the loop of a normal message: send what has no request,
erase what has completed.  `done` says which requests the test finds complete. -/
def passLoop (done : ℕ → Bool) : List (Slot α) → List α → List (Slot α) × List α
  | [], sent => ([], sent)
  | t :: l, sent =>
    match t.req with
    | none =>
      let (l', sent') := passLoop done l (sent ++ [t.msg])
      (⟨t.msg, some sent.length⟩ :: l', sent')
    | some r =>
      if done r then passLoop done (shift none l) sent
      else
        let (l', sent') := passLoop done l sent
        (t :: l', sent')
  termination_by l _ => l.length
  decreasing_by all_goals simp [length_shift]

/-- logger.h:342-348, the loop of an error: send what has no request, wait, erase. -/
def errorLoop : List (Slot α) → List α → List α
  | [], sent => sent
  | t :: l, sent =>
    errorLoop (shift none l) (if t.req = none then sent ++ [t.msg] else sent)
  termination_by l _ => l.length
  decreasing_by simp [length_shift]

/-- A call made on a rank other than zero. -/
inductive Call (α : Type) where
  /-- `LogMsg`, with the requests complete at that moment -/
  | msg (m : α) (done : ℕ → Bool)
  /-- `LogError`: the line "Error in file …" and the text -/
  | error (place text : α)
  /-- `LogFlush` -/
  | flush

/-- logger.h:293-371 with `myRank != 0` and `mpiLogger`, and `flushLog` (256-268),
which on such a rank writes to a file that was never opened and clears the
vector. -/
def step (s : Sender α) : Call α → Sender α
  | .msg m done =>
    let s := push m s
    let (slots, sent) := passLoop done s.slots s.sent
    { s with slots := slots, sent := sent }
  | .error place text =>
    let s := push text (push place s)
    { s with slots := [], sent := errorLoop s.slots s.sent }
  | .flush => { s with slots := [] }

/-- A rank that has logged nothing. -/
def idle : Sender α := ⟨[], 0, []⟩

/-- A history of calls on one rank. -/
def history (cs : List (Call α)) : Sender α := cs.foldl step idle

/-! ### Rank zero -/

/-- What happens at rank zero: it logs a message of its own, it receives one
(`getMpiMsg`, logger.h:179-211), or it flushes (`flushStack`, 157-171), writing
the stack in some order that `std::sort` may produce. -/
inductive Event (α : Type) where
  | own (m : Msg α)
  | receive (m : Msg α)
  | flush (order : List (Msg α))

/-- The stack of rank zero and what it has written. -/
structure Zero (α : Type) where
  stack : List (Msg α)
  written : List (Msg α)

/-- One event.  A flush must write a permutation of the stack sorted by time. -/
inductive Zero.Step : Zero α → Event α → Zero α → Prop
  | own (z m) : Zero.Step z (.own m) ⟨z.stack ++ [m], z.written⟩
  | receive (z m) : Zero.Step z (.receive m) ⟨z.stack ++ [m], z.written⟩
  | flush (z order) (h : List.Perm order z.stack)
      (hs : order.Pairwise (fun a b => a.time ≤ b.time)) :
      Zero.Step z (.flush order) ⟨[], z.written ++ order⟩

/-- A run of rank zero. -/
inductive Zero.Run : List (Event α) → Zero α → Prop
  | nil : Zero.Run [] ⟨[], []⟩
  | snoc {es z e z'} : Zero.Run es z → Zero.Step z e z' → Zero.Run (es ++ [e]) z'

end Jaxions.Log
