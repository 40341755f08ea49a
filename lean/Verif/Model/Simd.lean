import Mathlib.Data.Fin.VecNotation
/-
Lane semantics of the vector instructions used by the kernels (Intel intrinsics guide), and the
lane rotations the kernels build from them.  `opCode(f, ..)` (/repo/include/utils/triSimd.h) pastes
the prefix `_mm`, `_mm256` or `_mm512` in front of `f`.
-/
namespace Jaxions.Simd

/-- A register of `n` scalars. -/
abbrev Vec (n : Nat) (α : Type _) := Fin n → α

variable {α : Type _}

/-- `permutexvar`, `permutevar8x32`: lane `i` of the result is lane `t i` of the argument. -/
def permuteVar {n : Nat} (t : Vec n (Fin n)) (a : Vec n α) : Vec n α := fun i => a (t i)

/-- `permute_ps`: inside each group of four lanes, two bits of the immediate per lane. -/
def permutePs {q : Nat} (imm : Nat) (a : Vec (4 * q) α) : Vec (4 * q) α := fun i =>
  a ⟨4 * (i / 4) + imm / 4 ^ (i % 4 : Nat) % 4, by have := i.2; omega⟩

/-- `permute_pd`: inside each pair of lanes, one bit of the immediate per lane. -/
def permutePd {q : Nat} (imm : Nat) (a : Vec (2 * q) α) : Vec (2 * q) α := fun i =>
  a ⟨2 * (i / 2) + imm / 2 ^ (i : Nat) % 2, by have := i.2; omega⟩

/-- `permute2f128` with immediate 1: the two halves are exchanged (both arguments equal in all
uses). -/
def swapHalves {h : Nat} (a : Vec (2 * h) α) : Vec (2 * h) α := fun i =>
  if hi : (i : Nat) < h then a ⟨i + h, by omega⟩ else a ⟨i - h, by omega⟩

/-- `blend`: lane `i` from `b` if bit `i` of the immediate is set. -/
def blend {n : Nat} (imm : Nat) (a b : Vec n α) : Vec n α := fun i =>
  if imm / 2 ^ (i : Nat) % 2 = 1 then b i else a i

/-- `shuffle_ps` (128 bits): lanes 0, 1 from `a`, lanes 2, 3 from `b`. -/
def shufflePs (imm : Nat) (a b : Vec 4 α) : Vec 4 α :=
  ![a ⟨imm % 4, by omega⟩, a ⟨imm / 4 % 4, by omega⟩, b ⟨imm / 16 % 4, by omega⟩,
    b ⟨imm / 64 % 4, by omega⟩]

/-- `shuffle_pd` (128 bits): lane 0 from `a`, lane 1 from `b`. -/
def shufflePd (imm : Nat) (a b : Vec 2 α) : Vec 2 α :=
  ![a ⟨imm % 2, by omega⟩, b ⟨imm / 2 % 2, by omega⟩]

/-! ### Rotations at the y edges

`minus`: applied to the vector loaded for the y-1 neighbour in the first row of a block;
`plus`: for the y+1 neighbour in the last row. -/

inductive Isa | avx512 | avx2 | avx | sse
  deriving DecidableEq, Repr
inductive Prec | double | single
  deriving DecidableEq, Repr
inductive Kind | saxion | axion
  deriving DecidableEq, Repr

/-- Scalars per lattice site: complex field or angle. -/
def scalars : Kind → Nat
  | .saxion => 2
  | .axion => 1

/-- Sites per vector, `#define step` (propXeon.h:61-70, 441-450; propThetaXeon.h:51-60, 328-337). -/
def sites : Kind → Prec → Isa → Nat
  | .saxion, .double, .avx512 => 4
  | .saxion, .double, .avx2 => 2
  | .saxion, .double, .avx => 2
  | .saxion, .double, .sse => 1
  | .saxion, .single, .avx512 => 8
  | .saxion, .single, .avx2 => 4
  | .saxion, .single, .avx => 4
  | .saxion, .single, .sse => 2
  | .axion, .double, .avx512 => 8
  | .axion, .double, .avx2 => 4
  | .axion, .double, .avx => 4
  | .axion, .double, .sse => 2
  | .axion, .single, .avx512 => 16
  | .axion, .single, .avx2 => 8
  | .axion, .single, .avx => 8
  | .axion, .single, .sse => 4

/-- propXeon.h:117,196-202 (double), 498,577-586 (single); propThetaXeon.h:80,179-188 (double),
359,454-463 (single). -/
def rotMinus : (k : Kind) → (p : Prec) → (i : Isa) → Vec (scalars k * sites k p i) α →
    Vec (scalars k * sites k p i) α
  | .saxion, .double, .avx512 => fun a => permuteVar (n := 8) ![6, 7, 0, 1, 2, 3, 4, 5] a
  | .saxion, .double, .avx2 => fun a => swapHalves (h := 2) a
  | .saxion, .double, .avx => fun a => swapHalves (h := 2) a
  | .saxion, .double, .sse => fun a => a
  | .saxion, .single, .avx512 => fun a =>
    permuteVar (n := 16) ![14, 15, 0, 1, 2, 3, 4, 5, 6, 7, 8, 9, 10, 11, 12, 13] a
  | .saxion, .single, .avx2 => fun a => permuteVar (n := 8) ![6, 7, 0, 1, 2, 3, 4, 5] a
  | .saxion, .single, .avx => fun a =>
    let x := permutePs (q := 2) 0b01001110 a
    blend (n := 8) 0b00110011 x (swapHalves (h := 4) x)
  | .saxion, .single, .sse => fun a => shufflePs 0b01001110 a a
  | .axion, .double, .avx512 => fun a => permuteVar (n := 8) ![7, 0, 1, 2, 3, 4, 5, 6] a
  -- the 64 bit lanes are permuted as pairs of 32 bit lanes 6,7,0,1,2,3,4,5
  | .axion, .double, .avx2 => fun a => permuteVar (n := 4) ![3, 0, 1, 2] a
  | .axion, .double, .avx => fun a =>
    let x := permutePd (q := 2) 0b00000101 a
    blend (n := 4) 0b00000101 x (swapHalves (h := 2) x)
  | .axion, .double, .sse => fun a => shufflePd 1 a a
  | .axion, .single, .avx512 => fun a =>
    permuteVar (n := 16) ![15, 0, 1, 2, 3, 4, 5, 6, 7, 8, 9, 10, 11, 12, 13, 14] a
  | .axion, .single, .avx2 => fun a => permuteVar (n := 8) ![7, 0, 1, 2, 3, 4, 5, 6] a
  | .axion, .single, .avx => fun a =>
    let x := permutePs (q := 2) 0b10010011 a
    blend (n := 8) 0b00010001 x (swapHalves (h := 4) x)
  | .axion, .single, .sse => fun a => shufflePs 0b10010011 a a

/-- propXeon.h:118,212-218 (double), 499,597-606 (single); propThetaXeon.h:81,200-209 (double),
360,475-484 (single). -/
def rotPlus : (k : Kind) → (p : Prec) → (i : Isa) → Vec (scalars k * sites k p i) α →
    Vec (scalars k * sites k p i) α
  | .saxion, .double, .avx512 => fun a => permuteVar (n := 8) ![2, 3, 4, 5, 6, 7, 0, 1] a
  | .saxion, .double, .avx2 => fun a => swapHalves (h := 2) a
  | .saxion, .double, .avx => fun a => swapHalves (h := 2) a
  | .saxion, .double, .sse => fun a => a
  | .saxion, .single, .avx512 => fun a =>
    permuteVar (n := 16) ![2, 3, 4, 5, 6, 7, 8, 9, 10, 11, 12, 13, 14, 15, 0, 1] a
  | .saxion, .single, .avx2 => fun a => permuteVar (n := 8) ![2, 3, 4, 5, 6, 7, 0, 1] a
  | .saxion, .single, .avx => fun a =>
    let x := permutePs (q := 2) 0b01001110 a
    blend (n := 8) 0b11001100 x (swapHalves (h := 4) x)
  | .saxion, .single, .sse => fun a => shufflePs 0b01001110 a a
  | .axion, .double, .avx512 => fun a => permuteVar (n := 8) ![1, 2, 3, 4, 5, 6, 7, 0] a
  | .axion, .double, .avx2 => fun a => permuteVar (n := 4) ![1, 2, 3, 0] a
  | .axion, .double, .avx => fun a =>
    let x := permutePd (q := 2) 0b00000101 a
    blend (n := 4) 0b00001010 x (swapHalves (h := 2) x)
  | .axion, .double, .sse => fun a => shufflePd 1 a a
  | .axion, .single, .avx512 => fun a =>
    permuteVar (n := 16) ![1, 2, 3, 4, 5, 6, 7, 8, 9, 10, 11, 12, 13, 14, 15, 0] a
  | .axion, .single, .avx2 => fun a => permuteVar (n := 8) ![1, 2, 3, 4, 5, 6, 7, 0] a
  | .axion, .single, .avx => fun a =>
    let x := permutePs (q := 2) 0b00111001 a
    blend (n := 8) 0b10001000 x (swapHalves (h := 4) x)
  | .axion, .single, .sse => fun a => shufflePs 0b00111001 a a

end Jaxions.Simd
