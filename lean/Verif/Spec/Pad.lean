import Verif.Model.Pad

/-!
# What padding has to do
-/

namespace Jaxions
namespace Pad

variable {α : Type}

/-- `n` lines of `w` numbers with stride `s` from address `a` are allocated. -/
def Room (h : Heap Nat α) (a s w n : Nat) : Prop := ∀ t < n, ∀ i < w, (h (a + t * s + i)).isSome

/-- The lines `d + t b` of `g` hold what the lines `o + t a` of `h` held. -/
def Moved (h g : Heap Nat α) (o a d b w n : Nat) : Prop :=
  ∀ t < n, ∀ i < w, g (d + t * b + i) = h (o + t * a + i)

/-- Only the lines `d + t b` changed. -/
def Rest (h g : Heap Nat α) (d b w n : Nat) : Prop :=
  ∀ x, (∀ t < n, ∀ i < w, x ≠ d + t * b + i) → g x = h x

/-- An order of the threads: every line once. -/
def Sched (n : Nat) (s : List Nat) : Prop := s.Perm (List.range n)

/-- No line is both read and written. -/
def Apart (o a d b w n : Nat) : Prop :=
  ∀ t < n, ∀ i < w, ∀ u < n, ∀ j < w, d + t * b + i ≠ o + u * a + j

end Pad
end Jaxions
