import Verif.Model.Expand
import Mathlib.Algebra.Field.Basic
import Mathlib.Algebra.Module.Defs
/-!
Interpolation on a periodic lattice, written without reference to the code, and the data in memory
before and after an expansion.
-/

namespace Jaxions.Expand

variable {K E : Type} [Field K] [AddCommGroup E] [Module K E]

/-- Linear interpolation at `X / k` of a function on the points `0, 1, …, n - 1` of a circle. -/
def lin (K : Type) [Field K] [Module K E] (k n : ℕ) (f : ℕ → E) (X : ℕ) : E :=
  (1 - ((X % k : ℕ) : K) / (k : K)) • f (X / k) + (((X % k : ℕ) : K) / (k : K)) • f ((X / k + 1) % n)

/-- Interpolation in the three directions, on a lattice of `n × n × T` points refined `k` times. -/
def tri (K : Type) [Field K] [Module K E] (k n T : ℕ) (f : ℕ → ℕ → ℕ → E) (X Y Z : ℕ) : E :=
  lin K k T (fun z => lin K k n (fun y => lin K k n (fun x => f x y z) X) Y) Z

/-- Room for `s` and `m2` on one rank. -/
def Room (g : Geo) (h : Mem E) : Prop :=
  (∀ i < g.N * g.N * g.Nz, (h (.s, i)).isSome) ∧
  ∀ i < g.N * g.N * (g.Nz + 2 * g.Ng), (h (.m2, i)).isSome

/-- All sides of the file are divided: `k` times smaller along `x` and `y`, `kz` times along `z`. -/
structure Sizes (g : Geo) (k kz : ℕ) : Prop where
  k2 : 2 ≤ k
  kz2 : 2 ≤ kz
  n1 : 1 ≤ g.n
  nz1 : 1 ≤ g.nz
  ng1 : 1 ≤ g.Ng
  ngz : g.Ng ≤ g.Nz
  N : g.N = k * g.n
  Nz : g.Nz = kz * g.nz

/-- `s` holds the `n × n × nz` points of each rank in compact form. -/
def Compact (g : Geo) (w : ℕ → Mem E) (f : ℕ → ℕ → ℕ → E) : Prop :=
  ∀ r < g.ranks, ∀ x < g.n, ∀ y < g.n, ∀ z < g.nz,
    w r (.s, x + g.n * (y + g.n * z)) = some (f x y (r * g.nz + z))

/-- `s` holds the `N × N × Nz` points of each rank. -/
def Full (g : Geo) (w : ℕ → Mem E) (f : ℕ → ℕ → ℕ → E) : Prop :=
  ∀ r < g.ranks, ∀ x < g.N, ∀ y < g.N, ∀ z < g.Nz,
    w r (.s, x + g.N * (y + g.N * z)) = some (f x y (r * g.Nz + z))

end Jaxions.Expand
