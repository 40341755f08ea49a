import Verif.Model.Spectral

/-
What a spectral step means, for the physical sites only.
-/

namespace Jaxions.Spectral

variable {K : Type}

/-- The physical sites hold the values `M` and the velocities `W`; the arrays have
their sizes (`m` with ghosts, `v`, and `m2` with `n2` sites). -/
structure Holds (r : Rank) (n2 : ℕ) (M W : ℕ → K) (h : Heap Loc K) : Prop where
  m : ∀ i < r.V, h ⟨.m, r.Ng * r.S + i⟩ = some (M i)
  v : ∀ i < r.V, h ⟨.v, i⟩ = some (W i)
  mAll : ∀ i < (r.Lz + 2 * r.Ng) * r.S, (h ⟨.m, i⟩).isSome
  m2All : ∀ i < n2, (h ⟨.m2, i⟩).isSome

/-- One stage: every site is updated from its own value and velocity and the Laplacian
of the field. -/
def stepSites (V : ℕ) (lap : List K → ℕ → K) (upd : Upd K) (s : (ℕ → K) × (ℕ → K)) :
    (ℕ → K) × (ℕ → K) :=
  (fun i => (upd (s.1 i) (s.2 i) (lap ((List.range V).map s.1) i)).1,
   fun i => (upd (s.1 i) (s.2 i) (lap ((List.range V).map s.1) i)).2)

end Jaxions.Spectral
