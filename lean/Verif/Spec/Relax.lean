import Verif.Model.Relax

/-!
Specification for C90: the fields of an evolution, and when enough strings are gone.
-/

namespace Jaxions.Relax

variable {σ : Type}

/-- The states of an evolution whose clock stops at `T`. -/
structure Path (E : Env σ) (T : ℝ) (s : ℕ → St σ) : Prop where
  field : ∀ k, (s (k + 1)).f = E.prop (s k) (E.dz (s k))
  clock : ∀ k, (s (k + 1)).z = min ((s k).z + E.dz (s k)) T
  scale : ∀ k, (s (k + 1)).R = E.Rf (s (k + 1)).z

/-- The states of an evolution whose clock goes on. -/
structure Free (E : Env σ) (s : ℕ → St σ) : Prop where
  field : ∀ k, (s (k + 1)).f = E.prop (s k) (E.dz (s k))
  clock : ∀ k, (s (k + 1)).z = (s k).z + E.dz (s k)
  scale : ∀ k, (s (k + 1)).R = E.Rf (s (k + 1)).z

/-- The fit of the length of strings per volume to the logarithm. -/
noncomputable def xi (l : ℝ) : ℝ := (249.48 + 38.8431 * l + 1086.06 * l ^ 2) / (21775.3 + 3665.11 * l)

/-- Pierced plaquettes per site of a network with this logarithm. -/
noncomputable def wanted (msa l : ℝ) : ℝ := 6 * xi l * msa ^ 2 * Real.exp (-2 * l)

/-- The share of plaquettes asked for: modified by `kCrit` if `iter` is positive. -/
noncomputable def limit (E : Env σ) : ℝ :=
  if 0 < E.iter then min (E.kCrit * wanted E.msa E.zInit) 1 else wanted E.msa E.zInit

/-- Strings are counted at each turn: without `--icstudy`, or with something to measure
beyond whole configurations (4096). -/
def Counts (E : Env σ) : Prop := E.icstudy = true → E.meas ≠ 0 ∧ E.meas ≠ 4096

end Jaxions.Relax
