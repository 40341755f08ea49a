import Verif.Spec.RunSymmetry
import Verif.Props.SaxRun

/-!
# C89: runs have no preferred origin, direction or axis
-/

namespace Jaxions.RunSym

open Run Stencil

variable {α : Type}

/-- The neighbour sum of a rule has the symmetries of the cube. -/
def Symmetric (g : Rule α) : Prop := ∀ (s : Sym) (φ : ℤ → ℤ → ℤ → α) (x y z : ℤ),
  g.lap (s.seen φ) x y z = s.seen (g.lap φ) x y z

theorem saxion_symmetric {K : Type} [Field K] [AddCommGroup α] [Module K α] (NN : ℕ) (w : ℕ → K)
    (ood2 : K) (law : α → α → α → α × α) : Symmetric (saxionRule NN w ood2 law) := by
  intro s φ x y z
  cases s <;> simp only [saxionRule, laplacian, Sym.seen, Sym.from] <;>
    refine Finset.sum_congr rfl fun k _ => ?_
  · rename_i a b c
    simp only [add_right_comm, sub_add_eq_add_sub]
  · have e1 : -(x + ((k + 1 : ℕ) : ℤ)) = -x - (k + 1 : ℕ) := by ring
    have e2 : -(x - ((k + 1 : ℕ) : ℤ)) = -x + (k + 1 : ℕ) := by ring
    rw [e1, e2, add_comm (φ (-x - _) y z)]
  · have e1 : -(z + ((k + 1 : ℕ) : ℤ)) = -z - (k + 1 : ℕ) := by ring
    have e2 : -(z - ((k + 1 : ℕ) : ℤ)) = -z + (k + 1 : ℕ) := by ring
    rw [e1, e2, add_right_comm _ (φ x y (-z - _))]
  · congr 1; abel
  · congr 1; abel

theorem axion_symmetric {K : Type} [Field K] [LinearOrder K] (NN : ℕ) (w : ℕ → K)
    (pot : ThetaKernel.Pot) (p : Simd.Prec) (wMod : Bool) (P : ThetaKernel.Par K) :
    Symmetric (axionRule NN w pot p wMod P) := by
  intro s φ x y z
  cases s <;> simp only [axionRule, ThetaKernel.lapW, Sym.seen, Sym.from] <;>
    refine Finset.sum_congr rfl fun k _ => ?_
  · rename_i a b c
    simp only [add_right_comm, sub_add_eq_add_sub]
  · have e1 : -(x + ((k + 1 : ℕ) : ℤ)) = -x - (k + 1 : ℕ) := by ring
    have e2 : -(x - ((k + 1 : ℕ) : ℤ)) = -x + (k + 1 : ℕ) := by ring
    rw [e1, e2]; ring
  · have e1 : -(z + ((k + 1 : ℕ) : ℤ)) = -z - (k + 1 : ℕ) := by ring
    have e2 : -(z - ((k + 1 : ℕ) : ℤ)) = -z + (k + 1 : ℕ) := by ring
    rw [e1, e2]; ring
  · ring
  · ring

theorem step_act {g : Rule α} (hg : Symmetric g) (l : List Sym) (F : Lat α) :
    g.step (act l F) = act l (g.step F) := by
  induction l with
  | nil => rfl
  | cons s l ih =>
    have e : ∀ F : Lat α, act (s :: l) F = ⟨s.seen (act l F).φ, s.seen (act l F).ν⟩ := fun _ => rfl
    rw [e, e, ← ih]
    unfold Rule.step
    simp only [hg s]
    rfl

theorem evolve_act {gs : List (Rule α)} (hg : ∀ g ∈ gs, Symmetric g) (l : List Sym) (F : Lat α) :
    evolve gs (act l F) = act l (evolve gs F) := by
  induction gs generalizing F with
  | nil => rfl
  | cons g gs ih =>
    unfold evolve
    rw [step_act (hg g (List.mem_cons_self ..)), ih fun g' h => hg g' (List.mem_cons_of_mem _ h)]

theorem periodic_seen {Lx N : ℕ} (s : Sym) (hs : s = .yz → Lx = N) {φ : ℤ → ℤ → ℤ → α}
    (h : Periodic3 Lx N φ) : Periodic3 Lx N (s.seen φ) := by
  cases s
  · exact ⟨fun x y z => by simp only [Sym.seen, Sym.from, add_right_comm x (Lx : ℤ), h.1],
      fun x y z => by simp only [Sym.seen, Sym.from, add_right_comm y (Lx : ℤ), h.2.1],
      fun x y z => by simp only [Sym.seen, Sym.from, add_right_comm z (N : ℤ), h.2.2]⟩
  · refine ⟨fun x y z => ?_, fun x y z => by simp only [Sym.seen, Sym.from, h.2.1],
      fun x y z => by simp only [Sym.seen, Sym.from, h.2.2]⟩
    simp only [Sym.seen, Sym.from]
    rw [← h.1 (-(x + Lx))]
    congr 1; ring
  · refine ⟨fun x y z => by simp only [Sym.seen, Sym.from, h.1],
      fun x y z => by simp only [Sym.seen, Sym.from, h.2.1], fun x y z => ?_⟩
    simp only [Sym.seen, Sym.from]
    rw [← h.2.2 _ _ (-(z + N))]
    congr 1; ring
  · exact ⟨fun x y z => by simp only [Sym.seen, Sym.from, h.2.1],
      fun x y z => by simp only [Sym.seen, Sym.from, h.1],
      fun x y z => by simp only [Sym.seen, Sym.from, h.2.2]⟩
  · have e := hs rfl
    subst e
    exact ⟨fun x y z => by simp only [Sym.seen, Sym.from, h.1],
      fun x y z => by simp only [Sym.seen, Sym.from, h.2.2],
      fun x y z => by simp only [Sym.seen, Sym.from, h.2.1]⟩

theorem periodic_act {Lx N : ℕ} {l : List Sym} (hl : Sym.yz ∈ l → Lx = N) {F : Lat α}
    (hφ : Periodic3 Lx N F.φ) (hν : Periodic3 Lx N F.ν) :
    Periodic3 Lx N (act l F).φ ∧ Periodic3 Lx N (act l F).ν := by
  induction l with
  | nil => exact ⟨hφ, hν⟩
  | cons s l ih =>
    obtain ⟨h1, h2⟩ := ih fun h => hl (List.mem_cons_of_mem _ h)
    exact ⟨periodic_seen s (fun h => hl (h ▸ List.mem_cons_self ..)) h1,
      periodic_seen s (fun h => hl (h ▸ List.mem_cons_self ..)) h2⟩

/-- **C89** Runs of any kernels with symmetric neighbour sums: the run of the shifted, reflected or
turned lattice ends with the result shifted, reflected or turned.  The z axis may be exchanged with
another when the box is a cube.  The ranks divide z, so that their borders are nowhere seen. -/
theorem C89_run {n sz Lx S Lz NN : ℕ} (hf : Fits n sz Lx S Lz NN) {us : List (Run.Sub α × Luck α)}
    {gs : List (Rule α)}
    (hus : List.Forall₂ (fun ul g => Computes NN ul.1 g ∧ Fair Lx S Lz NN ul.2) us gs)
    (hg : ∀ g ∈ gs, Symmetric g) {l : List Sym} (hl : Sym.yz ∈ l → Lx = n * Lz) {b : Bool}
    {w w' : World α} {F : Lat α} (hφ : Periodic3 Lx (n * Lz) F.φ) (hν : Periodic3 Lx (n * Lz) F.ν)
    (hw : Holding n Lx S Lz NN b w F) (hw' : Holding n Lx S Lz NN b w' (act l F)) :
    ∃ e e' G, run n sz ⟨Lx, S, NN⟩ Lz b us w = some e ∧ run n sz ⟨Lx, S, NN⟩ Lz b us w' = some e' ∧
      Holding n Lx S Lz NN (if us.length % 2 = 0 then b else !b) e G ∧
      Holding n Lx S Lz NN (if us.length % 2 = 0 then b else !b) e' (act l G) := by
  obtain ⟨p1, p2⟩ := periodic_act hl hφ hν
  obtain ⟨e, h1, h2⟩ := C59_run hf hus hφ hν hw
  obtain ⟨e', h1', h2'⟩ := C59_run hf hus p1 p2 hw'
  rw [evolve_act hg] at h2'
  exact ⟨e, e', _, h1, h1', h2, h2'⟩

/-- **C89** Axion runs, with every potential, precision and wrapping. -/
theorem C89_axion {K : Type} [Field K] [LinearOrder K] {n sz Lx S Lz NN : ℕ}
    (hf : Fits n sz Lx S Lz NN) (h5 : NN ≤ 5) (w : ℕ → K)
    (steps : List ((ThetaKernel.Pot × Simd.Prec × Bool × ThetaKernel.Par K) × Luck K))
    (hsteps : ∀ q ∈ steps, (∀ k, k < NN → q.1.2.2.2.PC[k]? = some (w k)) ∧ Fair Lx S Lz NN q.2)
    {l : List Sym} (hl : Sym.yz ∈ l → Lx = n * Lz) {b : Bool} {wd wd' : World K} {F : Lat K}
    (hφ : Periodic3 Lx (n * Lz) F.φ) (hν : Periodic3 Lx (n * Lz) F.ν)
    (hw : Holding n Lx S Lz NN b wd F) (hw' : Holding n Lx S Lz NN b wd' (act l F)) :
    let us := steps.map fun q => (axionSub q.1.1 q.1.2.1 q.1.2.2.1 q.1.2.2.2, q.2)
    ∃ e e' G, run n sz ⟨Lx, S, NN⟩ Lz b us wd = some e ∧ run n sz ⟨Lx, S, NN⟩ Lz b us wd' = some e' ∧
      Holding n Lx S Lz NN (if steps.length % 2 = 0 then b else !b) e G ∧
      Holding n Lx S Lz NN (if steps.length % 2 = 0 then b else !b) e' (act l G) := by
  intro us
  have key := C89_run (us := us)
    (gs := steps.map fun q => axionRule NN w q.1.1 q.1.2.1 q.1.2.2.1 q.1.2.2.2) hf
    (by
      rw [List.forall₂_map_left_iff, List.forall₂_map_right_iff, List.forall₂_same]
      exact fun q hq => ⟨axion_computes h5 _ _ _ _ (hsteps q hq).1, (hsteps q hq).2⟩)
    (by
      intro g hg
      obtain ⟨q, -, rfl⟩ := List.mem_map.1 hg
      exact axion_symmetric _ _ _ _ _ _) hl hφ hν hw hw'
  rwa [List.length_map] at key

open SaxRun in
/-- **C89** Saxion runs, on registers, with the options of C87. -/
theorem C89_saxion {p : Simd.Prec} {i : Simd.Isa} {n sz Lx Lz NN : ℕ}
    (hf : Fits n sz Lx (Simd.sites .saxion p i) Lz NN) (h5 : NN ≤ 5)
    (PC : List ℝ) (w : ℕ → ℝ) (ood2 : ℝ) (hPC : ∀ k, k < NN → PC[k]? = some (w k))
    (cs : List (Opt × Luck C)) (hc : ∀ c ∈ cs, Covered p c.1)
    (hF : ∀ c ∈ cs, Fair Lx (Simd.sites .saxion p i) Lz NN c.2) {l : List Sym}
    (hl : Sym.yz ∈ l → Lx = n * Lz) {b : Bool} {wd wd' : World C} {F : Lat C}
    (hφ : Periodic3 Lx (n * Lz) F.φ) (hν : Periodic3 Lx (n * Lz) F.ν)
    (hw : Holding n Lx (Simd.sites .saxion p i) Lz NN b wd F)
    (hw' : Holding n Lx (Simd.sites .saxion p i) Lz NN b wd' (act l F)) :
    ∃ e e' G, runVec p i n sz ⟨Lx, Simd.sites .saxion p i, NN⟩ Lz PC ood2 b cs wd = some e ∧
      runVec p i n sz ⟨Lx, Simd.sites .saxion p i, NN⟩ Lz PC ood2 b cs wd' = some e' ∧
      Holding n Lx (Simd.sites .saxion p i) Lz NN (if cs.length % 2 = 0 then b else !b) e G ∧
      Holding n Lx (Simd.sites .saxion p i) Lz NN (if cs.length % 2 = 0 then b else !b) e' (act l G) := by
  obtain ⟨p1, p2⟩ := periodic_act hl hφ hν
  obtain ⟨e, h1, h2⟩ := C87_run hf h5 PC w ood2 hPC cs hc hF hφ hν hw
  obtain ⟨e', h1', h2'⟩ := C87_run hf h5 PC w ood2 hPC cs hc hF p1 p2 hw'
  rw [evolve_act] at h2'
  · exact ⟨e, e', _, h1, h1', h2, h2'⟩
  · intro g hg
    obtain ⟨c, -, rfl⟩ := List.mem_map.1 hg
    exact saxion_symmetric _ _ _ _

/-! ### Examples -/

/-- Three symmetries after each other. -/
example (F : Lat ℝ) : (act [.shift 1 2 3, .flipX, .xy] F).φ 5 6 7 = F.φ 8 (-6) 10 := by
  simp [act, Sym.seen, Sym.from]

/-- The reflection in y is made of the others. -/
example (F : Lat ℝ) (x y z : ℤ) : (act [.xy, .flipX, .xy] F).φ x y z = F.φ x (-y) z := by
  simp [act, Sym.seen, Sym.from]

/-- A cube of 8 sites on two ranks, shifted by three slices across the border and with y and z
exchanged. -/
example (F : Lat ℚ) (hφ : Periodic3 8 (2 * 4) F.φ) (hν : Periodic3 8 (2 * 4) F.ν)
    (P : ThetaKernel.Par ℚ) (hP : P.PC = [1]) :
    ∃ e e' G, run 2 4 ⟨8, 2, 1⟩ 4 true [(axionSub .qcdC .single true P, inOrder 8 2 4 1 0)]
        ⟨fill 2 8 2 4 1 F.φ, fill 2 8 2 4 1 F.φ, fill 2 8 2 4 0 F.ν⟩ = some e ∧
      run 2 4 ⟨8, 2, 1⟩ 4 true [(axionSub .qcdC .single true P, inOrder 8 2 4 1 0)]
        ⟨fill 2 8 2 4 1 (act [.shift 0 0 3, .yz] F).φ, fill 2 8 2 4 1 (act [.shift 0 0 3, .yz] F).φ,
          fill 2 8 2 4 0 (act [.shift 0 0 3, .yz] F).ν⟩ = some e' ∧
      Holding 2 8 2 4 1 false e G ∧ Holding 2 8 2 4 1 false e' (act [.shift 0 0 3, .yz] G) := by
  have hPC : ∀ k, k < 1 → P.PC[k]? = some ((fun _ => 1 : Nat → ℚ) k) := by
    intro k hk
    obtain rfl : k = 0 := by omega
    rw [hP]; rfl
  exact C89_axion (n := 2) (sz := 4) (Lx := 8) (S := 2) (Lz := 4) (NN := 1)
    ⟨by decide, by decide, by decide, by decide, by decide, by decide, by decide, by omega⟩ (by decide)
    (fun _ => 1) [((.qcdC, .single, true, P), inOrder 8 2 4 1 0)]
    (by
      intro q hq
      obtain rfl := List.mem_singleton.1 hq
      exact ⟨hPC, fair_inOrder _ _ _ _ _⟩) (fun _ => rfl) hφ hν
    (C59_holding (by decide) (by decide) true F) (C59_holding (by decide) (by decide) true _)

end Jaxions.RunSym
