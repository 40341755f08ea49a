import Verif.Spec.Reach
import Verif.Props.RunSymmetry

/-!
# C91: a change travels at most as many links per substep as the stencil is wide
-/

namespace Jaxions.Reach

open Run Stencil

variable {α : Type} {NN : ℕ}

/-- The neighbour sum of a rule at a site depends on sites up to `NN` links away. -/
def Local (NN : ℕ) (g : Rule α) : Prop := ∀ (φ ψ : ℤ → ℤ → ℤ → α) (x y z : ℤ),
  (∀ a b c, far x y z a b c ≤ NN → φ a b c = ψ a b c) → g.lap φ x y z = g.lap ψ x y z

theorem saxion_local {K : Type} [Field K] [AddCommGroup α] [Module K α] (w : ℕ → K)
    (ood2 : K) (law : α → α → α → α × α) : Local NN (saxionRule NN w ood2 law) := by
  intro φ ψ x y z h
  simp only [saxionRule, laplacian]
  refine Finset.sum_congr rfl fun k hk => ?_
  rw [Finset.mem_range] at hk
  rw [h (x + (k + 1 : ℕ)) y z (by unfold far; omega), h (x - (k + 1 : ℕ)) y z (by unfold far; omega),
    h x (y + (k + 1 : ℕ)) z (by unfold far; omega), h x (y - (k + 1 : ℕ)) z (by unfold far; omega),
    h x y (z + (k + 1 : ℕ)) (by unfold far; omega), h x y (z - (k + 1 : ℕ)) (by unfold far; omega),
    h x y z (by unfold far; omega)]

theorem axion_local {K : Type} [Field K] [LinearOrder K] (w : ℕ → K)
    (pot : ThetaKernel.Pot) (p : Simd.Prec) (wMod : Bool) (P : ThetaKernel.Par K) :
    Local NN (axionRule NN w pot p wMod P) := by
  intro φ ψ x y z h
  simp only [axionRule, ThetaKernel.lapW]
  refine Finset.sum_congr rfl fun k hk => ?_
  rw [Finset.mem_range] at hk
  rw [h (x + (k + 1 : ℕ)) y z (by unfold far; omega), h (x - (k + 1 : ℕ)) y z (by unfold far; omega),
    h x (y + (k + 1 : ℕ)) z (by unfold far; omega), h x (y - (k + 1 : ℕ)) z (by unfold far; omega),
    h x y (z + (k + 1 : ℕ)) (by unfold far; omega), h x y (z - (k + 1 : ℕ)) (by unfold far; omega),
    h x y z (by unfold far; omega)]

theorem far_triangle (x y z a b c u v w : ℤ) :
    far x y z u v w ≤ far x y z a b c + far a b c u v w := by
  unfold far; omega

theorem far_self (x y z : ℤ) : far x y z x y z = 0 := by
  unfold far; omega

theorem step_agree {g : Rule α} (hg : Local NN g) {d : ℕ} {x y z : ℤ} {F G : Lat α}
    (h : Agree (d + NN) x y z F G) : Agree d x y z (g.step F) (g.step G) := by
  intro a b c hd
  have e1 := h a b c (by omega)
  have e2 : g.lap F.φ a b c = g.lap G.φ a b c := by
    refine hg _ _ _ _ _ fun u v w huv => (h u v w ?_).1
    have := far_triangle x y z a b c u v w
    omega
  unfold Rule.step
  simp only [e1.1, e1.2, e2, and_self]

theorem evolve_agree {gs : List (Rule α)} (hg : ∀ g ∈ gs, Local NN g) {d : ℕ} {x y z : ℤ}
    {F G : Lat α} (h : Agree (d + gs.length * NN) x y z F G) :
    Agree d x y z (evolve gs F) (evolve gs G) := by
  induction gs generalizing F G with
  | nil => simpa [evolve] using h
  | cons g gs ih =>
    unfold evolve
    refine ih (fun g' h => hg g' (List.mem_cons_of_mem _ h)) (step_agree (hg g (List.mem_cons_self ..)) ?_)
    rw [List.length_cons, Nat.succ_mul, ← Nat.add_assoc] at h
    exact h

/-- **C91** Runs of any kernels with a neighbour sum of `NN` links: if the lattices agree up to
`d + k · NN` links from a site, counted through the periodic borders and those of the ranks, the
results of `k` substeps agree up to `d` links from it. -/
theorem C91_run {n sz Lx S Lz : ℕ} (hf : Fits n sz Lx S Lz NN) {us : List (Run.Sub α × Luck α)}
    {gs : List (Rule α)}
    (hus : List.Forall₂ (fun ul g => Computes NN ul.1 g ∧ Fair Lx S Lz NN ul.2) us gs)
    (hg : ∀ g ∈ gs, Local NN g) {b : Bool} {w w' : World α} {F F' : Lat α}
    (hφ : Periodic3 Lx (n * Lz) F.φ) (hν : Periodic3 Lx (n * Lz) F.ν)
    (hφ' : Periodic3 Lx (n * Lz) F'.φ) (hν' : Periodic3 Lx (n * Lz) F'.ν)
    (hw : Holding n Lx S Lz NN b w F) (hw' : Holding n Lx S Lz NN b w' F') :
    ∃ e e' G G', run n sz ⟨Lx, S, NN⟩ Lz b us w = some e ∧ run n sz ⟨Lx, S, NN⟩ Lz b us w' = some e' ∧
      Holding n Lx S Lz NN (if us.length % 2 = 0 then b else !b) e G ∧
      Holding n Lx S Lz NN (if us.length % 2 = 0 then b else !b) e' G' ∧
      ∀ d x y z, Agree (d + us.length * NN) x y z F F' → Agree d x y z G G' := by
  obtain ⟨e, h1, h2⟩ := C59_run hf hus hφ hν hw
  obtain ⟨e', h1', h2'⟩ := C59_run hf hus hφ' hν' hw'
  refine ⟨e, e', _, _, h1, h1', h2, h2', fun d x y z h => evolve_agree hg ?_⟩
  rwa [← hus.length_eq]

/-- **C91** Axion runs. -/
theorem C91_axion {K : Type} [Field K] [LinearOrder K] {n sz Lx S Lz : ℕ}
    (hf : Fits n sz Lx S Lz NN) (h5 : NN ≤ 5) (w : ℕ → K)
    (steps : List ((ThetaKernel.Pot × Simd.Prec × Bool × ThetaKernel.Par K) × Luck K))
    (hsteps : ∀ q ∈ steps, (∀ k, k < NN → q.1.2.2.2.PC[k]? = some (w k)) ∧ Fair Lx S Lz NN q.2)
    {b : Bool} {wd wd' : World K} {F F' : Lat K}
    (hφ : Periodic3 Lx (n * Lz) F.φ) (hν : Periodic3 Lx (n * Lz) F.ν)
    (hφ' : Periodic3 Lx (n * Lz) F'.φ) (hν' : Periodic3 Lx (n * Lz) F'.ν)
    (hw : Holding n Lx S Lz NN b wd F) (hw' : Holding n Lx S Lz NN b wd' F') :
    let us := steps.map fun q => (axionSub q.1.1 q.1.2.1 q.1.2.2.1 q.1.2.2.2, q.2)
    ∃ e e' G G', run n sz ⟨Lx, S, NN⟩ Lz b us wd = some e ∧ run n sz ⟨Lx, S, NN⟩ Lz b us wd' = some e' ∧
      Holding n Lx S Lz NN (if steps.length % 2 = 0 then b else !b) e G ∧
      Holding n Lx S Lz NN (if steps.length % 2 = 0 then b else !b) e' G' ∧
      ∀ d x y z, Agree (d + steps.length * NN) x y z F F' → Agree d x y z G G' := by
  intro us
  have key := C91_run (us := us)
    (gs := steps.map fun q => axionRule NN w q.1.1 q.1.2.1 q.1.2.2.1 q.1.2.2.2) hf
    (by
      rw [List.forall₂_map_left_iff, List.forall₂_map_right_iff, List.forall₂_same]
      exact fun q hq => ⟨axion_computes h5 _ _ _ _ (hsteps q hq).1, (hsteps q hq).2⟩)
    (by
      intro g hg
      obtain ⟨q, -, rfl⟩ := List.mem_map.1 hg
      exact axion_local _ _ _ _ _) hφ hν hφ' hν' hw hw'
  rwa [List.length_map] at key

open SaxRun in
/-- **C91** Saxion runs, on registers, with the options of C87. -/
theorem C91_saxion {p : Simd.Prec} {i : Simd.Isa} {n sz Lx Lz : ℕ}
    (hf : Fits n sz Lx (Simd.sites .saxion p i) Lz NN) (h5 : NN ≤ 5)
    (PC : List ℝ) (w : ℕ → ℝ) (ood2 : ℝ) (hPC : ∀ k, k < NN → PC[k]? = some (w k))
    (cs : List (Opt × Luck C)) (hc : ∀ c ∈ cs, Covered p c.1)
    (hF : ∀ c ∈ cs, Fair Lx (Simd.sites .saxion p i) Lz NN c.2) {b : Bool} {wd wd' : World C}
    {F F' : Lat C} (hφ : Periodic3 Lx (n * Lz) F.φ) (hν : Periodic3 Lx (n * Lz) F.ν)
    (hφ' : Periodic3 Lx (n * Lz) F'.φ) (hν' : Periodic3 Lx (n * Lz) F'.ν)
    (hw : Holding n Lx (Simd.sites .saxion p i) Lz NN b wd F)
    (hw' : Holding n Lx (Simd.sites .saxion p i) Lz NN b wd' F') :
    ∃ e e' G G', runVec p i n sz ⟨Lx, Simd.sites .saxion p i, NN⟩ Lz PC ood2 b cs wd = some e ∧
      runVec p i n sz ⟨Lx, Simd.sites .saxion p i, NN⟩ Lz PC ood2 b cs wd' = some e' ∧
      Holding n Lx (Simd.sites .saxion p i) Lz NN (if cs.length % 2 = 0 then b else !b) e G ∧
      Holding n Lx (Simd.sites .saxion p i) Lz NN (if cs.length % 2 = 0 then b else !b) e' G' ∧
      ∀ d x y z, Agree (d + cs.length * NN) x y z F F' → Agree d x y z G G' := by
  obtain ⟨e, h1, h2⟩ := C87_run hf h5 PC w ood2 hPC cs hc hF hφ hν hw
  obtain ⟨e', h1', h2'⟩ := C87_run hf h5 PC w ood2 hPC cs hc hF hφ' hν' hw'
  refine ⟨e, e', _, _, h1, h1', h2, h2', fun d x y z h => evolve_agree (NN := NN) ?_ ?_⟩
  · intro g hg
    obtain ⟨c, -, rfl⟩ := List.mem_map.1 hg
    exact saxion_local _ _ _
  · rwa [List.length_map]

/-! ### No smaller number will do -/

theorem evolve_snoc (gs : List (Rule α)) (g : Rule α) (F : Lat α) :
    evolve (gs ++ [g]) F = g.step (evolve gs F) := by
  induction gs generalizing F with
  | nil => rfl
  | cons a gs ih => exact ih _

/-- The rule of a substep without potential and with plain differences. -/
noncomputable def plain (NN : ℕ) (w : ℕ → ℝ) (P : ThetaKernel.Par ℝ) : Rule ℝ :=
  axionRule NN w .qcd0 .double false P

/-- The lattice at rest, and the one with a single site displaced. -/
def rest : Lat ℝ := ⟨fun _ _ _ => 0, fun _ _ _ => 0⟩
def one : Lat ℝ := ⟨fun x y z => if x = 0 ∧ y = 0 ∧ z = 0 then 1 else 0, fun _ _ _ => 0⟩

theorem plain_step (w : ℕ → ℝ) (P : ThetaKernel.Par ℝ) (F : Lat ℝ) :
    (plain NN w P).step F =
      ⟨fun x y z => F.φ x y z + (F.ν x y z + ((plain NN w P).lap F.φ x y z + P.Rpp * F.φ x y z) * P.dzc) * P.dzd,
       fun x y z => F.ν x y z + ((plain NN w P).lap F.φ x y z + P.Rpp * F.φ x y z) * P.dzc⟩ := rfl

theorem evolve_rest (w : ℕ → ℝ) (Ps : List (ThetaKernel.Par ℝ)) :
    evolve (Ps.map (plain NN w)) rest = rest := by
  induction Ps with
  | nil => rfl
  | cons P Ps ih =>
    have e : (plain NN w P).step rest = rest := by
      rw [plain_step]
      simp [rest, plain, axionRule, ThetaKernel.lapW, ThetaKernel.wrapOf]
    show evolve _ ((plain NN w P).step rest) = rest
    rw [e, ih]

/-- What one substep hands on to the far end of the stencil. -/
noncomputable def hand (NN : ℕ) (w : ℕ → ℝ) (P : ThetaKernel.Par ℝ) : ℝ :=
  w (NN - 1) * P.ood2 * P.dzc * P.dzd

theorem evolve_far (w : ℕ → ℝ) (Ps : List (ThetaKernel.Par ℝ)) {x y z : ℤ}
    (h : Ps.length * NN < far x y z 0 0 0) :
    (evolve (Ps.map (plain NN w)) one).φ x y z = 0 ∧ (evolve (Ps.map (plain NN w)) one).ν x y z = 0 := by
  have key := evolve_agree (NN := NN) (gs := Ps.map (plain NN w)) (d := 0) (x := x) (y := y) (z := z)
    (F := one) (G := rest) (by
      intro g hg
      obtain ⟨P, -, rfl⟩ := List.mem_map.1 hg
      exact axion_local _ _ _ _ _) (by
      rw [List.length_map, Nat.zero_add]
      intro a b c hd
      refine ⟨?_, rfl⟩
      show (if a = 0 ∧ b = 0 ∧ c = 0 then (1 : ℝ) else 0) = 0
      rw [if_neg]
      rintro ⟨rfl, rfl, rfl⟩
      omega) x y z (by rw [far_self])
  rw [evolve_rest] at key
  exact key

theorem evolve_edge (w : ℕ → ℝ) (hN : 0 < NN) (Ps : List (ThetaKernel.Par ℝ)) :
    (evolve (Ps.map (plain NN w)) one).φ ((Ps.length * NN : ℕ) : ℤ) 0 0 = (Ps.map (hand NN w)).prod := by
  induction Ps using List.reverseRecOn with
  | nil => simp [evolve, one]
  | append_singleton Ps P ih =>
    rw [List.map_append, List.map_append, List.map_singleton, List.map_singleton, evolve_snoc,
      plain_step, List.prod_append, List.prod_singleton, ← ih]
    have hl : (Ps ++ [P]).length * NN = Ps.length * NN + NN := by
      rw [List.length_append, List.length_singleton, Nat.add_mul, Nat.one_mul]
    rw [hl]
    have hz := evolve_far (NN := NN) w Ps (x := ((Ps.length * NN + NN : ℕ) : ℤ)) (y := 0) (z := 0)
      (by unfold far; omega)
    simp only [hz.1, hz.2]
    have z0 : ∀ a b c : ℤ, Ps.length * NN < far a b c 0 0 0 →
        (evolve (Ps.map (plain NN w)) one).φ a b c = 0 := fun a b c h => (evolve_far w Ps h).1
    have hlap : (plain NN w P).lap (evolve (Ps.map (plain NN w)) one).φ
        ((Ps.length * NN + NN : ℕ) : ℤ) 0 0 =
        w (NN - 1) * P.ood2 * (evolve (Ps.map (plain NN w)) one).φ ((Ps.length * NN : ℕ) : ℤ) 0 0 := by
      show ThetaKernel.lapW _ _ _ _ _ _ _ = _
      unfold ThetaKernel.lapW
      simp only [ThetaKernel.wrapOf, Bool.false_eq_true, if_false, id, hz.1, sub_zero]
      generalize hX : ((Ps.length * NN + NN : ℕ) : ℤ) = X at *
      rw [Finset.sum_eq_single (NN - 1)]
      · rw [z0 (X + (NN - 1 + 1 : ℕ)) 0 0 (by unfold far; omega),
          z0 X (0 + (NN - 1 + 1 : ℕ)) 0 (by unfold far; omega),
          z0 X (0 - (NN - 1 + 1 : ℕ)) 0 (by unfold far; omega),
          z0 X 0 (0 + (NN - 1 + 1 : ℕ)) (by unfold far; omega),
          z0 X 0 (0 - (NN - 1 + 1 : ℕ)) (by unfold far; omega)]
        have e : X - (NN - 1 + 1 : ℕ) = ((Ps.length * NN : ℕ) : ℤ) := by omega
        rw [e]
        ring
      · intro k hk hne
        rw [Finset.mem_range] at hk
        rw [z0 (X + (k + 1 : ℕ)) 0 0 (by unfold far; omega),
          z0 (X - (k + 1 : ℕ)) 0 0 (by unfold far; omega),
          z0 X (0 + (k + 1 : ℕ)) 0 (by unfold far; omega),
          z0 X (0 - (k + 1 : ℕ)) 0 (by unfold far; omega),
          z0 X 0 (0 + (k + 1 : ℕ)) (by unfold far; omega),
          z0 X 0 (0 - (k + 1 : ℕ)) (by unfold far; omega)]
        ring
      · intro h
        exact absurd (Finset.mem_range.2 (by omega)) h
    rw [hlap]
    unfold hand
    ring

/-- A displaced site with its periodic images. -/
noncomputable def spot (L : ℕ) : Lat ℝ :=
  ⟨fun x y z => if (L : ℤ) ∣ x ∧ (L : ℤ) ∣ y ∧ (L : ℤ) ∣ z then 1 else 0, fun _ _ _ => 0⟩

theorem spot_periodic (L : ℕ) : Periodic3 L L (spot L).φ ∧ Periodic3 L L (spot L).ν := by
  refine ⟨⟨fun x y z => ?_, fun x y z => ?_, fun x y z => ?_⟩,
    fun _ _ _ => rfl, fun _ _ _ => rfl, fun _ _ _ => rfl⟩ <;>
  simp only [spot, dvd_add_self_right]

theorem spot_one {L d : ℕ} (hL : 2 * d < L) : Agree d (d : ℤ) 0 0 (spot L) one := by
  intro a b c h
  refine ⟨?_, rfl⟩
  have small : ∀ t : ℤ, t.natAbs < L → ((L : ℤ) ∣ t ↔ t = 0) := by
    intro t ht
    constructor
    · intro hd
      by_contra h0
      have := Int.natAbs_dvd_natAbs.2 hd
      have := Nat.le_of_dvd (by omega) this
      omega
    · rintro rfl; exact dvd_zero _
  show (if (L : ℤ) ∣ a ∧ (L : ℤ) ∣ b ∧ (L : ℤ) ∣ c then (1 : ℝ) else 0) =
    if a = 0 ∧ b = 0 ∧ c = 0 then 1 else 0
  unfold far at h
  simp only [small a (by omega), small b (by omega), small c (by omega)]

/-- **C91** The number of links is exact: on a cube of more than `2 k · NN` sites a lattice at rest and
one with a single displaced site agree up to `k · NN - 1` links from the site at distance `k · NN` along
x, and after `k` substeps of the axion propagator without potential they differ there, if the last weight and
the factors of kick and drift are not zero. -/
theorem C91_sharp {n sz Lx S Lz : ℕ} (hf : Fits n sz Lx S Lz NN) (h5 : NN ≤ 5) (hN : 0 < NN) (w : ℕ → ℝ)
    (hcube : n * Lz = Lx) (steps : List (ThetaKernel.Par ℝ × Luck ℝ)) (hL : 2 * (steps.length * NN) < Lx)
    (hsteps : ∀ q ∈ steps, (∀ k, k < NN → q.1.PC[k]? = some (w k)) ∧ Fair Lx S Lz NN q.2)
    (hw : w (NN - 1) ≠ 0) (hq : ∀ q ∈ steps, q.1.ood2 ≠ 0 ∧ q.1.dz ≠ 0 ∧ q.1.c ≠ 0 ∧ q.1.d ≠ 0)
    {b : Bool} {wd wd' : World ℝ} (hr : Holding n Lx S Lz NN b wd rest)
    (hs : Holding n Lx S Lz NN b wd' (spot Lx)) :
    let us := steps.map fun q => (axionSub .qcd0 .double false q.1, q.2)
    ∃ e e' G G', run n sz ⟨Lx, S, NN⟩ Lz b us wd = some e ∧ run n sz ⟨Lx, S, NN⟩ Lz b us wd' = some e' ∧
      Holding n Lx S Lz NN (if steps.length % 2 = 0 then b else !b) e G ∧
      Holding n Lx S Lz NN (if steps.length % 2 = 0 then b else !b) e' G' ∧
      (∀ d, d < steps.length * NN → Agree d ((steps.length * NN : ℕ) : ℤ) 0 0 rest (spot Lx)) ∧
      G.φ ((steps.length * NN : ℕ) : ℤ) 0 0 ≠ G'.φ ((steps.length * NN : ℕ) : ℤ) 0 0 := by
  intro us
  have hst : ∀ q ∈ steps.map fun q => ((ThetaKernel.Pot.qcd0, Simd.Prec.double, false, q.1), q.2),
      (∀ k, k < NN → q.1.2.2.2.PC[k]? = some (w k)) ∧ Fair Lx S Lz NN q.2 := by
    intro q hq
    obtain ⟨p, hp, rfl⟩ := List.mem_map.1 hq
    exact hsteps p hp
  have hp := spot_periodic Lx
  obtain ⟨e, h1, h2⟩ := C59_axion hf h5 w
    (steps.map fun q => ((.qcd0, .double, false, q.1), q.2)) hst (F := rest)
    ⟨fun _ _ _ => rfl, fun _ _ _ => rfl, fun _ _ _ => rfl⟩
    ⟨fun _ _ _ => rfl, fun _ _ _ => rfl, fun _ _ _ => rfl⟩ hr
  obtain ⟨e', h1', h2'⟩ := C59_axion hf h5 w
    (steps.map fun q => ((.qcd0, .double, false, q.1), q.2)) hst (F := spot Lx)
    (by rw [hcube]; exact hp.1) (by rw [hcube]; exact hp.2) hs
  rw [List.map_map, List.length_map] at h2 h2'
  rw [List.map_map] at h1 h1'
  have hm : (List.map ((fun q : (ThetaKernel.Pot × Simd.Prec × Bool × ThetaKernel.Par ℝ) × Luck ℝ =>
      axionRule NN w q.1.1 q.1.2.1 q.1.2.2.1 q.1.2.2.2) ∘
        fun q : ThetaKernel.Par ℝ × Luck ℝ => ((ThetaKernel.Pot.qcd0, Simd.Prec.double, false, q.1), q.2)) steps) =
      (steps.map Prod.fst).map (plain NN w) := by
    rw [List.map_map]; rfl
  rw [hm] at h2 h2'
  refine ⟨e, e', _, _, h1, h1', h2, h2', ?_, ?_⟩
  · intro d hd a b' c hab
    refine ⟨?_, rfl⟩
    have := (spot_one hL a b' c (by omega)).1
    rw [this]
    show (0 : ℝ) = if a = 0 ∧ b' = 0 ∧ c = 0 then 1 else 0
    rw [if_neg]
    rintro ⟨rfl, rfl, rfl⟩
    unfold far at hab
    omega
  · have hev := (evolve_agree (NN := NN) (gs := (steps.map Prod.fst).map (plain NN w)) (d := 0)
      (F := spot Lx) (G := one) (x := ((steps.length * NN : ℕ) : ℤ)) (y := 0) (z := 0) (by
        intro g hg
        obtain ⟨P, -, rfl⟩ := List.mem_map.1 hg
        exact axion_local _ _ _ _ _) (by
        rw [List.length_map, List.length_map, Nat.zero_add]
        exact spot_one hL) ((steps.length * NN : ℕ) : ℤ) 0 0 (by rw [far_self])).1
    have hed := evolve_edge w hN (steps.map Prod.fst)
    rw [List.length_map] at hed
    rw [evolve_rest, hev, hed]
    show (0 : ℝ) ≠ _
    refine (List.prod_ne_zero ?_).symm
    intro h0
    obtain ⟨P, hP, e0⟩ := List.mem_map.1 h0
    obtain ⟨q, hq', rfl⟩ := List.mem_map.1 hP
    obtain ⟨a1, a2, a3, a4⟩ := hq q hq'
    unfold hand ThetaKernel.Par.dzc ThetaKernel.Par.dzd at e0
    exact mul_ne_zero (mul_ne_zero (mul_ne_zero hw a1) (mul_ne_zero a2 a3)) (mul_ne_zero a2 a4) e0

/-! ### Examples -/

example : far 0 0 0 3 (-2) 1 = 6 := by decide

/-- Two substeps with two neighbours, on a cube of 12 sites on three ranks: the change at the corner is
felt four slices of x away, after having crossed nothing less than the whole stencil twice. -/
example (P : ThetaKernel.Par ℝ) (hP : P.PC = [4 / 3, -1 / 12])
    (hq : P.ood2 ≠ 0 ∧ P.dz ≠ 0 ∧ P.c ≠ 0 ∧ P.d ≠ 0) :
    ∃ e e' G G',
      run 3 8 ⟨12, 2, 2⟩ 4 true ([(P, inOrder 12 2 4 2 0), (P, inOrder 12 2 4 2 0)].map fun q =>
        (axionSub .qcd0 .double false q.1, q.2))
        ⟨fill 3 12 2 4 2 rest.φ, fill 3 12 2 4 2 rest.φ, fill 3 12 2 4 0 rest.ν⟩ = some e ∧
      run 3 8 ⟨12, 2, 2⟩ 4 true ([(P, inOrder 12 2 4 2 0), (P, inOrder 12 2 4 2 0)].map fun q =>
        (axionSub .qcd0 .double false q.1, q.2))
        ⟨fill 3 12 2 4 2 (spot 12).φ, fill 3 12 2 4 2 (spot 12).φ, fill 3 12 2 4 0 (spot 12).ν⟩ = some e' ∧
      Holding 3 12 2 4 2 true e G ∧ Holding 3 12 2 4 2 true e' G' ∧
      (∀ d, d < 4 → Agree d 4 0 0 rest (spot 12)) ∧ G.φ 4 0 0 ≠ G'.φ 4 0 0 := by
  have key := C91_sharp (n := 3) (sz := 8) (Lx := 12) (S := 2) (Lz := 4) (NN := 2)
    ⟨by decide, by decide, by decide, by decide, by decide, by decide, by decide, by omega⟩ (by decide)
    (by decide) (fun k => if k = 0 then 4 / 3 else -1 / 12) rfl
    [(P, inOrder 12 2 4 2 0), (P, inOrder 12 2 4 2 0)] (show 2 * (2 * 2) < 12 by decide)
    (by
      intro q hq
      have : q = (P, inOrder 12 2 4 2 0) := by simpa using hq
      subst this
      refine ⟨fun k hk => ?_, fair_inOrder _ _ _ _ _⟩
      have : k = 0 ∨ k = 1 := by omega
      rcases this with rfl | rfl <;> simp [hP]) (by norm_num)
    (by
      intro q hq'
      have : q = (P, inOrder 12 2 4 2 0) := by simpa using hq'
      subst this
      exact hq)
    (C59_holding (by decide) (by decide) true rest) (C59_holding (by decide) (by decide) true (spot 12))
  obtain ⟨e, e', G, G', h1, h2, h3, h4, h5, h6⟩ := key
  rw [if_pos (show [(P, inOrder (α := ℝ) 12 2 4 2 0), (P, inOrder 12 2 4 2 0)].length % 2 = 0 by simp)]
    at h3 h4
  exact ⟨e, e', G, G', h1, h2, h3, h4, h5, h6⟩

end Jaxions.Reach
