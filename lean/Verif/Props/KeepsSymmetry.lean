import Verif.Spec.KeepsSymmetry
import Verif.Props.RunSymmetry
import Verif.Props.AxionRun

/-!
# C95: symmetric fields stay symmetric, uniform fields stay uniform
-/

namespace Jaxions.RunSym

open Run Stencil

variable {α : Type}

theorem looks_evolve {gs : List (Rule α)} (hg : ∀ g ∈ gs, Symmetric g) {l : List Sym} {F : Lat α}
    (h : Looks F l) : Looks (evolve gs F) l := by
  unfold Looks at h ⊢
  rw [← evolve_act hg, h]

/-- A planar lattice is one that shifts along x and y do not change. -/
theorem planar_iff (F : Lat α) : Planar F ↔ ∀ a b : ℤ, Looks F [.shift a b 0] := by
  constructor
  · intro h a b
    unfold Looks
    show (⟨_, _⟩ : Lat α) = F
    cases F with
    | mk φ ν =>
      congr 1
      · funext x y z
        simp only [Sym.seen, Sym.from, add_zero]
        exact (h (x + a) (y + b) x y z).1
      · funext x y z
        simp only [Sym.seen, Sym.from, add_zero]
        exact (h (x + a) (y + b) x y z).2
  · intro h x y x' y' z
    have e := h (x - x') (y - y')
    unfold Looks at e
    have e1 := congrFun (congrFun (congrFun (congrArg Lat.φ e) x') y') z
    have e2 := congrFun (congrFun (congrFun (congrArg Lat.ν e) x') y') z
    simp only [act, List.foldr, Sym.seen, Sym.from, add_zero, add_sub_cancel] at e1 e2
    exact ⟨e1, e2⟩

/-- **C95** Axion runs keep every symmetry of the field: whatever symmetries (shifts, reflections,
exchanges of axes, and what is made of them) the lattice has at the beginning, it has at the end, with
every potential, precision, wrapping, and number of ranks. -/
theorem C95_axion {K : Type} [Field K] [LinearOrder K] {n sz Lx S Lz NN : ℕ}
    (hf : Fits n sz Lx S Lz NN) (h5 : NN ≤ 5) (w : ℕ → K)
    (steps : List ((ThetaKernel.Pot × Simd.Prec × Bool × ThetaKernel.Par K) × Luck K))
    (hsteps : ∀ q ∈ steps, (∀ k, k < NN → q.1.2.2.2.PC[k]? = some (w k)) ∧ Fair Lx S Lz NN q.2)
    {b : Bool} {wd : World K} {F : Lat K}
    (hφ : Periodic3 Lx (n * Lz) F.φ) (hν : Periodic3 Lx (n * Lz) F.ν)
    (hw : Holding n Lx S Lz NN b wd F) :
    let us := steps.map fun q => (axionSub q.1.1 q.1.2.1 q.1.2.2.1 q.1.2.2.2, q.2)
    ∃ e G, run n sz ⟨Lx, S, NN⟩ Lz b us wd = some e ∧
      Holding n Lx S Lz NN (if steps.length % 2 = 0 then b else !b) e G ∧
      (∀ l : List Sym, Looks F l → Looks G l) ∧ (Planar F → Planar G) := by
  intro us
  obtain ⟨e, h1, h2⟩ := C59_run (us := us)
    (gs := steps.map fun q => axionRule NN w q.1.1 q.1.2.1 q.1.2.2.1 q.1.2.2.2) hf
    (by
      rw [List.forall₂_map_left_iff, List.forall₂_map_right_iff, List.forall₂_same]
      exact fun q hq => ⟨axion_computes h5 _ _ _ _ (hsteps q hq).1, (hsteps q hq).2⟩) hφ hν hw
  rw [List.length_map] at h2
  have hg : ∀ g ∈ (steps.map fun q => axionRule NN w q.1.1 q.1.2.1 q.1.2.2.1 q.1.2.2.2),
      Symmetric g := by
    intro g hg
    obtain ⟨q, -, rfl⟩ := List.mem_map.1 hg
    exact axion_symmetric _ _ _ _ _ _
  refine ⟨e, _, h1, h2, fun l h => looks_evolve hg h, fun h => ?_⟩
  rw [planar_iff] at h ⊢
  exact fun a c => looks_evolve hg (h a c)

open SaxRun in
/-- **C95** Saxion runs keep every symmetry of the field. -/
theorem C95_saxion {p : Simd.Prec} {i : Simd.Isa} {n sz Lx Lz NN : ℕ}
    (hf : Fits n sz Lx (Simd.sites .saxion p i) Lz NN) (h5 : NN ≤ 5)
    (PC : List ℝ) (w : ℕ → ℝ) (ood2 : ℝ) (hPC : ∀ k, k < NN → PC[k]? = some (w k))
    (cs : List (Opt × Luck C)) (hc : ∀ c ∈ cs, Covered p c.1)
    (hF : ∀ c ∈ cs, Fair Lx (Simd.sites .saxion p i) Lz NN c.2) {b : Bool} {wd : World C} {F : Lat C}
    (hφ : Periodic3 Lx (n * Lz) F.φ) (hν : Periodic3 Lx (n * Lz) F.ν)
    (hw : Holding n Lx (Simd.sites .saxion p i) Lz NN b wd F) :
    ∃ e G, runVec p i n sz ⟨Lx, Simd.sites .saxion p i, NN⟩ Lz PC ood2 b cs wd = some e ∧
      Holding n Lx (Simd.sites .saxion p i) Lz NN (if cs.length % 2 = 0 then b else !b) e G ∧
      (∀ l : List Sym, Looks F l → Looks G l) ∧ (Planar F → Planar G) := by
  obtain ⟨e, h1, h2⟩ := C87_run hf h5 PC w ood2 hPC cs hc hF hφ hν hw
  have hg : ∀ g ∈ (cs.map fun c => eqRule NN w ood2 c.1), Symmetric g := by
    intro g hg
    obtain ⟨c, -, rfl⟩ := List.mem_map.1 hg
    exact saxion_symmetric _ _ _ _
  refine ⟨e, _, h1, h2, fun l h => looks_evolve hg h, fun h => ?_⟩
  rw [planar_iff] at h ⊢
  exact fun a c => looks_evolve hg (h a c)

/-- The neighbour sum of a uniform field vanishes. -/
theorem uniform_evolve (z0 : α) (gs : List (Rule α))
    (hg : ∀ g ∈ gs, ∀ (a : α) (x y z : ℤ), g.lap (fun _ _ _ => a) x y z = z0) (s : α × α) :
    evolve gs (uniform s) = uniform (gs.foldl (fun s g => g.law z0 s.1 s.2) s) := by
  induction gs generalizing s with
  | nil => rfl
  | cons g gs ih =>
    have e : g.step (uniform s) = uniform (g.law z0 s.1 s.2) := by
      simp only [Rule.step, uniform, hg g (List.mem_cons_self ..)]
    unfold evolve
    rw [e, ih fun g' h => hg g' (List.mem_cons_of_mem _ h)]
    rfl

theorem wrap_zero (wMod : Bool) (tV : ℝ) : ThetaKernel.wrapOf wMod tV 0 = 0 := by
  unfold ThetaKernel.wrapOf
  cases wMod
  · rfl
  · show Energy.modPd 0 tV = 0
    unfold Energy.modPd
    have h : min (min ((0 + tV) * (0 + tV)) ((0 - tV) * (0 - tV))) ((0 : ℝ) * 0) = 0 := by
      rw [min_eq_right]
      · ring
      · rw [mul_zero]
        exact le_min (mul_self_nonneg _) (mul_self_nonneg _)
    simp only [h]
    by_cases ht : tV = 0
    · subst ht; simp
    · have : (0 : ℝ) ≠ (0 + tV) * (0 + tV) := by
        rw [zero_add]; exact (mul_self_pos.2 ht).ne
      have h2 : (0 : ℝ) ≠ (0 - tV) * (0 - tV) := by
        rw [zero_sub, neg_mul_neg]; exact (mul_self_pos.2 ht).ne
      rw [if_neg this, if_neg h2]
      simp

theorem lapW_uniform (wMod : Bool) (tV : ℝ) (w : ℕ → ℝ) (NN : ℕ) (a : ℝ) (x y z : ℤ) :
    ThetaKernel.lapW (ThetaKernel.wrapOf wMod tV) w NN (fun _ _ _ => a) x y z = 0 := by
  unfold ThetaKernel.lapW
  refine Finset.sum_eq_zero fun k _ => ?_
  simp only [sub_self, wrap_zero, add_zero, mul_zero]

theorem laplacian_uniform (w : ℕ → ℝ) (NN : ℕ) (a : SaxRun.C) (x y z : ℤ) :
    laplacian w NN (fun _ _ _ => a) x y z = 0 := by
  unfold laplacian
  refine Finset.sum_eq_zero fun k _ => ?_
  have : a + a + a + a + a + a - (6 : ℝ) • a = 0 := by
    rw [show (6 : ℝ) = 1 + 1 + 1 + 1 + 1 + 1 by norm_num]
    simp only [add_smul, one_smul, sub_self]
  simp only [this, smul_zero]

theorem periodic_uniform (Lx N : ℕ) (a : α) : Periodic3 Lx N (fun _ _ _ => a) :=
  ⟨fun _ _ _ => rfl, fun _ _ _ => rfl, fun _ _ _ => rfl⟩

/-- **C95** A uniform axion field stays uniform, and its value and velocity after the run are the same on
every lattice: they depend on the steps only, not on size, stencil, vectors, ranks or threads. -/
theorem C95_axion_uniform {s : ℝ × ℝ}
    (options : List (ThetaKernel.Pot × Simd.Prec × Bool × ThetaKernel.Par ℝ)) :
    ∃ t : ℝ × ℝ, ∀ {n sz Lx S Lz NN : ℕ}, Fits n sz Lx S Lz NN → NN ≤ 5 → ∀ (w : ℕ → ℝ)
      (steps : List ((ThetaKernel.Pot × Simd.Prec × Bool × ThetaKernel.Par ℝ) × Luck ℝ)),
      steps.map Prod.fst = options →
      (∀ q ∈ steps, (∀ k, k < NN → q.1.2.2.2.PC[k]? = some (w k)) ∧ Fair Lx S Lz NN q.2) →
      ∀ {b : Bool} {wd : World ℝ}, Holding n Lx S Lz NN b wd (uniform s) →
      ∃ e, run n sz ⟨Lx, S, NN⟩ Lz b
          (steps.map fun q => (axionSub q.1.1 q.1.2.1 q.1.2.2.1 q.1.2.2.2, q.2)) wd = some e ∧
        Holding n Lx S Lz NN (if steps.length % 2 = 0 then b else !b) e (uniform t) := by
  refine ⟨options.foldl (fun s q => ThetaKernel.kick q.1 q.2.1 q.2.2.1 q.2.2.2 0 s.1 s.2) s, ?_⟩
  intro n sz Lx S Lz NN hf h5 w steps ho hsteps b wd hw
  obtain ⟨e, h1, h2⟩ := C59_run
    (us := steps.map fun q => (axionSub q.1.1 q.1.2.1 q.1.2.2.1 q.1.2.2.2, q.2))
    (gs := steps.map fun q => axionRule NN w q.1.1 q.1.2.1 q.1.2.2.1 q.1.2.2.2) hf
    (by
      rw [List.forall₂_map_left_iff, List.forall₂_map_right_iff, List.forall₂_same]
      exact fun q hq => ⟨axion_computes h5 _ _ _ _ (hsteps q hq).1, (hsteps q hq).2⟩)
    (periodic_uniform _ _ _) (periodic_uniform _ _ _) hw
  rw [List.length_map] at h2
  refine ⟨e, h1, ?_⟩
  rw [uniform_evolve 0] at h2
  · rw [← ho, List.foldl_map]
    rw [List.foldl_map] at h2
    exact h2
  · intro g hg a x y z
    obtain ⟨q, -, rfl⟩ := List.mem_map.1 hg
    exact lapW_uniform _ _ _ _ a x y z

open SaxRun in
/-- **C95** A uniform complex field stays uniform and follows, substep by substep, the equation of a
single point: `φ'' = R''/R φ - dV/dφ` with friction, without gradients. -/
theorem C95_saxion_uniform {p : Simd.Prec} {i : Simd.Isa} {n sz Lx Lz NN : ℕ}
    (hf : Fits n sz Lx (Simd.sites .saxion p i) Lz NN) (h5 : NN ≤ 5)
    (PC : List ℝ) (w : ℕ → ℝ) (ood2 : ℝ) (hPC : ∀ k, k < NN → PC[k]? = some (w k))
    (cs : List (Opt × Luck C)) (hc : ∀ c ∈ cs, Covered p c.1)
    (hF : ∀ c ∈ cs, Fair Lx (Simd.sites .saxion p i) Lz NN c.2) {b : Bool} {wd : World C} {s : C × C}
    (hw : Holding n Lx (Simd.sites .saxion p i) Lz NN b wd (uniform s)) :
    ∃ e, runVec p i n sz ⟨Lx, Simd.sites .saxion p i, NN⟩ Lz PC ood2 b cs wd = some e ∧
      Holding n Lx (Simd.sites .saxion p i) Lz NN (if cs.length % 2 = 0 then b else !b) e
        (uniform ((cs.map Prod.fst).foldl (fun s c =>
          let a := c.q.Rpp • s.1 - grad (potential c) s.1
          let v := ((1 - friction c) / (1 + friction c)) • s.2 +
            (c.q.dz * c.q.c / (1 + friction c)) • a
          (s.1 + (c.q.dz * c.q.d) • v, v)) s)) := by
  obtain ⟨e, h1, h2⟩ := C87_run hf h5 PC w ood2 hPC cs hc hF
    (periodic_uniform _ _ _) (periodic_uniform _ _ _) hw
  refine ⟨e, h1, ?_⟩
  rw [uniform_evolve 0] at h2
  · have hfun : (fun (s : C × C) (c : Opt × Luck C) => (eqRule NN w ood2 c.1).law 0 s.1 s.2) =
        fun s c =>
          let a := c.1.q.Rpp • s.1 - grad (potential c.1) s.1
          let v := ((1 - friction c.1) / (1 + friction c.1)) • s.2 +
            (c.1.q.dz * c.1.q.c / (1 + friction c.1)) • a
          (s.1 + (c.1.q.dz * c.1.q.d) • v, v) := by
      funext s c
      show eqLaw c.1 0 s.1 s.2 = _
      unfold eqLaw
      rw [zero_add]
    rw [List.foldl_map, hfun] at h2
    rw [List.foldl_map]
    exact h2
  · intro g hg a x y z
    obtain ⟨q, -, rfl⟩ := List.mem_map.1 hg
    exact laplacian_uniform _ _ a x y z

/-! ### Examples -/

/-- A wall: it looks the same after shifts along the wall and after the exchange of x and y. -/
example (f : ℤ → ℝ) : Planar (⟨fun _ _ z => f z, fun _ _ z => f (z + 1)⟩ : Lat ℝ) ∧
    Looks (⟨fun _ _ z => f z, fun _ _ z => f (z + 1)⟩ : Lat ℝ) [.xy] :=
  ⟨fun _ _ _ _ _ => ⟨rfl, rfl⟩, rfl⟩

/-- A field with a centre. -/
example : Looks (⟨fun x y z => (x ^ 2 + y ^ 2 + z ^ 2 : ℝ), fun x _ _ => (x ^ 2 : ℝ)⟩ : Lat ℝ)
    [.flipX, .flipZ] ∧
    ¬ Looks (⟨fun x y z => (x ^ 2 + y ^ 2 + z ^ 2 : ℝ), fun x _ _ => (x ^ 2 : ℝ)⟩ : Lat ℝ)
      [.shift 1 0 0] := by
  constructor
  · unfold Looks
    simp only [act, List.foldr_cons, List.foldr_nil, Lat.mk.injEq]
    constructor <;> funext x y z <;> simp [Sym.seen, Sym.from]
  · intro h
    have := congrFun (congrFun (congrFun (congrArg Lat.φ h) 0) 0) 0
    simp [act, Sym.seen, Sym.from] at this

/-- Two different lattices with a uniform field, one step. -/
example (P : ThetaKernel.Par ℝ) (hP : P.PC = [1]) (s : ℝ × ℝ) :
    ∃ t e e', run 2 4 ⟨8, 2, 1⟩ 4 true [(axionSub .qcdC .single true P, inOrder 8 2 4 1 0)]
        ⟨fill 2 8 2 4 1 (uniform s).φ, fill 2 8 2 4 1 (uniform s).φ, fill 2 8 2 4 0 (uniform s).ν⟩ =
          some e ∧
      run 3 2 ⟨8, 4, 1⟩ 4 true [(axionSub .qcdC .single true P, inOrder 8 4 4 1 0)]
        ⟨fill 3 8 4 4 1 (uniform s).φ, fill 3 8 4 4 1 (uniform s).φ, fill 3 8 4 4 0 (uniform s).ν⟩ =
          some e' ∧
      Holding 2 8 2 4 1 false e (uniform t) ∧ Holding 3 8 4 4 1 false e' (uniform t) := by
  have hPC : ∀ k, k < 1 → P.PC[k]? = some ((fun _ => 1 : Nat → ℝ) k) := by
    intro k hk
    obtain rfl : k = 0 := by omega
    rw [hP]; rfl
  obtain ⟨t, h⟩ := C95_axion_uniform (s := s) [(.qcdC, .single, true, P)]
  obtain ⟨e, h1, h2⟩ := h (n := 2) (sz := 4) (Lx := 8) (S := 2) (Lz := 4) (NN := 1)
    ⟨by decide, by decide, by decide, by decide, by decide, by decide, by decide, by omega⟩ (by decide)
    (fun _ => 1) [((.qcdC, .single, true, P), inOrder 8 2 4 1 0)] rfl
    (by
      intro q hq
      obtain rfl := List.mem_singleton.1 hq
      exact ⟨hPC, fair_inOrder _ _ _ _ _⟩) (C59_holding (by decide) (by decide) true _)
  obtain ⟨e', h1', h2'⟩ := h (n := 3) (sz := 2) (Lx := 8) (S := 4) (Lz := 4) (NN := 1)
    ⟨by decide, by decide, by decide, by decide, by decide, by decide, by decide, by omega⟩ (by decide)
    (fun _ => 1) [((.qcdC, .single, true, P), inOrder 8 4 4 1 0)] rfl
    (by
      intro q hq
      obtain rfl := List.mem_singleton.1 hq
      exact ⟨hPC, fair_inOrder _ _ _ _ _⟩) (C59_holding (by decide) (by decide) true _)
  exact ⟨t, e, e', h1, h1', h2, h2'⟩

end Jaxions.RunSym
