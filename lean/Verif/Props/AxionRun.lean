import Verif.Spec.AxionRun
import Verif.Props.Run
import Verif.Props.PaxionLaw

/-!
# C88: what a run of the axion field keeps

The runs are those of C59 (`run`): arrays of every rank, messages, ghosts, vectors in any order.
-/

namespace Jaxions.AxionRun

open Stencil Simd Run ThetaKernel Energy Paxion

/-- The substeps of a run. -/
noncomputable def calls (steps : List (Call × Luck ℝ)) : List (Run.Sub ℝ × Luck ℝ) :=
  steps.map fun q => (axionSub q.1.1 q.1.2.1 q.1.2.2.1 q.1.2.2.2, q.2)

/-- The rule of a call. -/
noncomputable def ruleOf (NN : ℕ) (w : ℕ → ℝ) (q : Call) : Rule ℝ :=
  axionRule NN w q.1 q.2.1 q.2.2.1 q.2.2.2

/-- A run the code can do: the lattice fits, all substeps use the weights `w`. -/
structure Runs (n sz Lx S Lz NN : ℕ) (w : ℕ → ℝ) (steps : List (Call × Luck ℝ)) : Prop where
  fits : Fits n sz Lx S Lz NN
  radius : NN ≤ 5
  weights : ∀ q ∈ steps, ∀ k, k < NN → q.1.2.2.2.PC[k]? = some (w k)
  fair : ∀ q ∈ steps, Fair Lx S Lz NN q.2

/-- A periodic lattice held by the ranks. -/
structure Given (n Lx S Lz NN : ℕ) (b : Bool) (wd : World ℝ) (F : Lat ℝ) : Prop where
  field : Periodic3 Lx (n * Lz) F.φ
  vel : Periodic3 Lx (n * Lz) F.ν
  holding : Holding n Lx S Lz NN b wd F

variable {n sz Lx S Lz NN : ℕ} {w : ℕ → ℝ} {steps : List (Call × Luck ℝ)} {b : Bool} {wd : World ℝ}
  {F : Lat ℝ}

theorem run_evolve (hr : Runs n sz Lx S Lz NN w steps) (hg : Given n Lx S Lz NN b wd F) :
    ∃ e, run n sz ⟨Lx, S, NN⟩ Lz b (calls steps) wd = some e ∧
      Holding n Lx S Lz NN (if steps.length % 2 = 0 then b else !b) e
        (evolve ((steps.map Prod.fst).map (ruleOf NN w)) F) := by
  obtain ⟨e, h1, h2⟩ := C59_axion hr.fits hr.radius w steps
    (fun q hq => ⟨hr.weights q hq, hr.fair q hq⟩) hg.field hg.vel hg.holding
  refine ⟨e, h1, ?_⟩
  rw [List.map_map]
  exact h2

/-! ### Theta to minus theta -/

theorem modPd_neg (x md : ℝ) : modPd (-x) md = -modPd x md := by
  have e1 : (-x + md) * (-x + md) = (x - md) * (x - md) := by ring
  have e2 : (-x - md) * (-x - md) = (x + md) * (x + md) := by ring
  have e3 : -x * -x = x * x := by ring
  unfold modPd
  simp only [e1, e2, e3, min_comm ((x - md) * (x - md))]
  split_ifs <;> ring

theorem wrap_neg (wMod : Bool) (tV x : ℝ) : wrapOf wMod tV (-x) = -wrapOf wMod tV x := by
  unfold wrapOf
  cases wMod
  · rfl
  · exact modPd_neg x tV

theorem kick_neg {q : Call} (hs : ∀ t, q.2.2.2.sn (-t) = -q.2.2.2.sn t) (L m v : ℝ) :
    kick q.1 q.2.1 q.2.2.1 q.2.2.2 (-L) (-m) (-v) =
      (-(kick q.1 q.2.1 q.2.2.1 q.2.2.2 L m v).1, -(kick q.1 q.2.1 q.2.2.1 q.2.2.2 L m v).2) := by
  obtain ⟨pot, p, wMod, P⟩ := q
  dsimp only at hs ⊢
  have ha : accel pot p P (-L) (-m) = -accel pot p P L m := by
    cases pot <;> cases p <;> simp only [accel, neg_mul, hs] <;> ring
  unfold kick
  simp only [ha]
  have e : -m + (-v + -accel pot p P L m * P.dzc) * P.dzd =
      -(m + (v + accel pot p P L m * P.dzc) * P.dzd) := by ring
  rw [e, modPd_neg]
  refine Prod.ext ?_ ?_
  · cases wMod <;> rfl
  · dsimp only; ring

theorem evolve_minus (cs : List Call) (hs : ∀ q ∈ cs, ∀ t, q.2.2.2.sn (-t) = -q.2.2.2.sn t) (F : Lat ℝ) :
    evolve (cs.map (ruleOf NN w)) (minus F) = minus (evolve (cs.map (ruleOf NN w)) F) := by
  induction cs generalizing F with
  | nil => rfl
  | cons c cs ih =>
    rw [List.map_cons]
    unfold evolve
    rw [← ih fun c' hc' => hs c' (List.mem_cons_of_mem _ hc')]
    congr 1
    have hl : ∀ x y z, (ruleOf NN w c).lap (minus F).φ x y z = -(ruleOf NN w c).lap F.φ x y z := by
      intro x y z
      simp only [ruleOf, axionRule, lapW, minus]
      rw [← Finset.sum_neg_distrib]
      refine Finset.sum_congr rfl fun k _ => ?_
      have : ∀ a b : ℝ, -a - -b = -(a - b) := fun a b => by ring
      simp only [this, wrap_neg]
      ring
    have hk := kick_neg (hs c (List.mem_cons_self ..))
    have key : ∀ x y z, (ruleOf NN w c).law ((ruleOf NN w c).lap (minus F).φ x y z) ((minus F).φ x y z)
        ((minus F).ν x y z) =
        (-((ruleOf NN w c).law ((ruleOf NN w c).lap F.φ x y z) (F.φ x y z) (F.ν x y z)).1,
         -((ruleOf NN w c).law ((ruleOf NN w c).lap F.φ x y z) (F.φ x y z) (F.ν x y z)).2) := by
      intro x y z
      rw [hl]
      exact hk _ _ _
    unfold Rule.step
    simp only [key]
    rfl

/-- **C88** The run of the negative lattice ends with the negative, for every potential, precision and
with or without wrapping. -/
theorem C88_minus (hr : Runs n sz Lx S Lz NN w steps)
    (hs : ∀ q ∈ steps, ∀ t, q.1.2.2.2.sn (-t) = -q.1.2.2.2.sn t) {wd' : World ℝ}
    (hg : Given n Lx S Lz NN b wd F) (hg' : Given n Lx S Lz NN b wd' (minus F)) :
    ∃ e e' G, run n sz ⟨Lx, S, NN⟩ Lz b (calls steps) wd = some e ∧
      run n sz ⟨Lx, S, NN⟩ Lz b (calls steps) wd' = some e' ∧
      Holding n Lx S Lz NN (if steps.length % 2 = 0 then b else !b) e G ∧
      Holding n Lx S Lz NN (if steps.length % 2 = 0 then b else !b) e' (minus G) := by
  obtain ⟨e, h1, h2⟩ := run_evolve hr hg
  obtain ⟨e', h1', h2'⟩ := run_evolve hr hg'
  refine ⟨e, e', _, h1, h1', h2, ?_⟩
  rw [evolve_minus] at h2'
  · exact h2'
  · intro q hq
    obtain ⟨s, hs', rfl⟩ := List.mem_map.1 hq
    exact hs s hs'

/-! ### The momentum -/

/-- What flows out of a site flows into its neighbours. -/
theorem total_lapW {N : ℕ} {W : ℝ → ℝ} (hW : ∀ x, W (-x) = -W x) (u : ℕ → ℝ) {φ : ℤ → ℤ → ℤ → ℝ}
    (h : Periodic3 Lx N φ) : total Lx N (lapW W u NN φ) = 0 := by
  have ex : ∀ k : ℕ, total Lx N (fun x y z => W (φ (x - k) y z - φ x y z)) =
      -1 * total Lx N (fun x y z => W (φ (x + k) y z - φ x y z)) := by
    intro k
    rw [← total_shift_x (f := fun x y z => W (φ (x - k) y z - φ x y z)) (k := k), ← total_mul]
    · congr 1; funext x y z
      rw [add_sub_cancel_right, ← neg_sub, hW]; ring
    · exact ⟨fun x y z => by simp only [h.1, add_sub_right_comm], fun x y z => by simp only [h.2.1],
        fun x y z => by simp only [h.2.2]⟩
  have ey : ∀ k : ℕ, total Lx N (fun x y z => W (φ x (y - k) z - φ x y z)) =
      -1 * total Lx N (fun x y z => W (φ x (y + k) z - φ x y z)) := by
    intro k
    rw [← total_shift_y (f := fun x y z => W (φ x (y - k) z - φ x y z)) (k := k), ← total_mul]
    · congr 1; funext x y z
      rw [add_sub_cancel_right, ← neg_sub, hW]; ring
    · exact ⟨fun x y z => by simp only [h.1], fun x y z => by simp only [h.2.1, add_sub_right_comm],
        fun x y z => by simp only [h.2.2]⟩
  have ez : ∀ k : ℕ, total Lx N (fun x y z => W (φ x y (z - k) - φ x y z)) =
      -1 * total Lx N (fun x y z => W (φ x y (z + k) - φ x y z)) := by
    intro k
    rw [← total_shift_z (f := fun x y z => W (φ x y (z - k) - φ x y z)) (k := k), ← total_mul]
    · congr 1; funext x y z
      rw [add_sub_cancel_right, ← neg_sub, hW]; ring
    · exact ⟨fun x y z => by simp only [h.1], fun x y z => by simp only [h.2.1],
        fun x y z => by simp only [h.2.2, add_sub_right_comm]⟩
  have e : lapW W u NN φ = fun x y z => ∑ k ∈ Finset.range NN, u k *
      (W (φ (x + (k + 1 : Nat)) y z - φ x y z) + W (φ (x - (k + 1 : Nat)) y z - φ x y z) +
       W (φ x (y + (k + 1 : Nat)) z - φ x y z) + W (φ x (y - (k + 1 : Nat)) z - φ x y z) +
       W (φ x y (z + (k + 1 : Nat)) - φ x y z) + W (φ x y (z - (k + 1 : Nat)) - φ x y z)) := rfl
  rw [e, total_sum]
  refine Finset.sum_eq_zero fun k _ => ?_
  rw [total_mul, total_add, total_add, total_add, total_add, total_add, ex, ey, ez]
  ring

theorem rule_periodic {N : ℕ} (q : Call) {F : Lat ℝ} (hφ : Periodic3 Lx N F.φ) (hν : Periodic3 Lx N F.ν) :
    Periodic3 Lx N ((ruleOf NN w q).step F).φ ∧ Periodic3 Lx N ((ruleOf NN w q).step F).ν := by
  have hL : Periodic3 Lx N ((ruleOf NN w q).lap F.φ) := by
    refine ⟨fun x y z => ?_, fun x y z => ?_, fun x y z => ?_⟩ <;> simp only [ruleOf, axionRule, lapW] <;>
      refine Finset.sum_congr rfl fun k _ => ?_
    · simp only [add_right_comm x (Lx : ℤ), ← sub_add_eq_add_sub x, hφ.1]
    · simp only [add_right_comm y (Lx : ℤ), ← sub_add_eq_add_sub y, hφ.2.1]
    · simp only [add_right_comm z (N : ℤ), ← sub_add_eq_add_sub z, hφ.2.2]
  refine ⟨⟨fun x y z => ?_, fun x y z => ?_, fun x y z => ?_⟩, fun x y z => ?_, fun x y z => ?_,
    fun x y z => ?_⟩ <;> simp only [Rule.step, hL.1, hL.2.1, hL.2.2, hφ.1, hφ.2.1, hφ.2.2, hν.1, hν.2.1, hν.2.2]

theorem momentum_step {N : ℕ} {q : Call} (hq : q.1 = .qcd0) (hR : q.2.2.2.Rpp = 0) {F : Lat ℝ}
    (hφ : Periodic3 Lx N F.φ) : momentum Lx N ((ruleOf NN w q).step F) = momentum Lx N F := by
  obtain ⟨pot, p, wMod, P⟩ := q
  dsimp only at hq hR
  subst hq
  have e : ((ruleOf NN w (.qcd0, p, wMod, P)).step F).ν = fun x y z => F.ν x y z +
      P.dzc * lapW (wrapOf wMod P.tV) (fun k => w k * P.ood2) NN F.φ x y z := by
    funext x y z
    simp only [Rule.step, ruleOf, axionRule, kick, accel, hR]
    ring
  have h1 : momentum Lx N ((ruleOf NN w (.qcd0, p, wMod, P)).step F) =
      total Lx N ((ruleOf NN w (.qcd0, p, wMod, P)).step F).ν := rfl
  have h2 : momentum Lx N F = total Lx N F.ν := rfl
  rw [h1, h2, e, total_add, total_mul]
  have h3 := total_lapW (NN := NN) (W := wrapOf wMod P.tV) (wrap_neg wMod P.tV) (fun k => w k * P.ood2) hφ
  have h4 : total Lx N (fun x y z => lapW (wrapOf wMod P.tV) (fun k => w k * P.ood2) NN F.φ x y z) = 0 := h3
  rw [h4, mul_zero, add_zero]

/-- **C88** Without potential and expansion the sum of the velocities does not change, whatever the
steps, also where differences and fields are wrapped around the circle. -/
theorem C88_momentum (hr : Runs n sz Lx S Lz NN w steps)
    (hq : ∀ q ∈ steps, q.1.1 = .qcd0 ∧ q.1.2.2.2.Rpp = 0) (hg : Given n Lx S Lz NN b wd F) :
    ∃ e G, run n sz ⟨Lx, S, NN⟩ Lz b (calls steps) wd = some e ∧
      Holding n Lx S Lz NN (if steps.length % 2 = 0 then b else !b) e G ∧
      momentum Lx (n * Lz) G = momentum Lx (n * Lz) F := by
  obtain ⟨e, h1, h2⟩ := run_evolve hr hg
  refine ⟨e, _, h1, h2, ?_⟩
  have hq' : ∀ q ∈ steps.map Prod.fst, q.1 = .qcd0 ∧ q.2.2.2.Rpp = 0 := by
    intro q h
    obtain ⟨s, hs, rfl⟩ := List.mem_map.1 h
    exact hq s hs
  have key : ∀ (cs : List Call) (F : Lat ℝ), (∀ q ∈ cs, q.1 = .qcd0 ∧ q.2.2.2.Rpp = 0) →
      Periodic3 Lx (n * Lz) F.φ → Periodic3 Lx (n * Lz) F.ν →
      momentum Lx (n * Lz) (evolve (cs.map (ruleOf NN w)) F) = momentum Lx (n * Lz) F := by
    intro cs
    induction cs with
    | nil => intros; rfl
    | cons c cs ih =>
      intro F hc hφ hν
      obtain ⟨p1, p2⟩ := rule_periodic (NN := NN) (w := w) c hφ hν
      rw [List.map_cons, evolve, ih _ (fun q h => hc q (List.mem_cons_of_mem _ h)) p1 p2,
        momentum_step (hc c (List.mem_cons_self ..)).1 (hc c (List.mem_cons_self ..)).2 hφ]
  exact key _ F hq' hg.field hg.vel

/-! ### Linear equations -/

theorem law_linear {q : Call} (hq : Linear q) (L m v : ℝ) :
    (ruleOf NN w q).law L m v =
      (m + q.2.2.2.dz * q.2.2.2.d * (v + q.2.2.2.dz * q.2.2.2.c * (L + (q.2.2.2.Rpp - mass2 q) * m)),
        v + q.2.2.2.dz * q.2.2.2.c * (L + (q.2.2.2.Rpp - mass2 q) * m)) := by
  obtain ⟨pot, p, wMod, P⟩ := q
  obtain ⟨h1, h2⟩ := hq
  dsimp only at h1 h2
  subst h1
  rcases h2 with h2 | ⟨h2, h3, h4⟩
  · subst h2
    simp only [ruleOf, axionRule, kick, accel, mass2, if_true, Bool.false_eq_true, if_false,
      ThetaKernel.Par.dzc, ThetaKernel.Par.dzd]
    refine Prod.ext ?_ ?_ <;> dsimp only <;> ring
  · subst h2 h3
    have e : P.zQ * (m * P.iz) = P.mA2 * P.R ^ 2 * m := by
      unfold ThetaKernel.Par.zQ ThetaKernel.Par.iz
      field_simp
    simp only [ruleOf, axionRule, kick, accel, mass2, Bool.false_eq_true, if_false, e,
      ThetaKernel.Par.dzc, ThetaKernel.Par.dzd, reduceCtorEq]
    refine Prod.ext ?_ ?_ <;> dsimp only <;> ring

theorem lap_linear {q : Call} (hq : Linear q) : (ruleOf NN w q).lap = lapW id (fun k => w k * q.2.2.2.ood2) NN := by
  simp only [ruleOf, axionRule, wrapOf, hq.1, Bool.false_eq_true, if_false]

/-- **C88** With plain differences and a quadratic potential or none, runs can be superposed. -/
theorem C88_superpose (hr : Runs n sz Lx S Lz NN w steps) (hq : ∀ q ∈ steps, Linear q.1) {α β : ℝ}
    {F' : Lat ℝ} {wd' wd'' : World ℝ} (hg : Given n Lx S Lz NN b wd F) (hg' : Given n Lx S Lz NN b wd' F')
    (hg'' : Given n Lx S Lz NN b wd'' (combine α β F F')) :
    ∃ e e' e'' G G', run n sz ⟨Lx, S, NN⟩ Lz b (calls steps) wd = some e ∧
      run n sz ⟨Lx, S, NN⟩ Lz b (calls steps) wd' = some e' ∧
      run n sz ⟨Lx, S, NN⟩ Lz b (calls steps) wd'' = some e'' ∧
      Holding n Lx S Lz NN (if steps.length % 2 = 0 then b else !b) e G ∧
      Holding n Lx S Lz NN (if steps.length % 2 = 0 then b else !b) e' G' ∧
      Holding n Lx S Lz NN (if steps.length % 2 = 0 then b else !b) e'' (combine α β G G') := by
  obtain ⟨e, h1, h2⟩ := run_evolve hr hg
  obtain ⟨e', h1', h2'⟩ := run_evolve hr hg'
  obtain ⟨e'', h1'', h2''⟩ := run_evolve hr hg''
  refine ⟨e, e', e'', _, _, h1, h1', h1'', h2, h2', ?_⟩
  have hq' : ∀ q ∈ steps.map Prod.fst, Linear q := by
    intro q h
    obtain ⟨s, hs, rfl⟩ := List.mem_map.1 h
    exact hq s hs
  have key : ∀ (cs : List Call) (F F' : Lat ℝ), (∀ q ∈ cs, Linear q) →
      evolve (cs.map (ruleOf NN w)) (combine α β F F') =
        combine α β (evolve (cs.map (ruleOf NN w)) F) (evolve (cs.map (ruleOf NN w)) F') := by
    intro cs
    induction cs with
    | nil => intros; rfl
    | cons c cs ih =>
      intro F F' hc
      have hl := hc c (List.mem_cons_self ..)
      rw [List.map_cons, evolve, evolve, evolve, ← ih _ _ fun q h => hc q (List.mem_cons_of_mem _ h)]
      congr 1
      have hL : ∀ x y z, lapW id (fun k => w k * c.2.2.2.ood2) NN (combine α β F F').φ x y z =
          α * lapW id (fun k => w k * c.2.2.2.ood2) NN F.φ x y z +
            β * lapW id (fun k => w k * c.2.2.2.ood2) NN F'.φ x y z := by
        intro x y z
        simp only [lapW, combine, id, Finset.mul_sum, ← Finset.sum_add_distrib]
        refine Finset.sum_congr rfl fun k _ => ?_
        ring
      unfold Rule.step
      simp only [law_linear hl, lap_linear hl, hL]
      simp only [combine, Lat.mk.injEq]
      constructor <;> funext x y z <;> ring
  rw [key _ _ _ hq'] at h2''
  exact h2''

theorem shape_evolve {ψ : ℤ → ℤ → ℤ → ℝ} {l : ℝ} (hψ : ∀ x y z, lapW id w NN ψ x y z = -(l * ψ x y z))
    (cs : List Call) (hc : ∀ q ∈ cs, Linear q) (s : ℝ × ℝ) :
    evolve (cs.map (ruleOf NN w)) (shaped ψ s) = shaped ψ (cs.foldl (swing l) s) := by
  induction cs generalizing s with
  | nil => rfl
  | cons c cs ih =>
    have hl := hc c (List.mem_cons_self ..)
    rw [List.map_cons, evolve, List.foldl_cons, ← ih fun q h => hc q (List.mem_cons_of_mem _ h)]
    congr 1
    have hL : ∀ x y z, lapW id (fun k => w k * c.2.2.2.ood2) NN (shaped ψ s).φ x y z =
        s.1 * c.2.2.2.ood2 * -(l * ψ x y z) := by
      intro x y z
      rw [← hψ]
      simp only [lapW, shaped, id, Finset.mul_sum]
      refine Finset.sum_congr rfl fun k _ => ?_
      ring
    unfold Rule.step
    simp only [law_linear hl, lap_linear hl, hL]
    simp only [shaped, swing, Lat.mk.injEq]
    constructor <;> funext x y z <;> ring

theorem lap_wave (k : ℝ × ℝ × ℝ) (δ : ℝ) (x y z : ℤ) :
    lapW id w NN (wave k δ) x y z = -(symbol w NN k * wave k δ x y z) := by
  have h : ∀ a t : ℝ, Real.cos (a + t) + Real.cos (a - t) = 2 * Real.cos t * Real.cos a := by
    intro a t
    rw [Real.cos_add, Real.cos_sub]; ring
  unfold lapW symbol
  rw [Finset.sum_mul, ← Finset.sum_neg_distrib]
  refine Finset.sum_congr rfl fun j _ => ?_
  set a := k.1 * x + k.2.1 * y + k.2.2 * z + δ with ha
  have h1 := h a ((j + 1) * k.1)
  have h2 := h a ((j + 1) * k.2.1)
  have h3 := h a ((j + 1) * k.2.2)
  have w0 : wave k δ x y z = Real.cos a := rfl
  have x1 : wave k δ (x + (j + 1 : ℕ)) y z = Real.cos (a + (j + 1) * k.1) := by
    unfold wave; congr 1; push_cast; rw [ha]; ring
  have x2 : wave k δ (x - (j + 1 : ℕ)) y z = Real.cos (a - (j + 1) * k.1) := by
    unfold wave; congr 1; push_cast; rw [ha]; ring
  have y1 : wave k δ x (y + (j + 1 : ℕ)) z = Real.cos (a + (j + 1) * k.2.1) := by
    unfold wave; congr 1; push_cast; rw [ha]; ring
  have y2 : wave k δ x (y - (j + 1 : ℕ)) z = Real.cos (a - (j + 1) * k.2.1) := by
    unfold wave; congr 1; push_cast; rw [ha]; ring
  have z1 : wave k δ x y (z + (j + 1 : ℕ)) = Real.cos (a + (j + 1) * k.2.2) := by
    unfold wave; congr 1; push_cast; rw [ha]; ring
  have z2 : wave k δ x y (z - (j + 1 : ℕ)) = Real.cos (a - (j + 1) * k.2.2) := by
    unfold wave; congr 1; push_cast; rw [ha]; ring
  rw [w0, x1, x2, y1, y2, z1, z2]
  simp only [id]
  linear_combination w j * (h1 + h2 + h3)

/-- **C88** A plane wave stays this wave: its amplitude and rate after the run are those of an
oscillator with the frequency of the difference operator. -/
theorem C88_wave (hr : Runs n sz Lx S Lz NN w steps) (hq : ∀ q ∈ steps, Linear q.1) {k : ℝ × ℝ × ℝ}
    {δ : ℝ} {s : ℝ × ℝ} (hg : Given n Lx S Lz NN b wd (shaped (wave k δ) s)) :
    ∃ e, run n sz ⟨Lx, S, NN⟩ Lz b (calls steps) wd = some e ∧
      Holding n Lx S Lz NN (if steps.length % 2 = 0 then b else !b) e
        (shaped (wave k δ) ((steps.map Prod.fst).foldl (swing (symbol w NN k)) s)) := by
  obtain ⟨e, h1, h2⟩ := run_evolve hr hg
  refine ⟨e, h1, ?_⟩
  rw [shape_evolve (fun x y z => lap_wave k δ x y z)] at h2
  · exact h2
  · intro q h
    obtain ⟨s, hs, rfl⟩ := List.mem_map.1 h
    exact hq s hs

/-- **C88** The mean of the field moves like a homogeneous field, whatever else is on the lattice. -/
theorem C88_mean (hr : Runs n sz Lx S Lz NN w steps) (hq : ∀ q ∈ steps, Linear q.1)
    (hg : Given n Lx S Lz NN b wd F) :
    ∃ e G, run n sz ⟨Lx, S, NN⟩ Lz b (calls steps) wd = some e ∧
      Holding n Lx S Lz NN (if steps.length % 2 = 0 then b else !b) e G ∧
      (amount Lx (n * Lz) G, momentum Lx (n * Lz) G) =
        (steps.map Prod.fst).foldl (swing 0) (amount Lx (n * Lz) F, momentum Lx (n * Lz) F) := by
  obtain ⟨e, h1, h2⟩ := run_evolve hr hg
  refine ⟨e, _, h1, h2, ?_⟩
  have hq' : ∀ q ∈ steps.map Prod.fst, Linear q := by
    intro q h
    obtain ⟨s, hs, rfl⟩ := List.mem_map.1 h
    exact hq s hs
  have key : ∀ (cs : List Call) (F : Lat ℝ), (∀ q ∈ cs, Linear q) →
      Periodic3 Lx (n * Lz) F.φ → Periodic3 Lx (n * Lz) F.ν →
      (amount Lx (n * Lz) (evolve (cs.map (ruleOf NN w)) F), momentum Lx (n * Lz) (evolve (cs.map (ruleOf NN w)) F)) =
        cs.foldl (swing 0) (amount Lx (n * Lz) F, momentum Lx (n * Lz) F) := by
    intro cs
    induction cs with
    | nil => intros; rfl
    | cons c cs ih =>
      intro F hc hφ hν
      have hl := hc c (List.mem_cons_self ..)
      obtain ⟨p1, p2⟩ := rule_periodic (NN := NN) (w := w) c hφ hν
      rw [List.map_cons, evolve, ih _ (fun q h => hc q (List.mem_cons_of_mem _ h)) p1 p2, List.foldl_cons]
      congr 1
      have h0 : total Lx (n * Lz) (fun x y z => lapW id (fun k => w k * c.2.2.2.ood2) NN F.φ x y z) = 0 :=
        total_lapW (W := id) (fun _ => rfl) (fun k => w k * c.2.2.2.ood2) hφ
      have eν : ((ruleOf NN w c).step F).ν = fun x y z => F.ν x y z + (c.2.2.2.dz * c.2.2.2.c *
          lapW id (fun k => w k * c.2.2.2.ood2) NN F.φ x y z +
            c.2.2.2.dz * c.2.2.2.c * (c.2.2.2.Rpp - mass2 c) * F.φ x y z) := by
        funext x y z
        simp only [Rule.step, law_linear hl, lap_linear hl]
        ring
      have eφ : ((ruleOf NN w c).step F).φ = fun x y z => F.φ x y z + c.2.2.2.dz * c.2.2.2.d *
          ((ruleOf NN w c).step F).ν x y z := by
        funext x y z
        simp only [Rule.step, law_linear hl, lap_linear hl]
      have tν : total Lx (n * Lz) ((ruleOf NN w c).step F).ν = total Lx (n * Lz) F.ν +
          c.2.2.2.dz * c.2.2.2.c * (c.2.2.2.Rpp - mass2 c) * total Lx (n * Lz) F.φ := by
        rw [eν, total_add, total_add, total_mul, total_mul, h0]
        ring
      have tφ : total Lx (n * Lz) ((ruleOf NN w c).step F).φ = total Lx (n * Lz) F.φ +
          c.2.2.2.dz * c.2.2.2.d * total Lx (n * Lz) ((ruleOf NN w c).step F).ν := by
        rw [eφ, total_add, total_mul]
      have aφ : ∀ G : Lat ℝ, amount Lx (n * Lz) G = total Lx (n * Lz) G.φ := fun _ => rfl
      have aν : ∀ G : Lat ℝ, momentum Lx (n * Lz) G = total Lx (n * Lz) G.ν := fun _ => rfl
      simp only [aφ, aν, tφ, tν, swing]
      refine Prod.ext ?_ ?_ <;> dsimp only <;> ring
  exact key _ F hq' hg.field hg.vel

/-! ### Examples -/

/-- Free flat options, wrapped. -/
noncomputable def freeCall : Call := (.qcd0, .single, true, ⟨[1], 4, 1, 0, 0, 0, 1 / 10, 1, 1, Real.pi, Real.sin⟩)

/-- Quadratic potential in double precision. -/
noncomputable def quadCall : Call := (.qcdL, .double, false, ⟨[1], 4, 2, 1, 3, 0, 1 / 10, 1, 1, Real.pi, Real.sin⟩)

/-- Cosine. -/
noncomputable def cosCall : Call := (.qcdC, .double, true, ⟨[1], 4, 2, 1, 3, 0, 1 / 10, 1, 1, Real.pi, Real.sin⟩)

example : Linear quadCall := ⟨rfl, .inr ⟨rfl, rfl, by norm_num [quadCall]⟩⟩

/-- The oscillator of the zero mode with a quadratic potential. -/
example : swing 0 (1, 0) quadCall = (89 / 100, -11 / 10) := by
  have : ¬ Pot.qcdL = Pot.qcd0 := by decide
  norm_num [swing, quadCall, mass2, this]

/-- The symbol of the nearest neighbours at half the Nyquist frequency. -/
example : symbol (fun _ => 1) 1 (Real.pi / 2, 0, 0) = 2 := by
  norm_num [symbol]

/-- Two substeps on three ranks. -/
theorem runs_demo (q q' : Call) (h : q.2.2.2.PC = [1]) (h' : q'.2.2.2.PC = [1]) :
    Runs 3 4 8 2 2 1 (fun _ => 1) [(q, inOrder 8 2 2 1 0), (q', backwards 8 2 2 1 fun r a => r + a)] where
  fits := ⟨by decide, by decide, by decide, by decide, by decide, by decide, by decide, by omega⟩
  radius := by decide
  weights := by
    intro s hs k hk
    obtain rfl : k = 0 := by omega
    simp only [List.mem_cons, List.not_mem_nil, or_false] at hs
    rcases hs with rfl | rfl
    · rw [h]; rfl
    · rw [h']; rfl
  fair := by
    intro s hs
    simp only [List.mem_cons, List.not_mem_nil, or_false] at hs
    rcases hs with rfl | rfl
    · exact fair_inOrder _ _ _ _ _
    · exact fair_backwards _ _ _ _ _

example : Runs 3 4 8 2 2 1 (fun _ => 1)
    [(freeCall, inOrder 8 2 2 1 0), (cosCall, backwards 8 2 2 1 fun r a => r + a)] :=
  runs_demo _ _ rfl rfl

/-- A wave on it. -/
example : Given 3 8 2 2 1 true
    ⟨fill 3 8 2 2 1 (shaped (wave (2 * Real.pi / 8, 0, 0) 1) (1, 0)).φ,
      fill 3 8 2 2 1 (shaped (wave (2 * Real.pi / 8, 0, 0) 1) (1, 0)).φ,
      fill 3 8 2 2 0 (shaped (wave (2 * Real.pi / 8, 0, 0) 1) (1, 0)).ν⟩
    (shaped (wave (2 * Real.pi / 8, 0, 0) 1) (1, 0)) := by
  have hx : ∀ x y z : ℤ, wave (2 * Real.pi / 8, 0, 0) 1 (x + (8 : ℕ)) y z = wave (2 * Real.pi / 8, 0, 0) 1 x y z := by
    intro x y z
    unfold wave
    rw [← Real.cos_add_two_pi (2 * Real.pi / 8 * x + 0 * y + 0 * z + 1)]
    congr 1
    push_cast
    ring
  have hp : Periodic3 8 (3 * 2) (wave (2 * Real.pi / 8, 0, 0) 1) :=
    ⟨hx, fun x y z => by simp [wave], fun x y z => by simp [wave]⟩
  refine ⟨⟨fun x y z => ?_, fun x y z => ?_, fun x y z => ?_⟩,
    ⟨fun x y z => ?_, fun x y z => ?_, fun x y z => ?_⟩, C59_holding (by decide) (by decide) true _⟩ <;>
  simp only [shaped, hp.1, hp.2.1, hp.2.2]

end Jaxions.AxionRun
