import Verif.Props.FullSpec
import Verif.Props.MassIntegral2
/-
C83: the uniform force in the stages of a Saxion, with the integrals of the axion mass that `sFpecCpu`
gets from `IAxionMassSqn(z, z + dz*d, 3)` and `IIAxionMassSqn(z, z + dz*d, 3)` (propClass.h:915-917).
-/
namespace Jaxions.FullSpec

open Cosmo MeasureTheory Set

/-- The stage gets the integrals that the code computes at the time `z`. -/
structure SIn.Timed (c : Cosmos) (z : ℝ) (s : SIn) : Prop where
  one : c.iMass z (z + s.par.dz * s.par.d) 3 = some s.I1
  two : c.iiMass z (z + s.par.dz * s.par.d) 3 = some s.I2

/-- The force of the axion potential while the time runs from `z`: `q t = mA² R³` at `z + t`. -/
def Follows (c : Cosmos) (m : ℝ → ℝ) (z σ : ℝ) (q : ℝ → ℝ) : Prop :=
  ∀ t ∈ uIcc 0 σ, q t = m (z + t) * c.R (z + t) ^ 3

theorem once_shift {c : Cosmos} {m : ℝ → ℝ} {z σ : ℝ} {q : ℝ → ℝ} (h : Follows c m z σ q) {y : ℝ}
    (hy : y ∈ uIcc 0 σ) : ∫ t in (0 : ℝ)..y, q t = ∫ t in z..z + y, dens c m 3 t := by
  have e := intervalIntegral.integral_comp_add_left (a := 0) (b := y) (fun t => dens c m 3 t) z
  rw [add_zero] at e
  rw [← e]
  refine intervalIntegral.integral_congr fun t ht => ?_
  exact h t (uIcc_subset_uIcc left_mem_uIcc hy ht)

theorem twice_shift {c : Cosmos} {m : ℝ → ℝ} {z σ : ℝ} {q : ℝ → ℝ} (h : Follows c m z σ q) :
    ∫ y in (0 : ℝ)..σ, ∫ t in (0 : ℝ)..y, q t = ∫ y in z..z + σ, ∫ t in z..y, dens c m 3 t := by
  have e := intervalIntegral.integral_comp_add_left (a := 0) (b := σ)
    (fun y => ∫ t in z..y, dens c m 3 t) z
  rw [add_zero] at e
  rw [← e]
  exact intervalIntegral.integral_congr fun y hy => once_shift h hy

section
variable (c : Cosmos) (hu : c.ueCosm = false) (hf : c.frw = 1) (hg : c.grav ≤ 0)
include hu hf hg

theorem follows_exists (hT : 0 < c.zThRes) (m : ℝ → ℝ) (hm : IsMass c m) {z σ : ℝ} (h0 : 0 < z)
    (h1 : 0 < z + σ) : ∃ q, Continuous q ∧ Follows c m z σ q := by
  refine ⟨fun t => dens c m 3 (max (min z (z + σ)) (z + t)), ?_, ?_⟩
  · exact (dens_cont c hu hf hg hT m hm 3).comp_continuous (by fun_prop)
      fun t => lt_of_lt_of_le (lt_min h0 h1) (le_max_left _ _)
  · intro t ht
    have : min z (z + σ) ≤ z + t := by
      rcases le_total 0 σ with h | h
      · rw [uIcc_of_le h] at ht
        exact (min_le_left _ _).trans (by linarith [ht.1])
      · rw [uIcc_of_ge h] at ht
        exact (min_le_right _ _).trans (by linarith [ht.1])
    simp only [max_eq_right this, dens]
    rfl

/-- **C83** In radiation domination and while the axion mass grows, the integrals are those of the force
of the axion potential: a stage of a Saxion is a kick and an exact wave with the force `mA² R³` of each
time. -/
theorem C83_mass (hn : 0 ≤ c.nQcd) (m : ℝ → ℝ) (hm : IsMass c m) {z : ℝ} {s : SIn}
    (h0 : 0 < z) (h1 : 0 < z + s.par.dz * s.par.d) (hz0 : z ≤ c.zThRes)
    (hz : z + s.par.dz * s.par.d ≤ c.zThRes) (H : s.Timed c z) :
    ∃ q, s.Driven q ∧ Follows c m z (s.par.dz * s.par.d) q := by
  have hT : 0 < c.zThRes := h0.trans_le hz0
  obtain ⟨q, hq, hF⟩ := follows_exists c hu hf hg hT m hm h0 h1
  refine ⟨q, ⟨hq, ?_, ?_⟩, hF⟩
  · have e := C62_integral_growing c hu (fun h => absurd h.2 (not_lt.2 hg)) (by rw [hf]; exact one_pos) m
      hm 3 z _ h0 h1 hz0 hz (by rwa [R_id c hu hf hg]) (by rwa [R_id c hu hf hg])
      (by rw [hf]; push_cast; positivity)
    rw [once_shift hF right_mem_uIcc]
    exact Option.some.inj (H.one.symm.trans e)
  · have e := C62_second_growing c hu hf hg hn m hm 3 z _ h0 h1 hz0 hz
    rw [twice_shift hF]
    exact Option.some.inj (H.two.symm.trans e)

/-- **C83** A stage in which the mass saturates is driven by less than the force of the axion potential:
no such force gives its integrals. -/
theorem C83_not_mass (hn : 0 ≤ c.nQcd) (m : ℝ → ℝ) (hm : IsMass c m) {z : ℝ} {s : SIn}
    (h0 : 0 < z) (hz0 : z < c.zThRes) (hz : c.zThRes < z + s.par.dz * s.par.d)
    (hr : c.zThRes ≤ c.zRestore → z + s.par.dz * s.par.d ≤ c.zRestore) (h1 : 1 ≤ c.zThRes)
    (hi : c.indi3 ≠ 0) (H : s.Timed c z) :
    (∃ q, Continuous q ∧ Follows c m z (s.par.dz * s.par.d) q) ∧
      ∀ q, Follows c m z (s.par.dz * s.par.d) q → ¬ s.Driven q := by
  have hT : 0 < c.zThRes := h0.trans hz0
  refine ⟨follows_exists c hu hf hg hT m hm h0 (hT.trans hz), fun q hF hD => ?_⟩
  obtain ⟨v, d, e, -, -, hlt⟩ := C62_second_crossing c hu hf hg hn m hm 3 z _ h0 hz0 hz hr
  have : v < ∫ y in z..z + s.par.dz * s.par.d, ∫ t in z..y, dens c m 3 t := hlt h1 hi
  rw [← twice_shift hF, ← hD.two, Option.some.inj (H.two.symm.trans e)] at this
  exact lt_irrefl _ this

end

/-- **C83** Several stages while the mass grows, each at the time at which the one before it ended. -/
def Timed (c : Cosmos) : ℝ → List SIn → Prop
  | _, [] => True
  | z, s :: ss => s.Timed c z ∧ 0 < z + s.par.dz * s.par.d ∧ z + s.par.dz * s.par.d ≤ c.zThRes ∧
      Timed c (z + s.par.dz * s.par.d) ss

/-- The forces of a list of stages follow the mass from the time `z`. -/
def FollowAll (c : Cosmos) (m : ℝ → ℝ) : ℝ → List (Par × (ℝ → ℝ)) → Prop
  | _, [] => True
  | z, p :: ps => Follows c m z (p.1.dz * p.1.d) p.2 ∧ FollowAll c m (z + p.1.dz * p.1.d) ps

/-- **C83** A whole run of the propagator of a Saxion while the axion mass grows, with the times and
integrals of the code: kicks with the force of the PQ potential and exact waves with the force of the axion
potential at each time. -/
theorem C83_saxion_mass {g : Gravity.Geo} [NeZero g.Lx] [NeZero g.Tz] (ok : g.Ok) {P : SpecLap.CPlan}
    (hP : P.Exact g) (bad : ℂ × ℂ) {Q step : ℕ} (hs : 0 < step)
    (he : 2 ∣ g.Lx) (hd : step ∣ g.Lx / 2) (hQ : g.Lx * g.Lx + g.vol ≤ Q)
    (c : Cosmos) (hu : c.ueCosm = false) (hf : c.frw = 1) (hg : c.grav ≤ 0) (hn : 0 ≤ c.nQcd) (m : ℝ → ℝ)
    (hm : IsMass c m) {z : ℝ} (h0 : 0 < z) (hz : z ≤ c.zThRes) (ss : List SIn)
    (hss : ∀ x ∈ ss, x.par.ℓ ≠ 0 ∧ x.Ok g step) (ht : Timed c z ss)
    {s : (Gravity.Torus g.Lx g.Tz → ℂ) × (Gravity.Torus g.Lx g.Tz → ℂ)} {w : ℕ → CMem}
    (H : CShows g Q s w) :
    ∃ w' s' ps, sRun g 1 Q P .pq1 bad step ss w = some w' ∧ CShows g Q s' w' ∧
      ps.map Prod.fst = ss.map SIn.par ∧ FollowAll c m z ps ∧ Steps SaxionStage ps s s' := by
  have key : ∀ (ss : List SIn) (z : ℝ), 0 < z → z ≤ c.zThRes → Timed c z ss →
      ∃ qs : List (SIn × (ℝ → ℝ)), qs.map Prod.fst = ss ∧ (∀ x ∈ qs, x.1.Driven x.2) ∧
        FollowAll c m z (qs.map fun x => (x.1.par, x.2)) := by
    intro ss
    induction ss with
    | nil => exact fun z _ _ _ => ⟨[], rfl, by simp, trivial⟩
    | cons a ss ih =>
      intro z h0 hz ht
      obtain ⟨qs, e1, e2, e3⟩ := ih _ ht.2.1 ht.2.2.1 ht.2.2.2
      obtain ⟨q, hq, hF⟩ := C83_mass c hu hf hg hn m hm h0 ht.2.1 hz ht.2.2.1 ht.1
      refine ⟨(a, q) :: qs, by rw [List.map_cons, e1], ?_, hF, e3⟩
      intro x hx
      rcases List.mem_cons.1 hx with rfl | hx
      · exact hq
      · exact e2 x hx
  obtain ⟨qs, e1, e2, e3⟩ := key ss z h0 hz ht
  obtain ⟨w', s', k1, k2, k3⟩ := C83_saxion ok hP bad hs he hd hQ qs (fun x hx => by
    have := hss x.1 (by rw [← e1]; exact List.mem_map_of_mem hx)
    exact ⟨this.1, this.2, e2 x hx⟩) H
  rw [e1] at k1
  refine ⟨w', s', _, k1, k2, ?_, e3, k3⟩
  rw [← e1, List.map_map, List.map_map]
  rfl

/-! ### The hypotheses can be met -/

open SpecLap Gravity

/-- A stage with the integrals of the code. -/
noncomputable def timed (g : Gravity.Geo) (step : ℕ) (c : Cosmos) (z : ℝ) (p : Par) : SIn where
  par := p
  I1 := (c.iMass z (z + p.dz * p.d) 3).getD 0
  I2 := (c.iiMass z (z + p.dz * p.d) 3).getD 0
  acc _ := lanes g.vol step
  modes _ := sLanes g step

theorem timed_timed (g : Gravity.Geo) (step : ℕ) (c : Cosmos) (hu : c.ueCosm = false) (hf : c.frw = 1)
    (hg : c.grav ≤ 0) (hn : 0 ≤ c.nQcd) (m : ℝ → ℝ) (hm : IsMass c m) {z : ℝ} {p : Par}
    (h0 : 0 < z) (h1 : 0 < z + p.dz * p.d) (hz0 : z ≤ c.zThRes) (hz : z + p.dz * p.d ≤ c.zThRes) :
    (timed g step c z p).Timed c z := by
  have e1 := C62_integral_growing c hu (fun h => absurd h.2 (not_lt.2 hg)) (by rw [hf]; exact one_pos) m
      hm 3 z _ h0 h1 hz0 hz (by rwa [R_id c hu hf hg]) (by rwa [R_id c hu hf hg])
      (by rw [hf]; push_cast; positivity)
  have e2 := C62_second_growing c hu hf hg hn m hm 3 z _ h0 h1 hz0 hz
  refine ⟨?_, ?_⟩
  · change c.iMass z (z + p.dz * p.d) 3 = some ((c.iMass z (z + p.dz * p.d) 3).getD 0)
    rw [e1]; rfl
  · change c.iiMass z (z + p.dz * p.d) 3 = some ((c.iiMass z (z + p.dz * p.d) 3).getD 0)
    have e2' : c.iiMass z (z + p.dz * p.d) 3 = _ := e2
    rw [e2']; rfl

/-- Two stages in the demonstration background, whose mass saturates at 2, on the demo lattice. -/
example (p : Par) (hp : p.ℓ ≠ 0) (hd : p.dz * p.d = 1 / 4)
    (s : (Gravity.Torus 4 4 → ℂ) × (Gravity.Torus 4 4 → ℂ)) :
    ∃ w' s' ps, sRun ⟨2, 4, 2⟩ 1 64 (formulaCPlan ⟨2, 4, 2⟩) .pq1 (0, 0) 2
        [timed ⟨2, 4, 2⟩ 2 demo 1 p, timed ⟨2, 4, 2⟩ 2 demo (1 + p.dz * p.d) p]
        (cHolding ⟨2, 4, 2⟩ s) = some w' ∧ CShows ⟨2, 4, 2⟩ 64 s' w' ∧
      ps.map Prod.fst = [p, p] ∧ FollowAll demo demoM 1 ps ∧
      Steps (SaxionStage (L := 4) (T := 4)) ps s s' := by
  have hn : 0 ≤ demo.nQcd := by norm_num [demo]
  have hg : demo.grav ≤ 0 := by norm_num [demo]
  have t1 := timed_timed ⟨2, 4, 2⟩ 2 demo rfl rfl hg hn demoM (demo_isMass _) (z := 1) (p := p)
    one_pos (by rw [hd]; norm_num) (by norm_num [demo]) (by rw [hd]; norm_num [demo])
  have t2 := timed_timed ⟨2, 4, 2⟩ 2 demo rfl rfl hg hn demoM (demo_isMass _) (z := 1 + p.dz * p.d)
    (p := p) (by rw [hd]; norm_num) (by rw [hd]; norm_num) (by rw [hd]; norm_num [demo])
    (by rw [hd]; norm_num [demo])
  refine C83_saxion_mass (g := ⟨2, 4, 2⟩) demo_ok (formulaCPlan_exact demo_ok) (0, 0) (step := 2)
    (by decide) (by decide) (by decide) (by decide) demo rfl rfl hg hn demoM (demo_isMass _)
    (z := 1) one_pos (by norm_num [demo]) _ ?_ ?_ (cHolding_shows ⟨2, 4, 2⟩ 64 s)
  · intro x hx
    have : x.par = p ∧ x.acc = (fun _ => lanes 32 2) ∧ x.modes = fun _ => sLanes ⟨2, 4, 2⟩ 2 := by
      rcases List.mem_cons.1 hx with rfl | hx
      · exact ⟨rfl, rfl, rfl⟩
      · rw [List.mem_singleton.1 hx]; exact ⟨rfl, rfl, rfl⟩
    obtain ⟨e1, e2, e3⟩ := this
    refine ⟨by rwa [e1], fun r _ => ?_, fun r _ => ?_⟩
    · rw [e2]; exact .refl _
    · rw [e3]
  · refine ⟨t1, ?_, ?_, t2, ?_, ?_, trivial⟩ <;>
      (simp only [timed]; rw [hd]; norm_num [demo])

/-- A stage from 1 to 3, over the saturation, in the same background. -/
example (p : Par) (hd : p.dz * p.d = 2) :
    ∀ q, Follows demo demoM 1 (p.dz * p.d) q → ¬ (timed ⟨2, 4, 2⟩ 2 demo 1 p).Driven q := by
  have hn : 0 ≤ demo.nQcd := by norm_num [demo]
  have hg : demo.grav ≤ 0 := by norm_num [demo]
  have h2 : demo.zThRes < 1 + p.dz * p.d := by rw [hd]; norm_num [demo]
  have hr : demo.zThRes ≤ demo.zRestore → 1 + p.dz * p.d ≤ demo.zRestore := by
    rw [hd]; norm_num [demo]
  have h1 : (1 : ℝ) < demo.zThRes := by norm_num [demo]
  refine (C83_not_mass demo rfl rfl hg hn demoM (demo_isMass _) (s := timed ⟨2, 4, 2⟩ 2 demo 1 p)
    one_pos h1 h2 hr h1.le (by norm_num [demo]) ⟨?_, ?_⟩).2
  · change demo.iMass 1 (1 + p.dz * p.d) 3 = some ((demo.iMass 1 (1 + p.dz * p.d) 3).getD 0)
    have : ∃ v, demo.iMass 1 (1 + p.dz * p.d) 3 = some v := by
      rw [hd]
      norm_num [Cosmos.iMass, demo, piece, quot]
    obtain ⟨v, e⟩ := this
    rw [e]; rfl
  · change demo.iiMass 1 (1 + p.dz * p.d) 3 = some ((demo.iiMass 1 (1 + p.dz * p.d) 3).getD 0)
    obtain ⟨v, d, e, -⟩ := C62_second_crossing demo rfl rfl hg hn demoM (demo_isMass _) 3 1 _ one_pos
      h1 h2 hr
    have e' : demo.iiMass 1 (1 + p.dz * p.d) 3 = some v := e
    rw [e']; rfl

end Jaxions.FullSpec
