import Verif.Lemmas.SpecLapStage
import Verif.Lemmas.Force
/-
C82: the spectral propagators.
-/
namespace Jaxions.SpecLap

open Gravity WKB
open SaxKernel (Pq Qcd IsForce comoving Vpq Vqcd pq_isForce qcd_isForce qcdForce isForce_add
  isForce_unique isForce_mul pqSite)

section
variable {g : Gravity.Geo} [NeZero g.Lx] [NeZero g.Tz]

/-! ### Axion -/

theorem tStage_spec (ok : g.Ok) {P : Plan} (hP : P.Exact g) {N step : ℕ}
    (hN : g.lines * (g.Lx + 2) ≤ N) (hs : 0 < step) (hd : step ∣ g.Lx) (p : Par) {o : ℕ → Orders}
    (ho : ∀ r < g.n, (o r).Ok g true step)
    {s : (Torus g.Lx g.Tz → ℝ) × (Torus g.Lx g.Tz → ℝ)} {w : ℕ → Heap Loc ℝ} (H : Shows g N s w) :
    ∃ w', tStage g P p o w = some w' ∧
      Shows g N (kickDrift (axionAcc p.ℓ p.R p.mA2) (p.dz * p.c) (p.dz * p.d) s) w' := by
  obtain ⟨m2, e1, h1⟩ := ranks_spec (n := g.n) (w := fun r => part .m2 (w r))
    (f := fun r h => copyLines g.Lx (o r).rows (part .m (w r)) (g.Lx * g.Lx) h)
    (Q := fun r h => (∀ i, i < g.vol → h (rowIx g.Lx i) = some (s.1 (siteOf g (r * g.vol + i)))) ∧
      WKB.Alloc N h)
    (by
      intro r hr
      obtain ⟨d, e, p1, p2, -⟩ := copyLines_spec (N := N) ok.side (ho r hr).rows
        (src := part .m (w r)) (o := g.Lx * g.Lx) (dst := part .m2 (w r))
        (fun i hi => by
          rw [← vol_eq g] at hi
          have := H.m r i hr hi
          unfold part
          rw [this]; rfl)
        (fun a ha => H.m2 r a hr ha) hN
      refine ⟨d, e, ?_, p2⟩
      intro i hi
      rw [p1 i (by rw [← vol_eq g]; exact hi)]
      exact H.m r i hr hi)
  obtain ⟨m2', e2, h2⟩ := tLap_spec ok hP hN (fun r hr => (ho r hr).modes) s.1
    (fun r hr => (h1 r hr).2) (fun r i hr hi => (h1 r hr).1 i hi)
  have hdv : step ∣ g.vol := by
    rw [vol_eq]; exact Nat.dvd_mul_left_of_dvd hd _
  obtain ⟨w', e3, h3⟩ := kernel_shows (tSite g p) hs hdv (Spectral.padIx g.Lx)
    (fun r => (o r).lanes) (fun r hr => (ho r hr).lanes) H (m2 := m2')
    (fun r i hr hi => (h2 r hr).2 i hi)
    (fun x => (synth (weighted fun y => (s.1 y : ℂ)) x).re)
    (fun r i hr hi => by
      rw [Spectral.padIx_vec hs hd ok.side, rowIx_padIx]
      exact (h2 r hr).1 i hi)
  refine ⟨w', ?_, ?_⟩
  · unfold tStage
    rw [e1]
    simp only [Option.bind_eq_bind, Option.bind_some]
    rw [e2]
    exact e3
  · have hlap : ∀ x, fMom g p.ℓ * (synth (weighted fun y => (s.1 y : ℂ)) x).re =
        (lapS (2 * Real.pi / p.ℓ) (fun y => (s.1 y : ℂ)) x).re := by
      intro x
      rw [← fMom_synth, Complex.re_ofReal_mul]
    have hsite : ∀ x, tSite g p (s.1 x) (s.2 x) ((synth (weighted fun y => (s.1 y : ℂ)) x).re) =
        ((kickDrift (axionAcc p.ℓ p.R p.mA2) (p.dz * p.c) (p.dz * p.d) s).1 x,
         (kickDrift (axionAcc p.ℓ p.R p.mA2) (p.dz * p.c) (p.dz * p.d) s).2 x) := by
      intro x
      simp only [tSite, kickDrift, axionAcc, hlap, smul_eq_mul, mul_one_div]
      refine Prod.ext ?_ ?_ <;> dsimp only <;> ring
    simp only [hsite] at h3
    exact h3

/-- **C82** The spectral propagator of the axion with one ghost slice, any number of stages, on any
number of ranks and for every order in which the threads work: the arrays hold what the kicks and
drifts make of the field on the lattice, with the Laplacian of its trigonometric interpolation. -/
theorem C82_axion (ok : g.Ok) {P : Plan} (hP : P.Exact g) {N step : ℕ}
    (hN : g.lines * (g.Lx + 2) ≤ N) (hs : 0 < step) (hd : step ∣ g.Lx)
    (ss : List (Par × (ℕ → Orders))) (ho : ∀ q ∈ ss, ∀ r < g.n, (q.2 r).Ok g true step)
    {s : (Torus g.Lx g.Tz → ℝ) × (Torus g.Lx g.Tz → ℝ)} {w : ℕ → Heap Loc ℝ} (H : Shows g N s w) :
    ∃ w', tRun g P ss w = some w' ∧
      Shows g N (ss.foldl (fun s q => kickDrift (axionAcc q.1.ℓ q.1.R q.1.mA2)
        (q.1.dz * q.1.c) (q.1.dz * q.1.d) s) s) w' := by
  induction ss generalizing s w with
  | nil => exact ⟨w, rfl, H⟩
  | cons q ss ih =>
    obtain ⟨w1, e1, h1⟩ := tStage_spec ok hP hN hs hd q.1 (ho q List.mem_cons_self) H
    obtain ⟨w', e2, h2⟩ := ih (fun t ht => ho t (List.mem_cons_of_mem _ ht)) h1
    exact ⟨w', by simp only [tRun, e1, Option.bind_some]; exact e2, h2⟩

/-! ### Saxion -/

theorem sStage_spec (ok : g.Ok) {P : CPlan} (hP : P.Exact g) {N step : ℕ} (hN : g.vol ≤ N)
    (hs : 0 < step) (hd : step ∣ g.vol) (p : Par) (acc : ℂ → ℂ → ℂ) {o : ℕ → Orders}
    (ho : ∀ r < g.n, (o r).Ok g false step)
    {s : (Torus g.Lx g.Tz → ℂ) × (Torus g.Lx g.Tz → ℂ)} {w : ℕ → Heap Loc ℂ} (H : Shows g N s w) :
    ∃ w', sStage g 1 P p acc o w = some w' ∧
      Shows g N (kickDrift (fun φ x => acc (φ x) (lapS (2 * Real.pi / p.ℓ) φ x))
        (p.dz * p.c) (p.dz * p.d) s) w' := by
  obtain ⟨m2', e2, h2⟩ := sLap_spec ok hP hN (fun r hr => (ho r hr).modes) s.1
    (m := fun r => part .m (w r)) (m2 := fun r => part .m2 (w r))
    (fun r i hr hi => H.m2 r i hr hi)
    (fun r i hr hi => by rw [Nat.one_mul]; exact H.m r i hr hi)
  obtain ⟨w', e3, h3⟩ := kernel_shows (sSite g p acc) hs hd (fun i => i)
    (fun r => (o r).lanes) (fun r hr => (ho r hr).lanes) H (m2 := m2')
    (fun r i hr hi => (h2 r hr).2 i hi) (fun x => synth (weighted s.1) x)
    (fun r i hr hi => by
      show m2' r (i / step * step + i % step) = _
      rw [div_mul_add_mod]
      exact (h2 r hr).1 i hi)
  refine ⟨w', ?_, ?_⟩
  · unfold sStage
    rw [e2]
    exact e3
  · have hsite : ∀ x, sSite g p acc (s.1 x) (s.2 x) (synth (weighted s.1) x) =
        ((kickDrift (fun φ x => acc (φ x) (lapS (2 * Real.pi / p.ℓ) φ x))
            (p.dz * p.c) (p.dz * p.d) s).1 x,
         (kickDrift (fun φ x => acc (φ x) (lapS (2 * Real.pi / p.ℓ) φ x))
            (p.dz * p.c) (p.dz * p.d) s).2 x) := by
      intro x
      have hl : synth (weighted s.1) x * (fMom g p.ℓ : ℂ) = lapS (2 * Real.pi / p.ℓ) s.1 x := by
        rw [mul_comm, fMom_synth]
      simp only [sSite, kickDrift, hl, Complex.real_smul]
      refine Prod.ext ?_ ?_ <;> dsimp only <;> ring
    simp only [hsite] at h3
    exact h3

/-- **C82** The same for the complex field, with the acceleration that the kernel computes from the
value and the Laplacian of a site. -/
theorem C82_saxion (ok : g.Ok) {P : CPlan} (hP : P.Exact g) {N step : ℕ} (hN : g.vol ≤ N)
    (hs : 0 < step) (hd : step ∣ g.vol) (acc : Par → ℂ → ℂ → ℂ)
    (ss : List (Par × (ℕ → Orders))) (ho : ∀ q ∈ ss, ∀ r < g.n, (q.2 r).Ok g false step)
    {s : (Torus g.Lx g.Tz → ℂ) × (Torus g.Lx g.Tz → ℂ)} {w : ℕ → Heap Loc ℂ} (H : Shows g N s w) :
    ∃ w', sRun g 1 P acc ss w = some w' ∧
      Shows g N (ss.foldl (fun s q => kickDrift
        (fun φ x => acc q.1 (φ x) (lapS (2 * Real.pi / q.1.ℓ) φ x))
        (q.1.dz * q.1.c) (q.1.dz * q.1.d) s) s) w' := by
  induction ss generalizing s w with
  | nil => exact ⟨w, rfl, H⟩
  | cons q ss ih =>
    obtain ⟨w1, e1, h1⟩ := sStage_spec ok hP hN hs hd q.1 (acc q.1) (ho q List.mem_cons_self) H
    obtain ⟨w', e2, h2⟩ := ih (fun t ht => ho t (List.mem_cons_of_mem _ ht)) h1
    exact ⟨w', by simp only [sRun, e1, Option.bind_some]; exact e2, h2⟩

end

theorem norm_ne {φ : ℂ} (hφ : φ ≠ 0) : φ.re ^ 2 + φ.im ^ 2 ≠ 0 := by
  intro h
  have h1 : φ.re = 0 := by nlinarith [sq_nonneg φ.re, sq_nonneg φ.im]
  have h2 : φ.im = 0 := by nlinarith [sq_nonneg φ.re, sq_nonneg φ.im]
  exact hφ (Complex.ext h1 h2)

/-- **C82** The acceleration of the complex field with one of the first two symmetry breaking
potentials and without or with the linear QCD potential: the Laplacian, minus the gradient of the
potential of the comoving field, and the term of the expansion. -/
theorem C82_force (p : Par) (hR : 0 < p.R) {pq : Pq} (hp : pq ≠ .pq3) {qcd : Qcd}
    (hq : qcd = .qcd0 ∨ qcd = .qcd1) (φ lap : ℂ) (hφ : φ ≠ 0) :
    ∃ F : ℂ, sAccel p pq qcd φ lap = some (lap + F + p.Rpp * φ) ∧
      IsForce (fun x y => comoving (Vpq p.LL pq) p.R x y + comoving (Vqcd p.mA2 qcd) p.R x y)
        φ.re φ.im F.re F.im := by
  have hm := norm_ne hφ
  have h1 := pq_isForce p.LL hR pq φ.re φ.im
  have h2 := qcd_isForce p.mA2 hR qcd φ.re φ.im hm
  refine ⟨⟨_, _⟩, ?_, isForce_add h1 h2⟩
  rcases hq with rfl | rfl <;> cases pq
  all_goals first
    | exact absurd rfl hp
    | (simp only [sAccel, Option.bind_eq_bind, Option.bind_some]
       congr 1
       apply Complex.ext <;>
         simp only [pqSite, qcdForce, Complex.add_re, Complex.add_im, Complex.sub_re, Complex.sub_im,
           Complex.mul_re, Complex.mul_im, Complex.ofReal_re, Complex.ofReal_im] <;> ring)

/-! ### The Laplacian -/

section
variable {L T : ℕ} [NeZero L] [NeZero T]

/-- **C82** In a cube, on a complex field with at least two sites in every wavelength, the Laplacian
of the propagator is the sum of the second derivatives. -/
theorem C82_laplacian (hT : T = L) {ℓ : ℝ} (hℓ : ℓ ≠ 0) {f : ℝ → ℝ → ℝ → ℂ} (hf : Resolved L T ℓ ℓ f)
    (x : Torus L T) : lapS (2 * Real.pi / ℓ) (sample L T (ℓ / L) f) x =
      laplacian f (x.1.val * (ℓ / L)) (x.2.1.val * (ℓ / L)) (x.2.2.val * (ℓ / L)) := by
  subst hT
  have hL : (T : ℝ) ≠ 0 := Nat.cast_ne_zero.2 (NeZero.ne T)
  have h := lapS_resolved (L := T) (T := T) hℓ (f := f) (by
    rw [mul_div_assoc, div_self hL, mul_one]; exact hf) x
  rw [h, div_self hL, one_pow, laplacianZ_one]

/-- **C82** The same for a real field. -/
theorem C82_laplacian_real (hT : T = L) {ℓ : ℝ} (hℓ : ℓ ≠ 0) {f : ℝ → ℝ → ℝ → ℝ}
    (hf : Resolved L T ℓ ℓ fun x y z => (f x y z : ℂ)) (x : Torus L T) :
    (lapS (2 * Real.pi / ℓ) (fun y => ((sample L T (ℓ / L) f y : ℝ) : ℂ)) x).re =
      laplacian f (x.1.val * (ℓ / L)) (x.2.1.val * (ℓ / L)) (x.2.2.val * (ℓ / L)) := by
  have h := C82_laplacian hT hℓ hf x
  rw [← laplacianZ_one, laplacianZ_ofReal, laplacianZ_one] at h
  rw [← Complex.ofReal_re (laplacian f _ _ _), ← h]
  rfl

/-- **C82** In a box of another depth the second derivative along `z` is taken with the square of the
ratio of the sides. -/
theorem C82_box {ℓ : ℝ} (hℓ : ℓ ≠ 0) {f : ℝ → ℝ → ℝ → ℂ} (hf : Resolved L T ℓ (ℓ * T / L) f)
    (x : Torus L T) : lapS (2 * Real.pi / ℓ) (sample L T (ℓ / L) f) x =
      laplacianZ ((T / L) ^ 2) f (x.1.val * (ℓ / L)) (x.2.1.val * (ℓ / L)) (x.2.2.val * (ℓ / L)) :=
  lapS_resolved hℓ hf x

theorem two_signed {N : ℕ} [NeZero N] (k : ZMod N) : 2 * |signed k| ≤ N := by
  unfold signed
  have h := ZMod.val_lt k
  split
  · rw [abs_of_nonneg (by omega)]; omega
  · rw [abs_of_nonpos (by omega)]; omega

theorem cast_signed {N : ℕ} [NeZero N] (k : ZMod N) : ((signed k : ℤ) : ZMod N) = k := by
  unfold signed
  split
  · simp
  · push_cast
    simp

/-- **C82** Every field on the lattice is the sample of a field that the lattice resolves. -/
theorem C82_interpolates {ℓ : ℝ} (hℓ : ℓ ≠ 0) (F : Torus L T → ℂ) :
    ∃ f, Resolved L T ℓ (ℓ * T / L) f ∧ sample L T (ℓ / L) f = F := by
  let sg : Torus L T → ℤ × ℤ × ℤ := fun k => (signed k.1, signed k.2.1, signed k.2.2)
  have hinv : ∀ k, cast3 L T (sg k) = k := by
    intro k
    simp only [cast3, sg, cast_signed]
  have hinj : Function.Injective sg := fun a b h => by rw [← hinv a, h, hinv b]
  let c : ℤ × ℤ × ℤ → ℂ := fun n => dft F (cast3 L T n) / (L * L * T : ℂ)
  refine ⟨fun x y z => ∑ n ∈ Finset.univ.image sg, c n * ripple ℓ (ℓ * T / L) n x y z,
    ⟨Finset.univ.image sg, c, ?_, fun _ _ _ => rfl⟩, ?_⟩
  · intro n hn
    obtain ⟨k, -, rfl⟩ := Finset.mem_image.1 hn
    exact ⟨two_signed _, two_signed _, two_signed _⟩
  · funext x
    show ∑ n ∈ Finset.univ.image sg, c n * ripple ℓ (ℓ * T / L) n (x.1.val * (ℓ / L))
      (x.2.1.val * (ℓ / L)) (x.2.2.val * (ℓ / L)) = F x
    rw [Finset.sum_image (fun a _ b _ h => hinj h)]
    have h1 : ∀ k, c (sg k) * ripple ℓ (ℓ * T / L) (sg k) (x.1.val * (ℓ / L)) (x.2.1.val * (ℓ / L))
        (x.2.2.val * (ℓ / L)) = (dft F k * wave k x) / (L * L * T : ℂ) := by
      intro k
      rw [← wave_ripple hℓ]
      simp only [c, hinv]
      have : (((x.1.val : ℕ) : ZMod L), ((x.2.1.val : ℕ) : ZMod L), ((x.2.2.val : ℕ) : ZMod T)) = x := by
        simp
      rw [this]
      ring
    simp only [h1]
    rw [← Finset.sum_div]
    have h2 := synth_dft F x
    unfold synth at h2
    rw [h2]
    exact mul_div_cancel_left₀ _ card_ne

/-- **C82** In a box that is not a cube the Laplacian of the propagator is wrong, already on a wave
along `z`. -/
theorem C82_not_box (hT : T ≠ L) (h2 : 2 ≤ T) {ℓ : ℝ} (hℓ : ℓ ≠ 0) :
    ∃ f, Resolved L T ℓ (ℓ * T / L) f ∧
      lapS (2 * Real.pi / ℓ) (sample L T (ℓ / L) f) 0 ≠ laplacian f 0 0 0 := by
  have hL : (L : ℝ) ≠ 0 := Nat.cast_ne_zero.2 (NeZero.ne L)
  have hT0 : (T : ℝ) ≠ 0 := Nat.cast_ne_zero.2 (NeZero.ne T)
  let c : ℤ × ℤ × ℤ → ℂ := fun _ => 1
  let f : ℝ → ℝ → ℝ → ℂ := fun x y z =>
    ∑ n ∈ {((0, 0, 1) : ℤ × ℤ × ℤ)}, c n * ripple ℓ (ℓ * T / L) n x y z
  have hf : ∀ x y z, f x y z =
    ∑ n ∈ {((0, 0, 1) : ℤ × ℤ × ℤ)}, c n * ripple ℓ (ℓ * T / L) n x y z := fun _ _ _ => rfl
  have hr : Resolved L T ℓ (ℓ * T / L) f := by
    refine ⟨{(0, 0, 1)}, c, ?_, hf⟩
    intro n hn
    rw [Finset.mem_singleton.1 hn]
    refine ⟨by simp, by simp, ?_⟩
    rw [abs_one]; exact_mod_cast h2
  refine ⟨f, hr, ?_⟩
  rw [C82_box hℓ hr, ← laplacianZ_one]
  have e0 : (((0 : Torus L T).1.val : ℕ) : ℝ) * (ℓ / L) = 0 := by simp
  have e1 : (((0 : Torus L T).2.1.val : ℕ) : ℝ) * (ℓ / L) = 0 := by simp
  have e2 : (((0 : Torus L T).2.2.val : ℕ) : ℝ) * (ℓ / L) = 0 := by simp
  rw [e0, e1, e2, laplacianZ_waves hf, laplacianZ_waves hf, Finset.sum_singleton,
    Finset.sum_singleton]
  have hone : ripple ℓ (ℓ * T / L) (0, 0, 1) 0 0 0 = 1 := by simp [ripple]
  rw [hone]
  simp only [c, one_mul, mul_one]
  intro h
  have h' := Complex.ofReal_injective h
  have hp := Real.pi_ne_zero
  simp only [Int.cast_zero, Int.cast_one] at h'
  have h3 : ((T : ℝ) / L) ^ 2 = 1 := by
    have hh : (2 * Real.pi) ^ 2 ≠ 0 := by positivity
    have h4 : (1 : ℝ) ^ 2 / (ℓ * T / L) ^ 2 ≠ 0 := by positivity
    have h5 : (2 * Real.pi) ^ 2 * (1 ^ 2 / (ℓ * T / L) ^ 2) * (((T : ℝ) / L) ^ 2 - 1) = 0 := by
      linear_combination -h'
    rcases mul_eq_zero.1 h5 with h6 | h6
    · exact absurd h6 (mul_ne_zero hh h4)
    · linarith
  have h7 : (T : ℝ) / L = 1 := by
    have : (0 : ℝ) ≤ (T : ℝ) / L := by positivity
    nlinarith
  rw [div_eq_one_iff_eq hL] at h7
  exact hT (by exact_mod_cast h7)

end

/-- **C82** So in a cube a stage of the axion kicks every site with the Laplacian of the field that the
lattice samples, and with the force of the cosine potential. -/
theorem C82_cube {g : Gravity.Geo} [NeZero g.Lx] [NeZero g.Tz] (ok : g.Ok) (hT : g.Tz = g.Lx)
    {P : Plan} (hP : P.Exact g) {N step : ℕ} (hN : g.lines * (g.Lx + 2) ≤ N) (hs : 0 < step)
    (hd : step ∣ g.Lx) (p : Par) (hℓ : p.ℓ ≠ 0) {o : ℕ → Orders}
    (ho : ∀ r < g.n, (o r).Ok g true step) {f : ℝ → ℝ → ℝ → ℝ} {v : Torus g.Lx g.Tz → ℝ}
    (hf : Resolved g.Lx g.Tz p.ℓ p.ℓ fun x y z => (f x y z : ℂ)) {w : ℕ → Heap Loc ℝ}
    (H : Shows g N (sample g.Lx g.Tz (p.ℓ / g.Lx) f, v) w) :
    ∃ w', tStage g P p o w = some w' ∧ ∀ r i, r < g.n → i < g.vol →
      let x := siteOf g (r * g.vol + i)
      let δ := p.ℓ / g.Lx
      let θ := f (x.1.val * δ) (x.2.1.val * δ) (x.2.2.val * δ)
      let u := v x + p.dz * p.c * (laplacian f (x.1.val * δ) (x.2.1.val * δ) (x.2.2.val * δ) -
        p.mA2 * p.R ^ 3 * Real.sin (θ / p.R))
      w' r ⟨.v, i⟩ = some u ∧ w' r ⟨.m, g.Lx * g.Lx + i⟩ = some (θ + p.dz * p.d * u) := by
  obtain ⟨w', e, h⟩ := tStage_spec ok hP hN hs hd p ho H
  refine ⟨w', e, ?_⟩
  intro r i hr hi x δ θ u
  have hl := C82_laplacian_real hT hℓ hf x
  have hv := h.v r i hr hi
  have hm := h.m r i hr hi
  simp only [kickDrift, axionAcc, smul_eq_mul] at hv hm
  rw [hl] at hv hm
  exact ⟨hv, hm⟩

/-! ### Where the kernels depart from the equations -/

/-- **C82** With `V_QCD2` the force of the QCD potential has the opposite sign. -/
theorem C82_two (p : Par) (hR : 0 < p.R) {pq : Pq} (hp : pq ≠ .pq3) (φ lap : ℂ) (hφ : φ ≠ 0) :
    ∃ F G : ℂ, sAccel p pq .qcd2 φ lap = some (lap + (F - G) + p.Rpp * φ) ∧
      IsForce (comoving (Vpq p.LL pq) p.R) φ.re φ.im F.re F.im ∧
      IsForce (comoving (Vqcd p.mA2 .qcd2) p.R) φ.re φ.im G.re G.im := by
  have h1 := pq_isForce p.LL hR pq φ.re φ.im
  have h2 := qcd_isForce p.mA2 hR .qcd2 φ.re φ.im (norm_ne hφ)
  refine ⟨⟨_, _⟩, ⟨_, _⟩, ?_, h1, h2⟩
  cases pq
  all_goals first
    | exact absurd rfl hp
    | (simp only [sAccel, Option.bind_eq_bind, Option.bind_some]
       congr 1
       apply Complex.ext <;>
         simp only [pqSite, qcdForce, Complex.add_re, Complex.add_im, Complex.sub_re, Complex.sub_im,
           Complex.mul_re, Complex.mul_im, Complex.ofReal_re, Complex.ofReal_im] <;> ring)

/-- **C82** With `V_QCDV` the force of the QCD potential is multiplied with the scale factor. -/
theorem C82_variant (p : Par) (hR : 0 < p.R) {pq : Pq} (hp : pq ≠ .pq3) (φ lap : ℂ) (hφ : φ ≠ 0) :
    ∃ F G : ℂ, sAccel p pq .qcdV φ lap = some (lap + (F + p.R * G) + p.Rpp * φ) ∧
      IsForce (comoving (Vpq p.LL pq) p.R) φ.re φ.im F.re F.im ∧
      IsForce (comoving (Vqcd p.mA2 .qcdV) p.R) φ.re φ.im G.re G.im := by
  have h1 := pq_isForce p.LL hR pq φ.re φ.im
  have h2 := qcd_isForce p.mA2 hR .qcdV φ.re φ.im (norm_ne hφ)
  refine ⟨⟨_, _⟩, ⟨_, _⟩, ?_, h1, h2⟩
  cases pq
  all_goals first
    | exact absurd rfl hp
    | (simp only [sAccel, Option.bind_eq_bind, Option.bind_some]
       congr 1
       apply Complex.ext <;>
         simp only [pqSite, qcdForce, Complex.add_re, Complex.add_im, Complex.sub_re, Complex.sub_im,
           Complex.mul_re, Complex.mul_im, Complex.ofReal_re, Complex.ofReal_im] <;> ring)

/-- There is no acceleration for `V_PQ3`: the switch of the kernel has no case for it, so with any axion
potential the kernel goes on with a variable it has not set.  For the other symmetry breaking potentials
there is one with every axion potential but the cosine, which is not modelled. -/
theorem C82_unset (p : Par) (pq : Pq) (qcd : Qcd) (hq : qcd ≠ .qcdC) (φ lap : ℂ) :
    (∃ a, sAccel p pq qcd φ lap = some a) ↔ pq ≠ .pq3 := by
  cases pq <;> cases qcd <;> simp_all [sAccel]

/-- **C82** So neither of the two is the force of its potential: away from the origin for `V_QCD2`,
and for `V_QCDV` when the scale factor is not one, away from the minimum. -/
theorem C82_not_force (p : Par) (hR : 0 < p.R) (hm : p.mA2 ≠ 0) {pq : Pq} (hp : pq ≠ .pq3) {qcd : Qcd}
    (φ lap F : ℂ) (hφ : φ ≠ 0) (hq : qcd = .qcd2 ∨ qcd = .qcdV ∧ p.R ≠ 1 ∧ φ ≠ p.R)
    (hF : sAccel p pq qcd φ lap = some (lap + F + p.Rpp * φ)) :
    ¬ IsForce (fun x y => comoving (Vpq p.LL pq) p.R x y + comoving (Vqcd p.mA2 qcd) p.R x y)
      φ.re φ.im F.re F.im := by
  intro h
  have hn := norm_ne hφ
  have hR2 : p.mA2 * p.R ^ 2 ≠ 0 := mul_ne_zero hm (by positivity)
  have hz : ∀ a : ℝ, p.mA2 * p.R ^ 2 * a = 0 → a = 0 := fun a ha => (mul_eq_zero.1 ha).resolve_left hR2
  rcases hq with rfl | ⟨rfl, h1, hv⟩
  · obtain ⟨A, G, e, hA, hG⟩ := C82_two p hR hp φ lap hφ
    have hu := isForce_unique h (isForce_add hA hG)
    have hg := isForce_unique hG (qcd_isForce p.mA2 hR .qcd2 φ.re φ.im hn)
    rw [hF] at e
    have e' : F = A - G := by
      have := Option.some.inj e
      linear_combination this
    have r1 := hu.1
    have r2 := hu.2
    rw [e', Complex.sub_re] at r1
    rw [e', Complex.sub_im] at r2
    have g1 := hg.1
    have g2 := hg.2
    simp only [qcdForce] at g1 g2
    exact hφ (Complex.ext (hz _ (by linarith))
      (hz _ (by linarith)))
  · obtain ⟨A, G, e, hA, hG⟩ := C82_variant p hR hp φ lap hφ
    have hu := isForce_unique h (isForce_add hA hG)
    have hg := isForce_unique hG (qcd_isForce p.mA2 hR .qcdV φ.re φ.im hn)
    rw [hF] at e
    have e' : F = A + p.R * G := by
      have := Option.some.inj e
      linear_combination this
    have r1 := hu.1
    have r2 := hu.2
    rw [e', Complex.add_re, Complex.re_ofReal_mul] at r1
    rw [e', Complex.add_im, Complex.im_ofReal_mul] at r2
    have g1 := hg.1
    have g2 := hg.2
    simp only [qcdForce] at g1 g2
    have hne : p.R - 1 ≠ 0 := sub_ne_zero.2 h1
    have k1 : G.re = 0 := (mul_eq_zero.1 (show (p.R - 1) * G.re = 0 by linarith)).resolve_left hne
    have k2 : G.im = 0 := (mul_eq_zero.1 (show (p.R - 1) * G.im = 0 by linarith)).resolve_left hne
    rw [k1] at g1
    rw [k2] at g2
    refine hv (Complex.ext ?_ ?_)
    · rw [Complex.ofReal_re]
      linarith [hz (p.R - φ.re) g1.symm]
    · rw [Complex.ofReal_im]
      exact hz _ (by linarith)

theorem lapS_const {L T : ℕ} [NeZero L] [NeZero T] (ℓ : ℝ) (a : ℂ) (x : Torus L T) :
    lapS (2 * Real.pi / ℓ) (fun _ => a) x = 0 := by
  by_cases hℓ : ℓ = 0
  · simp [lapS, hℓ]
  have hf : ∀ x y z : ℝ, (fun _ _ _ => a : ℝ → ℝ → ℝ → ℂ) x y z =
      ∑ n ∈ {((0, 0, 0) : ℤ × ℤ × ℤ)}, (fun _ => a) n * ripple ℓ (ℓ * T / L) n x y z := by
    intro x y z
    simp [ripple]
  have hr : Resolved L T ℓ (ℓ * T / L) (fun _ _ _ => a) := by
    refine ⟨{(0, 0, 0)}, fun _ => a, ?_, hf⟩
    intro n hn
    rw [Finset.mem_singleton.1 hn]
    simp
  have h := lapS_resolved hℓ hr x
  rw [laplacianZ_waves hf, Finset.sum_singleton] at h
  rw [show (fun _ => a : Torus L T → ℂ) = sample L T (ℓ / L) fun _ _ _ => a from rfl, h]
  simp

/-- **C82** Without potential a homogeneous axion field at rest keeps its comoving value `R θ` in the
spectral propagator, so the angle falls with the scale factor; in the equation of motion, and in the
propagator of C58, it is the angle that stays. -/
theorem C82_still {L T : ℕ} [NeZero L] [NeZero T] (ss : List Par) (hm : ∀ p ∈ ss, p.mA2 = 0) (a : ℝ) :
    ss.foldl (fun s p => kickDrift (axionAcc (L := L) (T := T) p.ℓ p.R p.mA2) (p.dz * p.c) (p.dz * p.d) s)
      ((fun _ => a, fun _ => 0) : (Torus L T → ℝ) × (Torus L T → ℝ)) = (fun _ => a, fun _ => 0) := by
  induction ss with
  | nil => rfl
  | cons p ss ih =>
    have h0 : ∀ x, axionAcc (L := L) (T := T) p.ℓ p.R p.mA2 (fun _ => a) x = 0 := by
      intro x
      unfold axionAcc
      rw [lapS_const, hm p List.mem_cons_self]
      simp
    rw [List.foldl_cons]
    have : kickDrift (axionAcc (L := L) (T := T) p.ℓ p.R p.mA2) (p.dz * p.c) (p.dz * p.d)
        ((fun _ => a, fun _ => 0) : (Torus L T → ℝ) × (Torus L T → ℝ)) = (fun _ => a, fun _ => 0) := by
      simp only [kickDrift, h0, smul_zero, add_zero]
    rw [this]
    exact ih fun q hq => hm q (List.mem_cons_of_mem _ hq)

/-! ### Concrete cases -/

/-- The list of every loop in its own order. -/
def plain (g : Gravity.Geo) (half : Bool) (step : ℕ) : Orders :=
  ⟨List.range g.lines, iterations g half, Spectral.lanes (g.Lx * g.Lx) (g.vol + g.Lx * g.Lx) step⟩

theorem plain_ok (g : Gravity.Geo) (half : Bool) (step : ℕ) : (plain g half step).Ok g half step :=
  ⟨.refl _, .refl _, .refl _⟩

/-- Arrays with a given field and velocity, and `N` numbers in `m2`. -/
def holding {K : Type} (g : Gravity.Geo) (N : ℕ) (c : K)
    (s : (Torus g.Lx g.Tz → K) × (Torus g.Lx g.Tz → K)) (r : ℕ) : Heap Loc K
  | ⟨.m, i⟩ => some (s.1 (siteOf g (r * g.vol + (i - g.Lx * g.Lx))))
  | ⟨.v, i⟩ => some (s.2 (siteOf g (r * g.vol + i)))
  | ⟨.m2, i⟩ => if i < N then some c else none

theorem holding_shows {K : Type} (g : Gravity.Geo) (N : ℕ) (c : K)
    (s : (Torus g.Lx g.Tz → K) × (Torus g.Lx g.Tz → K)) : Shows g N s (holding g N c s) where
  m r i _ _ := by simp [holding]
  v r i _ _ := rfl
  m2 r i _ hi := by simp [holding, hi]

instance : NeZero (⟨2, 4, 2⟩ : Gravity.Geo).Lx := ⟨by decide⟩
instance : NeZero (⟨2, 4, 2⟩ : Gravity.Geo).Tz := ⟨by decide⟩

/-- Two ranks with four by four by two sites each, vectors of four sites, two stages. -/
example (p q : Par) (s : (Torus 4 4 → ℝ) × (Torus 4 4 → ℝ)) :
    ∃ w', tRun ⟨2, 4, 2⟩ (formulaPlan ⟨2, 4, 2⟩)
        [(p, fun _ => plain ⟨2, 4, 2⟩ true 4), (q, fun _ => plain ⟨2, 4, 2⟩ true 4)]
        (holding ⟨2, 4, 2⟩ 48 0 s) = some w' ∧
      Shows ⟨2, 4, 2⟩ 48 (kickDrift (axionAcc q.ℓ q.R q.mA2) (q.dz * q.c) (q.dz * q.d)
        (kickDrift (axionAcc p.ℓ p.R p.mA2) (p.dz * p.c) (p.dz * p.d) s)) w' :=
  C82_axion (g := ⟨2, 4, 2⟩) demo_ok (formulaPlan_exact demo_ok) (step := 4) (by decide) (by decide)
    (by decide) [(p, fun _ => plain ⟨2, 4, 2⟩ true 4), (q, fun _ => plain ⟨2, 4, 2⟩ true 4)]
    (by
      intro t ht r _
      rcases List.mem_cons.1 ht with rfl | ht
      · exact plain_ok _ _ _
      · rw [List.mem_singleton.1 ht]; exact plain_ok _ _ _)
    (holding_shows ⟨2, 4, 2⟩ 48 0 s)

section
variable {g : Gravity.Geo} [NeZero g.Lx] [NeZero g.Tz]

theorem modeFull_surj (ok : g.Ok) (k : Torus g.Lx g.Tz) :
    ∃ r i, r < g.n ∧ i < g.vol ∧ modeFull g r i = k := by
  have h1 := ZMod.val_lt k.1
  have h2 := ZMod.val_lt k.2.1
  have h3 := ZMod.val_lt k.2.2
  have hq : 0 < g.Lx / g.n := Nat.div_pos (Nat.le_of_dvd ok.side ok.dvd) ok.ranks
  have hmod : k.2.1.val % (g.Lx / g.n) < g.Lx / g.n := Nat.mod_lt _ hq
  have hin : k.2.2.val + g.Tz * (k.2.1.val % (g.Lx / g.n)) < g.Tz * (g.Lx / g.n) := by
    have := Nat.mul_le_mul_left g.Tz (Nat.succ_le_of_lt hmod)
    rw [Nat.mul_succ] at this
    omega
  have e1 : (k.1.val + g.Lx * (k.2.2.val + g.Tz * (k.2.1.val % (g.Lx / g.n)))) / g.Lx =
      k.2.2.val + g.Tz * (k.2.1.val % (g.Lx / g.n)) := by
    rw [Nat.add_mul_div_left _ _ ok.side, Nat.div_eq_of_lt h1, Nat.zero_add]
  refine ⟨k.2.1.val / (g.Lx / g.n),
    k.1.val + g.Lx * (k.2.2.val + g.Tz * (k.2.1.val % (g.Lx / g.n))), ?_, ?_, ?_⟩
  · rw [Nat.div_lt_iff_lt_mul hq, Nat.mul_div_cancel' ok.dvd]
    exact h2
  · rw [← count_full ok]
    unfold count Ly width
    simp only [Bool.false_eq_true, if_false]
    calc _ < g.Lx * (k.2.2.val + g.Tz * (k.2.1.val % (g.Lx / g.n)) + 1) := by
          rw [Nat.mul_succ]; omega
      _ ≤ g.Lx * (g.Tz * (g.Lx / g.n)) := Nat.mul_le_mul_left _ hin
      _ = _ := by ring
  · unfold modeFull
    rw [e1, Nat.add_mul_mod_self_left, Nat.mod_eq_of_lt h1, Nat.add_mul_div_left _ _ ok.Tz_pos,
      Nat.div_eq_of_lt h3, Nat.zero_add, Nat.add_mul_mod_self_left, Nat.mod_eq_of_lt h3,
      Nat.div_add_mod']
    simp

open Classical in
/-- Complex transforms by their formulas. -/
noncomputable def formulaCPlan (g : Gravity.Geo) [NeZero g.Lx] [NeZero g.Tz] : CPlan where
  fwd xs r i := dft (fun x => xs.getD (indexOf g x) 0) (modeFull g r i)
  bck A :=
    if h : ∃ H : Torus g.Lx g.Tz → ℂ,
        ∀ r i, r < g.n → i < g.vol → A r i = some (H (modeFull g r i)) then
      some fun i => synth h.choose (siteOf g i)
    else none

theorem formulaCPlan_exact (ok : g.Ok) : (formulaCPlan g).Exact g := by
  constructor
  · intro f r i _ _
    unfold formulaCPlan
    dsimp only
    congr 1
    funext x
    rw [List.getD_eq_getElem?_getD, List.getElem?_map, List.getElem?_range (indexOf_lt g x)]
    simp [siteOf_indexOf]
  · intro A H hA
    have h : ∃ H : Torus g.Lx g.Tz → ℂ,
        ∀ r i, r < g.n → i < g.vol → A r i = some (H (modeFull g r i)) := ⟨H, hA⟩
    have e : h.choose = H := by
      funext k
      obtain ⟨r, i, hr, hi, rfl⟩ := modeFull_surj ok k
      have := h.choose_spec r i hr hi
      rw [hA r i hr hi] at this
      exact (Option.some.inj this).symm
    refine ⟨fun i => synth H (siteOf g i), ?_, fun i _ => rfl⟩
    unfold formulaCPlan
    dsimp only
    rw [dif_pos h, e]

end

/-- The complex field on the same lattice, a stage with the linear potential. -/
example (p : Par) (s : (Torus 4 4 → ℂ) × (Torus 4 4 → ℂ)) :
    ∃ w', sRun ⟨2, 4, 2⟩ 1 (formulaCPlan ⟨2, 4, 2⟩)
        (fun p φ lap => lap - φ * ((φ.re * φ.re + φ.im * φ.im - p.R * p.R) * p.LL - p.Rpp : ℝ) +
          ⟨p.mA2 * (p.R * p.R) * p.R, 0⟩)
        [(p, fun _ => plain ⟨2, 4, 2⟩ false 4)] (holding ⟨2, 4, 2⟩ 32 0 s) = some w' ∧
      Shows ⟨2, 4, 2⟩ 32 (kickDrift (fun φ x => lapS (2 * Real.pi / p.ℓ) φ x -
          φ x * (((φ x).re * (φ x).re + (φ x).im * (φ x).im - p.R * p.R) * p.LL - p.Rpp : ℝ) +
          ⟨p.mA2 * (p.R * p.R) * p.R, 0⟩) (p.dz * p.c) (p.dz * p.d) s) w' :=
  C82_saxion (g := ⟨2, 4, 2⟩) demo_ok (formulaCPlan_exact demo_ok) (step := 4) (by decide) (by decide)
    (by decide) _ [(p, fun _ => plain ⟨2, 4, 2⟩ false 4)]
    (by
      intro t ht r _
      rw [List.mem_singleton.1 ht]; exact plain_ok _ _ _)
    (holding_shows ⟨2, 4, 2⟩ 32 0 s)

/-- The force at the point `1 + i` with the quartic and the linear potential. -/
example : ∃ F : ℂ, sAccel ⟨2, 0, 1, 3, 1, 1, 1, 1⟩ .pq1 .qcd1 ⟨1, 1⟩ 0 =
      some (0 + F + (0 : ℝ) * ⟨1, 1⟩) ∧
    IsForce (fun x y => comoving (Vpq 3 .pq1) 2 x y + comoving (Vqcd 1 .qcd1) 2 x y) 1 1 F.re F.im :=
  C82_force ⟨2, 0, 1, 3, 1, 1, 1, 1⟩ (by norm_num) (by decide) (Or.inr rfl) ⟨1, 1⟩ 0
    (fun h => by simpa using congrArg Complex.re h)

/-- The same point with `V_PQ3`. -/
example : ¬ ∃ a, sAccel ⟨2, 0, 1, 3, 1, 1, 1, 1⟩ .pq3 .qcd1 ⟨1, 1⟩ 0 = some a :=
  fun h => (C82_unset _ _ _ (by decide) _ _).1 h rfl

/-- The same point with `V_QCD2`. -/
example (F : ℂ) (h : sAccel ⟨2, 0, 1, 3, 1, 1, 1, 1⟩ .pq1 .qcd2 ⟨1, 1⟩ 0 =
      some (0 + F + (0 : ℝ) * ⟨1, 1⟩)) :
    ¬ IsForce (fun x y => comoving (Vpq 3 .pq1) 2 x y + comoving (Vqcd 1 .qcd2) 2 x y) 1 1 F.re F.im :=
  C82_not_force ⟨2, 0, 1, 3, 1, 1, 1, 1⟩ (by norm_num) one_ne_zero (by decide) ⟨1, 1⟩ 0 F
    (fun h => by simpa using congrArg Complex.re h) (Or.inl rfl) h

/-- The cosine is a field that the lattice resolves. -/
theorem cos_resolved {L T : ℕ} (h2 : 2 ≤ L) (ℓ h : ℝ) :
    Resolved L T ℓ h fun x _ _ => ((Real.cos (2 * Real.pi * x / ℓ) : ℝ) : ℂ) := by
  refine ⟨{(1, 0, 0), (-1, 0, 0)}, fun _ => 1 / 2, ?_, ?_⟩
  · intro n hn
    simp only [Finset.mem_insert, Finset.mem_singleton] at hn
    have : (2 : ℤ) ≤ L := by exact_mod_cast h2
    rcases hn with rfl | rfl <;> simp [this]
  · intro x y z
    rw [Finset.sum_pair (by decide)]
    dsimp only
    rw [Complex.ofReal_cos, Complex.cos]
    unfold ripple
    dsimp only
    have e1 : 2 * (Real.pi : ℂ) * Complex.I *
        ((((1 : ℤ) : ℝ) * x / ℓ + (0 : ℤ) * y / ℓ + (0 : ℤ) * z / h : ℝ) : ℂ) =
        ((2 * Real.pi * x / ℓ : ℝ) : ℂ) * Complex.I := by push_cast; ring
    have e2 : 2 * (Real.pi : ℂ) * Complex.I *
        ((((-1 : ℤ) : ℝ) * x / ℓ + (0 : ℤ) * y / ℓ + (0 : ℤ) * z / h : ℝ) : ℂ) =
        -((2 * Real.pi * x / ℓ : ℝ) : ℂ) * Complex.I := by push_cast; ring
    rw [e1, e2]
    ring

/-- A stage on it. -/
example (p : Par) (hℓ : p.ℓ ≠ 0) :
    ∃ w', tStage ⟨2, 4, 2⟩ (formulaPlan ⟨2, 4, 2⟩) p (fun _ => plain ⟨2, 4, 2⟩ true 4)
        (holding ⟨2, 4, 2⟩ 48 0 (sample 4 4 (p.ℓ / (4 : ℕ)) (fun x _ _ => Real.cos (2 * Real.pi * x / p.ℓ)),
          fun _ => 0)) = some w' :=
  (C82_cube (g := ⟨2, 4, 2⟩) demo_ok rfl (formulaPlan_exact demo_ok) (step := 4) (by decide) (by decide)
    (by decide) p hℓ (fun _ _ => plain_ok _ _ _) (cos_resolved (by decide) _ _)
    (holding_shows ⟨2, 4, 2⟩ 48 0 _)).imp fun _ h => h.1

/-- A product of a wave along `x` and one along `z`, on a lattice of four sites a side. -/
example (ℓ : ℝ) (hℓ : ℓ ≠ 0) (x : Torus 4 4) :
    lapS (2 * Real.pi / ℓ) (sample 4 4 (ℓ / 4) (ripple ℓ ℓ (1, 0, -2))) x =
      laplacian (ripple ℓ ℓ (1, 0, -2)) (x.1.val * (ℓ / 4)) (x.2.1.val * (ℓ / 4))
        (x.2.2.val * (ℓ / 4)) :=
  C82_laplacian rfl hℓ ⟨{(1, 0, -2)}, fun _ => 1, by decide, fun _ _ _ => by simp⟩ x

/-- On a lattice twice as deep as wide. -/
example (ℓ : ℝ) (hℓ : ℓ ≠ 0) : ∃ f, Resolved 4 8 ℓ (ℓ * (8 : ℕ) / (4 : ℕ)) f ∧
    lapS (2 * Real.pi / ℓ) (sample 4 8 (ℓ / (4 : ℕ)) f) 0 ≠ laplacian f 0 0 0 :=
  C82_not_box (by decide) (by decide) hℓ

end Jaxions.SpecLap
