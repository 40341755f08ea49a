import Verif.Lemmas.FieldSpectrum
import Mathlib.Analysis.SpecialFunctions.Trigonometric.Bounds
/-
**C84** The spectra `nRun` takes of an axion field are the power of the field and of its velocity in
shells of momenta, and add up to its energies.
-/
namespace Jaxions.FieldSpec

open Finset Gravity WKB Spectrum

section
variable {u : Setup} [NeZero u.g.Lx] [NeZero u.g.Tz]
variable {ψ π : Torus u.g.Lx u.g.Tz → ℝ} {mark : Torus u.g.Lx u.g.Tz → Bool}

omit [NeZero u.g.Lx] [NeZero u.g.Tz] in
theorem holds_of_same {s s' : ℕ → Mem} (hs : Holds u s ψ π mark)
    (h : ∀ r, (s' r).m = (s r).m ∧ (s' r).v = (s r).v ∧ (s' r).str = (s r).str)
    (h2 : ∀ r < u.g.n, WKB.Alloc (u.g.lines * (u.g.Lx + 2)) (s' r).m2) : Holds u s' ψ π mark where
  m := fun r hr i hi => by rw [(h r).1]; exact hs.m r hr i hi
  v := fun r hr i hi => by rw [(h r).2.1]; exact hs.v r hr i hi
  str := fun r hr i hi => by rw [(h r).2.2]; exact hs.str r hr i hi
  m2 := h2

omit [NeZero u.g.Lx] [NeZero u.g.Tz] in
theorem phys_norm : (phys u.g u.ℓ u.ma u.R).norm = u.ℓ ^ 3 / (2 * u.N ^ 2) := by
  unfold phys Setup.N
  dsimp only
  congr 1 <;> ring

omit [NeZero u.g.Lx] [NeZero u.g.Tz] in
theorem phys_unit : (phys u.g u.ℓ u.ma u.R).unit = (2 * Real.pi / u.ℓ) ^ 2 := by
  unfold phys
  dsimp only
  rw [div_pow]
  congr 1 <;> ring

/-- **C84** After `nRun` with any mask but `SPMASK_AXIT`, on any number of ranks and threads and for any
schedule: every rank has in bin `j` of each vector that was asked for the power of the field (of the
velocity, of `2R sin(ψ/2R)`) in the shell of momenta `j`, off the marked sites if the mask is not flat
(for the whole potential only if it is `SPMASK_AXIT2`).  Vectors that were not asked for are zero.  The
field, the velocity and the marks are as before. -/
theorem C84_bins (ok : u.Ok) (hP : u.plan.Exact u.g) {mk : Mask} (hm : mk ≠ .axit) {st : Status}
    (hready : ready st mk = true) (nrt : ℕ) {dG dK dS : ℕ → Orders} (hG : ∀ r < u.g.n, (dG r).Ok u)
    (hK : ∀ r < u.g.n, (dK r).Ok u) (hS : ∀ r < u.g.n, (dS r).Ok u) {s : State}
    (hs : Holds u s.mem ψ π mark) :
    ∃ s', nRun u mk st nrt dG dK dS s = some s' ∧ Holds u s'.mem ψ π mark ∧
      ∀ r < u.g.n, ∀ j < u.cfg.nbins,
        s'.bins r .K j = (if askedK nrt then shell u (fun _ => 1) (seen (mk != .flat) mark π) j else 0) ∧
        s'.bins r .G j = (if askedGV nrt then shell u (k2 u) (seen (mk != .flat) mark ψ) j else 0) ∧
        s'.bins r .V j = (if askedGV nrt then
          shell u (fun _ => u.ma * u.R * u.R) (seen (mk != .flat) mark ψ) j else 0) ∧
        s'.bins r .Vnl j = (if askedS nrt ∧ 0 < u.ma * u.R * u.R then
          shell u (fun _ => u.ma * u.R * u.R) (seen (mk == .axit2) mark fun x => chord u.R (ψ x)) j else 0) := by
  have hclear : ∀ r j, cleared s.bins r .K j = 0 ∧ cleared s.bins r .G j = 0 ∧ cleared s.bins r .V j = 0 ∧
      cleared s.bins r .Vnl j = 0 := fun r j => ⟨rfl, rfl, rfl, rfl⟩
  -- gradient and potential
  obtain ⟨s1, e1, q1, b1⟩ : ∃ s1, (if askedGV nrt then block u.g u.plan u.cfg (phys u.g u.ℓ u.ma u.R) .GV
      (gArray u.g u.Ng mk) dG ⟨s.mem, cleared s.bins⟩ else some ⟨s.mem, cleared s.bins⟩) = some s1 ∧
      Holds u s1.mem ψ π mark ∧ ∀ r < u.g.n, ∀ j < u.cfg.nbins, s1.bins r .K j = 0 ∧
        s1.bins r .G j = (if askedGV nrt then shell u (k2 u) (seen (mk != .flat) mark ψ) j else 0) ∧
        s1.bins r .V j = (if askedGV nrt then
          shell u (fun _ => u.ma * u.R * u.R) (seen (mk != .flat) mark ψ) j else 0) ∧
        s1.bins r .Vnl j = 0 := by
    by_cases hw : askedGV nrt = true
    · simp only [if_pos hw]
      obtain ⟨s1, e, h1, h2, h3⟩ := block_spec ok hP (t := .GV) (by decide) (by decide) (by decide)
        (p := phys u.g u.ℓ u.ma u.R) (array := gArray u.g u.Ng mk) hG (s := ⟨s.mem, cleared s.bins⟩)
        (fun r hr => gArray_spec ok hm hs (hG r hr) hr (hs.m2 r hr))
      refine ⟨s1, e, holds_of_same hs h1 h2, fun r hr j hj => ⟨?_, ?_, ?_, ?_⟩⟩
      · rw [(h3 r .K j hr hj).2 rfl]; exact (hclear r j).1
      · rw [(h3 r .G j hr hj).1 rfl, spectrum_graded (t := .GV) (a := .G) trivial phys_norm phys_unit]
        simp [cleared]
      · rw [(h3 r .V j hr hj).1 rfl, spectrum_plain (w := u.ma * u.R * u.R) rfl phys_norm]
        simp [cleared]
      · rw [(h3 r .Vnl j hr hj).2 rfl]; exact (hclear r j).2.2.2
    · simp only [if_neg hw]
      exact ⟨_, rfl, hs, fun r _ j _ => hclear r j⟩
  -- velocity
  obtain ⟨s2, e2, q2, b2⟩ : ∃ s2, (if askedK nrt then block u.g u.plan u.cfg (phys u.g u.ℓ u.ma u.R) .K
      (kArray u.g u.Ng mk) dK s1 else some s1) = some s2 ∧
      Holds u s2.mem ψ π mark ∧ ∀ r < u.g.n, ∀ j < u.cfg.nbins,
        s2.bins r .K j = (if askedK nrt then shell u (fun _ => 1) (seen (mk != .flat) mark π) j else 0) ∧
        s2.bins r .G j = s1.bins r .G j ∧ s2.bins r .V j = s1.bins r .V j ∧ s2.bins r .Vnl j = 0 := by
    by_cases hw : askedK nrt = true
    · simp only [if_pos hw]
      obtain ⟨s2, e, h1, h2, h3⟩ := block_spec ok hP (t := .K) (by decide) (by decide) (by decide)
        (p := phys u.g u.ℓ u.ma u.R) (array := kArray u.g u.Ng mk) hK (s := s1)
        (fun r hr => kArray_spec ok hm q1 (hK r hr) hr (q1.m2 r hr))
      refine ⟨s2, e, holds_of_same q1 h1 h2, fun r hr j hj => ⟨?_, ?_, ?_, ?_⟩⟩
      · rw [(h3 r .K j hr hj).1 rfl, spectrum_plain (w := 1) rfl phys_norm,
          sum_eq_zero fun q hq => (b1 q (mem_range.1 hq) j hj).1, zero_add]
      · exact (h3 r .G j hr hj).2 rfl
      · exact (h3 r .V j hr hj).2 rfl
      · rw [(h3 r .Vnl j hr hj).2 rfl]; exact (b1 r hr j hj).2.2.2
    · simp only [if_neg hw]
      exact ⟨s1, rfl, q1, fun r hr j hj => ⟨(b1 r hr j hj).1, rfl, rfl, (b1 r hr j hj).2.2.2⟩⟩
  -- whole potential
  obtain ⟨s3, e3, q3, b3⟩ : ∃ s3, (if askedS nrt = true ∧ 0 < (phys u.g u.ℓ u.ma u.R).mass2 then
      block u.g u.plan u.cfg (phys u.g u.ℓ u.ma u.R) .VNL (sArray u.g u.Ng u.R mk) dS s2 else some s2) = some s3 ∧
      Holds u s3.mem ψ π mark ∧ ∀ r < u.g.n, ∀ j < u.cfg.nbins,
        s3.bins r .K j = s2.bins r .K j ∧ s3.bins r .G j = s2.bins r .G j ∧ s3.bins r .V j = s2.bins r .V j ∧
        s3.bins r .Vnl j = (if askedS nrt ∧ 0 < u.ma * u.R * u.R then
          shell u (fun _ => u.ma * u.R * u.R) (seen (mk == .axit2) mark fun x => chord u.R (ψ x)) j else 0) := by
    have hmass : (phys u.g u.ℓ u.ma u.R).mass2 = u.ma * u.R * u.R := rfl
    rw [hmass]
    by_cases hw : askedS nrt = true ∧ 0 < u.ma * u.R * u.R
    · simp only [if_pos hw]
      obtain ⟨s3, e, h1, h2, h3⟩ := block_spec ok hP (t := .VNL) (by decide) (by decide) (by decide)
        (p := phys u.g u.ℓ u.ma u.R) (array := sArray u.g u.Ng u.R mk) hS (s := s2)
        (fun r hr => sArray_spec ok hm q2 (hS r hr) hr (q2.m2 r hr))
      refine ⟨s3, e, holds_of_same q2 h1 h2, fun r hr j hj => ⟨?_, ?_, ?_, ?_⟩⟩
      · exact (h3 r .K j hr hj).2 rfl
      · exact (h3 r .G j hr hj).2 rfl
      · exact (h3 r .V j hr hj).2 rfl
      · rw [(h3 r .Vnl j hr hj).1 rfl, spectrum_plain (w := u.ma * u.R * u.R) rfl phys_norm,
          sum_eq_zero fun q hq => (b2 q (mem_range.1 hq) j hj).2.2.2, zero_add]
    · simp only [if_neg hw]
      exact ⟨s2, rfl, q2, fun r hr j hj => ⟨rfl, rfl, rfl, (b2 r hr j hj).2.2.2⟩⟩
  refine ⟨s3, ?_, q3, fun r hr j hj => ⟨?_, ?_, ?_, ?_⟩⟩
  · unfold nRun
    rw [if_neg (by rw [hready]; decide), wants_GV, wants_K, wants_S]
    show (Option.bind (if askedGV nrt then block u.g u.plan u.cfg (phys u.g u.ℓ u.ma u.R) .GV
      (gArray u.g u.Ng mk) dG ⟨s.mem, cleared s.bins⟩ else some ⟨s.mem, cleared s.bins⟩) _) = _
    rw [e1]
    show (Option.bind (if askedK nrt then block u.g u.plan u.cfg (phys u.g u.ℓ u.ma u.R) .K
      (kArray u.g u.Ng mk) dK s1 else some s1) _) = _
    rw [e2]
    exact e3
  · rw [(b3 r hr j hj).1, (b2 r hr j hj).1]
  · rw [(b3 r hr j hj).2.1, (b2 r hr j hj).2.1, (b1 r hr j hj).2.1]
  · rw [(b3 r hr j hj).2.2.1, (b2 r hr j hj).2.2.1, (b1 r hr j hj).2.2.1]
  · exact (b3 r hr j hj).2.2.2

omit [NeZero u.g.Lx] [NeZero u.g.Tz] in
/-- `m² R²/2 (2R sin(ψ/2R))² = m² R⁴ (1 - cos(ψ/R))`. -/
theorem chord_sq (hR : u.R ≠ 0) (x : ℝ) :
    u.ma * u.R * u.R * chord u.R x ^ 2 / 2 = u.ma * u.R ^ 4 * (1 - Real.cos (x / u.R)) := by
  have h := Real.cos_sq (x * (1 / (u.R * 2)))
  have e : 2 * (x * (1 / (u.R * 2))) = x / u.R := by field_simp
  rw [e] at h
  have h2 := Real.sin_sq_add_cos_sq (x * (1 / (u.R * 2)))
  unfold chord
  rw [mul_pow, show Real.sin (x * (1 / (u.R * 2))) ^ 2 = 1 / 2 - Real.cos (x / u.R) / 2 by linarith]
  ring

/-- **C84** The spectra add up to the energies in the box: kinetic energy, gradient energy of the
interpolation, `m² R² ψ²/2`, and `m² R⁴ (1 - cos(ψ/R))` exactly.  With a mask the sums are those of the
field (the velocity) that is zero at the marked sites; `1 - cos` is cut only by `SPMASK_AXIT2`. -/
theorem C84_totals (ok : u.Ok) (hP : u.plan.Exact u.g) (hma : 0 < u.ma) (hR : 0 < u.R) {mk : Mask}
    (hm : mk ≠ .axit) {st : Status} (hready : ready st mk = true) {nrt : ℕ} {dG dK dS : ℕ → Orders}
    (hG : ∀ r < u.g.n, (dG r).Ok u) (hK : ∀ r < u.g.n, (dK r).Ok u) (hS : ∀ r < u.g.n, (dS r).Ok u)
    {s : State} (hs : Holds u s.mem ψ π mark) :
    ∃ s', nRun u mk st nrt dG dK dS s = some s' ∧ Holds u s'.mem ψ π mark ∧ ∀ r < u.g.n,
      (askedK nrt = true →
        ∑ j ∈ range u.cfg.nbins, s'.bins r .K j = kinetic u (seen (mk != .flat) mark π)) ∧
      (askedGV nrt = true →
        ∑ j ∈ range u.cfg.nbins, s'.bins r .G j = gradient u (seen (mk != .flat) mark ψ) ∧
        ∑ j ∈ range u.cfg.nbins, s'.bins r .V j = quadratic u (seen (mk != .flat) mark ψ)) ∧
      (askedS nrt = true →
        ∑ j ∈ range u.cfg.nbins, s'.bins r .Vnl j = cosine u (seen (mk == .axit2) mark ψ)) := by
  obtain ⟨s', e, h1, h2⟩ := C84_bins ok hP hm hready nrt hG hK hS hs
  refine ⟨s', e, h1, fun r hr => ⟨fun hw => ?_, fun hw => ⟨?_, ?_⟩, fun hw => ?_⟩⟩
  · rw [sum_congr rfl fun j hj => (h2 r hr j (mem_range.1 hj)).1]
    simp only [if_pos hw]
    rw [shell_total ok]
    simp only [one_mul]
    rfl
  · rw [sum_congr rfl fun j hj => (h2 r hr j (mem_range.1 hj)).2.1]
    simp only [if_pos hw]
    exact shell_gradient ok _
  · rw [sum_congr rfl fun j hj => (h2 r hr j (mem_range.1 hj)).2.2.1]
    simp only [if_pos hw]
    rw [shell_total ok]
    unfold quadratic
    congr 2
    funext x
    ring
  · rw [sum_congr rfl fun j hj => (h2 r hr j (mem_range.1 hj)).2.2.2]
    simp only [if_pos (show askedS nrt = true ∧ 0 < u.ma * u.R * u.R from ⟨hw, by positivity⟩)]
    rw [shell_total ok]
    unfold cosine
    congr 2
    funext x
    have hc := chord_sq (u := u) hR.ne'
    have h0 : chord u.R 0 = 0 := by simp [chord]
    rw [← hc]
    congr 3
    unfold seen
    split
    · unfold cut
      split
      · exact h0.symm
      · rfl
    · rfl

/-- **C84** With the same sites in both sums the spectrum of the whole potential is not above the one of
the quadratic potential. -/
theorem C84_cosine_le (ok : u.Ok) (hP : u.plan.Exact u.g) (hma : 0 < u.ma) (hR : 0 < u.R) {mk : Mask}
    (hm : mk = .flat ∨ mk = .axit2) {st : Status} (hready : ready st mk = true) {nrt : ℕ}
    (hw1 : askedGV nrt = true) (hw2 : askedS nrt = true) {dG dK dS : ℕ → Orders}
    (hG : ∀ r < u.g.n, (dG r).Ok u) (hK : ∀ r < u.g.n, (dK r).Ok u) (hS : ∀ r < u.g.n, (dS r).Ok u)
    {s : State} (hs : Holds u s.mem ψ π mark) :
    ∃ s', nRun u mk st nrt dG dK dS s = some s' ∧ ∀ r < u.g.n,
      ∑ j ∈ range u.cfg.nbins, s'.bins r .Vnl j ≤ ∑ j ∈ range u.cfg.nbins, s'.bins r .V j := by
  obtain ⟨s', e, -, h⟩ := C84_totals ok hP hma hR (by rcases hm with rfl | rfl <;> decide) hready (nrt := nrt)
    hG hK hS hs
  refine ⟨s', e, fun r hr => ?_⟩
  rw [(h r hr).2.2 hw2, ((h r hr).2.1 hw1).2]
  have he : (mk == Mask.axit2) = (mk != Mask.flat) := by rcases hm with rfl | rfl <;> rfl
  rw [he]
  unfold cosine quadratic mean
  have hN := N_pos ok
  refine mul_le_mul_of_nonneg_left (div_le_div_of_nonneg_right (sum_le_sum fun x _ => ?_) hN.le)
    (pow_nonneg ok.size.le 3)
  generalize seen (mk != Mask.flat) mark ψ x = y
  have h1 := Real.one_sub_sq_div_two_le_cos (x := y / u.R)
  have h2 : u.ma * u.R ^ 4 * (1 - Real.cos (y / u.R)) ≤ u.ma * u.R ^ 4 * ((y / u.R) ^ 2 / 2) :=
    mul_le_mul_of_nonneg_left (by linarith) (by positivity)
  refine h2.trans (le_of_eq ?_)
  field_simp

/-- **C84** A mask that is neither flat nor `SPMASK_AXIT2` cuts the marked sites out of the quadratic
potential and leaves them in the whole potential: with every site marked the first is zero and the
second is the energy of the whole field. -/
theorem C84_not_same_sites (ok : u.Ok) (hP : u.plan.Exact u.g) (hma : 0 < u.ma) (hR : 0 < u.R) {mk : Mask}
    (h1 : mk ≠ .axit) (h2 : mk ≠ .flat) (h3 : mk ≠ .axit2) {st : Status} (hready : ready st mk = true) {nrt : ℕ}
    (hw1 : askedGV nrt = true) (hw2 : askedS nrt = true) {dG dK dS : ℕ → Orders}
    (hG : ∀ r < u.g.n, (dG r).Ok u) (hK : ∀ r < u.g.n, (dK r).Ok u) (hS : ∀ r < u.g.n, (dS r).Ok u)
    {s : State} (hs : Holds u s.mem ψ π fun _ => true) :
    ∃ s', nRun u mk st nrt dG dK dS s = some s' ∧ ∀ r < u.g.n,
      ∑ j ∈ range u.cfg.nbins, s'.bins r .V j = 0 ∧
      ∑ j ∈ range u.cfg.nbins, s'.bins r .Vnl j = cosine u ψ := by
  obtain ⟨s', e, -, h⟩ := C84_totals ok hP hma hR h1 hready (nrt := nrt) hG hK hS hs
  refine ⟨s', e, fun r hr => ⟨?_, ?_⟩⟩
  · rw [((h r hr).2.1 hw1).2]
    have : (mk != Mask.flat) = true := by simpa using h2
    simp [quadratic, mean, seen, this, cut]
  · rw [(h r hr).2.2 hw2]
    have : (mk == Mask.axit2) = false := by simpa using h3
    rw [this]
    rfl

end

end Jaxions.FieldSpec
