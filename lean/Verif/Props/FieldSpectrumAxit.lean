import Verif.Props.FieldSpectrum
import Mathlib.Analysis.SpecialFunctions.Artanh
/-
**C84** Where the spectra of an axion field are not what was asked for: a mask that is missing, and
`SPMASK_AXIT`.
-/
namespace Jaxions.FieldSpec

open Finset Gravity WKB Spectrum

section
variable {u : Setup} [NeZero u.g.Lx] [NeZero u.g.Tz]
variable {ψ π : Torus u.g.Lx u.g.Tz → ℝ} {mark : Torus u.g.Lx u.g.Tz → Bool}

/-- **C84** If the mask of axitons was not made, the run with `SPMASK_AXIT2` leaves the spectra of the run
before it: after a flat run they still add up to the kinetic energy of the whole field, whatever the
marks. -/
theorem C84_missing_mask (ok : u.Ok) (hP : u.plan.Exact u.g) (hma : 0 < u.ma) (hR : 0 < u.R) {st : Status}
    (hst : st.axiton = false) {nrt : ℕ} (hw : askedK nrt = true) {dG dK dS dG' dK' dS' : ℕ → Orders}
    (hG : ∀ r < u.g.n, (dG r).Ok u) (hK : ∀ r < u.g.n, (dK r).Ok u) (hS : ∀ r < u.g.n, (dS r).Ok u)
    {s : State} (hs : Holds u s.mem ψ π mark) :
    ∃ s1 s2, nRun u .flat st nrt dG dK dS s = some s1 ∧ nRun u .axit2 st nrt dG' dK' dS' s1 = some s2 ∧
      ∀ r < u.g.n, ∑ j ∈ range u.cfg.nbins, s2.bins r .K j = kinetic u π := by
  obtain ⟨s1, e, -, h⟩ := C84_totals ok hP hma hR (mk := .flat) (by decide) rfl (nrt := nrt) hG hK hS hs
  refine ⟨s1, s1, e, ?_, fun r hr => (h r hr).1 hw⟩
  unfold nRun
  exact if_pos hst

/-- The state with other velocities. -/
def setV (v : ℕ → Heap ℕ ℝ) (s : State) : State :=
  ⟨fun r => { s.mem r with v := v r }, s.bins⟩

omit [NeZero u.g.Lx] [NeZero u.g.Tz] in
theorem block_setV {c : Cfg} {p : Phys ℝ} {t : SType} {array : Mem → Orders → Heap ℕ ℝ → Option (Heap ℕ ℝ)}
    (ha : ∀ (w : Mem) x d h, array { w with v := x } d h = array w d h) (d : ℕ → Orders)
    (v : ℕ → Heap ℕ ℝ) (s : State) :
    block u.g u.plan c p t array d (setV v s) = (block u.g u.plan c p t array d s).map (setV v) := by
  unfold block
  have e : (fun r h => array ((setV v s).mem r) (d r) h) = fun r h => array (s.mem r) (d r) h := by
    funext r h
    exact ha _ _ _ _
  rw [e]
  have e2 : (fun r => ((setV v s).mem r).m2) = fun r => (s.mem r).m2 := rfl
  have e3 : (setV v s).bins = s.bins := rfl
  rw [e2, e3]
  cases ranks u.g.n (fun r h => array (s.mem r) (d r) h) fun r => (s.mem r).m2 with
  | none => rfl
  | some a =>
    simp only [Option.bind_eq_bind, Option.bind_some]
    cases forward u.g u.plan a with
    | none => rfl
    | some b =>
      simp only [Option.bind_some]
      cases moduli u.g b with
      | none => rfl
      | some amp =>
        simp only [Option.bind_some]
        cases fillBins c p t amp (fun r => (d r).modes) s.bins <;> rfl

omit [NeZero u.g.Lx] [NeZero u.g.Tz] in
/-- **C84** With `SPMASK_AXIT` no spectrum depends on the velocity, the kinetic one included: another
velocity gives the same bins. -/
theorem C84_axit_velocity (st : Status) (nrt : ℕ) (dG dK dS : ℕ → Orders) (v : ℕ → Heap ℕ ℝ) (s : State) :
    (nRun u .axit st nrt dG dK dS (setV v s)).map (·.bins) = (nRun u .axit st nrt dG dK dS s).map (·.bins) := by
  have hG : ∀ (w : Mem) x d h, gArray u.g u.Ng .axit { w with v := x } d h = gArray u.g u.Ng .axit w d h :=
    fun _ _ _ _ => rfl
  have hK : ∀ (w : Mem) x d h, kArray u.g u.Ng .axit { w with v := x } d h = kArray u.g u.Ng .axit w d h :=
    fun _ _ _ _ => rfl
  have hS : ∀ (w : Mem) x d h, sArray u.g u.Ng u.R .axit { w with v := x } d h =
      sArray u.g u.Ng u.R .axit w d h := fun _ _ _ _ => rfl
  have step : ∀ {c p t array} (_ : ∀ (w : Mem) x d h, array { w with v := x } d h = array w d h) (d : ℕ → Orders)
      (b : Prop) [Decidable b] (s : State),
      (if b then block u.g u.plan c p t array d (setV v s) else some (setV v s)) =
        (if b then block u.g u.plan c p t array d s else some s).map (setV v) := by
    intro c p t array ha d b _ s
    by_cases hb : b
    · rw [if_pos hb, if_pos hb, block_setV ha]
    · rw [if_neg hb, if_neg hb]; rfl
  have chain : ∀ (x : Option State) (F : State → Option State) (_ : ∀ s, F (setV v s) = (F s).map (setV v)),
      (x.map (setV v)).bind F = (x.bind F).map (setV v) := by
    intro x F hF
    cases x with
    | none => rfl
    | some s => exact hF s
  have key : nRun u .axit st nrt dG dK dS (setV v s) = (nRun u .axit st nrt dG dK dS s).map (setV v) := by
    unfold nRun
    have hr : ¬ ready st .axit = false := fun h => Bool.noConfusion h
    rw [if_neg hr, if_neg hr]
    simp only [Option.bind_eq_bind]
    rw [show (⟨(setV v s).mem, cleared (setV v s).bins⟩ : State) = setV v ⟨s.mem, cleared s.bins⟩ from rfl,
      step hG, chain]
    intro s1
    rw [step hK, chain]
    intro s2
    exact step hS _ _ _
  rw [key, Option.map_map]
  rfl

end

/-- **C84** With `SPMASK_AXIT` a site may read what another site of its row has just stored in the place
of its own weight.  The weight of the site `(2, 1, 0)` is in the cell where the result of `(0, 1, 0)`
goes.  If `(0, 1, 0)` is done first (the loop over a row goes up), the number stored for `(2, 1, 0)` is
made with that result, and the weight that was there does not enter. -/
theorem C84_axit_overwritten {L ss o : ℕ} (hL : 2 < L) {order : List (ℕ × ℕ × ℕ)}
    (ho : (order.map (bare L)).Perm (List.range (ss * L))) (hin : ∀ s ∈ order, s.1 < L ∧ s.2.1 < L)
    (hbefore : ∀ pre post, order = pre ++ (2, 1, 0) :: post → (0, 1, 0) ∈ pre) (hss : 2 ≤ ss) {w : Mem}
    {ψ : ℕ → ℝ} (hw : ∀ i < ss * L, w.m (o + i) = some (ψ i)) {h : Heap ℕ ℝ} {x : ℝ}
    (ha : WKB.Alloc (ss * (L + 2)) h) (hx : h L = some x) :
    ∃ d, order.foldlM (gSite L o .axit w) h = some d ∧
      d (padded L (2, 1, 0)) = some (ψ (L + 2) * smear (ψ L * smear x)) := by
  have hnd : (order.map (bare L)).Nodup := ho.nodup_iff.2 List.nodup_range
  have hL0 : 0 < L := by omega
  have hroom : L + 2 < ss * L := by
    have : 2 * L ≤ ss * L := Nat.mul_le_mul_right _ hss
    omega
  have bA : bare L (0, 1, 0) = L := by simp [bare]
  have bB : bare L (2, 1, 0) = L + 2 := by simp [bare]; omega
  have pA : padded L (0, 1, 0) = L + 2 := by simp [padded]
  have memB : (2, 1, 0) ∈ order := by
    obtain ⟨s, hs, e⟩ := List.mem_map.1 (ho.mem_iff.2 (List.mem_range.2 hroom))
    obtain ⟨sx, sy, sz⟩ := s
    have hi := hin _ hs
    simp only at hi
    have e2 : (sy + L * sz) * L + sx = 1 * L + 2 := by
      rw [← show bare L (sx, sy, sz) = (sy + L * sz) * L + sx by unfold bare; dsimp only; ring, e]; ring
    have h1 := congrArg (· / L) e2
    have h2 := congrArg (· % L) e2
    simp only [Nat.mul_add_mod_self_right, Nat.mod_eq_of_lt hi.1, Nat.mod_eq_of_lt hL] at h2
    have h3 : sy + L * sz = 1 := by
      have := e2
      rw [h2] at this
      exact Nat.eq_of_mul_eq_mul_right hL0 (by omega)
    have h4 : sz = 0 := by
      rcases Nat.eq_zero_or_pos sz with hz | hz
      · exact hz
      · have := Nat.le_mul_of_pos_right L hz
        omega
    subst h4
    have h5 : sy = 1 := by simpa using h3
    subst h5
    subst h2
    exact hs
  have memA : (0, 1, 0) ∈ order := by
    obtain ⟨pre, post, e⟩ := List.append_of_mem memB
    rw [e]
    exact List.mem_append_left _ (hbefore pre post e)
  have same : ∀ {s q}, s ∈ order → q ∈ order → padded L s = padded L q → s = q := by
    intro s q hs hq e
    rw [padded_row (hin s hs).1, padded_row (hin q hq).1] at e
    exact List.inj_on_of_nodup_map hnd hs hq (rowIx_inj hL0 e)
  have notL : ∀ s ∈ order, padded L s ≠ L := by
    intro s hs hc
    have hi := hin s hs
    obtain ⟨sx, sy, sz⟩ := s
    simp only at hi
    have e : sx + (sy + L * sz) * (L + 2) = L := by
      have e' : padded L (sx, sy, sz) = sx + (sy + L * sz) * (L + 2) := by unfold padded; dsimp only; ring
      rw [← e', hc]
    rcases Nat.eq_zero_or_pos (sy + L * sz) with hz | hz
    · rw [hz] at e; omega
    · have := Nat.le_mul_of_pos_left (L + 2) hz
      omega
  obtain ⟨d, e, -, -, -, p⟩ := foldlM_inv (f := gSite L o .axit w) (s := h) order
    (P := fun pre t => WKB.Alloc (ss * (L + 2)) t ∧ t L = some x ∧
      ((0, 1, 0) ∈ pre → t (padded L (0, 1, 0)) = some (ψ L * smear x)) ∧
      ((2, 1, 0) ∈ pre → t (padded L (2, 1, 0)) = some (ψ (L + 2) * smear (ψ L * smear x))))
    ⟨ha, hx, by simp, by simp⟩
    (by
      rintro pre s post hsplit t ⟨t1, t2, t3, t4⟩
      have hs : s ∈ order := by rw [hsplit]; simp
      have hlt : bare L s < ss * L := List.mem_range.1 (ho.mem_iff.1 (List.mem_map_of_mem hs))
      have hp := padded_row (hin s hs).1
      obtain ⟨y, hy⟩ := Option.isSome_iff_exists.1 (t1 (bare L s) (by
        have : ss * L ≤ ss * (L + 2) := Nat.mul_le_mul_left _ (by omega)
        omega))
      have hsome : (t (padded L s)).isSome := t1 _ (by rw [hp]; exact rowIx_lt hL0 hlt)
      have hstep : gSite L o .axit w t s =
          some fun b => if b = padded L s then some (ψ (bare L s) * smear y) else t b := by
        unfold gSite
        dsimp only
        rw [hw _ hlt, hy]
        exact write_eq t _ _ hsome
      refine ⟨_, hstep, ?_, ?_, ?_, ?_⟩
      · intro a ha'
        dsimp only
        split
        · rfl
        · exact t1 a ha'
      · rw [if_neg (fun hc => notL s hs hc.symm)]
        exact t2
      · intro hm
        by_cases hc : s = (0, 1, 0)
        · subst hc
          rw [if_pos rfl]
          rw [bA, t2] at hy
          rw [bA, Option.some.inj hy]
        · rw [if_neg (fun e => hc (same memA hs e).symm)]
          rcases List.mem_append.1 hm with hm | hm
          · exact t3 hm
          · exact absurd (List.mem_singleton.1 hm).symm hc
      · intro hm
        by_cases hc : s = (2, 1, 0)
        · subst hc
          rw [if_pos rfl]
          have := t3 (hbefore pre post hsplit)
          rw [pA] at this
          rw [bB, this] at hy
          rw [bB, Option.some.inj hy]
        · rw [if_neg (fun e => hc (same memB hs e).symm)]
          rcases List.mem_append.1 hm with hm | hm
          · exact t4 hm
          · exact absurd (List.mem_singleton.1 hm).symm hc)
  exact ⟨d, e, p memB⟩

theorem smear_injective : Function.Injective smear := by
  intro a b h
  unfold smear at h
  have h1 : Real.tanh (5 * a - 1) = Real.tanh (5 * b - 1) := by linarith
  have h2 := Real.tanh_injective h1
  linarith

/-- **C84** So the number is not the field times the factor of the weight `y` that was in the place of the
site, unless the result of `(0, 1, 0)` happens to be `y` or the field is zero there. -/
theorem C84_axit_not_weight {L ss o : ℕ} (hL : 2 < L) {order : List (ℕ × ℕ × ℕ)}
    (ho : (order.map (bare L)).Perm (List.range (ss * L))) (hin : ∀ s ∈ order, s.1 < L ∧ s.2.1 < L)
    (hbefore : ∀ pre post, order = pre ++ (2, 1, 0) :: post → (0, 1, 0) ∈ pre) (hss : 2 ≤ ss) {w : Mem}
    {ψ : ℕ → ℝ} (hw : ∀ i < ss * L, w.m (o + i) = some (ψ i)) {h : Heap ℕ ℝ} {x y : ℝ}
    (ha : WKB.Alloc (ss * (L + 2)) h) (hx : h L = some x) (hψ : ψ (L + 2) ≠ 0) (hy : ψ L * smear x ≠ y) :
    ∃ d, order.foldlM (gSite L o .axit w) h = some d ∧
      d (padded L (2, 1, 0)) ≠ some (ψ (L + 2) * smear y) := by
  obtain ⟨d, e, hd⟩ := C84_axit_overwritten hL ho hin hbefore hss hw ha hx
  refine ⟨d, e, fun hc => hy (smear_injective ?_)⟩
  rw [hd] at hc
  exact mul_left_cancel₀ hψ (Option.some.inj hc)

/-! ### Cases -/

/-- Two ranks with two slices of four lines of four sites each. -/
noncomputable def demo : Setup where
  g := ⟨2, 4, 2⟩
  Ng := 1
  plan := @formulaPlan ⟨2, 4, 2⟩ ⟨by decide⟩ ⟨by decide⟩
  threads := 1
  nbinsspec := -1
  ℓ := 3
  ma := 2
  R := 1.5

instance : NeZero demo.g.Lx := ⟨by decide⟩
instance : NeZero demo.g.Tz := ⟨by decide⟩

theorem demo_setup : demo.Ok :=
  ⟨demo_ok, by decide, by decide, by decide, by norm_num [demo]⟩

/-- One after the other. -/
def demoOrders : Orders where
  lines := List.range 8
  sites := (List.range 32).map fun i => (i % 4, i / 4 % 4, i / 16)
  modes := (List.range 24).map fun i => (i, 0)

theorem demoOrders_ok : demoOrders.Ok demo where
  lines := List.Perm.refl _
  sites := by
    show List.Perm _ (List.range 32)
    have : demoOrders.sites.map (bare demo.g.Lx) = List.range 32 := by decide
    rw [this]
  inside := by decide
  modes := by
    constructor
    · have : demoOrders.modes.map Prod.fst = List.range demo.cfg.modes := by decide
      rw [this]
    · decide

/-- Ranks that hold a field, a velocity and marks. -/
noncomputable def demoMem (ψ π : Torus demo.g.Lx demo.g.Tz → ℝ) (mark : Torus demo.g.Lx demo.g.Tz → Bool)
    (r : ℕ) : Mem where
  m := fun i => some (ψ (siteOf demo.g (r * demo.g.vol + (i - start demo.g demo.Ng))))
  v := fun i => some (π (siteOf demo.g (r * demo.g.vol + i)))
  m2 := fun _ => some 0
  str := fun i => some (mark (siteOf demo.g (r * demo.g.vol + i)))

theorem demo_holds (ψ π : Torus demo.g.Lx demo.g.Tz → ℝ) (mark : Torus demo.g.Lx demo.g.Tz → Bool) :
    Holds demo (demoMem ψ π mark) ψ π mark where
  m := fun r _ i _ => by unfold demoMem; dsimp only; rw [Nat.add_sub_cancel_left]
  v := fun _ _ _ _ => rfl
  str := fun _ _ _ _ => rfl
  m2 := fun _ _ _ _ => rfl

theorem demo_exact : demo.plan.Exact demo.g := formulaPlan_exact demo_ok

/-- All four spectra (`nrt = 15`) of any field with any marks. -/
example (ψ π : Torus demo.g.Lx demo.g.Tz → ℝ) (mark : Torus demo.g.Lx demo.g.Tz → Bool) (old : ℕ → Bins ℝ) :
    ∃ s', nRun demo .axit2 ⟨false, true⟩ 15 (fun _ => demoOrders) (fun _ => demoOrders) (fun _ => demoOrders)
        ⟨demoMem ψ π mark, old⟩ = some s' ∧
      ∑ j ∈ range demo.cfg.nbins, s'.bins 1 .Vnl j = cosine demo (cut mark ψ) ∧
      ∑ j ∈ range demo.cfg.nbins, s'.bins 1 .K j = kinetic demo (cut mark π) := by
  obtain ⟨s', e, -, h⟩ := C84_totals demo_setup demo_exact (by norm_num [demo]) (by norm_num [demo]) (mk := .axit2)
    (by decide) (st := ⟨false, true⟩) rfl (nrt := 15) (fun _ _ => demoOrders_ok) (fun _ _ => demoOrders_ok)
    (fun _ _ => demoOrders_ok) (s := ⟨demoMem ψ π mark, old⟩) (demo_holds ψ π mark)
  exact ⟨s', e, (h 1 (by decide)).2.2 (by decide), (h 1 (by decide)).1 (by decide)⟩

example (ψ π : Torus demo.g.Lx demo.g.Tz → ℝ) (old : ℕ → Bins ℝ) :=
  C84_cosine_le demo_setup demo_exact (by norm_num [demo]) (by norm_num [demo]) (mk := .flat)
    (Or.inl rfl) (st := ⟨false, false⟩) rfl (nrt := 15) (by decide) (by decide) (fun _ _ => demoOrders_ok)
    (fun _ _ => demoOrders_ok) (fun _ _ => demoOrders_ok) (s := ⟨demoMem ψ π fun _ => false, old⟩)
    (demo_holds ψ π fun _ => false)

example (ψ π : Torus demo.g.Lx demo.g.Tz → ℝ) (old : ℕ → Bins ℝ) :=
  C84_not_same_sites demo_setup demo_exact (by norm_num [demo]) (by norm_num [demo]) (mk := .ball)
    (by decide) (by decide) (by decide) (st := ⟨false, false⟩) rfl (nrt := 15) (by decide) (by decide)
    (fun _ _ => demoOrders_ok) (fun _ _ => demoOrders_ok) (fun _ _ => demoOrders_ok)
    (s := ⟨demoMem ψ π fun _ => true, old⟩) (demo_holds ψ π fun _ => true)

example (ψ π : Torus demo.g.Lx demo.g.Tz → ℝ) (old : ℕ → Bins ℝ) :=
  C84_missing_mask demo_setup demo_exact (by norm_num [demo]) (by norm_num [demo]) (st := ⟨true, false⟩) rfl
    (nrt := 1) (by decide) (dG' := fun _ => demoOrders) (dK' := fun _ => demoOrders) (dS' := fun _ => demoOrders)
    (fun _ _ => demoOrders_ok) (fun _ _ => demoOrders_ok) (fun _ _ => demoOrders_ok)
    (s := ⟨demoMem ψ π fun _ => true, old⟩) (demo_holds ψ π fun _ => true)

/-- The order of the example meets the hypothesis on the two sites. -/
theorem demo_before (pre post : List (ℕ × ℕ × ℕ)) (h : demoOrders.sites = pre ++ (2, 1, 0) :: post) :
    (0, 1, 0) ∈ pre := by
  have hi : demoOrders.sites.idxOf (2, 1, 0) = 6 := by decide
  by_contra hc
  have hn : demoOrders.sites.Nodup := by decide
  have h1 : (2, 1, 0) ∉ pre := by
    rw [h] at hn
    intro hm
    exact (List.nodup_append.1 hn).2.2 _ hm _ (by simp) rfl
  have h2 : pre.length = 6 := by
    rw [h, List.idxOf_append_of_notMem h1] at hi
    simpa using hi
  have h3 : pre = demoOrders.sites.take 6 := by rw [h, ← h2, List.take_left']; rfl
  rw [h3] at hc
  exact hc (by decide)

example (ψ : ℕ → ℝ) : ∃ d, demoOrders.sites.foldlM (gSite 4 16 .axit
      ⟨⟨fun i => some (ψ (i - 16)), fun _ => none, fun _ => none⟩, fun _ => none⟩) (fun _ => some 0.5) = some d ∧
    d (padded 4 (2, 1, 0)) = some (ψ (4 + 2) * smear (ψ 4 * smear 0.5)) :=
  C84_axit_overwritten (ss := 8) (by decide) demoOrders_ok.sites demoOrders_ok.inside demo_before (by decide)
    (w := ⟨⟨fun i => some (ψ (i - 16)), fun _ => none, fun _ => none⟩, fun _ => none⟩)
    (fun i _ => by dsimp only; rw [Nat.add_sub_cancel_left]) (fun _ _ => rfl) rfl

end Jaxions.FieldSpec
