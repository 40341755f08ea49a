import Verif.Spec.SaxSweep
import Verif.Props.Force
import Verif.Props.Run

namespace Jaxions.SaxRun

open Stencil Simd SaxKernel Run

variable {p : Prec} {i : Isa}

theorem sites_pos (p : Prec) (i : Isa) : 0 < sites .saxion p i := by
  cases p <;> cases i <;> decide

theorem at_pack (f : Fin (sites .saxion p i) → C) (l : Fin (sites .saxion p i)) :
    at' (pack f) l = f l := by
  have h1 : (2 * l.1) / 2 = l.1 := by omega
  have h2 : (2 * l.1 + 1) / 2 = l.1 := by omega
  simp [at', re, im, pack, h1, h2, Nat.add_mod]

theorem unpack_eq (a : Vec (W p i) ℝ) (l : Fin (sites .saxion p i)) : unpack a l = at' a l := rfl

theorem gather_some {n : ℕ} {f : ℕ → Option C} {g : ℕ → C} (h : ∀ l, l < n → f l = some (g l)) :
    gather (n := n) f = some (fun l : Fin n => g l) := by
  unfold gather
  have hs : ∀ l : Fin n, (f l).isSome := fun l => by rw [h l l.2]; rfl
  rw [dif_pos hs]
  congr 1
  funext l
  simp only [h l l.2, Option.get_some]

/-- What a lane after the other does, in terms of the values found at the start. -/
theorem lanes_spec (s : Shape) (lapF : ℕ → ℕ → Option C) (law : C → C → C → C × C) (m : Heap ℕ C)
    (idx j : ℕ) (hj : sub? idx (s.NN * s.Sf) = some j) (ls : List ℕ) (hn : ls.Nodup) (o o' : Out C)
    (h : (ls.map fun l => (idx, l)).foldlM (updateWith s lapF law m) o = some o') :
    (∀ l ∈ ls, (m (idx + l)).isSome ∧ (lapF idx l).isSome ∧ (o.v (j + l)).isSome) ∧
    ∀ val : ℕ → C × C, (∀ l ∈ ls, ∀ mel L vel, m (idx + l) = some mel → lapF idx l = some L →
      o.v (j + l) = some vel → val l = law L mel vel) →
      ls.foldlM (storeLane idx j val) o = some o' := by
  induction ls generalizing o with
  | nil => exact ⟨by simp, fun _ _ => by simpa using h⟩
  | cons l ls ih =>
    rw [List.map_cons, List.foldlM_cons, Option.bind_eq_bind, Option.bind_eq_some_iff] at h
    obtain ⟨o1, h1, h2⟩ := h
    rw [List.nodup_cons] at hn
    unfold updateWith at h1
    simp only [Option.bind_eq_bind, Option.bind_eq_some_iff, Option.pure_def, Option.some.injEq, hj] at h1
    obtain ⟨mel, e1, L, e2, j', e3, vel, e4, m2, e5, v, e6, rfl⟩ := h1
    subst e3
    obtain ⟨h3, h4⟩ := ih hn.2 ⟨v, m2⟩ h2
    have hv : ∀ l' ∈ ls, v (j + l') = o.v (j + l') := by
      intro l' hl'
      have hne : j + l' ≠ j + l := by
        intro hc
        exact hn.1 (by rwa [show l = l' by omega])
      unfold Heap.write at e6
      split at e6
      · cases e6
        show (if j + l' = j + l then _ else _) = _
        rw [if_neg hne]
      · cases e6
    refine ⟨?_, ?_⟩
    · intro l' hl'
      rcases List.mem_cons.1 hl' with rfl | hl'
      · exact ⟨by rw [e1]; rfl, by rw [e2]; rfl, by rw [e4]; rfl⟩
      · obtain ⟨q1, q2, q3⟩ := h3 l' hl'
        exact ⟨q1, q2, by rw [← hv l' hl']; exact q3⟩
    · intro val hval
      rw [List.foldlM_cons]
      have : storeLane idx j val o l = some ⟨v, m2⟩ := by
        unfold storeLane
        rw [hval l (List.mem_cons_self ..) mel L vel e1 e2 e4]
        simp [e5, e6]
      rw [this]
      refine h4 val fun l' hl' mel' L' vel' q1 q2 q3 => ?_
      refine hval l' (List.mem_cons_of_mem _ hl') mel' L' vel' q1 q2 ?_
      rw [← hv l' hl']
      exact q3

/-- The arithmetic on registers acts on every site by `law`. -/
def Sitewise (p : Prec) (i : Isa) (q : Par ℝ) (pot : Pot) (law : C → C → C → C × C) : Prop :=
  ∀ (mel L vel : Vec (W p i) ℝ) (s : Fin (sites .saxion p i)),
    (at' (kernel Real.sqrt q p i pot mel L vel).2 s, at' (kernel Real.sqrt q p i pot mel L vel).1 s) =
      law (at' L s) (at' mel s) (at' vel s)

theorem updateVec_of {q : Par ℝ} {pot : Pot} {law : C → C → C → C × C} (hk : Sitewise p i q pot law)
    (s : Shape) (hs : s.step = sites .saxion p i) (lapF : ℕ → ℕ → Option C) (m : Heap ℕ C) (idx : ℕ)
    (o o' : Out C) (h : (lanes s [idx]).foldlM (updateWith s lapF law m) o = some o') :
    updateVec p i q pot s lapF m o idx = some o' := by
  have hpos := sites_pos p i
  have hl : lanes s [idx] = (List.range (sites .saxion p i)).map fun l => (idx, l) := by
    simp [lanes, hs]
  rw [hl] at h
  have hj : ∃ j, sub? idx (s.NN * s.Sf) = some j := by
    obtain ⟨k, hk'⟩ := Nat.exists_eq_succ_of_ne_zero hpos.ne'
    rw [hk', List.range_succ_eq_map, List.map_cons, List.foldlM_cons, Option.bind_eq_bind,
      Option.bind_eq_some_iff] at h
    obtain ⟨o1, h1, -⟩ := h
    unfold updateWith at h1
    simp only [Option.bind_eq_bind, Option.bind_eq_some_iff] at h1
    obtain ⟨_, _, _, _, j, e, -⟩ := h1
    exact ⟨j, e⟩
  obtain ⟨j, hj⟩ := hj
  obtain ⟨h1, h2⟩ := lanes_spec s lapF law m idx j hj _ List.nodup_range o o' h
  have get : ∀ f : ℕ → Option C, (∀ l, l < sites .saxion p i → (f l).isSome) →
      ∃ g : ℕ → C, ∀ l, l < sites .saxion p i → f l = some (g l) := by
    intro f hf
    refine ⟨fun l => (f l).getD 0, fun l hl => ?_⟩
    obtain ⟨a, ha⟩ := Option.isSome_iff_exists.1 (hf l hl)
    simp [ha]
  obtain ⟨mel, e1⟩ := get (fun l => m (idx + l)) fun l hl => (h1 l (List.mem_range.2 hl)).1
  obtain ⟨L, e2⟩ := get (fun l => lapF idx l) fun l hl => (h1 l (List.mem_range.2 hl)).2.1
  obtain ⟨vel, e3⟩ := get (fun l => o.v (j + l)) fun l hl => (h1 l (List.mem_range.2 hl)).2.2
  unfold updateVec
  simp only [gather_some e1, gather_some e2, gather_some e3, hj, Option.bind_eq_bind, Option.bind_some]
  have h3 := h2 (fun l => law (L l) (mel l) (vel l)) fun l hl a b c q1 q2 q3 => by
    have hl' := List.mem_range.1 hl
    have a1 := (e1 l hl').symm.trans q1
    have a2 := (e2 l hl').symm.trans q2
    have a3 := (e3 l hl').symm.trans q3
    simp only [Option.some.injEq] at a1 a2 a3
    rw [a1, a2, a3]
  rw [← List.map_coe_finRange_eq_range, List.foldlM_map] at h3
  rw [← h3]
  congr 1
  funext o l
  have := hk (pack fun l => mel l) (pack fun l => L l) (pack fun l => vel l) l
  rw [at_pack, at_pack, at_pack] at this
  unfold storeLane
  simp only [unpack_eq, this.symm]

theorem sweepVec_of {q : Par ℝ} {pot : Pot} {law : C → C → C → C × C} (hk : Sitewise p i q pot law)
    (s : Shape) (hs : s.step = sites .saxion p i) (lapF : ℕ → ℕ → Option C) (m : Heap ℕ C)
    (order : List ℕ) (o o' : Out C) (h : sweepWith s lapF law m order o = some o') :
    sweepVec p i q pot s lapF m order o = some o' := by
  induction order generalizing o with
  | nil => exact h
  | cons idx order ih =>
    unfold sweepWith at h
    have hl : lanes s (idx :: order) = lanes s [idx] ++ lanes s order := by simp [lanes]
    rw [hl, List.foldlM_append, Option.bind_eq_bind, Option.bind_eq_some_iff] at h
    obtain ⟨o1, h1, h2⟩ := h
    unfold sweepVec
    rw [List.foldlM_cons, updateVec_of hk s hs lapF m idx o o1 h1]
    exact ih o1 h2

theorem foldlM_of {σ β : Type} {f g : σ → β → Option σ} (h : ∀ a b c, f a b = some c → g a b = some c)
    (l : List β) (a c : σ) (hf : l.foldlM f a = some c) : l.foldlM g a = some c := by
  induction l generalizing a with
  | nil => exact hf
  | cons b l ih =>
    rw [List.foldlM_cons, Option.bind_eq_bind, Option.bind_eq_some_iff] at hf
    obtain ⟨d, h1, h2⟩ := hf
    rw [List.foldlM_cons, h a b d h1]
    exact ih d h2

theorem runVec_of (n sz : ℕ) (s : Shape) (hs : s.step = sites .saxion p i) (Lz : ℕ) (PC : List ℝ)
    (ood2 : ℝ) (law : Opt → C → C → C → C × C) (cs : List (Opt × Luck C))
    (hk : ∀ c ∈ cs, Sitewise p i c.1.q c.1.pot (law c.1)) (b : Bool) (w w' : World C)
    (h : run n sz s Lz b (cs.map fun c => (saxionSub PC ood2 (law c.1), c.2)) w = some w') :
    runVec p i n sz s Lz PC ood2 b cs w = some w' := by
  induction cs generalizing b w with
  | nil => exact h
  | cons c cs ih =>
    rw [List.map_cons] at h
    unfold run at h
    rw [Option.bind_eq_bind, Option.bind_eq_some_iff] at h
    obtain ⟨w1, h1, h2⟩ := h
    obtain ⟨c, l⟩ := c
    have hc : Sitewise p i c.q c.pot (law c) := hk (c, l) (List.mem_cons_self ..)
    have e1 : substepVec p i n sz s Lz b PC ood2 c l w = some w1 := by
      unfold substep at h1
      unfold substepVec
      simp only [Option.bind_eq_bind, Option.bind_eq_some_iff] at h1 ⊢
      obtain ⟨src, q1, r, q2, q3⟩ := h1
      refine ⟨src, q1, r, ?_, q3⟩
      refine foldlM_of (fun a k d hd => ?_) _ _ _ q2
      unfold rankStep at hd
      unfold rankVec
      simp only [Option.bind_eq_bind, Option.bind_eq_some_iff] at hd ⊢
      obtain ⟨o1, g1, o2, g2, g3⟩ := hd
      exact ⟨o1, sweepVec_of hc s hs _ _ _ _ _ g1, o2, sweepVec_of hc s hs _ _ _ _ _ g2, g3⟩
    unfold runVec
    rw [e1]
    exact ih (fun c' hc' => hk c' (List.mem_cons_of_mem _ hc')) _ w1 h2

/-! ### The law of a site -/

theorem qcd_force_smooth (chi : ℝ) {R : ℝ} (hR : 0 < R) {qcd : Qcd}
    (h : qcd = .qcd0 ∨ qcd = .qcd1 ∨ qcd = .qcd2) (x y : ℝ) :
    IsForce (comoving (Vqcd chi qcd) R) x y (qcdForce chi R qcd x y).1 (qcdForce chi R qcd x y).2 := by
  rcases h with rfl | rfl | rfl
  · have : comoving (Vqcd chi .qcd0) R = fun _ _ => 0 := by
      funext x y; simp [comoving, Vqcd]
    rw [this]; exact isForce_zero x y
  · refine ⟨?_, ?_⟩
    · simp only [comoving, Vqcd, qcdForce]
      refine (((((hasDerivAt_id x).div_const R).const_sub 1).const_mul chi).const_mul
        (R ^ 4)).congr_deriv ?_
      field_simp
    · simp only [comoving, Vqcd, qcdForce]
      simpa using hasDerivAt_const y (R ^ 4 * (chi * (1 - x / R)))
  · refine ⟨?_, ?_⟩
    · simp only [comoving, Vqcd, qcdForce]
      refine (((((((hasDerivAt_id x).div_const R).pow 2).const_sub 1).add_const
        ((y / R) ^ 2)).const_mul (chi / 4)).const_mul (R ^ 4)).congr_deriv ?_
      simp; field_simp; ring
    · simp only [comoving, Vqcd, qcdForce]
      refine ((((((hasDerivAt_id y).div_const R).pow 2).const_add
        (1 - (x / R) ^ 2)).const_mul (chi / 4)).const_mul (R ^ 4)).congr_deriv ?_
      simp; field_simp; ring

theorem grad_of {U : ℝ → ℝ → ℝ} {x y fx fy : ℝ} (h : IsForce U x y fx fy) :
    grad U (x, y) = (-fx, -fy) := by
  unfold grad
  exact Prod.ext h.1.deriv h.2.deriv

theorem grad_potential {c : Opt} {p : Prec} (hc : Covered p c) (x y : ℝ) :
    grad (potential c) (x, y) =
      (x * pqSite c.q.LL c.q.R c.pot.pq (x ^ 2 + y ^ 2) - (qcdForce c.q.mA2 c.q.R c.pot.qcd x y).1,
       y * pqSite c.q.LL c.q.R c.pot.pq (x ^ 2 + y ^ 2) - (qcdForce c.q.mA2 c.q.R c.pot.qcd x y).2) := by
  have h1 := pq_isForce c.q.LL hc.R c.pot.pq x y
  have h2 := qcd_force_smooth c.q.mA2 hc.R (qcd := c.pot.qcd)
    (by rcases hc.qcd with h | h | h; exacts [.inl h, .inr (.inl h), .inr (.inr h.2)]) x y
  have h3 := grad_of (isForce_add h1 h2)
  have : (fun x y => comoving (Vpq c.q.LL c.pot.pq) c.q.R x y + comoving (Vqcd c.q.mA2 c.pot.qcd) c.q.R x y) =
      potential c := rfl
  rw [this] at h3
  rw [h3]
  refine Prod.ext ?_ ?_ <;> simp only <;> ring

theorem accel_eq {c : Opt} (hc : Covered p c) (mel L : Vec (W p i) ℝ) (s : Fin (sites .saxion p i)) :
    at' (accel Real.sqrt c.q p i c.pot mel L) s =
      at' L s + c.q.Rpp • at' mel s - grad (potential c) (at' mel s) := by
  have hd : p = .double → c.pot.qcd ≠ .qcdC := by
    rintro - h
    rcases hc.qcd with h' | h' | h' <;> rw [h] at h' <;> simp at h'
  have hq := qcdPart_eq s c.q c.pot.qcd mel hd
  have hu : qcdUsed p c.q.mA2 c.q.R c.pot.qcd (re mel s) (im mel s) =
      qcdForce c.q.mA2 c.q.R c.pot.qcd (re mel s) (im mel s) := by
    rcases hc.qcd with h | h | ⟨hp, h⟩ <;> rw [h]
    · rfl
    · rfl
    · subst hp; rfl
  rw [hu] at hq
  have h1 := congrArg Prod.fst hq
  have h2 := congrArg Prod.snd hq
  dsimp only [at'] at h1 h2
  have hg := grad_potential hc (re mel s) (im mel s)
  have hat : at' mel s = (re mel s, im mel s) := rfl
  rw [hat, hg]
  unfold accel
  simp only [hc.theta, hc.rho, Bool.false_eq_true, if_false, at', re_add, im_add, re_sub, im_sub, re_mul,
    im_mul, re_set1, im_set1, pqFactor_re, pqFactor_im, h1, h2]
  refine Prod.ext ?_ ?_ <;>
    simp only [Prod.fst_add, Prod.snd_add, Prod.fst_sub, Prod.snd_sub, Prod.smul_fst, Prod.smul_snd,
      smul_eq_mul] <;> ring

theorem sitewise {c : Opt} (hc : Covered p c) : Sitewise p i c.q c.pot (eqLaw c) := by
  intro mel L vel s
  have ha := accel_eq hc mel L s
  have h1 := congrArg Prod.fst ha
  have h2 := congrArg Prod.snd ha
  dsimp only [at'] at h1 h2
  have hf : c.pot.damp = .all → friction c = c.q.mola := by
    intro h
    rw [half_eq, friction, if_pos h]
    rfl
  have key : at' (kernel Real.sqrt c.q p i c.pot mel L vel).1 s = (eqLaw c (at' L s) (at' mel s) (at' vel s)).2 := by
    unfold kernel newVel eqLaw
    simp only [hc.theta, hc.rho, Bool.false_eq_true, if_false]
    cases e : c.pot.damp with
    | none =>
      have : friction c = 0 := by simp [friction, e]
      simp only [kick, at', re_add, im_add, re_mul, im_mul, re_set1, im_set1, h1, h2, this, Par.dzc]
      refine Prod.ext ?_ ?_ <;> simp <;> ring
    | rho => exact absurd e hc.damp
    | all =>
      rw [hf e]
      simp only [kick, at', re_add, im_add, re_mul, im_mul, re_set1, im_set1, h1, h2, Par.damp1, Par.damp2, Par.dzc]
      refine Prod.ext ?_ ?_ <;> simp <;> ring
  refine Prod.ext ?_ key
  have : at' (kernel Real.sqrt c.q p i c.pot mel L vel).2 s =
      at' mel s + (c.q.dz * c.q.d) • at' (kernel Real.sqrt c.q p i c.pot mel L vel).1 s := by
    refine Prod.ext ?_ ?_
    · change re mel s + re _ s * c.q.dzd = re mel s + (c.q.dz * c.q.d) * re _ s
      rw [Par.dzd, mul_comm _ (c.q.dz * c.q.d)]; rfl
    · change im mel s + im _ s * c.q.dzd = im mel s + (c.q.dz * c.q.d) * im _ s
      rw [Par.dzd, mul_comm _ (c.q.dz * c.q.d)]; rfl
  show at' (kernel Real.sqrt c.q p i c.pot mel L vel).2 s = _
  rw [this, key]
  rfl

end Jaxions.SaxRun
