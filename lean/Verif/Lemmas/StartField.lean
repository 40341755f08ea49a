import Verif.Model.StartField
import Verif.Spec.StartField
import Verif.Basic.Fold
import Verif.Basic.Cells
import Mathlib.Data.List.Perm.Basic
import Mathlib.Analysis.Calculus.Deriv.Mul
/-
Helper lemmas for C69.
-/

namespace Jaxions.StartField

open Jaxions.Norm (Buf Mem Geo FIdx)

variable {A K : Type} [DecidableEq A]

/-- A loop that changes its own cell only, in any order. -/
theorem own_cells (step : Heap A K → ℕ → Option (Heap A K)) (dst : ℕ → A) (val : ℕ → K)
    (l : List ℕ) (h : Heap A K) (hnd : (l.map dst).Nodup)
    (hstep : ∀ h' : Heap A K, (∀ a, a ∉ l.map dst → h' a = h a) →
      ∀ i ∈ l, h' (dst i) = h (dst i) →
        step h' i = some (fun b => if b = dst i then some (val i) else h' b)) :
    ∃ h', l.foldlM step h = some h' ∧ (∀ i ∈ l, h' (dst i) = some (val i)) ∧
      ∀ a, a ∉ l.map dst → h' a = h a := by
  obtain ⟨h', e, hP⟩ := foldlM_inv (f := step)
    (P := fun pre h' => (∀ i ∈ pre, h' (dst i) = some (val i)) ∧
      ∀ a, a ∉ pre.map dst → h' a = h a) (s := h) l
    (by simp) (by
      rintro pre x post hl s ⟨h1, h2⟩
      have hx : dst x ∉ pre.map dst := by
        rw [hl] at hnd
        simp only [List.map_append, List.map_cons] at hnd
        intro hc
        exact (List.nodup_append.1 hnd).2.2 _ hc _ (List.mem_cons_self) rfl
      refine ⟨_, hstep s ?_ x (by rw [hl]; simp) (h2 _ hx), ?_, ?_⟩
      · intro a ha
        refine h2 a fun hc => ha ?_
        rw [hl, List.map_append]
        exact List.mem_append_left _ hc
      · intro i hi
        rcases List.mem_append.1 hi with hi | hi
        · rw [if_neg, h1 i hi]
          intro hc
          exact hx (hc ▸ List.mem_map_of_mem hi)
        · rw [List.mem_singleton.1 hi]
          rw [if_pos rfl]
      · intro a ha
        rw [List.map_append, List.mem_append, not_or] at ha
        rw [if_neg, h2 a ha.1]
        intro hc
        exact ha.2 (by rw [hc]; simp))
  exact ⟨h', e, hP⟩

omit [DecidableEq A] in
theorem nodup_dst (dst : ℕ → A) (n : ℕ) (l : List ℕ) (hl : l.Perm (List.range n))
    (hinj : ∀ i j, dst i = dst j → i = j) : (l.map dst).Nodup :=
  (hl.nodup_iff.2 List.nodup_range).map fun _ _ => hinj _ _

theorem mem_order {n : ℕ} {l : List ℕ} (hl : l.Perm (List.range n)) (i : ℕ) : i ∈ l ↔ i < n := by
  rw [hl.mem_iff, List.mem_range]

/-- The loop of `scaleXeon`. -/
theorem scale_spec (b : Buf) (f : ℝ) (n : ℕ) (o : List ℕ) (ho : o.Perm (List.range n)) (h : Mem)
    (X : ℕ → ℂ) (hX : ∀ i < n, h (b, i) = some (X i)) :
    ∃ h', o.foldlM (scaleSite b f) h = some h' ∧ (∀ i < n, h' (b, i) = some (X i * f)) ∧
      ∀ a, (∀ i < n, a ≠ (b, i)) → h' a = h a := by
  obtain ⟨h', e, h1, h2⟩ := own_cells (scaleSite b f) (fun i => (b, i)) (fun i => X i * (f : ℂ)) o h
    (nodup_dst _ n o ho fun i j hij => (Prod.mk.inj hij).2) (by
      intro h' _ i hi hh
      unfold scaleSite
      rw [hh, hX i ((mem_order ho i).1 hi), Option.bind_some, write_eq _ _ _ (by
        rw [hh, hX i ((mem_order ho i).1 hi)]; rfl)])
  refine ⟨h', e, fun i hi => h1 i ((mem_order ho i).2 hi), fun a ha => h2 a ?_⟩
  intro hc
  obtain ⟨i, hi, rfl⟩ := List.mem_map.1 hc
  exact ha i ((mem_order ho i).1 hi) rfl

theorem base_inj (g : Geo) (b : Buf) (i j : ℕ) (h : base g b i = base g b j) : i = j := by
  cases b <;> simp only [base, Prod.mk.injEq, true_and] at h <;> omega

theorem base_fst (g : Geo) (b : Buf) (i : ℕ) : (base g b i).1 = b := by cases b <;> rfl

/-- The loops of `axby`, `mulmul`, `susum`, between different fields. -/
theorem pair_spec (g : Geo) (s d : Buf) (hsd : s ≠ d) (op : ℂ → ℂ → ℂ) (n : ℕ) (o : List ℕ)
    (ho : o.Perm (List.range n)) (h : Mem) (X Y : ℕ → ℂ)
    (hX : ∀ i < n, h (base g s i) = some (X i)) (hY : ∀ i < n, h (base g d i) = some (Y i)) :
    ∃ h', o.foldlM (pairSite g s d op) h = some h' ∧
      (∀ i < n, h' (base g d i) = some (op (Y i) (X i))) ∧
      ∀ a, (∀ i < n, a ≠ base g d i) → h' a = h a := by
  have hne : ∀ i j, base g s i ≠ base g d j := by
    intro i j hc
    exact hsd (by rw [← base_fst g s i, hc, base_fst])
  obtain ⟨h', e, h1, h2⟩ := own_cells (pairSite g s d op) (base g d) (fun i => op (Y i) (X i)) o h
    (nodup_dst _ n o ho (base_inj g d)) (by
      intro h' hfr i hi hh
      have hi' := (mem_order ho i).1 hi
      have hs : h' (base g s i) = some (X i) := by
        rw [hfr _ ?_, hX i hi']
        intro hc
        obtain ⟨j, _, hj⟩ := List.mem_map.1 hc
        exact hne i j hj.symm
      unfold pairSite
      rw [hh, hY i hi', Option.bind_some, hs, Option.bind_some, write_eq _ _ _ (by
        rw [hh, hY i hi']; rfl)])
  refine ⟨h', e, fun i hi => h1 i ((mem_order ho i).2 hi), fun a ha => h2 a ?_⟩
  intro hc
  obtain ⟨i, hi, rfl⟩ := List.mem_map.1 hc
  exact ha i ((mem_order ho i).1 hi) rfl

/-- A loop stops at an undefined iteration. -/
theorem foldlM_undef {σ : Type} (step : σ → ℕ → Option σ) (P : σ → Prop)
    (hP : ∀ s i s', P s → step s i = some s' → P s') (x : ℕ) (hx : ∀ s, P s → step s x = none) :
    ∀ (l : List ℕ), x ∈ l → ∀ s, P s → l.foldlM step s = none := by
  intro l
  induction l with
  | nil => intro h; cases h
  | cons a l ih =>
    intro hm s hs
    rw [List.foldlM_cons]
    rcases List.mem_cons.1 hm with rfl | hm
    · rw [hx s hs]; rfl
    · rcases he : step s a with _ | s'
      · rfl
      · exact ih hm s' (hP s a s' hs he)

/-- The loop of `scaleXeon` over a block that is too short. -/
theorem scale_none (b : Buf) (f : ℝ) (n : ℕ) (o : List ℕ) (ho : o.Perm (List.range n)) (h : Mem)
    (x : ℕ) (hx : x < n) (hn : h (b, x) = none) : o.foldlM (scaleSite b f) h = none := by
  refine foldlM_undef _ (fun h' => h' (b, x) = none) ?_ x ?_ o ((mem_order ho x).2 hx) h hn
  · intro s i s' hs he
    unfold scaleSite at he
    rcases hz : s (b, i) with _ | z
    · rw [hz] at he; cases he
    · rw [hz, Option.bind_some, write_eq _ _ _ (by rw [hz]; rfl)] at he
      cases he
      dsimp only
      rw [if_neg, hs]
      intro hc
      rw [hc, hz] at hs
      cases hs
  · intro s hs
    unfold scaleSite
    rw [hs]; rfl

/-! ### Steps of the prepropagation -/

theorem prepLoop_done (Rf : ℝ → ℝ) (zi : ℝ) (dz : ℕ → ℝ) (fuel n : ℕ) (b : Bg) (h : ¬ b.z < zi) :
    prepLoop Rf zi dz fuel n b = some b := by
  cases fuel <;> unfold prepLoop <;> rw [if_neg h]

/-- Whatever comes out of the loop has reached the time, with the rest as it was. -/
theorem prepLoop_out (Rf : ℝ → ℝ) (zi : ℝ) (dz : ℕ → ℝ) :
    ∀ (fuel n : ℕ) (b b' : Bg), prepLoop Rf zi dz fuel n b = some b' → b.z < zi →
      b' = { b with z := zi, R := Rf zi } := by
  intro fuel
  induction fuel with
  | zero =>
    intro n b b' h hz
    unfold prepLoop at h
    rw [if_pos hz] at h
    cases h
  | succ k ih =>
    intro n b b' h hz
    unfold prepLoop at h
    rw [if_pos hz] at h
    by_cases hs : b.z + dz n > zi
    · have ha : aim zi b.z (dz n) = zi - b.z := by unfold aim; rw [if_pos hs]
      have e : b.z + (zi - b.z) = zi := by ring
      rw [ha, e, prepLoop_done _ _ _ _ _ _ (lt_irrefl zi)] at h
      exact (Option.some.inj h).symm
    · have ha : aim zi b.z (dz n) = dz n := by unfold aim; rw [if_neg hs]
      rw [ha] at h
      by_cases he : b.z + dz n < zi
      · exact ih (n + 1) { b with z := b.z + dz n, R := Rf (b.z + dz n) } b' h he
      · have e : b.z + dz n = zi := by linarith
        rw [prepLoop_done _ _ _ _ _ _ (by dsimp only; linarith), e] at h
        exact (Option.some.inj h).symm

/-- The loop ends if the steps do not become arbitrarily small. -/
theorem prepLoop_ends (Rf : ℝ → ℝ) (zi : ℝ) (dz : ℕ → ℝ) (ε : ℝ) (hd : ∀ n, ε ≤ dz n) (k : ℕ) :
    ∀ (n : ℕ) (b : Bg), zi ≤ b.z + k * ε → ∃ b', prepLoop Rf zi dz k n b = some b' := by
  induction k with
  | zero =>
    intro n b h
    exact ⟨b, prepLoop_done _ _ _ _ _ _ (by push_cast at h; linarith)⟩
  | succ k ih =>
    intro n b h
    by_cases hz : b.z < zi
    · unfold prepLoop
      rw [if_pos hz]
      refine ih (n + 1) _ ?_
      dsimp only
      by_cases hs : b.z + dz n > zi
      · have ha : aim zi b.z (dz n) = zi - b.z := by unfold aim; rw [if_pos hs]
        by_cases he : 0 ≤ ε
        · rw [ha]
          have := mul_nonneg (Nat.cast_nonneg (α := ℝ) k) he
          linarith
        · exfalso
          push_cast at h
          have := mul_nonpos_of_nonneg_of_nonpos (Nat.cast_nonneg (α := ℝ) k) (le_of_lt (not_le.1 he))
          nlinarith [not_le.1 he]
      · have ha : aim zi b.z (dz n) = dz n := by unfold aim; rw [if_neg hs]
        rw [ha]
        push_cast at h
        have := hd n
        nlinarith
    · exact ⟨b, prepLoop_done _ _ _ _ _ _ hz⟩

/-! ### Sums over the ranks -/

theorem flat_sum (f : ℂ → ℝ) (ranks : List (List ℂ)) :
    (ranks.flatten.map f).sum = (ranks.map fun r => (r.map f).sum).sum := by
  induction ranks with
  | nil => simp
  | cons r l ih =>
    rw [List.flatten_cons, List.map_append, List.sum_append, ih, List.map_cons, List.sum_cons]

theorem flat_length (n : ℕ) (ranks : List (List ℂ)) (h : ∀ r ∈ ranks, r.length = n) :
    ranks.flatten.length = n * ranks.length := by
  induction ranks with
  | nil => simp
  | cons r l ih =>
    rw [List.flatten_cons, List.length_append, h r (by simp), ih fun r hr => h r (by simp [hr]),
      List.length_cons]
    ring

theorem sum_scale (c : ℝ) (f : ℂ → ℝ) (l : List ℂ) :
    (l.map fun z => c * f z).sum = c * (l.map f).sum := by
  induction l with
  | nil => simp
  | cons a l ih => simp [ih, mul_add]

theorem split_sum (f : ℂ → ℝ) (l : List (ℝ × List ℂ)) :
    (l.map fun r => r.1 + (r.2.map f).sum).sum =
      (l.map Prod.fst).sum + ((l.map Prod.snd).map fun r => (r.map f).sum).sum := by
  induction l with
  | nil => simp
  | cons a l ih =>
    simp only [List.map_cons, List.sum_cons, ih]
    ring

/-! ### Merging -/

/-- What one site should become. -/
noncomputable def wantM (R : ℝ) (psi : ℕ → ℝ) (m : ℕ → ℂ) (j : ℕ) : ℂ :=
  m j * Complex.exp (((psi j / R : ℝ) : ℂ) * Complex.I) * R
noncomputable def wantV (R Rp : ℝ) (psi psid : ℕ → ℝ) (m : ℕ → ℂ) (j : ℕ) : ℂ :=
  (⟨Rp, psid j / R - psi j / R * Rp⟩ : ℂ) * wantM R psi m j

theorem merge_spec (R Rp : ℝ) (psi : ℕ → ℝ) (s : Merge) (l : List ℕ) (hnd : l.Nodup)
    (hp : l.Pairwise fun a b => b ≠ 2 * a ∧ b ≠ 2 * a + 1) :
    ∀ j ∈ l, (merge R Rp psi l s).m j = wantM R psi s.m j ∧
      (merge R Rp psi l s).vel j = wantV R Rp psi s.v s.m j := by
  obtain ⟨s', e, hP⟩ := foldlM_inv (f := fun s j => some (mergeStep R Rp psi s j))
    (P := fun pre t => (∀ j ∈ pre, t.m j = wantM R psi s.m j ∧
        t.vel j = wantV R Rp psi s.v s.m j) ∧ (∀ j, j ∉ pre → t.m j = s.m j) ∧
        ∀ j, (∀ a ∈ pre, j ≠ 2 * a ∧ j ≠ 2 * a + 1) → t.v j = s.v j) (s := s) l
    (by simp) (by
      rintro pre x post hl t ⟨h1, h2, h3⟩
      have hx : x ∉ pre := by
        rw [hl] at hnd
        intro hc
        exact (List.nodup_append.1 hnd).2.2 _ hc _ (List.mem_cons_self) rfl
      have hv : t.v x = s.v x := by
        refine h3 x fun a ha => ?_
        rw [hl] at hp
        exact (List.pairwise_append.1 hp).2.2 a ha x List.mem_cons_self
      refine ⟨_, rfl, ?_, ?_, ?_⟩
      · intro j hj
        by_cases hjx : j = x
        · subst hjx
          refine ⟨?_, ?_⟩
          · unfold mergeStep wantM
            dsimp only
            rw [if_pos rfl, h2 j hx]
          · unfold mergeStep Merge.vel wantV wantM
            dsimp only
            rw [if_pos rfl, if_neg (by omega), if_pos rfl, h2 j hx, hv]
        · have hj' : j ∈ pre := by
            rcases List.mem_append.1 hj with h | h
            · exact h
            · exact absurd (List.mem_singleton.1 h) hjx
          obtain ⟨e1, e2⟩ := h1 j hj'
          refine ⟨?_, ?_⟩
          · unfold mergeStep
            dsimp only
            rw [if_neg hjx, e1]
          · rw [← e2]
            unfold mergeStep Merge.vel
            dsimp only
            rw [if_neg (by omega), if_neg (by omega), if_neg (by omega), if_neg (by omega)]
      · intro j hj
        rw [List.mem_append, List.mem_singleton, not_or] at hj
        unfold mergeStep
        dsimp only
        rw [if_neg hj.2, h2 j hj.1]
      · intro j hj
        obtain ⟨n1, n2⟩ := hj x (by simp)
        unfold mergeStep
        dsimp only
        rw [if_neg n1, if_neg n2, h3 j fun a ha => hj a (by simp [ha])])
  have hf : ∀ (l : List ℕ) (s : Merge), l.foldlM (fun s j => some (mergeStep R Rp psi s j)) s =
      some (l.foldl (mergeStep R Rp psi) s) := by
    intro l
    induction l with
    | nil => intro s; rfl
    | cons a l ih => intro s; rw [List.foldlM_cons, List.foldl_cons]; exact ih _
  rw [hf] at e
  have e' : merge R Rp psi l s = s' := Option.some.inj e
  intro j hj
  rw [e']
  exact hP.1 j hj

/-- A loop that does not write a cell leaves it. -/
theorem merge_v_frame (R Rp : ℝ) (psi : ℕ → ℝ) (j : ℕ) : ∀ (l : List ℕ) (s : Merge),
    (∀ a ∈ l, j ≠ 2 * a ∧ j ≠ 2 * a + 1) → (merge R Rp psi l s).v j = s.v j := by
  intro l
  induction l with
  | nil => intro s _; rfl
  | cons a l ih =>
    intro s h
    obtain ⟨n1, n2⟩ := h a (by simp)
    unfold merge at ih ⊢
    rw [List.foldl_cons, ih _ fun b hb => h b (by simp [hb])]
    unfold mergeStep
    dsimp only
    rw [if_neg n1, if_neg n2]

theorem merge_m_frame (R Rp : ℝ) (psi : ℕ → ℝ) (j : ℕ) : ∀ (l : List ℕ) (s : Merge),
    j ∉ l → (merge R Rp psi l s).m j = s.m j := by
  intro l
  induction l with
  | nil => intro s _; rfl
  | cons a l ih =>
    intro s h
    rw [List.mem_cons, not_or] at h
    unfold merge at ih ⊢
    rw [List.foldl_cons, ih _ h.2]
    unfold mergeStep
    dsimp only
    rw [if_neg h.1]

/-! ### The fit of the string density -/

theorem xit_num (l : ℝ) : 0 < 249.48 + 38.8431 * l + 1086.06 * l * l := by
  nlinarith [sq_nonneg (l + 38.8431 / (2 * 1086.06))]

theorem xit_le (l : ℝ) (hl : 1 ≤ l) : 0 < xit l ∧ xit l ≤ l ^ 2 := by
  have hd : 0 < 21775.3 + 3665.11 * l := by linarith
  refine ⟨div_pos (xit_num l) hd, ?_⟩
  unfold xit
  rw [div_le_iff₀ hd]
  nlinarith [mul_nonneg (sq_nonneg l) (by linarith : (0 : ℝ) ≤ l - 1), sq_nonneg l,
    mul_nonneg (by linarith : (0 : ℝ) ≤ l) (by linarith : (0 : ℝ) ≤ l - 1)]

end Jaxions.StartField
