import Verif.Spec.Paxion
import Verif.Model.Paxion
import Verif.Props.Run
/-
Lemmas for C63: the Paxion calls as sweeps of `Verif.Model.Stencil`.
-/
namespace Jaxions.Paxion

open Stencil Run

/-- `v += lap` as a law. -/
def addLaw : ℝ → ℝ → ℝ → ℝ × ℝ := fun L mel vel => (mel, vel + L)

/-- The turn of one site as a law, the potential in place of the Laplacian. -/
noncomputable def rotLaw (k g : ℝ) : ℝ → ℝ → ℝ → ℝ × ℝ := fun p mel vel =>
  (Real.cos (k * (vel * vel + mel * mel) + g * p) * mel -
      Real.sin (k * (vel * vel + mel * mel) + g * p) * vel,
    Real.cos (k * (vel * vel + mel * mel) + g * p) * vel +
      Real.sin (k * (vel * vel + mel * mel) + g * p) * mel)

theorem updateWith_some {s : Shape} {F : Nat → Nat → Option ℝ} {law : ℝ → ℝ → ℝ → ℝ × ℝ}
    {m : Heap Nat ℝ} {o o' : Out ℝ} {c : Nat × Nat} (h : updateWith s F law m o c = some o') :
    ∃ mel L i vel, m (c.1 + c.2) = some mel ∧ F c.1 c.2 = some L ∧ c.1 = i + s.NN * s.Sf ∧
      o.v (i + c.2) = some vel ∧ (o.m2 (c.1 + c.2)).isSome ∧
      o' = ⟨fun b => if b = i + c.2 then some (law L mel vel).2 else o.v b,
        fun b => if b = c.1 + c.2 then some (law L mel vel).1 else o.m2 b⟩ := by
  unfold updateWith at h
  simp only [Option.bind_eq_bind, Option.pure_def, Option.bind_eq_some_iff] at h
  obtain ⟨mel, h1, L, h2, i, h3, vel, h4, m2, h5, v, h6, h7⟩ := h
  have hm2 : (o.m2 (c.1 + c.2)).isSome := by
    unfold Heap.write at h5
    split at h5
    · assumption
    · exact absurd h5 (by simp)
  have hv : (o.v (i + c.2)).isSome := by rw [h4]; rfl
  rw [write_eq _ _ _ hm2, Option.some.injEq] at h5
  rw [write_eq _ _ _ hv, Option.some.injEq] at h6
  refine ⟨mel, L, i, vel, h1, h2, ?_, h4, hm2, ?_⟩
  · unfold sub? at h3
    split at h3
    · injection h3 with h3; omega
    · exact absurd h3 (by simp)
  · injection h7 with h7
    rw [← h7, ← h5, ← h6]

/-- A Laplacian call does to the array what a kick of the velocities does, ghost slices apart. -/
theorem addSweep_sim {s : Shape} {F : Nat → Nat → Option ℝ} {m : Heap Nat ℝ} {order : List Nat}
    {o o' : Out ℝ} (h : sweepWith s F addLaw m order o = some o') (dst : Heap Nat ℝ)
    (hd : ∀ a, o.v a = dst (a + s.NN * s.Sf)) :
    ∃ dst', addSweep s F order dst = some dst' ∧ (∀ a, o'.v a = dst' (a + s.NN * s.Sf)) ∧
      ∀ a, (dst' a).isSome = (dst a).isSome := by
  unfold sweepWith at h
  unfold addSweep
  generalize lanes s order = l at h ⊢
  induction l generalizing o dst with
  | nil =>
    rw [List.foldlM_nil] at h ⊢
    injection h with h
    subst h
    exact ⟨dst, rfl, hd, fun _ => rfl⟩
  | cons c l ih =>
    rw [List.foldlM_cons, Option.bind_eq_bind, Option.bind_eq_some_iff] at h
    obtain ⟨o1, h1, h2⟩ := h
    obtain ⟨mel, L, i, vel, e1, e2, e3, e4, e5, rfl⟩ := updateWith_some h1
    have ed : dst (c.1 + c.2) = some vel := by
      rw [← e4, hd]; exact congrArg dst (by omega)
    obtain ⟨dst', k1, k2, k3⟩ := ih (fun b => if b = c.1 + c.2 then some (vel + L) else dst b) (by
      intro a
      simp only [addLaw]
      by_cases ha : a = i + c.2
      · rw [if_pos ha, if_pos (by omega)]
      · rw [if_neg ha, if_neg (by omega), hd]) h2
    refine ⟨dst', ?_, k2, ?_⟩
    · rw [List.foldlM_cons]
      have : addSite F dst c = some (fun b => if b = c.1 + c.2 then some (vel + L) else dst b) := by
        unfold addSite
        rw [e2, ed]
        exact write_eq _ _ _ (by rw [ed]; rfl)
      rw [this]
      exact k1
    · intro a
      rw [k3 a]
      split
      · rename_i ha; rw [ha, ed]; rfl
      · rfl

/-- A potential call turns every site once. -/
theorem rotSweep_sim {s : Shape} {k g : ℝ} {m2 : Option (Heap Nat ℝ)} {m : Heap Nat ℝ}
    {order : List Nat} {o o' : Out ℝ}
    (h : sweepWith s (fun i l => match m2 with | none => some 0 | some p => p (i + l)) (rotLaw k g) m
      order o = some o') (w : Heap Nat ℝ × Heap Nat ℝ)
    (hnd : ((lanes s order).map fun c => c.1 + c.2).Nodup)
    (hm : ∀ c ∈ lanes s order, o.m2 (c.1 + c.2) = m (c.1 + c.2))
    (h1 : w.1 = o.m2) (hd : ∀ a, o.v a = w.2 (a + s.NN * s.Sf)) :
    ∃ w', rotSweep s k g m2 order w = some w' ∧ w'.1 = o'.m2 ∧
      (∀ a, o'.v a = w'.2 (a + s.NN * s.Sf)) ∧
      ∀ a, (w'.2 a).isSome = (w.2 a).isSome := by
  unfold sweepWith at h
  unfold rotSweep
  generalize lanes s order = l at h hnd hm ⊢
  induction l generalizing o w with
  | nil =>
    rw [List.foldlM_nil] at h ⊢
    injection h with h
    subst h
    exact ⟨w, rfl, h1, hd, fun _ => rfl⟩
  | cons c l ih =>
    rw [List.foldlM_cons, Option.bind_eq_bind, Option.bind_eq_some_iff] at h
    obtain ⟨o1, h2, h3⟩ := h
    obtain ⟨mel, L, i, vel, e1, e2, e3, e4, e5, rfl⟩ := updateWith_some h2
    have em : w.1 (c.1 + c.2) = some mel := by rw [h1, hm c (by simp), e1]
    have ed : w.2 (c.1 + c.2) = some vel := by
      rw [← e4, hd]; exact congrArg w.2 (by omega)
    rw [List.map_cons, List.nodup_cons] at hnd
    obtain ⟨w', k1, k2, k3, k4⟩ := ih
      (fun b => if b = c.1 + c.2 then some (rotLaw k g L mel vel).1 else w.1 b,
        fun b => if b = c.1 + c.2 then some (rotLaw k g L mel vel).2 else w.2 b)
      (by
        funext b
        simp only [h1])
      (by
        intro a
        simp only
        by_cases ha : a = i + c.2
        · rw [if_pos ha, if_pos (by omega)]
        · rw [if_neg ha, if_neg (by omega), hd]) h3 hnd.2
      (by
        intro c' hc'
        simp only
        rw [if_neg]
        · exact hm c' (by simp [hc'])
        · intro he
          exact hnd.1 (List.mem_map.2 ⟨c', hc', he⟩))
    refine ⟨w', ?_, k2, k3, ?_⟩
    · rw [List.foldlM_cons]
      have : rotSite k g m2 w c = some
          (fun b => if b = c.1 + c.2 then some (rotLaw k g L mel vel).1 else w.1 b,
            fun b => if b = c.1 + c.2 then some (rotLaw k g L mel vel).2 else w.2 b) := by
        unfold rotSite
        rw [em, ed]
        have hx : (w.1 (c.1 + c.2)).isSome := by rw [em]; rfl
        have hy : (w.2 (c.1 + c.2)).isSome := by rw [ed]; rfl
        cases m2 with
        | none =>
          simp only [Option.some.injEq] at e2
          subst e2
          simp only [Option.bind_eq_bind, Option.bind_some, write_eq _ _ _ hx, write_eq _ _ _ hy,
            rotLaw, mul_zero, add_zero, Option.pure_def]
        | some p =>
          simp only at e2
          simp only [e2, Option.bind_eq_bind, Option.bind_some, Option.map_some, write_eq _ _ _ hx,
            write_eq _ _ _ hy, rotLaw, Option.pure_def]
      rw [this]
      exact k1
    · intro a
      rw [k4 a]
      simp only
      split
      · rename_i ha; rw [ha, ed]; rfl
      · rfl

/-! ### All ranks -/

theorem addRanks_sim {s : Shape} {Lz : Nat} {PC : List ℝ} {k : ℝ} {l : Luck ℝ}
    {old src : Heap (Nat × Nat) ℝ} (rs : List Nat) {acc p : Heap (Nat × Nat) ℝ × Heap (Nat × Nat) ℝ}
    (h : rs.foldlM (rankStep s Lz (saxionSub PC k addLaw) l old src) acc = some p)
    (dst : Heap (Nat × Nat) ℝ) (hd : ∀ r a, acc.2 (r, a) = dst (r, a + s.NN * s.Sf)) :
    ∃ d, rs.foldlM (addRank s Lz PC k l old src) dst = some d ∧
      (∀ r a, p.2 (r, a) = d (r, a + s.NN * s.Sf)) ∧ ∀ q, (d q).isSome = (dst q).isSome := by
  induction rs generalizing acc dst with
  | nil =>
    rw [List.foldlM_nil] at h ⊢
    injection h with h
    subst h
    exact ⟨dst, rfl, hd, fun _ => rfl⟩
  | cons r rs ih =>
    rw [List.foldlM_cons, Option.bind_eq_bind, Option.bind_eq_some_iff] at h
    obtain ⟨acc1, h1, h2⟩ := h
    unfold rankStep at h1
    simp only [Option.bind_eq_bind, Option.pure_def, Option.bind_eq_some_iff] at h1
    obtain ⟨o1, e1, o2, e2, e3⟩ := h1
    injection e3 with e3
    subst e3
    obtain ⟨d1, k1, k2, k3⟩ := addSweep_sim e1 (onRank dst r) (fun a => hd r a)
    obtain ⟨d2, k4, k5, k6⟩ := addSweep_sim e2 d1 k2
    obtain ⟨d, k7, k8, k9⟩ := ih h2 (setRank dst r d2) (by
      intro q a
      simp only [onRank_set]
      split
      · exact k5 a
      · exact hd q a)
    refine ⟨d, ?_, k8, ?_⟩
    · rw [List.foldlM_cons]
      have : addRank s Lz PC k l old src dst r = some (setRank dst r d2) := by
        unfold addRank
        simp only [saxionSub] at k1 k4
        simp only [Option.bind_eq_bind, k1, Option.bind_some, k4, Option.pure_def]
      rw [this]
      exact k7
    · rintro ⟨q, a⟩
      rw [k9, onRank_set]
      split
      · rename_i hq
        rw [hq, k6, k3]
        rfl
      · rfl

end Jaxions.Paxion
