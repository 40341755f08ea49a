import Verif.Spec.Projector
import Verif.Basic.Fold
import Mathlib.Tactic.Ring
import Mathlib.Data.List.Basic

/-
Lemmas for the projection.
-/

namespace Jaxions.Projector

variable {K : Type}

theorem allRanks_spec {P : ℕ} {f : Fin P → Mem K → Option (Mem K)} {s : Fin P → Mem K}
    {Q : Fin P → Mem K → Prop} (h : ∀ r, ∃ h', f r (s r) = some h' ∧ Q r h') :
    ∃ s', allRanks f s = some s' ∧ ∀ r, Q r (s' r) := by
  have hs : ∀ r, (f r (s r)).isSome := fun r => by
    obtain ⟨h', e, -⟩ := h r
    rw [e]; rfl
  refine ⟨fun r => (f r (s r)).get (hs r), ?_, fun r => ?_⟩
  · unfold allRanks
    rw [dif_pos hs]
  · obtain ⟨h', e, q⟩ := h r
    have : (f r (s r)).get (hs r) = h' := by
      apply Option.some.inj
      rw [Option.some_get, e]
    dsimp only
    rw [this]; exact q

theorem inAt_ne (g : Shape) (pt zc q : ℕ) : inAt g pt zc ≠ med g q ∧ inAt g pt zc ≠ out q := by
  constructor <;> simp [inAt, med, out]

theorem med_inj {g : Shape} {p q : ℕ} (h : med g p = med g q) : p = q := by
  simp only [med, Prod.mk.injEq, true_and] at h
  omega

theorem out_inj {p q : ℕ} (h : out p = out q) : p = q := by
  simp only [out, Prod.mk.injEq, true_and] at h
  exact h

/-- The two areas do not overlap. -/
theorem med_ne_out {g : Shape} (hf : 1 ≤ g.fS) (hz : 1 ≤ g.Lz) {p q : ℕ} (hq : q < g.n2) :
    med g p ≠ out q := by
  intro h
  simp only [med, out, Prod.mk.injEq, true_and] at h
  have h1 : g.n2 * 1 ≤ g.n2 * g.Lz := Nat.mul_le_mul_left _ hz
  have h2 : 1 * (g.n2 * g.Ng + g.n2 * g.Lz) ≤ g.fS * (g.n2 * g.Ng + g.n2 * g.Lz) :=
    Nat.mul_le_mul_right _ hf
  omega

theorem med_lt {g : Shape} (hf : 1 ≤ g.fS) (hn : 1 ≤ g.Ng) {p : ℕ} (hp : p < g.n2) :
    g.fS * (g.n2 * g.Ng + g.n2 * g.Lz) + p < g.fS * (g.n2 * (g.Lz + 2 * g.Ng)) := by
  have e : g.fS * (g.n2 * (g.Lz + 2 * g.Ng)) =
      g.fS * (g.n2 * g.Ng + g.n2 * g.Lz) + g.fS * (g.n2 * g.Ng) := by ring
  have h1 : g.n2 * 1 ≤ g.n2 * g.Ng := Nat.mul_le_mul_left _ hn
  have h2 : 1 * (g.n2 * g.Ng) ≤ g.fS * (g.n2 * g.Ng) := Nat.mul_le_mul_right _ hf
  omega

theorem out_lt {g : Shape} (hf : 1 ≤ g.fS) (hn : 1 ≤ g.Ng) {p : ℕ} (hp : p < g.n2) :
    p < g.fS * (g.n2 * (g.Lz + 2 * g.Ng)) := by
  have := med_lt hf hn hp
  omega

theorem write_ex (h : Mem K) (a : Buf × ℕ) (x : K) (ha : (h a).isSome) :
    ∃ h', h.write a x = some h' ∧ h' a = some x ∧ ∀ b, b ≠ a → h' b = h b :=
  ⟨_, write_eq h a x ha, if_pos rfl, fun _ hb => if_neg hb⟩

variable [Field K]

/-- One point: its sum, and nothing else is touched. -/
theorem sumPoint_spec {g : Shape} (hf : 1 ≤ g.fS) (hz : 1 ≤ g.Lz) (filter : K → K) {h : Mem K}
    {pt : ℕ} (hpt : pt < g.n2) {F : ℕ → K} (hF : ∀ zc < g.Lz, h (inAt g pt zc) = some (F zc))
    (hm : (h (med g pt)).isSome) (ho : (h (out pt)).isSome) :
    ∃ h', sumPoint g filter h pt = some h' ∧ h' (out pt) = some 0 ∧
      h' (med g pt) = some ((List.range g.Lz).map fun z => filter (F z)).sum ∧
      ∀ a, a ≠ out pt → a ≠ med g pt → h' a = h a := by
  have hne := med_ne_out (p := pt) hf hz hpt
  unfold sumPoint
  obtain ⟨h1, w1, w2, w3⟩ := write_ex h (out pt) 0 ho
  obtain ⟨h2, v1, a1, v3⟩ := write_ex h1 (med g pt) 0 (by rw [w3 _ hne]; exact hm)
  rw [w1, Option.bind_some, v1, Option.bind_some]
  have a2 : h2 (out pt) = some 0 := by rw [v3 _ (Ne.symm hne), w2]
  have a3 : ∀ a, a ≠ out pt → a ≠ med g pt → h2 a = h a := fun a b1 b2 => by
    rw [v3 a b2, w3 a b1]
  obtain ⟨h', e1, e2, e3⟩ := range_inv (f := addSlice g filter pt) (s := h2)
    (P := fun m t => t (med g pt) = some ((List.range m).map fun z => filter (F z)).sum ∧
      ∀ a, a ≠ med g pt → t a = h2 a) g.Lz ⟨by rw [a1]; rfl, fun _ _ => rfl⟩ (by
      intro m hmz t ⟨t1, t2⟩
      have hin : t (inAt g pt m) = some (F m) := by
        rw [t2 _ (inAt_ne g pt m pt).1, a3 _ (inAt_ne g pt m pt).2 (inAt_ne g pt m pt).1]
        exact hF m hmz
      refine ⟨fun b => if b = med g pt then
        some (((List.range m).map fun z => filter (F z)).sum + filter (F m)) else t b, ?_, ?_, ?_⟩
      · unfold addSlice
        rw [hin, Option.bind_some, t1, Option.bind_some]
        exact write_eq _ _ _ (by rw [t1]; rfl)
      · dsimp only
        rw [if_pos rfl, List.range_succ, List.map_append, List.sum_append]
        simp
      · intro a ha
        dsimp only
        rw [if_neg ha]; exact t2 a ha)
  refine ⟨h', e1, ?_, e2, ?_⟩
  · rw [e3 _ (Ne.symm hne), a2]
  · intro a b1 b2
    rw [e3 a b2, a3 a b1 b2]

/-- The first loop of a rank. -/
theorem sums_spec {g : Shape} (hf : 1 ≤ g.fS) (hz : 1 ≤ g.Lz) (filter : K → K) {h : Mem K}
    {F : ℕ → ℕ → K} (hF : ∀ pt < g.n2, ∀ zc < g.Lz, h (inAt g pt zc) = some (F pt zc))
    (hm : ∀ pt < g.n2, (h (med g pt)).isSome) (ho : ∀ pt < g.n2, (h (out pt)).isSome)
    {order : List ℕ} (hp : order.Perm (List.range g.n2)) :
    ∃ h', order.foldlM (sumPoint g filter) h = some h' ∧
      (∀ pt < g.n2, h' (out pt) = some 0 ∧
        h' (med g pt) = some ((List.range g.Lz).map fun z => filter (F pt z)).sum) ∧
      ∀ a, (∀ pt < g.n2, a ≠ out pt ∧ a ≠ med g pt) → h' a = h a := by
  have hmem : ∀ i ∈ order, i < g.n2 := fun i hi => List.mem_range.1 (hp.mem_iff.1 hi)
  have hnd : order.Nodup := hp.nodup_iff.2 List.nodup_range
  obtain ⟨h', e1, e2, e3⟩ := foldlM_inv (f := sumPoint g filter) (s := h)
    (P := fun pre t => (∀ pt ∈ pre, t (out pt) = some 0 ∧
        t (med g pt) = some ((List.range g.Lz).map fun z => filter (F pt z)).sum) ∧
      ∀ a, (∀ pt ∈ pre, a ≠ out pt ∧ a ≠ med g pt) → t a = h a) order
    ⟨by simp, fun _ _ => rfl⟩ (by
      intro pre i post hL t ⟨t1, t2⟩
      have hi : i < g.n2 := hmem i (by rw [hL]; simp)
      have hsub : ∀ q ∈ pre, q < g.n2 := fun q hq => hmem q (by rw [hL]; simp [hq])
      have hnot : ∀ q ∈ pre, i ≠ q := by
        intro q hq he
        rw [hL, List.nodup_append] at hnd
        exact hnd.2.2 q hq i (by simp) he.symm
      obtain ⟨t', s1, s2, s3, s4⟩ := sumPoint_spec hf hz filter (h := t) hi (F := F i)
        (fun zc hzc => by
          rw [t2 _ (fun q _ => ⟨(inAt_ne g i zc q).2, (inAt_ne g i zc q).1⟩)]
          exact hF i hi zc hzc)
        (by
          rw [t2 _ (fun q hq => ⟨med_ne_out hf hz (hsub q hq), fun he => hnot q hq (med_inj he)⟩)]
          exact hm i hi)
        (by
          rw [t2 _ (fun q hq => ⟨fun he => hnot q hq (out_inj he),
            Ne.symm (med_ne_out hf hz hi)⟩)]
          exact ho i hi)
      refine ⟨t', s1, ?_, ?_⟩
      · intro q hq
        rcases List.mem_append.1 hq with hq | hq
        · rw [s4 (out q) (fun he => hnot q hq (out_inj he).symm)
              (Ne.symm (med_ne_out hf hz (hsub q hq))),
            s4 (med g q) (med_ne_out hf hz hi) (fun he => hnot q hq (med_inj he).symm)]
          exact t1 q hq
        · rw [List.mem_singleton.1 hq]
          exact ⟨s2, s3⟩
      · intro a ha
        rw [s4 a (ha i (by simp)).1 (ha i (by simp)).2]
        exact t2 a (fun q hq => ha q (by simp [hq])))
  refine ⟨h', e1, ?_, ?_⟩
  · intro pt hpt
    exact e2 pt (hp.mem_iff.2 (List.mem_range.2 hpt))
  · intro a ha
    exact e3 a (fun q hq => ha q (hmem q hq))

theorem mapM_some {α β : Type} {f : α → Option β} {F : α → β} :
    ∀ l : List α, (∀ a ∈ l, f a = some (F a)) → l.mapM f = some (l.map F) := by
  intro l
  induction l with
  | nil => intro _; rfl
  | cons a l ih =>
    intro h
    rw [List.mapM_cons, h a (by simp), ih fun b hb => h b (by simp [hb])]
    rfl

/-- The collective sum into rank 0. -/
theorem reduce_spec {P : ℕ} {g : Shape}
    {s : Fin (P + 1) → Mem K} {S : Fin (P + 1) → ℕ → K}
    (hm : ∀ r, ∀ pt < g.n2, s r (med g pt) = some (S r pt))
    (ho : ∀ pt < g.n2, (s 0 (out pt)).isSome) :
    ∃ s', reduce g s = some s' ∧
      (∀ pt < g.n2, s' 0 (out pt) = some ((List.finRange (P + 1)).map fun r => S r pt).sum) ∧
      (∀ r, r ≠ 0 → s' r = s r) ∧
      ∀ r a, (∀ pt < g.n2, a ≠ out pt) → s' r a = s r a := by
  have h0 : ∃ h', (List.range g.n2).foldlM (reducePoint g s) (s 0) = some h' ∧
      (∀ pt < g.n2, h' (out pt) = some ((List.finRange (P + 1)).map fun r => S r pt).sum) ∧
      ∀ a, (∀ pt < g.n2, a ≠ out pt) → h' a = s 0 a := by
    exact range_inv (f := reducePoint g s) (s := s 0)
      (P := fun m t => (∀ pt < m, t (out pt) = some ((List.finRange (P + 1)).map fun r => S r pt).sum) ∧
        ∀ a, (∀ pt < m, a ≠ out pt) → t a = s 0 a) g.n2 ⟨fun _ h => absurd h (Nat.not_lt_zero _), fun _ _ => rfl⟩
      (by
        intro m hmn t ⟨t1, t2⟩
        refine ⟨fun b => if b = out m then
          some ((List.finRange (P + 1)).map fun r => S r m).sum else t b, ?_, ?_, ?_⟩
        · unfold reducePoint
          rw [mapM_some (F := fun r => S r m) _ (fun r _ => hm r m hmn), Option.bind_some]
          refine write_eq _ _ _ ?_
          rw [t2 _ (fun q hq he => by have := out_inj he; omega)]
          exact ho m hmn
        · intro q hq
          dsimp only
          by_cases he : q = m
          · rw [he, if_pos rfl]
          · rw [if_neg (fun hc => he (out_inj hc))]
            exact t1 q (by omega)
        · intro a ha
          dsimp only
          rw [if_neg (ha m (by omega))]
          exact t2 a (fun q hq => ha q (by omega)))
  obtain ⟨h', e1, e2, e3⟩ := h0
  have := allRanks_spec (s := s)
    (f := fun r h => if r = 0 then (List.range g.n2).foldlM (reducePoint g s) h else some h)
    (Q := fun r t => (r = 0 → t = h') ∧ (r ≠ 0 → t = s r)) (by
      intro r
      by_cases hr : r = 0
      · subst hr
        exact ⟨h', by rw [if_pos rfl]; exact e1, fun _ => rfl, fun hc => absurd rfl hc⟩
      · exact ⟨s r, by rw [if_neg hr], fun hc => absurd hc hr, fun _ => rfl⟩)
  obtain ⟨s', q1, q2⟩ := this
  refine ⟨s', q1, ?_, fun r hr => (q2 r).2 hr, ?_⟩
  · intro pt hpt
    rw [(q2 0).1 rfl]
    exact e2 pt hpt
  · intro r a ha
    by_cases hr : r = 0
    · subst hr
      rw [(q2 0).1 rfl]
      exact e3 a ha
    · rw [(q2 r).2 hr]

/-- The last loop of a rank. -/
theorem scale_spec {n2 : ℕ} (c : K) {h : Mem K} {X : ℕ → K} (hX : ∀ pt < n2, h (out pt) = some (X pt))
    {order : List ℕ} (hp : order.Perm (List.range n2)) :
    ∃ h', order.foldlM (scalePoint c) h = some h' ∧
      (∀ pt < n2, h' (out pt) = some (X pt * c)) ∧
      ∀ a, (∀ pt < n2, a ≠ out pt) → h' a = h a := by
  have hmem : ∀ i ∈ order, i < n2 := fun i hi => List.mem_range.1 (hp.mem_iff.1 hi)
  have hnd : order.Nodup := hp.nodup_iff.2 List.nodup_range
  obtain ⟨h', e1, e2, e3⟩ := foldlM_inv (f := scalePoint c) (s := h)
    (P := fun pre t => (∀ pt ∈ pre, t (out pt) = some (X pt * c)) ∧
      ∀ a, (∀ pt ∈ pre, a ≠ out pt) → t a = h a) order
    ⟨by simp, fun _ _ => rfl⟩ (by
      intro pre i post hL t ⟨t1, t2⟩
      have hi : i < n2 := hmem i (by rw [hL]; simp)
      have hnot : ∀ q ∈ pre, i ≠ q := by
        intro q hq he
        rw [hL, List.nodup_append] at hnd
        exact hnd.2.2 q hq i (by simp) he.symm
      have hcur : t (out i) = some (X i) := by
        rw [t2 _ (fun q hq he => hnot q hq (out_inj he))]
        exact hX i hi
      refine ⟨fun b => if b = out i then some (X i * c) else t b, ?_, ?_, ?_⟩
      · unfold scalePoint
        rw [hcur, Option.bind_some]
        exact write_eq _ _ _ (by rw [hcur]; rfl)
      · intro q hq
        dsimp only
        by_cases he : q = i
        · rw [he, if_pos rfl]
        · rw [if_neg (fun hc => he (out_inj hc))]
          rcases List.mem_append.1 hq with hq | hq
          · exact t1 q hq
          · exact absurd (List.mem_singleton.1 hq) he
      · intro a ha
        dsimp only
        rw [if_neg (ha i (by simp))]
        exact t2 a (fun q hq => ha q (by simp [hq])))
  refine ⟨h', e1, ?_, ?_⟩
  · intro pt hpt
    exact e2 pt (hp.mem_iff.2 (List.mem_range.2 hpt))
  · intro a ha
    exact e3 a (fun q hq => ha q (hmem q hq))

/-- The sum over all slices is the sum over the ranks of the sums over their slices. -/
theorem sum_ranks (f : ℕ → K) (Lz : ℕ) : ∀ P : ℕ,
    ((List.finRange P).map fun r : Fin P => ((List.range Lz).map fun z => f (r * Lz + z)).sum).sum =
      ((List.range (Lz * P)).map f).sum := by
  intro P
  have h1 : ∀ P : ℕ, ((List.range P).map fun r => ((List.range Lz).map fun z => f (r * Lz + z)).sum).sum =
      ((List.range (Lz * P)).map f).sum := by
    intro P
    induction P with
    | zero => simp
    | succ P ih =>
      rw [List.range_succ, List.map_append, List.sum_append, ih, Nat.mul_succ, List.range_add,
        List.map_append, List.sum_append, List.map_map]
      simp only [List.map_cons, List.map_nil, List.sum_cons, List.sum_nil, add_zero]
      congr 3
      funext z
      show f (P * Lz + z) = f (Lz * P + z)
      rw [Nat.mul_comm]
  rw [← h1 P, ← List.map_coe_finRange_eq_range (n := P), List.map_map]
  rfl

end Jaxions.Projector
