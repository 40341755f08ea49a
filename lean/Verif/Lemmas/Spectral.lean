import Verif.Spec.Spectral
import Verif.Basic.Cells
import Verif.Basic.DivMod
import Mathlib.Data.List.Nodup
import Mathlib.Data.List.Basic

namespace Jaxions.Spectral

variable {K : Type}

/-- Effect of the Laplacian. -/
theorem applyLap_spec (lap : List K → ℕ → K) (src dst : ℕ → Loc) (V : ℕ) (h : Heap Loc K)
    (X : ℕ → K) (hs : ∀ i < V, h (src i) = some (X i)) (hd : ∀ i < V, (h (dst i)).isSome)
    (hinj : ∀ i < V, ∀ j < V, dst i = dst j → i = j) :
    ∃ h', applyLap lap src dst V h = some h' ∧
      (∀ i < V, h' (dst i) = some (lap ((List.range V).map X) i)) ∧
      (∀ a, (∀ i < V, a ≠ dst i) → h' a = h a) :=
  mapCells_spec lap src V dst V h X hs hd hinj

theorem nvec {S V step : ℕ} (hs : 0 < step) (hd : step ∣ V) :
    (V + S - S + (step - 1)) / step = V / step := by
  obtain ⟨q, rfl⟩ := hd
  rw [Nat.add_sub_cancel, Nat.mul_div_cancel_left _ hs, Nat.mul_add_div hs,
    Nat.div_eq_of_lt (by omega), Nat.add_zero]

theorem mem_lanes {S V step : ℕ} (hs : 0 < step) (hd : step ∣ V) {p : ℕ × ℕ} :
    p ∈ lanes S (V + S) step ↔ ∃ i < V, p = (S + i / step * step, i % step) := by
  unfold lanes
  rw [nvec hs hd]
  obtain ⟨q, rfl⟩ := hd
  rw [Nat.mul_div_cancel_left _ hs]
  simp only [List.mem_flatMap, List.mem_map, List.mem_range]
  constructor
  · rintro ⟨j, hj, l, hl, rfl⟩
    refine ⟨j * step + l, ?_, ?_⟩
    · calc j * step + l < j * step + step := by omega
        _ = (j + 1) * step := by rw [Nat.succ_mul]
        _ ≤ q * step := Nat.mul_le_mul_right _ hj
        _ = step * q := Nat.mul_comm _ _
    · have h1 : (j * step + l) / step = j := by
        rw [Nat.mul_comm, Nat.mul_add_div hs, Nat.div_eq_of_lt hl, Nat.add_zero]
      have h2 : (j * step + l) % step = l := by
        rw [Nat.mul_comm, Nat.mul_add_mod, Nat.mod_eq_of_lt hl]
      rw [h1, h2]
  · rintro ⟨i, hi, rfl⟩
    exact ⟨i / step, Nat.div_lt_of_lt_mul hi, i % step, Nat.mod_lt _ hs, rfl⟩

theorem lanes_nodup {S V step : ℕ} (hs : 0 < step) : (lanes S V step).Nodup := by
  unfold lanes
  rw [List.nodup_flatMap]
  refine ⟨?_, ?_⟩
  · intro j _
    refine List.Nodup.map_on ?_ List.nodup_range
    intro a _ b _ hab
    exact congrArg Prod.snd hab
  · refine List.Pairwise.imp ?_ List.nodup_range
    intro a b hab
    simp only [Function.onFun, List.Disjoint, List.mem_map]
    rintro p ⟨l, _, rfl⟩ ⟨l', _, h⟩
    have h1 := congrArg Prod.fst h
    dsimp only at h1
    have : b * step = a * step := by omega
    exact hab (Nat.eq_of_mul_eq_mul_right hs this).symm

/-- Effect of the kernel. -/
theorem kernel_spec (upd : Upd K) (S V step : ℕ) (hs : 0 < step) (hd : step ∣ V)
    (m2ix : ℕ → ℕ) {order : List (ℕ × ℕ)} (ho : order.Perm (lanes S (V + S) step))
    (h : Heap Loc K) (A B C : ℕ → K)
    (hA : ∀ i < V, h ⟨.m, S + i⟩ = some (A i)) (hB : ∀ i < V, h ⟨.v, i⟩ = some (B i))
    (hC : ∀ i < V, h ⟨.m2, m2ix (i / step * step) + i % step⟩ = some (C i)) :
    ∃ h', kernel upd S m2ix order h = some h' ∧
      (∀ i < V, h' ⟨.m, S + i⟩ = some (upd (A i) (B i) (C i)).1) ∧
      (∀ i < V, h' ⟨.v, i⟩ = some (upd (A i) (B i) (C i)).2) ∧
      (∀ a, (∀ i < V, a ≠ ⟨.m, S + i⟩ ∧ a ≠ ⟨.v, i⟩) → h' a = h a) := by
  have hnd : order.Nodup := ho.nodup_iff.2 (lanes_nodup hs)
  have hsum : ∀ i, i / step * step + i % step = i := fun i => Nat.div_add_mod' i step
  have key := foldlM_inv (f := kLane upd S m2ix) (s := h)
    (P := fun pre t =>
      (∀ i < V, (S + i / step * step, i % step) ∈ pre →
        t ⟨.m, S + i⟩ = some (upd (A i) (B i) (C i)).1 ∧
        t ⟨.v, i⟩ = some (upd (A i) (B i) (C i)).2) ∧
      (∀ i < V, (S + i / step * step, i % step) ∉ pre →
        t ⟨.m, S + i⟩ = some (A i) ∧ t ⟨.v, i⟩ = some (B i)) ∧
      (∀ a, (∀ i < V, a ≠ ⟨.m, S + i⟩ ∧ a ≠ ⟨.v, i⟩) → t a = h a))
    order ⟨fun i _ hm => absurd hm List.not_mem_nil, fun i hi _ => ⟨hA i hi, hB i hi⟩, fun _ _ => rfl⟩
    (by
      intro pre p post hL t ⟨t1, t2, t3⟩
      have hp : p ∈ order := by rw [hL]; simp
      obtain ⟨i, hi, rfl⟩ := (mem_lanes hs hd).1 (ho.mem_iff.1 hp)
      have hnew : (S + i / step * step, i % step) ∉ pre := by
        rw [hL] at hnd
        intro hc
        exact (List.nodup_append.1 hnd).2.2 _ hc _ List.mem_cons_self rfl
      obtain ⟨q1, q2⟩ := t2 i hi hnew
      have q3 : t ⟨.m2, m2ix (i / step * step) + i % step⟩ = some (C i) := by
        rw [t3 _ (by intro j _; exact ⟨by simp, by simp⟩), hC i hi]
      have e1 : S + i / step * step - S = i / step * step := by omega
      have e2 : S + i / step * step + i % step = S + i := by rw [Nat.add_assoc, hsum]
      have hw1 : (t ⟨.v, i⟩).isSome := by rw [q2]; rfl
      obtain ⟨T1, w1, F1, F2⟩ : ∃ T1, t.write ⟨.v, i⟩ (upd (A i) (B i) (C i)).2 = some T1 ∧
          T1 ⟨.v, i⟩ = some (upd (A i) (B i) (C i)).2 ∧ ∀ b, b ≠ ⟨.v, i⟩ → T1 b = t b :=
        ⟨_, write_eq _ _ _ hw1, if_pos rfl, fun b hb => if_neg hb⟩
      have hw2 : (T1 ⟨.m, S + i⟩).isSome := by rw [F2 _ (by simp), q1]; rfl
      obtain ⟨T2, w2, G1, G2⟩ : ∃ T2, T1.write ⟨.m, S + i⟩ (upd (A i) (B i) (C i)).1 = some T2 ∧
          T2 ⟨.m, S + i⟩ = some (upd (A i) (B i) (C i)).1 ∧ ∀ b, b ≠ ⟨.m, S + i⟩ → T2 b = T1 b :=
        ⟨_, write_eq _ _ _ hw2, if_pos rfl, fun b hb => if_neg hb⟩
      have hm' : ∀ j, j ≠ i → T2 ⟨.m, S + j⟩ = t ⟨.m, S + j⟩ := fun j hj => by
        rw [G2 _ (by simp; omega), F2 _ (by simp)]
      have hv' : ∀ j, j ≠ i → T2 ⟨.v, j⟩ = t ⟨.v, j⟩ := fun j hj => by
        rw [G2 _ (by simp), F2 _ (by simp; omega)]
      refine ⟨T2, ?_, ?_, ?_, ?_⟩
      · unfold kLane
        dsimp only
        rw [e1, e2, hsum, q3, q1, q2]
        simp only [Option.bind_some]
        rw [w1]
        exact w2
      · intro j hj hm
        by_cases hij : j = i
        · subst hij
          exact ⟨G1, by rw [G2 _ (by simp), F1]⟩
        · have hpre : (S + j / step * step, j % step) ∈ pre := by
            rcases List.mem_append.1 hm with hm | hm
            · exact hm
            · exfalso
              have hm := List.mem_singleton.1 hm
              rw [Prod.mk.injEq] at hm
              have h1 := hsum i; have h2 := hsum j
              omega
          obtain ⟨u1, u2⟩ := t1 j hj hpre
          exact ⟨by rw [hm' j hij, u1], by rw [hv' j hij, u2]⟩
      · intro j hj hm
        have hij : j ≠ i := by
          rintro rfl
          exact hm (by simp)
        obtain ⟨u1, u2⟩ := t2 j hj (fun hc => hm (List.mem_append_left _ hc))
        exact ⟨by rw [hm' j hij, u1], by rw [hv' j hij, u2]⟩
      · intro a ha
        rw [G2 _ (ha i hi).1, F2 _ (ha i hi).2, t3 a ha])
  obtain ⟨h', k1, k2, k3, k4⟩ := key
  have hall : ∀ i < V, (S + i / step * step, i % step) ∈ order :=
    fun i hi => ho.mem_iff.2 ((mem_lanes hs hd).2 ⟨i, hi, rfl⟩)
  exact ⟨h', k1, fun i hi => (k2 i hi (hall i hi)).1, fun i hi => (k2 i hi (hall i hi)).2, k4⟩

end Jaxions.Spectral

namespace Jaxions.Spectral

variable {K : Type}

theorem padIx_inj {Lx i j : ℕ} (hL : 0 < Lx) (h : padIx Lx i = padIx Lx j) : i = j := by
  unfold padIx at h
  have h1 : i % Lx < Lx + 2 := Nat.lt_of_lt_of_le (Nat.mod_lt _ hL) (by omega)
  have h2 : j % Lx < Lx + 2 := Nat.lt_of_lt_of_le (Nat.mod_lt _ hL) (by omega)
  have d : ∀ a b, a < Lx + 2 → (a + b * (Lx + 2)) / (Lx + 2) = b := by
    intro a b ha
    rw [Nat.add_mul_div_right _ _ (by omega), Nat.div_eq_of_lt ha, Nat.zero_add]
  have e := d _ (i / Lx) h1
  rw [h, d _ _ h2] at e
  have e2 : i % Lx = j % Lx := by rw [e] at h; omega
  rw [← Nat.div_add_mod' i Lx, ← Nat.div_add_mod' j Lx, e, e2]

theorem padIx_row {Lx : ℕ} (x sl : ℕ) (hx : x < Lx) : padIx Lx (sl * Lx + x) = sl * (Lx + 2) + x := by
  have hL : 0 < Lx := by omega
  have h1 : (sl * Lx + x) % Lx = x := by
    rw [Nat.mul_comm, Nat.mul_add_mod, Nat.mod_eq_of_lt hx]
  have h2 : (sl * Lx + x) / Lx = sl := by
    rw [Nat.mul_comm, Nat.mul_add_div hL, Nat.div_eq_of_lt hx, Nat.add_zero]
  unfold padIx
  rw [h1, h2, Nat.add_comm]

theorem padIx_lt {Lx i n : ℕ} (hL : 0 < Lx) (hi : i < n * Lx) : padIx Lx i < n * (Lx + 2) := by
  unfold padIx
  have h1 := Nat.mod_lt i hL
  have h2 : i / Lx < n := Nat.div_lt_of_lt_mul (by rwa [Nat.mul_comm])
  have : i / Lx * (Lx + 2) + (Lx + 2) ≤ n * (Lx + 2) := by
    rw [← Nat.succ_mul]; exact Nat.mul_le_mul_right _ h2
  omega

/-- The vectors stay inside a row when the step divides the length. -/
theorem padIx_vec {Lx step : ℕ} (hs : 0 < step) (hd : step ∣ Lx) (hL : 0 < Lx) (i : ℕ) :
    padIx Lx (i / step * step) + i % step = padIx Lx i := by
  obtain ⟨q, rfl⟩ := hd
  have hq : 0 < q := Nat.pos_of_mul_pos_left hL
  have h0 := Nat.div_add_mod' i (step * q)
  have h1 : i % (step * q) = step * (i / step % q) + i % step := by
    rw [Nat.mod_mul]; omega
  have h2 : i / (step * q) = i / step / q := (Nat.div_div_eq_div_mul i step q).symm
  have h3 : (i / step * step) / (step * q) = i / step / q := by
    rw [Nat.mul_comm step q, Nat.mul_div_mul_right _ _ hs]
  have h4 : (i / step * step) % (step * q) = i / step % q * step := by
    rw [Nat.mul_comm step q, Nat.mul_mod_mul_right]
  unfold padIx
  rw [h3, h4, h1, h2, Nat.mul_comm step (i / step % q)]
  omega

end Jaxions.Spectral
