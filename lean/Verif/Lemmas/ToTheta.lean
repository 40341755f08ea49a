import Verif.Spec.ToTheta
import Verif.Basic.Fold
import Verif.Basic.DivMod
import Mathlib.Tactic.Ring
import Mathlib.Data.List.Nodup

/-! Memory of the conversions between complex field and angle. -/

namespace Jaxions.ToTheta

variable {K : Type} [Field K]

/-- Angle of site `i`. -/
def val1 (ang : K → K → K) (P : Par K) (X Y : ℕ → K) (i : ℕ) : K :=
  ang (X i - P.shift) (Y i) * P.R

/-- Velocity of site `i`. -/
def val2 (ang : K → K → K) (P : Par K) (X Y A B : ℕ → K) (i : ℕ) : K :=
  (B i * (X i - P.shift) - A i * Y i) *
    (P.R / ((X i - P.shift) * (X i - P.shift) + Y i * Y i)) + P.F * ang (X i - P.shift) (Y i)

theorem site_spec (ang : K → K → K) (g : Geo) (P : Par K) (cZ l : ℕ) (h : Mem K) (x y a b : K)
    (hN : 1 ≤ g.Ng) (hl : l < g.S)
    (hx : h (g.cm (cZ * g.S + l)) = some x) (hy : h (g.cm' (cZ * g.S + l)) = some y)
    (ha : h (cv (cZ * g.S + l)) = some a) (hb : h (cv' (cZ * g.S + l)) = some b)
    (h1 : (h (aux1 l)).isSome) (h2 : (h (g.aux2 l)).isSome) :
    ∃ h', site ang g P cZ h l = some h' ∧
      h' (aux1 l) = some (ang (x - P.shift) y * P.R) ∧
      h' (g.aux2 l) = some ((b * (x - P.shift) - a * y) *
        (P.R / ((x - P.shift) * (x - P.shift) + y * y)) + P.F * ang (x - P.shift) y) ∧
      ∀ c, c ≠ aux1 l → c ≠ g.aux2 l → h' c = h c := by
  have hS : g.S ≤ g.S * g.Ng := Nat.le_mul_of_pos_right _ hN
  have n12 : g.aux2 l ≠ aux1 l := by
    unfold Geo.aux2 aux1; intro h; injection h with _ h; omega
  unfold site
  rw [hx, hy]
  simp only [Option.bind_some]
  rw [write_eq h _ _ h1]
  simp only [Option.bind_some]
  rw [if_neg (by unfold cv aux1; simp), if_neg (by unfold cv' aux1; simp), ha, hb]
  simp only [Option.bind_some, if_true]
  rw [write_eq _ _ _ (by simp only [if_neg n12]; exact h2)]
  simp only [Option.bind_some, if_neg n12.symm, if_true]
  rw [write_eq _ _ _ (by simp only [if_neg n12.symm, if_true]; rfl)]
  refine ⟨_, rfl, ?_, ?_, ?_⟩
  · simp
  · simp [n12]
  · intro c c1 c2; simp [c1, c2]

theorem slice_spec (ang : K → K → K) (g : Geo) (P : Par K) (order : ℕ → List ℕ) (cZ : ℕ)
    (h : Mem K) (X Y A B : ℕ → K) (hN : 1 ≤ g.Ng) (hz : cZ < g.Lz)
    (ho : ∀ cZ < g.Lz, ∀ l, l ∈ order cZ ↔ l < g.S) (hA : Alloc g h)
    (hX : ∀ l < g.S, h (g.cm (cZ * g.S + l)) = some (X (cZ * g.S + l)))
    (hY : ∀ l < g.S, h (g.cm' (cZ * g.S + l)) = some (Y (cZ * g.S + l)))
    (hVa : ∀ l < g.S, h (cv (cZ * g.S + l)) = some (A (cZ * g.S + l)))
    (hVb : ∀ l < g.S, h (cv' (cZ * g.S + l)) = some (B (cZ * g.S + l))) :
    ∃ h', slice ang g P order h cZ = some h' ∧
      (∀ l < g.S, h' (g.rm (cZ * g.S + l)) = some (val1 ang P X Y (cZ * g.S + l))) ∧
      (∀ l < g.S, h' (rv (cZ * g.S + l)) = some (val2 ang P X Y A B (cZ * g.S + l))) ∧
      (∀ c, (∀ l < g.S, c ≠ aux1 l ∧ c ≠ g.aux2 l ∧ c ≠ g.rm (cZ * g.S + l) ∧
        c ≠ rv (cZ * g.S + l)) → h' c = h c) ∧
      (∀ c, (h c).isSome → (h' c).isSome) := by
  have hS : g.S ≤ g.S * g.Ng := Nat.le_mul_of_pos_right _ hN
  have hv3 : g.v3 = g.V + 2 * (g.S * g.Ng) := by unfold Geo.v3 Geo.V; ring
  have hV : cZ * g.S + g.S ≤ g.V := by
    unfold Geo.V
    have : (cZ + 1) * g.S ≤ g.Lz * g.S := Nat.mul_le_mul_right _ hz
    rw [Nat.mul_comm g.S, ← Nat.succ_mul]; exact this
  obtain ⟨h1, e1, p1, q1, r1⟩ := foldlM_inv (f := site ang g P cZ)
    (P := fun pre (t : Mem K) =>
      (∀ l ∈ pre, t (aux1 l) = some (val1 ang P X Y (cZ * g.S + l)) ∧
        t (g.aux2 l) = some (val2 ang P X Y A B (cZ * g.S + l))) ∧
      (∀ c, (∀ l < g.S, c ≠ aux1 l ∧ c ≠ g.aux2 l) → t c = h c) ∧
      (∀ c, (h c).isSome → (t c).isSome)) (s := h) (order cZ)
    ⟨by simp, fun _ _ => rfl, fun _ h => h⟩ (by
      intro pre l post hL t ⟨t1, t2, t3⟩
      have hl : l < g.S := (ho cZ hz l).1 (by rw [hL]; simp)
      obtain ⟨t', s1, s2, s3, s4⟩ := site_spec ang g P cZ l t (X (cZ * g.S + l))
        (Y (cZ * g.S + l)) (A (cZ * g.S + l)) (B (cZ * g.S + l)) hN hl
        (by
          rw [t2 _ ?_]; exact hX l hl
          intro k hk
          unfold Geo.cm aux1 Geo.aux2
          constructor <;> (intro h; injection h with _ h; omega))
        (by
          rw [t2 _ ?_]; exact hY l hl
          intro k hk
          unfold Geo.cm' aux1 Geo.aux2
          constructor <;> (intro h; injection h with _ h; omega))
        (by
          rw [t2 _ ?_]; exact hVa l hl
          intro k hk
          unfold cv aux1 Geo.aux2
          simp)
        (by
          rw [t2 _ ?_]; exact hVb l hl
          intro k hk
          unfold cv' aux1 Geo.aux2
          simp)
        (t3 _ (hA.1 _ (by omega))) (t3 _ (hA.1 _ (by omega)))
      refine ⟨t', s1, ?_, ?_, ?_⟩
      · intro j hj
        by_cases hjl : j = l
        · subst hjl; exact ⟨s2, s3⟩
        · have hj' : j ∈ pre := by
            rcases List.mem_append.1 hj with h | h
            · exact h
            · exact absurd (List.mem_singleton.1 h) hjl
          have hjS : j < g.S := (ho cZ hz j).1 (by rw [hL]; simp [hj'])
          rw [s4, s4]
          · exact t1 j hj'
          · unfold Geo.aux2 aux1; intro h; injection h with _ h; omega
          · unfold Geo.aux2; intro h; injection h with _ h; omega
          · unfold aux1; intro h; injection h with _ h; exact hjl h
          · unfold Geo.aux2 aux1; intro h; injection h with _ h; omega
      · intro c hc
        rw [s4 c (hc l hl).1 (hc l hl).2, t2 c hc]
      · intro c hc
        by_cases c1 : c = aux1 l
        · rw [c1, s2]; rfl
        · by_cases c2 : c = g.aux2 l
          · rw [c2, s3]; rfl
          · rw [s4 c c1 c2]; exact t3 c hc)
  obtain ⟨h2, e2, p2, q2⟩ := memcpy_spec (fun k => g.rm (cZ * g.S + k)) aux1 g.S h1
    (fun i hi => r1 _ (hA.1 _ (by omega)))
    (fun i hi => r1 _ (hA.1 _ (by omega)))
    (by intro i hi j hj h; unfold Geo.rm at h; injection h with _ h; omega)
    (by intro i hi j hj h; unfold Geo.rm aux1 at h; injection h with _ h; omega)
  obtain ⟨h3, e3, p3, q3⟩ := memcpy_spec (fun k => rv (cZ * g.S + k)) g.aux2 g.S h2
    (fun i hi => by
      rw [q2 _ (by intro j hj h; unfold Geo.rm Geo.aux2 at h; injection h with _ h; omega)]
      exact r1 _ (hA.1 _ (by omega)))
    (fun i hi => by
      rw [q2 _ (by intro j hj h; unfold Geo.rm rv at h; simp at h)]
      exact r1 _ (hA.2 _ (by omega)))
    (by intro i hi j hj h; unfold rv at h; injection h with _ h; omega)
    (by intro i hi j hj h; unfold rv Geo.aux2 at h; simp at h)
  refine ⟨h3, ?_, ?_, ?_, ?_, ?_⟩
  · unfold slice
    rw [e1]; simp only [Option.bind_some]
    rw [e2]; simp only [Option.bind_some]
    exact e3
  · intro l hl
    rw [q3 _ (by intro j hj h; unfold Geo.rm rv at h; simp at h), p2 l hl]
    exact (p1 l ((ho cZ hz l).2 hl)).1
  · intro l hl
    rw [p3 l hl, q2 _ (by
      intro j hj h; unfold Geo.rm Geo.aux2 at h; injection h with _ h; omega)]
    exact (p1 l ((ho cZ hz l).2 hl)).2
  · intro c hc
    rw [q3 _ (fun j hj => (hc j hj).2.2.2), q2 _ (fun j hj => (hc j hj).2.2.1),
      q1 _ (fun j hj => ⟨(hc j hj).1, (hc j hj).2.1⟩)]
  · intro c hc
    by_cases c3 : ∃ j < g.S, c = rv (cZ * g.S + j)
    · obtain ⟨j, hj, rfl⟩ := c3
      rw [p3 j hj, q2 _ (by
        intro i hi h; unfold Geo.rm Geo.aux2 at h; injection h with _ h; omega)]
      exact r1 _ (hA.1 _ (by omega))
    · rw [q3 _ (fun j hj h => c3 ⟨j, hj, h⟩)]
      by_cases c2 : ∃ j < g.S, c = g.rm (cZ * g.S + j)
      · obtain ⟨j, hj, rfl⟩ := c2
        rw [p2 j hj]
        exact r1 _ (hA.1 _ (by omega))
      · rw [q2 _ (fun j hj h => c2 ⟨j, hj, h⟩)]
        exact r1 c hc

theorem toTheta_spec (ang : K → K → K) (g : Geo) (P : Par K) (order : ℕ → List ℕ)
    (h : Mem K) (X Y A B : ℕ → K) (hN : 1 ≤ g.Ng)
    (ho : ∀ cZ < g.Lz, ∀ l, l ∈ order cZ ↔ l < g.S) (hA : Alloc g h)
    (hX : ∀ i < g.V, h (g.cm i) = some (X i)) (hY : ∀ i < g.V, h (g.cm' i) = some (Y i))
    (hVa : ∀ i < g.V, h (cv i) = some (A i)) (hVb : ∀ i < g.V, h (cv' i) = some (B i)) :
    ∃ h', toTheta ang g P order h = some h' ∧
      (∀ i < g.V, h' (g.rm i) = some (val1 ang P X Y i)) ∧
      (∀ i < g.V, h' (rv i) = some (val2 ang P X Y A B i)) ∧
      (∀ k, h' (.m2, k) = h (.m2, k)) ∧
      (∀ c, (h c).isSome → (h' c).isSome) := by
  have hS : g.S ≤ g.S * g.Ng := Nat.le_mul_of_pos_right _ hN
  have hVz : g.V = g.Lz * g.S := Nat.mul_comm _ _
  obtain ⟨h', e, p⟩ := range_inv (f := slice ang g P order)
    (P := fun cZ (t : Mem K) =>
      (∀ i < cZ * g.S, t (g.rm i) = some (val1 ang P X Y i)) ∧
      (∀ i < cZ * g.S, t (rv i) = some (val2 ang P X Y A B i)) ∧
      (∀ i, cZ * g.S ≤ i → i < g.V → t (g.cm i) = h (g.cm i) ∧ t (g.cm' i) = h (g.cm' i) ∧
        t (cv i) = h (cv i) ∧ t (cv' i) = h (cv' i)) ∧
      (∀ k, t (.m2, k) = h (.m2, k)) ∧
      (∀ c, (h c).isSome → (t c).isSome)) (s := h) g.Lz
    ⟨by simp, by simp, fun _ _ _ => ⟨rfl, rfl, rfl, rfl⟩, fun _ => rfl, fun _ h => h⟩ (by
      intro cZ hz t ⟨t1, t2, t3, t4, t5⟩
      have hV : cZ * g.S + g.S ≤ g.V := by
        rw [hVz, ← Nat.succ_mul]; exact Nat.mul_le_mul_right _ hz
      obtain ⟨t', s1, s2, s3, s4, s5⟩ := slice_spec ang g P order cZ t X Y A B hN hz ho
        ⟨fun k hk => t5 _ (hA.1 k hk), fun k hk => t5 _ (hA.2 k hk)⟩
        (fun l hl => by rw [(t3 _ (by omega) (by omega)).1]; exact hX _ (by omega))
        (fun l hl => by rw [(t3 _ (by omega) (by omega)).2.1]; exact hY _ (by omega))
        (fun l hl => by rw [(t3 _ (by omega) (by omega)).2.2.1]; exact hVa _ (by omega))
        (fun l hl => by rw [(t3 _ (by omega) (by omega)).2.2.2]; exact hVb _ (by omega))
      refine ⟨t', s1, ?_, ?_, ?_, ?_, fun c hc => s5 c (t5 c hc)⟩
      · intro i hi
        rw [Nat.succ_mul] at hi
        by_cases hi' : i < cZ * g.S
        · rw [s4 _ ?_]
          · exact t1 i hi'
          · intro l hl
            unfold Geo.rm aux1 Geo.aux2 rv
            refine ⟨?_, ?_, ?_, by simp⟩ <;> (intro h; injection h with _ h; omega)
        · have := s2 (i - cZ * g.S) (by omega)
          rwa [Nat.add_sub_cancel' (by omega)] at this
      · intro i hi
        rw [Nat.succ_mul] at hi
        by_cases hi' : i < cZ * g.S
        · rw [s4 _ ?_]
          · exact t2 i hi'
          · intro l hl
            unfold Geo.rm aux1 Geo.aux2 rv
            refine ⟨by simp, by simp, by simp, ?_⟩
            intro h; injection h with _ h; omega
        · have := s3 (i - cZ * g.S) (by omega)
          rwa [Nat.add_sub_cancel' (by omega)] at this
      · intro i hi hiV
        rw [Nat.succ_mul] at hi
        obtain ⟨u1, u2, u3, u4⟩ := t3 i (by omega) hiV
        refine ⟨?_, ?_, ?_, ?_⟩
        · rw [s4 _ ?_]; exact u1
          intro l hl
          unfold Geo.cm Geo.rm aux1 Geo.aux2 rv
          refine ⟨?_, ?_, ?_, by simp⟩ <;> (intro h; injection h with _ h; omega)
        · rw [s4 _ ?_]; exact u2
          intro l hl
          unfold Geo.cm' Geo.rm aux1 Geo.aux2 rv
          refine ⟨?_, ?_, ?_, by simp⟩ <;> (intro h; injection h with _ h; omega)
        · rw [s4 _ ?_]; exact u3
          intro l hl
          unfold cv Geo.rm aux1 Geo.aux2 rv
          refine ⟨by simp, by simp, by simp, ?_⟩
          intro h; injection h with _ h; omega
        · rw [s4 _ ?_]; exact u4
          intro l hl
          unfold cv' Geo.rm aux1 Geo.aux2 rv
          refine ⟨by simp, by simp, by simp, ?_⟩
          intro h; injection h with _ h; omega
      · intro k
        rw [s4 _ ?_]; exact t4 k
        intro l hl
        unfold Geo.rm aux1 Geo.aux2 rv
        simp)
  exact ⟨h', e, fun i hi => p.1 i (hVz ▸ hi), fun i hi => p.2.1 i (hVz ▸ hi), p.2.2.2.1,
    p.2.2.2.2⟩

/-! ### Back -/

theorem backSite_spec (cs sn : K → K) (g : Geo) (R Rp : K) (h : Mem K) (i : ℕ) (m v : K)
    (hm : h (.m2, i) = some m) (hv : h (.m2, g.v3 + i) = some v)
    (a1 : (h (g.cm i)).isSome) (a2 : (h (g.cm' i)).isSome)
    (a3 : (h (cv i)).isSome) (a4 : (h (cv' i)).isSome) :
    ∃ h', backSite cs sn g R Rp h i = some h' ∧
      h' (g.cm i) = some (R * cs (m / R)) ∧ h' (g.cm' i) = some (R * sn (m / R)) ∧
      h' (cv i) = some (Rp * (R * cs (m / R)) - (v / R - Rp * (m / R)) * (R * sn (m / R))) ∧
      h' (cv' i) = some (Rp * (R * sn (m / R)) + (v / R - Rp * (m / R)) * (R * cs (m / R))) ∧
      ∀ c, c ≠ g.cm i → c ≠ g.cm' i → c ≠ cv i → c ≠ cv' i → h' c = h c := by
  have n1 : g.cm' i ≠ g.cm i := by
    unfold Geo.cm' Geo.cm; intro h; injection h with _ h; omega
  have n2 : cv' i ≠ cv i := by unfold cv' cv; intro h; injection h with _ h; omega
  have n3 : cv i ≠ g.cm i := by unfold cv Geo.cm; simp
  have n4 : cv i ≠ g.cm' i := by unfold cv Geo.cm'; simp
  have n5 : cv' i ≠ g.cm i := by unfold cv' Geo.cm; simp
  have n6 : cv' i ≠ g.cm' i := by unfold cv' Geo.cm'; simp
  have n7 : ((Buf.m2, g.v3 + i) : Buf × ℕ) ≠ g.cm i := by unfold Geo.cm; simp
  have n8 : ((Buf.m2, g.v3 + i) : Buf × ℕ) ≠ g.cm' i := by unfold Geo.cm'; simp
  unfold backSite
  rw [hm]
  simp only [Option.bind_some]
  rw [write_eq h _ _ a1]
  simp only [Option.bind_some]
  rw [write_eq _ _ _ (by simp only [if_neg n1]; exact a2)]
  simp only [Option.bind_some, if_neg n7, if_neg n8, hv]
  rw [write_eq _ _ _ (by simp only [if_neg n3, if_neg n4]; exact a3)]
  simp only [Option.bind_some]
  rw [write_eq _ _ _ (by simp only [if_neg n2, if_neg n5, if_neg n6]; exact a4)]
  refine ⟨_, rfl, ?_, ?_, ?_, ?_, ?_⟩
  · simp [n1.symm, n3.symm, n5.symm]
  · simp [n4.symm, n6.symm]
  · simp [n2.symm]
  · simp
  · intro c c1 c2 c3 c4; simp [c1, c2, c3, c4]

theorem toSaxion_spec (cs sn : K → K) (g : Geo) (R Rp : K) (order : List ℕ) (h : Mem K)
    (c c' : ℕ → K) (ho : ∀ i, i ∈ order ↔ i < g.V) (hA : Alloc g h)
    (hm2 : ∀ k < 2 * g.v3, (h (.m2, k)).isSome)
    (hc : ∀ i < g.V, h (g.rm i) = some (c i)) (hc' : ∀ i < g.V, h (rv i) = some (c' i)) :
    ∃ h', toSaxion cs sn g R Rp order h = some h' ∧
      (∀ i < g.V, h' (g.cm i) = some (R * cs (c i / R))) ∧
      (∀ i < g.V, h' (g.cm' i) = some (R * sn (c i / R))) ∧
      (∀ i < g.V, h' (cv i) = some (Rp * (R * cs (c i / R)) -
        (c' i / R - Rp * (c i / R)) * (R * sn (c i / R)))) ∧
      (∀ i < g.V, h' (cv' i) = some (Rp * (R * sn (c i / R)) +
        (c' i / R - Rp * (c i / R)) * (R * cs (c i / R)))) ∧
      (∀ a, (h a).isSome → (h' a).isSome) := by
  have hv3 : g.v3 = g.V + 2 * (g.S * g.Ng) := by unfold Geo.v3 Geo.V; ring
  obtain ⟨h1, e1, p1, q1⟩ := memmove_spec (fun k => (Buf.m2, k)) g.rm g.V h
    (fun i hi => by rw [hc i hi]; rfl) (fun i hi => hm2 i (by omega))
    (by intro i hi j hj h; injection h)
  obtain ⟨h2, e2, p2, q2⟩ := memmove_spec (fun k => (Buf.m2, g.v3 + k)) rv g.V h1
    (fun i hi => by
      rw [q1 _ (by intro j hj h; unfold rv at h; simp at h), hc' i hi]; rfl)
    (fun i hi => by
      rw [q1 _ (by intro j hj h; injection h with _ h; omega)]; exact hm2 _ (by omega))
    (by intro i hi j hj h; injection h with _ h; omega)
  have m2a : ∀ i < g.V, h2 (.m2, i) = some (c i) := by
    intro i hi
    rw [q2 _ (by intro j hj h; injection h with _ h; omega), p1 i hi, hc i hi]
  have m2b : ∀ i < g.V, h2 (.m2, g.v3 + i) = some (c' i) := by
    intro i hi
    rw [p2 i hi, q1 _ (by intro j hj h; unfold rv at h; simp at h), hc' i hi]
  have keep : ∀ a, (h a).isSome → (h2 a).isSome := by
    intro a ha
    by_cases h2' : ∃ i < g.V, a = (Buf.m2, g.v3 + i)
    · obtain ⟨i, hi, rfl⟩ := h2'; rw [m2b i hi]; rfl
    · by_cases h1' : ∃ i < g.V, a = (Buf.m2, i)
      · obtain ⟨i, hi, rfl⟩ := h1'; rw [m2a i hi]; rfl
      · rw [q2 a (fun i hi h => h2' ⟨i, hi, h⟩), q1 a (fun i hi h => h1' ⟨i, hi, h⟩)]
        exact ha
  obtain ⟨h', e, r1, r2, r3⟩ := foldlM_inv (f := backSite cs sn g R Rp)
    (P := fun pre (t : Mem K) =>
      (∀ i ∈ pre, t (g.cm i) = some (R * cs (c i / R)) ∧
        t (g.cm' i) = some (R * sn (c i / R)) ∧
        t (cv i) = some (Rp * (R * cs (c i / R)) -
          (c' i / R - Rp * (c i / R)) * (R * sn (c i / R))) ∧
        t (cv' i) = some (Rp * (R * sn (c i / R)) +
          (c' i / R - Rp * (c i / R)) * (R * cs (c i / R)))) ∧
      (∀ k, t (.m2, k) = h2 (.m2, k)) ∧
      (∀ a, (h2 a).isSome → (t a).isSome)) (s := h2) order
    ⟨by simp, fun _ => rfl, fun _ h => h⟩ (by
      intro pre i post hL t ⟨t1, t2, t3⟩
      have hi : i < g.V := (ho i).1 (by rw [hL]; simp)
      obtain ⟨t', s1, s2, s3, s4, s5, s6⟩ := backSite_spec cs sn g R Rp t i (c i) (c' i)
        (by rw [t2, m2a i hi]) (by rw [t2, m2b i hi])
        (t3 _ (keep _ (hA.1 _ (by omega)))) (t3 _ (keep _ (hA.1 _ (by omega))))
        (t3 _ (keep _ (hA.2 _ (by omega)))) (t3 _ (keep _ (hA.2 _ (by omega))))
      refine ⟨t', s1, ?_, ?_, ?_⟩
      · intro j hj
        by_cases hji : j = i
        · subst hji; exact ⟨s2, s3, s4, s5⟩
        · have hj' : j ∈ pre := by
            rcases List.mem_append.1 hj with h | h
            · exact h
            · exact absurd (List.mem_singleton.1 h) hji
          have d1 : ∀ b b' : Buf, ∀ x y : ℕ, x ≠ y → ((b, x) : Buf × ℕ) ≠ (b', y) := by
            intro b b' x y hxy h; injection h with _ h; exact hxy h
          obtain ⟨u1, u2, u3, u4⟩ := t1 j hj'
          refine ⟨?_, ?_, ?_, ?_⟩
          · rw [s6 (g.cm j) (d1 _ _ _ _ (by omega)) (d1 _ _ _ _ (by omega))
              (by unfold Geo.cm cv; simp) (by unfold Geo.cm cv'; simp)]; exact u1
          · rw [s6 (g.cm' j) (d1 _ _ _ _ (by omega)) (d1 _ _ _ _ (by omega))
              (by unfold Geo.cm' cv; simp) (by unfold Geo.cm' cv'; simp)]; exact u2
          · rw [s6 (cv j) (by unfold Geo.cm cv; simp) (by unfold Geo.cm' cv; simp)
              (d1 _ _ _ _ (by omega)) (d1 _ _ _ _ (by omega))]; exact u3
          · rw [s6 (cv' j) (by unfold Geo.cm cv'; simp) (by unfold Geo.cm' cv'; simp)
              (d1 _ _ _ _ (by omega)) (d1 _ _ _ _ (by omega))]; exact u4
      · intro k
        rw [s6 _ (by unfold Geo.cm; simp) (by unfold Geo.cm'; simp) (by unfold cv; simp)
          (by unfold cv'; simp)]
        exact t2 k
      · intro a ha
        by_cases b1 : a = g.cm i
        · rw [b1, s2]; rfl
        by_cases b2 : a = g.cm' i
        · rw [b2, s3]; rfl
        by_cases b3 : a = cv i
        · rw [b3, s4]; rfl
        by_cases b4 : a = cv' i
        · rw [b4, s5]; rfl
        rw [s6 a b1 b2 b3 b4]; exact t3 a ha)
  refine ⟨h', ?_, fun i hi => (r1 i ((ho i).2 hi)).1, fun i hi => (r1 i ((ho i).2 hi)).2.1,
    fun i hi => (r1 i ((ho i).2 hi)).2.2.1, fun i hi => (r1 i ((ho i).2 hi)).2.2.2,
    fun a ha => r3 a (keep a ha)⟩
  unfold toSaxion
  rw [e1]; simp only [Option.bind_some]
  rw [e2]; simp only [Option.bind_some]
  exact e

/-! ### Initial conditions -/

theorem initSite_spec (cs sn : K → K) (g : Geo) (r : K) (h : Mem K) (i : ℕ) (m v : K)
    (hm : h (g.cm i) = some m) (hv : h (cv i) = some v)
    (a2 : (h (g.cm' i)).isSome) (a4 : (h (cv' i)).isSome) :
    ∃ h', initSite cs sn g r h i = some h' ∧
      h' (g.cm i) = some (r * cs m) ∧ h' (g.cm' i) = some (r * sn m) ∧
      h' (cv i) = some (1 / r * (r * cs m) - v * (r * sn m)) ∧
      h' (cv' i) = some (1 / r * (r * sn m) + v * (r * cs m)) ∧
      ∀ c, c ≠ g.cm i → c ≠ g.cm' i → c ≠ cv i → c ≠ cv' i → h' c = h c := by
  have n1 : g.cm' i ≠ g.cm i := by
    unfold Geo.cm' Geo.cm; intro h; injection h with _ h; omega
  have n2 : cv' i ≠ cv i := by unfold cv' cv; intro h; injection h with _ h; omega
  have n3 : cv i ≠ g.cm i := by unfold cv Geo.cm; simp
  have n4 : cv i ≠ g.cm' i := by unfold cv Geo.cm'; simp
  have n5 : cv' i ≠ g.cm i := by unfold cv' Geo.cm; simp
  have n6 : cv' i ≠ g.cm' i := by unfold cv' Geo.cm'; simp
  unfold initSite
  rw [hm]
  simp only [Option.bind_some]
  rw [write_eq h _ _ (by rw [hm]; rfl)]
  simp only [Option.bind_some]
  rw [write_eq _ _ _ (by simp only [if_neg n1]; exact a2)]
  simp only [Option.bind_some, if_neg n3, if_neg n4, hv]
  rw [write_eq _ _ _ (by simp only [if_neg n3, if_neg n4, hv]; rfl)]
  simp only [Option.bind_some]
  rw [write_eq _ _ _ (by simp only [if_neg n2, if_neg n5, if_neg n6]; exact a4)]
  refine ⟨_, rfl, ?_, ?_, ?_, ?_, ?_⟩
  · simp [n1.symm, n3.symm, n5.symm]
  · simp [n4.symm, n6.symm]
  · simp [n2.symm]
  · simp
  · intro c c1 c2 c3 c4; simp [c1, c2, c3, c4]

theorem th2cx_spec (cs sn : K → K) (g : Geo) (r : K) (order : List ℕ) (h : Mem K)
    (T W : ℕ → K) (ho : ∀ i, i ∈ order ↔ i < g.V) (hnd : order.Nodup)
    (hA : Alloc g h)
    (hT : ∀ i < g.V, h (g.cm i) = some (T i)) (hW : ∀ i < g.V, h (cv i) = some (W i)) :
    ∃ h', th2cx cs sn g r order h = some h' ∧
      (∀ i < g.V, h' (g.cm i) = some (r * cs (T i))) ∧
      (∀ i < g.V, h' (g.cm' i) = some (r * sn (T i))) ∧
      (∀ i < g.V, h' (cv i) = some (1 / r * (r * cs (T i)) - W i * (r * sn (T i)))) ∧
      (∀ i < g.V, h' (cv' i) = some (1 / r * (r * sn (T i)) + W i * (r * cs (T i)))) ∧
      (∀ a, (h a).isSome → (h' a).isSome) := by
  have hv3 : g.v3 = g.V + 2 * (g.S * g.Ng) := by unfold Geo.v3 Geo.V; ring
  have d1 : ∀ b b' : Buf, ∀ x y : ℕ, x ≠ y → ((b, x) : Buf × ℕ) ≠ (b', y) := by
    intro b b' x y hxy h; injection h with _ h; exact hxy h
  obtain ⟨h', e, r1, r2, r3⟩ := foldlM_inv (f := initSite cs sn g r)
    (P := fun pre (t : Mem K) =>
      (∀ i ∈ pre, t (g.cm i) = some (r * cs (T i)) ∧ t (g.cm' i) = some (r * sn (T i)) ∧
        t (cv i) = some (1 / r * (r * cs (T i)) - W i * (r * sn (T i))) ∧
        t (cv' i) = some (1 / r * (r * sn (T i)) + W i * (r * cs (T i)))) ∧
      (∀ i, i ∉ pre → t (g.cm i) = h (g.cm i) ∧ t (cv i) = h (cv i)) ∧
      (∀ a, (h a).isSome → (t a).isSome)) (s := h) order
    ⟨by simp, fun _ _ => ⟨rfl, rfl⟩, fun _ h => h⟩ (by
      intro pre i post hL t ⟨t1, t2, t3⟩
      have hi : i < g.V := (ho i).1 (by rw [hL]; simp)
      have hip : i ∉ pre := by
        rw [hL, List.nodup_append] at hnd
        intro hp; exact hnd.2.2 i hp i (by simp) rfl
      obtain ⟨t', s1, s2, s3, s4, s5, s6⟩ := initSite_spec cs sn g r t i (T i) (W i)
        (by rw [(t2 i hip).1, hT i hi]) (by rw [(t2 i hip).2, hW i hi])
        (t3 _ (hA.1 _ (by omega))) (t3 _ (hA.2 _ (by omega)))
      refine ⟨t', s1, ?_, ?_, ?_⟩
      · intro j hj
        by_cases hji : j = i
        · subst hji; exact ⟨s2, s3, s4, s5⟩
        · have hj' : j ∈ pre := by
            rcases List.mem_append.1 hj with h | h
            · exact h
            · exact absurd (List.mem_singleton.1 h) hji
          obtain ⟨u1, u2, u3, u4⟩ := t1 j hj'
          refine ⟨?_, ?_, ?_, ?_⟩
          · rw [s6 (g.cm j) (d1 _ _ _ _ (by omega)) (d1 _ _ _ _ (by omega))
              (by unfold Geo.cm cv; simp) (by unfold Geo.cm cv'; simp)]; exact u1
          · rw [s6 (g.cm' j) (d1 _ _ _ _ (by omega)) (d1 _ _ _ _ (by omega))
              (by unfold Geo.cm' cv; simp) (by unfold Geo.cm' cv'; simp)]; exact u2
          · rw [s6 (cv j) (by unfold Geo.cm cv; simp) (by unfold Geo.cm' cv; simp)
              (d1 _ _ _ _ (by omega)) (d1 _ _ _ _ (by omega))]; exact u3
          · rw [s6 (cv' j) (by unfold Geo.cm cv'; simp) (by unfold Geo.cm' cv'; simp)
              (d1 _ _ _ _ (by omega)) (d1 _ _ _ _ (by omega))]; exact u4
      · intro j hj
        have hji : j ≠ i := by rintro rfl; exact hj (by simp)
        have hjp : j ∉ pre := fun h => hj (by simp [h])
        rw [s6 (g.cm j) (d1 _ _ _ _ (by omega)) (d1 _ _ _ _ (by omega)) (by unfold Geo.cm cv; simp)
          (by unfold Geo.cm cv'; simp), s6 (cv j) (by unfold Geo.cm cv; simp)
          (by unfold Geo.cm' cv; simp) (d1 _ _ _ _ (by omega)) (d1 _ _ _ _ (by omega))]
        exact t2 j hjp
      · intro a ha
        by_cases b1 : a = g.cm i
        · rw [b1, s2]; rfl
        by_cases b2 : a = g.cm' i
        · rw [b2, s3]; rfl
        by_cases b3 : a = cv i
        · rw [b3, s4]; rfl
        by_cases b4 : a = cv' i
        · rw [b4, s5]; rfl
        rw [s6 a b1 b2 b3 b4]; exact t3 a ha)
  exact ⟨h', e, fun i hi => (r1 i ((ho i).2 hi)).1, fun i hi => (r1 i ((ho i).2 hi)).2.1,
    fun i hi => (r1 i ((ho i).2 hi)).2.2.1, fun i hi => (r1 i ((ho i).2 hi)).2.2.2, r3⟩

end Jaxions.ToTheta
