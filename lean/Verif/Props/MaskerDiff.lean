import Verif.Props.Masker
import Verif.Props.MaskerDiffuse
import Verif.Props.AxionStored

/-
C74: the diffused mask from the string map to the stored array.
-/

namespace Jaxions.Masker

open AxSpec (Grid Site pad_inj bare_inj pad_lt bare_lt)

variable {g : Grid}

/-- A row of a padded array. -/
theorem pad_row (x y z : ℕ) : g.pad (x, y, z) = (z * g.L + y) * (g.L + 2) + x := by
  unfold Grid.pad; ring

theorem bare_row (x y z : ℕ) : g.bare (x, y, z) = (z * g.L + y) * g.L + x := by
  unfold Grid.bare Grid.S; ring

theorem v3_eq : g.v3 = GR g + g.S * g.Lz := by unfold GR Grid.v3; ring

/-- Bringing the rows together. -/
theorem squeeze_bare {α : Type} (hg : g.Ok) {m : Heap ℕ α} (hr : g.Room m) :
    ∃ m', AxSpec.squeeze g m = some m' ∧ (∀ x y z, x < g.L → y < g.L → z < g.Lz →
      m' (g.bare (x, y, z)) = m (g.pad (x, y, z))) ∧ g.Room m' := by
  obtain ⟨m', e, e1, e2⟩ := AxSpec.squeeze_spec hg hr
  have hval : ∀ x y z, x < g.L → y < g.L → z < g.Lz → m' (g.bare (x, y, z)) = m (g.pad (x, y, z)) := by
    intro x y z hx hy hz
    rw [pad_row, bare_row]
    have hrow : z * g.L + y < g.L * g.Lz := by rw [mul_comm g.L]; exact pair_lt hz hy
    rcases Nat.eq_zero_or_pos (z * g.L + y) with h | h
    · rw [h, zero_mul, zero_mul, zero_add]
      exact e2 x (Or.inl hx)
    · exact e1 _ _ h hrow hx
  refine ⟨m', e, hval, ?_⟩
  intro a ha
  by_cases h : a < g.S * g.Lz
  · obtain ⟨x, y, z, hx, hy, hz, rfl⟩ := bare_surj h
    rw [hval x y z hx hy hz]
    refine hr _ ?_
    have := pad_lt hg (x, y, z) ⟨hx, hy, hz⟩
    omega
  · rw [e2 a (Or.inr (by
      have : g.L * g.Lz * g.L = g.S * g.Lz := by unfold Grid.S; ring
      omega))]
    exact hr a ha

open Classical in
/-- C74.  Before the iterations: the numbers start from the marked sites, and so does the mask. -/
theorem C74_begin (hg : g.Ok) {r : ℕ} {C : ℕ → ℕ → ℕ → Prop} {b : ℕ → ℕ → ℕ → Byte} {s : Rank}
    (hm : ∀ x y z, x < g.L → y < g.L → z < g.Lz →
      s.m2 (g.pad (x, y, z)) = some (if C x y (r * g.Lz + z) then 1 else 0))
    (h0 : ∀ a, a < 2 * g.v3 → (∀ p, g.In p → a ≠ g.pad p) → s.m2 a = some 0)
    (hb : HasMap g r b s) {order : List ℕ} (ho : Indices g order) :
    ∃ s', begin g order s = some s' ∧
      Part g r (fun x y z => if C x y z then 1 else 0)
        (fun x y z => if C x y z then (b x y z).addMask else b x y z) s' := by
  have hroom : g.Room s.m2 := by
    intro a ha
    by_cases hp : ∃ p, g.In p ∧ a = g.pad p
    · obtain ⟨⟨x, y, z⟩, hp, rfl⟩ := hp
      rw [hm x y z hp.1 hp.2.1 hp.2.2]; rfl
    · push Not at hp
      rw [h0 a ha hp]; rfl
  obtain ⟨m, e, e1, e2⟩ := squeeze_bare hg hroom
  have hv : ∀ x y z, x < g.L → y < g.L → z < g.Lz →
      m (g.bare (x, y, z)) = some (if C x y (r * g.Lz + z) then 1 else 0) := by
    intro x y z hx hy hz
    rw [e1 x y z hx hy hz, hm x y z hx hy hz]
  -- the first mask
  have key : ∃ s', order.foldlM firstMask { s with m2 := m } = some s' ∧ s'.m2 = m ∧
      ∀ x y z, x < g.L → y < g.L → z < g.Lz → s'.sd (g.bare (x, y, z)) =
        some (if g.bare (x, y, z) ∈ order ∧ C x y (r * g.Lz + z) then (b x y (r * g.Lz + z)).addMask
          else b x y (r * g.Lz + z)) := by
    refine foldlM_inv (P := fun pre (s' : Rank) => s'.m2 = m ∧
      ∀ x y z, x < g.L → y < g.L → z < g.Lz → s'.sd (g.bare (x, y, z)) =
        some (if g.bare (x, y, z) ∈ pre ∧ C x y (r * g.Lz + z) then (b x y (r * g.Lz + z)).addMask
          else b x y (r * g.Lz + z))) order ⟨rfl, ?_⟩ ?_
    · intro x y z hx hy hz
      simpa using hb x y z hx hy hz
    · intro pre j post hO t ⟨h1, h2⟩
      have hj : j < g.S * g.Lz := (ho.mem j).1 (by rw [hO]; simp)
      have hnot : j ∉ pre := by
        intro hp
        have := ho.nodup
        rw [hO, List.nodup_append] at this
        exact this.2.2 j hp j (by simp) rfl
      obtain ⟨x, y, z, hx, hy, hz, rfl⟩ := bare_surj hj
      have eb : t.sd (g.bare (x, y, z)) = some (b x y (r * g.Lz + z)) := by
        rw [h2 x y z hx hy hz, if_neg (fun h => hnot h.1)]
      have huniq : ∀ x' y' z', x' < g.L → y' < g.L → z' < g.Lz → g.bare (x', y', z') = g.bare (x, y, z) →
          x' = x ∧ y' = y ∧ z' = z := by
        intro x' y' z' hx' hy' hz' h
        simpa using bare_inj (x', y', z') (x, y, z) ⟨hx', hy', hz'⟩ ⟨hx, hy, hz⟩ h
      unfold firstMask
      rw [h1, hv x y z hx hy hz]
      simp only [Option.bind_eq_bind, Option.bind_some]
      by_cases hC : C x y (r * g.Lz + z)
      · rw [if_pos hC, if_pos (by norm_num), eb]
        simp only [Option.bind_some]
        rw [write_eq _ _ _ (by rw [eb]; rfl)]
        refine ⟨_, rfl, rfl, ?_⟩
        intro x' y' z' hx' hy' hz'
        show (if g.bare (x', y', z') = g.bare (x, y, z) then _ else t.sd _) = _
        by_cases hq : g.bare (x', y', z') = g.bare (x, y, z)
        · obtain ⟨rfl, rfl, rfl⟩ := huniq x' y' z' hx' hy' hz' hq
          rw [if_pos rfl, if_pos ⟨by simp, hC⟩]
        · rw [if_neg hq, h2 x' y' z' hx' hy' hz']
          refine congrArg some (if_congr ?_ rfl rfl)
          simp [hq]
      · rw [if_neg hC, if_neg (by norm_num)]
        refine ⟨t, rfl, h1, ?_⟩
        intro x' y' z' hx' hy' hz'
        rw [h2 x' y' z' hx' hy' hz']
        refine congrArg some (if_congr ?_ rfl rfl)
        by_cases hq : g.bare (x', y', z') = g.bare (x, y, z)
        · obtain ⟨rfl, rfl, rfl⟩ := huniq x' y' z' hx' hy' hz' hq
          simp [hC]
        · simp [hq]
  obtain ⟨s1, f0, f1, f2⟩ := key
  have hle : g.S * g.Lz ≤ g.v3 := by rw [v3_eq]; omega
  obtain ⟨m', k0, k1, k2⟩ := memmove_spec (fun i => GR g + i) (fun i => i) (g.S * g.Lz) m
    (fun i hi => e2 _ (by omega))
    (fun i hi => e2 _ (by have := v3_eq (g := g); omega))
    (fun i _ j _ h => by omega)
  refine ⟨{ s1 with m2 := m' }, ?_, ?_, ?_, ?_⟩
  · unfold begin
    rw [e]
    simp only [Option.bind_eq_bind, Option.bind_some]
    rw [f0]
    simp only [Option.bind_some]
    rw [f1, k0]; rfl
  · intro x y z hx hy hz
    show m' _ = _
    rw [k1 _ (bare_lt' hx hy hz), hv x y z hx hy hz]
  · intro x y z hx hy hz
    show s1.sd _ = _
    rw [f2 x y z hx hy hz]
    refine congrArg some (if_congr ?_ rfl rfl)
    exact ⟨fun h => h.2, fun h => ⟨(ho.mem _).2 (bare_lt' hx hy hz), h⟩⟩
  · intro a ha
    show (m' a).isSome
    by_cases hex : ∃ j, j < g.S * g.Lz ∧ a = GR g + j
    · obtain ⟨j, hj, rfl⟩ := hex
      rw [k1 j hj]
      exact e2 _ (by omega)
    · push Not at hex
      rw [k2 a hex]
      exact e2 a ha

/-- To the second half and by rows to the first. -/
theorem unfoldRows_spec (hg : g.Ok) {m : Heap ℕ ℝ} (hr : g.Room m) :
    ∃ m', unfoldRows g m = some m' ∧ g.Room m' ∧
      ∀ j, j < g.S * g.Lz → m' (g.v3 + j) = m (GR g + j) := by
  have hv := v3_eq (g := g)
  have hS : g.S * g.Lz ≤ g.v3 := by omega
  obtain ⟨m1, e, e1, e2⟩ := memcpy_spec (fun i => g.v3 + i) (fun i => GR g + i) (g.S * g.Lz) m
    (fun i hi => hr _ (by omega)) (fun i hi => hr _ (by omega)) (fun i _ j _ h => by omega)
    (fun i hi j hj h => by omega)
  have hr1 : g.Room m1 := by
    intro a ha
    by_cases hex : ∃ j, j < g.S * g.Lz ∧ a = g.v3 + j
    · obtain ⟨j, hj, rfl⟩ := hex
      rw [e1 j hj]
      exact hr _ (by omega)
    · push Not at hex
      rw [e2 a hex]
      exact hr a ha
  have hlast : ∀ q i, q < g.L * g.Lz → i < g.L → q * (g.L + 2) + i < g.v3 := by
    intro q i h1 h2
    have h3 : q / g.L < g.Lz := Nat.div_lt_of_lt_mul h1
    have h4 := pad_lt hg (i, q % g.L, q / g.L) ⟨h2, Nat.mod_lt _ hg.L, h3⟩
    rwa [pad_row, div_mul_add_mod] at h4
  obtain ⟨m', f, f1, f2⟩ := range_inv (f := fun (m : Heap ℕ ℝ) i =>
      memmove (fun j => (i + 1) * (g.L + 2) + j) (fun j => g.v3 + ((i + 1) * g.L + j)) g.L m) (s := m1)
    (P := fun _ t => g.Room t ∧ ∀ j, j < g.S * g.Lz → t (g.v3 + j) = m (GR g + j)) (g.L * g.Lz - 1)
    ⟨hr1, fun j hj => e1 j hj⟩
    (by
      intro n hn t ⟨h1, h2⟩
      have hq : ∀ i, i < g.L → (n + 1) * g.L + i < g.S * g.Lz := by
        intro i hi
        have := pair_lt (a := g.L * g.Lz) (b := g.L) (q := n + 1) (by omega) hi
        have e : g.L * g.Lz * g.L = g.S * g.Lz := by unfold Grid.S; ring
        omega
      obtain ⟨t', k0, k1, k2⟩ := memmove_spec (fun j => (n + 1) * (g.L + 2) + j)
        (fun j => g.v3 + ((n + 1) * g.L + j)) g.L t
        (fun i hi => h1 _ (by have := hq i hi; omega))
        (fun i hi => h1 _ (by have := hlast (n + 1) i (by omega) hi; omega))
        (fun i _ j _ h => by omega)
      refine ⟨t', k0, ?_, ?_⟩
      · intro a ha
        by_cases hex : ∃ i, i < g.L ∧ a = (n + 1) * (g.L + 2) + i
        · obtain ⟨i, hi, rfl⟩ := hex
          rw [k1 i hi]
          exact h1 _ (by have := hq i hi; omega)
        · push Not at hex
          rw [k2 a hex]
          exact h1 a ha
      · intro j hj
        rw [k2, h2 j hj]
        intro i hi h
        have := hlast (n + 1) i (by omega) hi
        omega)
  refine ⟨m', ?_, f1, f2⟩
  unfold unfoldRows
  rw [e]
  exact f

open Classical in
/-- C74.  After the iterations: the stored mask, padded for the transform and bare for the map, is one
minus the diffused numbers, and the string map has in its mask the sites above a half. -/
theorem C74_finish (hg : g.Ok) {r : ℕ} {V : ℕ → ℕ → ℕ → ℝ} {B : ℕ → ℕ → ℕ → Byte} {s : Rank}
    (hp : Part g r V B s) {order : List Site} (ho : g.Order order) :
    ∃ s', finish g order s = some s' ∧ ∀ x y z, x < g.L → y < g.L → z < g.Lz →
      s'.m2 (g.v3 + g.bare (x, y, z)) = some (1 - V x y (r * g.Lz + z)) ∧
      s'.m2 (g.pad (x, y, z)) = some (1 - V x y (r * g.Lz + z)) ∧
      s'.sd (g.bare (x, y, z)) = some (if 1 / 2 < V x y (r * g.Lz + z) then (B x y (r * g.Lz + z)).addMask
        else B x y (r * g.Lz + z)) := by
  have hv := v3_eq (g := g)
  obtain ⟨m, e, e1, e2⟩ := unfoldRows_spec hg hp.room
  have hm : ∀ x y z, x < g.L → y < g.L → z < g.Lz →
      m (g.v3 + g.bare (x, y, z)) = some (V x y (r * g.Lz + z)) := by
    intro x y z hx hy hz
    rw [e2 _ (bare_lt' hx hy hz)]
    exact hp.m2 x y z hx hy hz
  let nB : ℕ → ℕ → ℕ → Byte := fun x y z => if 1 / 2 < V x y z then (B x y z).addMask else B x y z
  have key : ∃ s', order.foldlM (lastDiff g) { s with m2 := m } = some s' ∧ g.Room s'.m2 ∧
      ∀ x y z, x < g.L → y < g.L → z < g.Lz →
        s'.m2 (g.v3 + g.bare (x, y, z)) = some (if (x, y, z) ∈ order then 1 - V x y (r * g.Lz + z)
          else V x y (r * g.Lz + z)) ∧
        ((x, y, z) ∈ order → s'.m2 (g.pad (x, y, z)) = some (1 - V x y (r * g.Lz + z))) ∧
        s'.sd (g.bare (x, y, z)) = some (if (x, y, z) ∈ order then nB x y (r * g.Lz + z)
          else B x y (r * g.Lz + z)) := by
    refine foldlM_inv (P := fun pre (s' : Rank) => g.Room s'.m2 ∧
      ∀ x y z, x < g.L → y < g.L → z < g.Lz →
        s'.m2 (g.v3 + g.bare (x, y, z)) = some (if (x, y, z) ∈ pre then 1 - V x y (r * g.Lz + z)
          else V x y (r * g.Lz + z)) ∧
        ((x, y, z) ∈ pre → s'.m2 (g.pad (x, y, z)) = some (1 - V x y (r * g.Lz + z))) ∧
        s'.sd (g.bare (x, y, z)) = some (if (x, y, z) ∈ pre then nB x y (r * g.Lz + z)
          else B x y (r * g.Lz + z))) order ⟨e1, ?_⟩ ?_
    · intro x y z hx hy hz
      refine ⟨by simpa using hm x y z hx hy hz, by simp, by simpa using hp.sd x y z hx hy hz⟩
    · intro pre p post hO t ⟨h1, h2⟩
      obtain ⟨x, y, z⟩ := p
      obtain ⟨hx, hy, hz⟩ := (ho.mem (x, y, z)).1 (by rw [hO]; simp)
      dsimp only at hx hy hz
      have hnot : (x, y, z) ∉ pre := by
        intro hp
        have := ho.nodup
        rw [hO, List.nodup_append] at this
        exact this.2.2 _ hp _ (by simp) rfl
      obtain ⟨q1, _, q3⟩ := h2 x y z hx hy hz
      rw [if_neg hnot] at q1 q3
      have hpl := pad_lt hg (x, y, z) ⟨hx, hy, hz⟩
      have hw1 : t.m2.write (g.v3 + g.bare (x, y, z)) (1 - V x y (r * g.Lz + z)) = some fun a =>
          if a = g.v3 + g.bare (x, y, z) then some (1 - V x y (r * g.Lz + z)) else t.m2 a :=
        write_eq _ _ _ (by rw [q1]; rfl)
      have hw2 : Heap.write (fun a => if a = g.v3 + g.bare (x, y, z) then some (1 - V x y (r * g.Lz + z))
          else t.m2 a) (g.pad (x, y, z)) (1 - V x y (r * g.Lz + z)) = some fun a =>
          if a = g.pad (x, y, z) then some (1 - V x y (r * g.Lz + z)) else
            if a = g.v3 + g.bare (x, y, z) then some (1 - V x y (r * g.Lz + z)) else t.m2 a :=
        write_eq _ _ _ (by
          rw [if_neg (by omega)]
          exact h1 _ (by omega))
      have hw3 : t.sd.write (g.bare (x, y, z)) (final .diff 0.5 (V x y (r * g.Lz + z)) (B x y (r * g.Lz + z))).2 =
          some fun a => if a = g.bare (x, y, z) then
            some (final .diff 0.5 (V x y (r * g.Lz + z)) (B x y (r * g.Lz + z))).2 else t.sd a :=
        write_eq _ _ _ (by rw [q3]; rfl)
      have hfin : (final .diff 0.5 (V x y (r * g.Lz + z)) (B x y (r * g.Lz + z))).2 = nB x y (r * g.Lz + z) := by
        show (if V x y (r * g.Lz + z) > 0.5 then _ else _) = ite _ _ _
        refine if_congr ?_ rfl rfl
        norm_num
      refine ⟨{ t with
          m2 := fun a => if a = g.pad (x, y, z) then some (1 - V x y (r * g.Lz + z)) else
            if a = g.v3 + g.bare (x, y, z) then some (1 - V x y (r * g.Lz + z)) else t.m2 a
          sd := fun a => if a = g.bare (x, y, z) then some (nB x y (r * g.Lz + z)) else t.sd a }, ?_, ?_, ?_⟩
      · unfold lastDiff
        rw [q1, q3]
        simp only [Option.bind_eq_bind, Option.bind_some]
        rw [hw3, show (final .diff 0.5 (V x y (r * g.Lz + z)) (B x y (r * g.Lz + z))).1 = 1 - V x y (r * g.Lz + z) from rfl]
        simp only [Option.bind_some]
        rw [hw1]
        simp only [Option.bind_some]
        rw [hw2, hfin]; rfl
      · intro a ha
        show (if _ then _ else if _ then _ else t.m2 a).isSome
        split
        · rfl
        · split
          · rfl
          · exact h1 a ha
      · intro x' y' z' hx' hy' hz'
        obtain ⟨p1, p2, p3⟩ := h2 x' y' z' hx' hy' hz'
        have hpl' := pad_lt hg (x', y', z') ⟨hx', hy', hz'⟩
        by_cases hq : (x', y', z') = (x, y, z)
        · simp only [Prod.mk.injEq] at hq
          obtain ⟨rfl, rfl, rfl⟩ := hq
          refine ⟨?_, fun _ => ?_, ?_⟩
          · show (if _ then _ else if _ then _ else _) = _
            rw [if_neg (by omega), if_pos rfl, if_pos (by simp)]
          · show (if _ then _ else _) = _
            rw [if_pos rfl]
          · show (if _ then _ else _) = _
            rw [if_pos rfl, if_pos (by simp)]
        · have hb' : g.bare (x', y', z') ≠ g.bare (x, y, z) := fun h =>
            hq (bare_inj _ _ ⟨hx', hy', hz'⟩ ⟨hx, hy, hz⟩ h)
          have hp' : g.pad (x', y', z') ≠ g.pad (x, y, z) := fun h =>
            hq (pad_inj _ _ ⟨hx', hy', hz'⟩ ⟨hx, hy, hz⟩ h)
          have hmem : (x', y', z') ∈ pre ++ [(x, y, z)] ↔ (x', y', z') ∈ pre := by
            simp only [List.mem_append, List.mem_singleton, hq, or_false]
          refine ⟨?_, fun h => ?_, ?_⟩
          · show (if _ then _ else if _ then _ else _) = _
            rw [if_neg (by omega), if_neg (by omega), p1]
            exact congrArg some (if_congr hmem.symm rfl rfl)
          · show (if _ then _ else if _ then _ else _) = _
            rw [if_neg hp', if_neg (by omega)]
            exact p2 (hmem.1 h)
          · show (if _ then _ else _) = _
            rw [if_neg hb', p3]
            exact congrArg some (if_congr hmem.symm rfl rfl)
  obtain ⟨s', f, _, f2⟩ := key
  refine ⟨s', ?_, ?_⟩
  · unfold finish
    rw [e]
    exact f
  · intro x y z hx hy hz
    obtain ⟨p1, p2, p3⟩ := f2 x y z hx hy hz
    have hin : (x, y, z) ∈ order := (ho.mem _).2 ⟨hx, hy, hz⟩
    rw [if_pos hin] at p1 p3
    exact ⟨p1, p2 hin, p3⟩

end Jaxions.Masker
