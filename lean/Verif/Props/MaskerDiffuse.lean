import Verif.Lemmas.Diffuse

/-
C74: the diffused mask.
-/

namespace Jaxions.Masker

open AxSpec (Grid Site bare_inj)

variable {g : Grid}

/-- Each index of a site once, in some order. -/
structure Indices (g : Grid) (order : List ℕ) : Prop where
  nodup : order.Nodup
  mem : ∀ j, j ∈ order ↔ j < g.S * g.Lz

theorem bare_lt' {x y z : ℕ} (hx : x < g.L) (hy : y < g.L) (hz : z < g.Lz) : g.bare (x, y, z) < g.S * g.Lz := by
  rw [bare_slice, mul_comm g.S]
  exact pair_lt hz (xy_lt hx hy)

theorem bare_surj {j : ℕ} (h : j < g.S * g.Lz) :
    ∃ x y z, x < g.L ∧ y < g.L ∧ z < g.Lz ∧ j = g.bare (x, y, z) := by
  have hL : 0 < g.L := by
    rcases Nat.eq_zero_or_pos g.L with h0 | h0
    · unfold Grid.S at h; rw [h0] at h; simp at h
    · exact h0
  have hS : 0 < g.S := Nat.mul_pos hL hL
  refine ⟨j % g.S % g.L, j % g.S / g.L, j / g.S, Nat.mod_lt _ hL,
    Nat.div_lt_of_lt_mul (Nat.mod_lt _ hS), Nat.div_lt_of_lt_mul h, ?_⟩
  rw [bare_slice]
  have h1 := div_mul_add_mod j g.S
  have h2 := Nat.mod_add_div (j % g.S) g.L
  omega

open Classical in
/-- The loop over the sites. -/
theorem diffuse_spec (hL : 2 ≤ g.L) (hN : 1 ≤ g.Ng) (grow : Bool) {r T : ℕ} {V : ℕ → ℕ → ℕ → ℝ}
    {B : ℕ → ℕ → ℕ → Byte} {s : Rank} (hroom : Room g s.m2)
    (hc : ∀ x y z, x < g.L → y < g.L → z < g.Lz →
      s.m2 ((2 * g.Ng + z) * g.S + (x + g.L * y)) = some (V x y (r * g.Lz + z)))
    (hp : ∀ x y z, x < g.L → y < g.L → z < g.Lz →
      s.m2 ((2 * g.Ng + z + 1) * g.S + (x + g.L * y)) = some (V x y ((r * g.Lz + z + 1) % T)))
    (hm : ∀ x y z, x < g.L → y < g.L → z < g.Lz →
      s.m2 ((2 * g.Ng + z - 1) * g.S + (x + g.L * y)) = some (V x y ((r * g.Lz + z + T - 1) % T)))
    (hsd : ∀ x y z, x < g.L → y < g.L → z < g.Lz → s.sd (g.bare (x, y, z)) = some (B x y (r * g.Lz + z)))
    {order : List ℕ} (ho : Indices g order) :
    ∃ s', order.foldlM (diffuse g grow) s = some s' ∧
      (∀ x y z, x < g.L → y < g.L → z < g.Lz →
        s'.m2 (aux g + g.bare (x, y, z)) = some (newV g.L T grow V B x y (r * g.Lz + z))) ∧
      (∀ x y z, x < g.L → y < g.L → z < g.Lz →
        ∃ b, s'.sd (g.bare (x, y, z)) = some b ∧ b = if (B x y (r * g.Lz + z)).mask then B x y (r * g.Lz + z) else
          newB g.L T grow V B x y (r * g.Lz + z)) ∧
      Room g s'.m2 := by
  have hax : aux g = (g.Lz + 4 * g.Ng) * g.S := by
    unfold aux Grid.v3
    rw [show 2 * (g.S * (g.Lz + 2 * g.Ng)) = (g.Lz + 4 * g.Ng) * g.S + g.S * g.Lz by ring]
    omega
  have hGR : GR g = 2 * g.Ng * g.S := by unfold GR; ring
  let nB : ℕ → ℕ → ℕ → Byte := fun x y z => if (B x y z).mask then B x y z else newB g.L T grow V B x y z
  have key : ∃ s', order.foldlM (diffuse g grow) s = some s' ∧
      (∀ a, (∀ j ∈ order, a ≠ aux g + j) → s'.m2 a = s.m2 a) ∧
      (∀ x y z, x < g.L → y < g.L → z < g.Lz → g.bare (x, y, z) ∈ order →
        s'.m2 (aux g + g.bare (x, y, z)) = some (newV g.L T grow V B x y (r * g.Lz + z))) ∧
      (∀ x y z, x < g.L → y < g.L → z < g.Lz → s'.sd (g.bare (x, y, z)) =
        some (if g.bare (x, y, z) ∈ order then nB x y (r * g.Lz + z) else B x y (r * g.Lz + z))) := by
    refine foldlM_inv (P := fun pre (s' : Rank) =>
      (∀ a, (∀ j ∈ pre, a ≠ aux g + j) → s'.m2 a = s.m2 a) ∧
      (∀ x y z, x < g.L → y < g.L → z < g.Lz → g.bare (x, y, z) ∈ pre →
        s'.m2 (aux g + g.bare (x, y, z)) = some (newV g.L T grow V B x y (r * g.Lz + z))) ∧
      (∀ x y z, x < g.L → y < g.L → z < g.Lz → s'.sd (g.bare (x, y, z)) =
        some (if g.bare (x, y, z) ∈ pre then nB x y (r * g.Lz + z) else B x y (r * g.Lz + z)))) order
      ⟨by simp, by simp, ?_⟩ ?_
    · intro x y z hx hy hz
      simpa using hsd x y z hx hy hz
    · intro pre j post hO t ⟨h1, h2, h3⟩
      have hj : j < g.S * g.Lz := (ho.mem j).1 (by rw [hO]; simp)
      have hnot : j ∉ pre := by
        intro hp
        have := ho.nodup
        rw [hO, List.nodup_append] at this
        exact this.2.2 j hp j (by simp) rfl
      obtain ⟨x, y, z, hx, hy, hz, rfl⟩ := bare_surj hj
      have hxy := xy_lt hx hy
      -- cells below `aux` are as they were
      have low : ∀ w i, w < g.Lz + 4 * g.Ng → i < g.S → t.m2 (w * g.S + i) = s.m2 (w * g.S + i) := by
        intro w i hw hi
        refine h1 _ fun k hk h => ?_
        rw [hax] at h
        have : w * g.S + i < (g.Lz + 4 * g.Ng) * g.S := pair_lt hw hi
        omega
      have eb : t.sd (g.bare (x, y, z)) = some (B x y (r * g.Lz + z)) := by
        rw [h3 x y z hx hy hz, if_neg hnot]
      have hcell : (t.m2 (aux g + g.bare (x, y, z))).isSome := by
        rw [h1 _ fun k hk h => hnot (by
          have : g.bare (x, y, z) = k := by omega
          rw [this]; exact hk), hax, bare_slice, ← add_assoc, ← add_mul]
        exact hroom _ _ (by omega) hxy
      -- what a write does to the invariant
      have fin : ∀ (v : ℝ) (sd' : Heap ℕ Byte), v = newV g.L T grow V B x y (r * g.Lz + z) →
          (∀ a, sd' a = if a = g.bare (x, y, z) then some (nB x y (r * g.Lz + z)) else t.sd a) →
          ∃ t', (t.m2.write (aux g + g.bare (x, y, z)) v).map (fun m2 => ({ m2 := m2, out := t.out, sd := sd' } : Rank)) = some t' ∧
            (∀ a, (∀ j ∈ pre ++ [g.bare (x, y, z)], a ≠ aux g + j) → t'.m2 a = s.m2 a) ∧
            (∀ x' y' z', x' < g.L → y' < g.L → z' < g.Lz → g.bare (x', y', z') ∈ pre ++ [g.bare (x, y, z)] →
              t'.m2 (aux g + g.bare (x', y', z')) = some (newV g.L T grow V B x' y' (r * g.Lz + z'))) ∧
            (∀ x' y' z', x' < g.L → y' < g.L → z' < g.Lz → t'.sd (g.bare (x', y', z')) =
              some (if g.bare (x', y', z') ∈ pre ++ [g.bare (x, y, z)] then nB x' y' (r * g.Lz + z') else B x' y' (r * g.Lz + z'))) := by
        intro v sd' hv hsd'
        rw [write_eq _ _ _ hcell]
        refine ⟨_, rfl, ?_, ?_, ?_⟩
        · intro a ha
          show (if a = _ then _ else t.m2 a) = _
          rw [if_neg (ha _ (by simp))]
          exact h1 a fun k hk => ha k (by simp [hk])
        · intro x' y' z' hx' hy' hz' hmem
          show (if _ = _ then _ else t.m2 _) = _
          by_cases he : g.bare (x', y', z') = g.bare (x, y, z)
          · have := bare_inj (x', y', z') (x, y, z) ⟨hx', hy', hz'⟩ ⟨hx, hy, hz⟩ he
            simp only [Prod.mk.injEq] at this
            obtain ⟨rfl, rfl, rfl⟩ := this
            rw [if_pos rfl, hv]
          · rw [if_neg (by omega)]
            refine h2 x' y' z' hx' hy' hz' ?_
            rcases List.mem_append.1 hmem with h | h
            · exact h
            · exact absurd (List.mem_singleton.1 h) he
        · intro x' y' z' hx' hy' hz'
          show sd' _ = _
          rw [hsd']
          by_cases he : g.bare (x', y', z') = g.bare (x, y, z)
          · have := bare_inj (x', y', z') (x, y, z) ⟨hx', hy', hz'⟩ ⟨hx, hy, hz⟩ he
            simp only [Prod.mk.injEq] at this
            obtain ⟨rfl, rfl, rfl⟩ := this
            rw [if_pos rfl, if_pos (by simp)]
          · rw [if_neg he, h3 x' y' z' hx' hy' hz']
            refine congrArg some (if_congr ?_ rfl rfl)
            simp [he]
      have same : nB x y (r * g.Lz + z) = B x y (r * g.Lz + z) → ∀ a, t.sd a =
          if a = g.bare (x, y, z) then some (nB x y (r * g.Lz + z)) else t.sd a := by
        intro h a
        split
        · next ha => rw [ha, eb, h]
        · rfl
      unfold diffuse
      rw [eb]
      simp only [Option.bind_eq_bind, Option.bind_some]
      by_cases hmask : (B x y (r * g.Lz + z)).mask = true
      · rw [if_pos hmask]
        refine fin 1 t.sd ?_ (same ?_)
        · unfold newV; rw [if_pos hmask]
        · exact if_pos hmask
      · rw [if_neg hmask]
        have hidx : GR g + g.bare (x, y, z) = (2 * g.Ng + z) * g.S + (x + g.L * y) := by
          rw [hGR, bare_slice]; ring
        have hLp : ∀ n, n % g.L < g.L := fun n => Nat.mod_lt _ (by omega)
        have r1 : t.m2 (GR g + g.bare (x, y, z) + g.S) = some (V x y ((r * g.Lz + z + 1) % T)) := by
          rw [hidx, show (2 * g.Ng + z) * g.S + (x + g.L * y) + g.S = (2 * g.Ng + z + 1) * g.S + (x + g.L * y) by ring,
            low _ _ (by omega) hxy]
          exact hp x y z hx hy hz
        have r2 : t.m2 (GR g + g.bare (x, y, z) - g.S) = some (V x y ((r * g.Lz + z + T - 1) % T)) := by
          rw [hidx, show (2 * g.Ng + z) * g.S + (x + g.L * y) - g.S = (2 * g.Ng + z - 1) * g.S + (x + g.L * y) by
              obtain ⟨k, hk⟩ : ∃ k, 2 * g.Ng + z = k + 1 := ⟨2 * g.Ng + z - 1, by omega⟩
              rw [hk, Nat.add_sub_cancel, add_mul, one_mul]; omega,
            low _ _ (by omega) hxy]
          exact hm x y z hx hy hz
        have rr : ∀ x' y', x' < g.L → y' < g.L →
            t.m2 ((2 * g.Ng + z) * g.S + (x' + g.L * y')) = some (V x' y' (r * g.Lz + z)) := by
          intro x' y' hx' hy'
          rw [low _ _ (by omega) (xy_lt hx' hy')]
          exact hc x' y' z hx' hy' hz
        rw [r1, r2, hidx, neigh_spec hL hx hy]
        simp only [Option.bind_some]
        rw [rr _ _ (hLp _) hy, rr _ _ (hLp _) hy, rr _ _ hx (hLp _), rr _ _ hx (hLp _)]
        simp only [Option.bind_some]
        by_cases hgrow : grow = true
        · rw [if_pos hgrow]
          have hiff : (0 < V x y ((r * g.Lz + z + 1) % T) ∨ 0 < V x y ((r * g.Lz + z + T - 1) % T) ∨
              0 < V ((x + 1) % g.L) y (r * g.Lz + z) ∨ 0 < V ((x + g.L - 1) % g.L) y (r * g.Lz + z) ∨
              0 < V x ((y + 1) % g.L) (r * g.Lz + z) ∨ 0 < V x ((y + g.L - 1) % g.L) (r * g.Lz + z)) ↔
              ∃ v ∈ nb g.L T V x y (r * g.Lz + z), 0 < v := by
            unfold nb
            simp only [List.mem_cons, List.not_mem_nil, or_false, exists_eq_or_imp, exists_eq_left]
            tauto
          by_cases hpos : ∃ v ∈ nb g.L T V x y (r * g.Lz + z), 0 < v
          · rw [if_pos (hiff.2 hpos), write_eq _ _ _ (by rw [eb]; rfl)]
            simp only [Option.bind_some]
            refine fin 1 _ ?_ ?_
            · unfold newV; rw [if_neg hmask, if_pos hgrow, if_pos hpos]
            · intro a
              refine if_congr Iff.rfl (congrArg some ?_) rfl
              show _ = ite _ _ _
              rw [if_neg hmask]
              unfold newB
              rw [if_pos ⟨hgrow, hpos⟩]
          · rw [if_neg (fun h => hpos (hiff.1 h))]
            refine fin 0 t.sd ?_ (same ?_)
            · unfold newV; rw [if_neg hmask, if_pos hgrow, if_neg hpos]
            · show ite _ _ _ = _
              rw [if_neg hmask]
              unfold newB
              rw [if_neg (fun h => hpos h.2)]
        · rw [if_neg hgrow]
          refine fin _ t.sd ?_ (same ?_)
          · unfold newV
            rw [if_neg hmask, if_neg hgrow]
            unfold nb
            simp only [List.sum_cons, List.sum_nil]
            ring
          · show ite _ _ _ = _
            rw [if_neg hmask]
            unfold newB
            rw [if_neg (fun h => hgrow h.1)]
  obtain ⟨s', e, e1, e2, e3⟩ := key
  refine ⟨s', e, ?_, ?_, ?_⟩
  · intro x y z hx hy hz
    exact e2 x y z hx hy hz ((ho.mem _).2 (bare_lt' hx hy hz))
  · intro x y z hx hy hz
    refine ⟨_, e3 x y z hx hy hz, ?_⟩
    rw [if_pos ((ho.mem _).2 (bare_lt' hx hy hz))]
  · intro w i hw hi
    by_cases h : ∃ j ∈ order, w * g.S + i = aux g + j
    · obtain ⟨j, hj, h⟩ := h
      obtain ⟨x, y, z, hx, hy, hz, rfl⟩ := bare_surj ((ho.mem j).1 hj)
      rw [h, e2 x y z hx hy hz hj]; rfl
    · push Not at h
      rw [e1 _ h]
      exact hroom w i hw hi

theorem newB_mask {L T : ℕ} {grow : Bool} {V : ℕ → ℕ → ℕ → ℝ} {B : ℕ → ℕ → ℕ → Byte} {x y z : ℕ}
    (h : (B x y z).mask = true) : newB L T grow V B x y z = B x y z := by
  unfold newB
  split
  · unfold Byte.addMask
    rw [← h]
  · rfl

/-- C74.  One iteration of the diffused mask on the ranks, with their slices exchanged through the
exchange of complex slices, is one iteration on the whole periodic lattice, whatever the orders of the
threads, if each rank has at least as many slices as two ghost regions. -/
theorem C74_diffuse (hL : 2 ≤ g.L) (hN : 1 ≤ g.Ng) (hz : 2 * g.Ng ≤ g.Lz) (grow : Bool) {R : ℕ}
    (V : ℕ → ℕ → ℕ → ℝ) (B : ℕ → ℕ → ℕ → Byte) (st : ℕ → Rank) (hst : ∀ r, r < R → Part g r V B (st r))
    (order : ℕ → List ℕ) (ho : ∀ r, r < R → Indices g (order r)) :
    ∃ (m1 : ℕ → Heap ℕ ℝ) (s2 : ℕ → Rank),
      (∀ r, r < R → stage g (st r).m2 = some (m1 r)) ∧
      (∀ r, r < R → iterRank g grow (order r) (m1 ((r + R - 1) % R)) (m1 ((r + 1) % R))
        { st r with m2 := m1 r } = some (s2 r)) ∧
      ∀ r, r < R → Part g r (newV g.L (R * g.Lz) grow V B) (newB g.L (R * g.Lz) grow V B) (s2 r) := by
  classical
  have hGR : GR g = 2 * g.Ng * g.S := by unfold GR; ring
  have hLz : 0 < g.Lz := by omega
  have hv : 2 * g.v3 = (2 * g.Lz + 4 * g.Ng) * g.S := by unfold Grid.v3; ring
  have hS : 0 < g.S := Nat.mul_pos (by omega) (by omega)
  have h1 : ∀ r, ∃ m', r < R → (stage g (st r).m2 = some m' ∧ ∀ w i, i < g.S →
      m' (w * g.S + i) = if w = 2 * g.Lz then (st r).m2 ((2 * g.Ng + g.Lz - 1) * g.S + i)
        else (st r).m2 (w * g.S + i)) := by
    intro r
    by_cases h : r < R
    · obtain ⟨m', hm⟩ := stage_spec hN hz (hst r h).slices
      exact ⟨m', fun _ => hm⟩
    · exact ⟨fun _ => none, fun h' => absurd h' h⟩
  choose m1 hm1 using h1
  have room1 : ∀ r, r < R → Room g (m1 r) := by
    intro r h w i hw hi
    rw [(hm1 r h).2 w i hi]
    split
    · exact (hst r h).slices _ _ (by omega) hi
    · exact (hst r h).slices _ _ hw hi
  -- the numbers of a rank, by slices
  have val : ∀ r, r < R → ∀ x y z, x < g.L → y < g.L → z < g.Lz →
      (st r).m2 ((2 * g.Ng + z) * g.S + (x + g.L * y)) = some (V x y (r * g.Lz + z)) := by
    intro r h x y z hx hy hz'
    have := (hst r h).m2 x y z hx hy hz'
    rwa [hGR, bare_slice, ← add_assoc, ← add_mul] at this
  have h2 : ∀ r, ∃ s', r < R → (iterRank g grow (order r) (m1 ((r + R - 1) % R)) (m1 ((r + 1) % R))
        { st r with m2 := m1 r } = some s' ∧
      Part g r (newV g.L (R * g.Lz) grow V B) (newB g.L (R * g.Lz) grow V B) s') := by
    intro r
    by_cases h : r < R
    swap
    · exact ⟨st r, fun h' => absurd h' h⟩
    have hp : (r + R - 1) % R < R := Nat.mod_lt _ (by omega)
    have hn : (r + 1) % R < R := Nat.mod_lt _ (by omega)
    generalize hP : (r + R - 1) % R = P at *
    generalize hQ : (r + 1) % R = Q at *
    have roomX : Room g (exchange g (m1 P) (m1 Q) (m1 r)) := by
      intro w i hw hi
      rw [exchange_spec (by omega) _ _ _ hi hw]
      split
      · exact room1 P hp _ _ (by omega) hi
      · split
        · exact room1 Q hn _ _ (by omega) hi
        · exact room1 r h _ _ hw hi
    obtain ⟨m2, e2, f2⟩ := place_spec hN hLz roomX
    have room2 : Room g m2 := by
      intro w i hw hi
      rw [f2 w i hi]
      split
      · exact roomX _ _ (by omega) hi
      · split
        · exact roomX _ _ (by omega) hi
        · exact roomX _ _ hw hi
    have inner : ∀ x y z, x < g.L → y < g.L → z < g.Lz →
        m2 ((2 * g.Ng + z) * g.S + (x + g.L * y)) = some (V x y (r * g.Lz + z)) := by
      intro x y z hx hy hz'
      have hi := xy_lt hx hy
      rw [f2 _ _ hi, if_neg (by omega), if_neg (by omega), exchange_spec (by omega) _ _ _ hi (by omega),
        if_neg (by omega), if_neg (by omega), (hm1 r h).2 _ _ hi, if_neg (by omega)]
      exact val r h x y z hx hy hz'
    have below : ∀ x y, x < g.L → y < g.L →
        m2 ((2 * g.Ng - 1) * g.S + (x + g.L * y)) = some (V x y (P * g.Lz + (g.Lz - 1))) := by
      intro x y hx hy
      have hi := xy_lt hx hy
      rw [f2 _ _ hi, if_pos rfl, exchange_spec (by omega) _ _ _ hi (by omega), if_pos (by omega), add_zero,
        (hm1 P hp).2 _ _ hi, if_pos rfl, show 2 * g.Ng + g.Lz - 1 = 2 * g.Ng + (g.Lz - 1) by omega]
      exact val P hp x y _ hx hy (by omega)
    have above : ∀ x y, x < g.L → y < g.L →
        m2 ((2 * g.Ng + g.Lz) * g.S + (x + g.L * y)) = some (V x y (Q * g.Lz)) := by
      intro x y hx hy
      have hi := xy_lt hx hy
      rw [f2 _ _ hi, if_neg (by omega), if_pos rfl, exchange_spec (by omega) _ _ _ hi (by omega), if_neg (by omega),
        if_pos le_rfl, Nat.add_sub_cancel, (hm1 Q hn).2 _ _ hi, if_neg (by omega)]
      exact val Q hn x y 0 hx hy hLz
    obtain ⟨s3, e3, v3, b3, room3⟩ := diffuse_spec (g := g) hL hN grow (r := r) (T := R * g.Lz) (V := V) (B := B)
      (s := { st r with m2 := m2 }) room2 inner
      (by
        intro x y z hx hy hz'
        by_cases hl : z + 1 < g.Lz
        · rw [add_assoc _ z, add_assoc _ z, Nat.mod_eq_of_lt (pair_lt h hl)]
          exact inner x y (z + 1) hx hy hl
        · have hzz : z + 1 = g.Lz := by omega
          rw [add_assoc _ z, add_assoc _ z, hzz, show r * g.Lz + g.Lz = (r + 1) * g.Lz by ring,
            Nat.mul_mod_mul_right, hQ]
          exact above x y hx hy)
      (by
        intro x y z hx hy hz'
        have hT : 0 < R * g.Lz := Nat.mul_pos (by omega) hLz
        rcases Nat.eq_zero_or_pos z with rfl | hz0
        · rw [add_zero, add_zero, show (r * g.Lz + R * g.Lz - 1) % (R * g.Lz) = P * g.Lz + (g.Lz - 1) from ?_]
          · exact below x y hx hy
          · have : r * g.Lz + R * g.Lz - 1 = (r + R - 1) * g.Lz + (g.Lz - 1) := by
              obtain ⟨k, hk⟩ : ∃ k, r + R = k + 1 := ⟨r + R - 1, by omega⟩
              rw [← add_mul, hk, Nat.add_sub_cancel, add_mul, one_mul]
              omega
            have h5 := div_mul_add_mod (r + R - 1) R
            rw [this, ← h5, hP, show ((r + R - 1) / R * R + P) * g.Lz + (g.Lz - 1) =
              P * g.Lz + (g.Lz - 1) + (R * g.Lz) * ((r + R - 1) / R) by ring, Nat.add_mul_mod_self_left]
            exact Nat.mod_eq_of_lt (pair_lt hp (by omega))
        · obtain ⟨k, rfl⟩ : ∃ k, z = k + 1 := ⟨z - 1, by omega⟩
          rw [show 2 * g.Ng + (k + 1) - 1 = 2 * g.Ng + k by omega,
            show r * g.Lz + (k + 1) + R * g.Lz - 1 = r * g.Lz + k + R * g.Lz by omega, Nat.add_mod_right,
            Nat.mod_eq_of_lt (pair_lt h (by omega))]
          exact inner x y k hx hy (by omega))
      (hst r h).sd (ho r h)
    obtain ⟨m4, e4, v4, o4⟩ := back_spec hN room3
    refine ⟨{ s3 with m2 := m4 }, fun _ => ⟨?_, ?_, ?_, ?_⟩⟩
    · unfold iterRank
      dsimp only
      rw [e2]
      simp only [Option.bind_eq_bind, Option.bind_some]
      rw [e3]
      simp only [Option.bind_some]
      rw [e4]; rfl
    · intro x y z hx hy hz'
      show m4 _ = _
      rw [v4 _ (bare_lt' hx hy hz')]
      exact v3 x y z hx hy hz'
    · intro x y z hx hy hz'
      obtain ⟨b, hb, hb'⟩ := b3 x y z hx hy hz'
      show s3.sd _ = _
      rw [hb, hb']
      split
      · next hmask => rw [newB_mask hmask]
      · rfl
    · intro a ha
      show (m4 a).isSome
      by_cases hex : ∃ j, j < g.S * g.Lz ∧ a = GR g + j
      · obtain ⟨j, hj, rfl⟩ := hex
        obtain ⟨x, y, z, hx, hy, hz', rfl⟩ := bare_surj hj
        rw [v4 _ hj, v3 x y z hx hy hz']; rfl
      · push Not at hex
        rw [o4 a hex]
        rw [hv] at ha
        have := room3 (a / g.S) (a % g.S) (Nat.div_lt_of_lt_mul (by rw [mul_comm]; exact ha)) (Nat.mod_lt _ hS)
        rwa [div_mul_add_mod] at this
  choose s2 hs2 using h2
  exact ⟨m1, s2, fun r h => (hm1 r h).1, fun r h => (hs2 r h).1, fun r h => (hs2 r h).2⟩

/-- C74: the limit of the code.  With one slice less than two ghost regions the last slice is copied onto
itself by `memcpy`, which is undefined. -/
theorem C74_diffuse_overlap (hL : 0 < g.L) (hN : 1 ≤ g.Ng) (hz : g.Lz + 1 = 2 * g.Ng) (m : Heap ℕ ℝ) :
    stage g m = none := by
  unfold stage memcpy
  rw [if_neg]
  intro h
  have hS : 0 < g.S := Nat.mul_pos hL hL
  refine h 0 hS 0 hS ?_
  dsimp only
  obtain ⟨k, hk⟩ : ∃ k, g.Ng = k + 1 := ⟨g.Ng - 1, by omega⟩
  rw [show g.Lz - g.Ng = k by omega, show g.Lz - 1 = 2 * k by omega]
  ring

/-- C74: the limit of the code.  With fewer slices still the copy of the last slice falls on another slice of
the mask, which is lost. -/
theorem C74_diffuse_lost (hN : g.Ng ≤ g.Lz) (hz : g.Lz + 2 ≤ 2 * g.Ng) {m : Heap ℕ ℝ} (hm : Room g m) :
    2 * (g.Lz - g.Ng) < g.Lz - 1 ∧ ∃ m', stage g m = some m' ∧ ∀ x y, x < g.L → y < g.L →
      m' (GR g + g.bare (x, y, 2 * (g.Lz - g.Ng))) = m (GR g + g.bare (x, y, g.Lz - 1)) := by
  obtain ⟨k, hk⟩ : ∃ k, g.Lz = g.Ng + k := ⟨g.Lz - g.Ng, by omega⟩
  have hGR : GR g = 2 * g.Ng * g.S := by unfold GR; ring
  refine ⟨by omega, ?_⟩
  have hs : ∀ i, GR g + g.S * (g.Lz - 1) + i = (2 * g.Ng + (g.Lz - 1)) * g.S + i := by intro i; rw [hGR]; ring
  have hd : ∀ i, GR g + 2 * g.S * (g.Lz - g.Ng) + i = (2 * g.Ng + 2 * (g.Lz - g.Ng)) * g.S + i := by
    intro i; rw [hGR]; ring
  obtain ⟨m', e, e1, _⟩ := memcpy_spec (fun i => GR g + 2 * g.S * (g.Lz - g.Ng) + i)
    (fun i => GR g + g.S * (g.Lz - 1) + i) g.S m
    (fun i hi => by rw [hs]; exact hm _ _ (by omega) hi)
    (fun i hi => by rw [hd]; exact hm _ _ (by omega) hi)
    (fun i _ j _ h => by omega)
    (fun i hi j hj h => by
      rw [hs, hd] at h
      have := (slice_of hi hj h).1
      omega)
  refine ⟨m', e, fun x y hx hy => ?_⟩
  have := e1 _ (xy_lt hx hy)
  rw [bare_slice, bare_slice]
  rw [show GR g + (2 * (g.Lz - g.Ng) * g.S + (x + g.L * y)) = GR g + 2 * g.S * (g.Lz - g.Ng) + (x + g.L * y) by ring,
    show GR g + ((g.Lz - 1) * g.S + (x + g.L * y)) = GR g + g.S * (g.Lz - 1) + (x + g.L * y) by ring]
  exact this

/-- Three ghost slices and four slices: the third slice of the mask is lost. -/
example : ∃ m', stage (⟨4, 4, 3⟩ : Grid) (fun a => some a) = some m' ∧
    m' (GR ⟨4, 4, 3⟩ + Grid.bare ⟨4, 4, 3⟩ (0, 0, 2)) = some ((144 : ℕ) : ℝ) := by
  obtain ⟨_, m', e, h⟩ := C74_diffuse_lost (g := ⟨4, 4, 3⟩) (m := fun a => some (a : ℝ)) (by decide) (by decide)
    (fun _ _ _ _ => rfl)
  exact ⟨m', e, h 0 0 (by decide) (by decide)⟩

end Jaxions.Masker
