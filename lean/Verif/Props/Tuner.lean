import Verif.Model.Tuner
import Verif.Props.Tunable
/-
C18: the tuner ends with the fastest block it measured.
-/
namespace Jaxions.Tuner
open Tunable

/-- The search itself ignores the best block. -/
theorem advance_best (t : Tun) (b : Block) :
    advance { t with best := b } = (advance t).map fun t' => { t' with best := b } := by
  unfold advance
  simp only
  split
  · cases nextDiv t.ySize t.block.y <;> rfl
  · cases nextDiv t.ySize 3 with
    | none => rfl
    | some y =>
      simp only
      split
      · cases nextDiv t.zSize t.block.z <;> rfl
      · rfl

/-- The `j`-th measurement takes place and is made with block `b`: the search has not ended at or
before step `j`. -/
def Measured (t : Tun) (j : Nat) (b : Block) : Prop :=
  ∃ tj, advances t j = some tj ∧ tj.block = b ∧ ∀ i ≤ j, ∃ ti, advances t i = some ti ∧ ti.isTuned = false

theorem loop_spec (time : Nat → Nat) (t0 : Tun) (n : Nat) :
    ∀ (fuel i bt : Nat) (s : Tun) (b : Block) (r : Tun × Nat) (k : Nat),
      advances t0 i = some s → Measured t0 k b → bt = time k →
      (∀ j c, j < i → Measured t0 j c → bt ≤ time j) →
      (∀ j, j < i → ∃ tj, advances t0 j = some tj ∧ tj.isTuned = false) →
      fuel = n →
      loop time fuel i bt { s with best := b } = some r →
      ∃ k', Measured t0 k' r.1.best ∧ r.2 = time k' ∧ ∀ j c, Measured t0 j c → r.2 ≤ time j := by
  induction n with
  | zero => intro fuel i bt s b r k _ _ _ _ _ hf h; subst hf; simp [loop] at h
  | succ n ih =>
    intro fuel i bt s b r k hs hk hbt hmin hall hf h
    subst hf
    simp only [loop] at h
    by_cases ht : s.isTuned = true
    · rw [if_pos (by exact ht)] at h
      simp only [Option.some.injEq] at h
      subst h
      refine ⟨k, hk, hbt, ?_⟩
      intro j c hm
      by_cases hj : j < i
      · exact hmin j c hj hm
      · obtain ⟨_, _, _, hno⟩ := hm
        obtain ⟨ti, h1, h2⟩ := hno i (by omega)
        rw [hs] at h1
        cases h1
        rw [ht] at h2
        cases h2
    · have htf : s.isTuned = false := by simpa using ht
      have hmi : Measured t0 i s.block := by
        refine ⟨s, hs, rfl, ?_⟩
        intro j hj
        by_cases hji : j < i
        · exact hall j hji
        · have : j = i := by omega
          subst this
          exact ⟨s, hs, htf⟩
      have hall' : ∀ j, j < i + 1 → ∃ tj, advances t0 j = some tj ∧ tj.isTuned = false := by
        intro j hj
        by_cases hji : j < i
        · exact hall j hji
        · have : j = i := by omega
          subst this
          exact ⟨s, hs, htf⟩
      rw [if_neg (by exact ht)] at h
      by_cases hlt : time i < bt
      · rw [if_pos hlt] at h
        have hu : updateBest { s with best := b } = { s with best := s.block } := rfl
        rw [hu, advance_best, Option.bind_map] at h
        cases ha : advance s with
        | none => rw [ha] at h; simp at h
        | some s' =>
          rw [ha] at h
          simp only [Option.bind_some, Function.comp_apply] at h
          refine ih _ (i + 1) (time i) s' s.block r i ?_ hmi rfl ?_ hall' rfl h
          · simp [advances, hs, ha]
          · intro j c hj hm
            by_cases hji : j < i
            · have := hmin j c hji hm; omega
            · have : j = i := by omega
              subst this; exact Nat.le_refl _
      · rw [if_neg hlt] at h
        rw [advance_best, Option.bind_map] at h
        cases ha : advance s with
        | none => rw [ha] at h; simp at h
        | some s' =>
          rw [ha] at h
          simp only [Option.bind_some, Function.comp_apply] at h
          refine ih _ (i + 1) bt s' b r k ?_ hk hbt ?_ hall' rfl h
          · simp [advances, hs, ha]
          · intro j c hj hm
            by_cases hji : j < i
            · exact hmin j c hji hm
            · have : j = i := by omega
              subst this; omega

theorem loop_ends (time : Nat → Nat) (n : Nat) : ∀ (i bt : Nat) (s : Tun), Ok s → budget s ≤ n →
    ∃ r, loop time (n + 1) i bt s = some r := by
  induction n with
  | zero => intro i bt s hs hb; unfold budget at hb; omega
  | succ n ih =>
    intro i bt s hs hb
    by_cases ht : s.isTuned = true
    · exact ⟨(s, bt), by simp [loop, ht]⟩
    · have key : ∀ b bt', ∃ r, (advance { s with best := b }).bind
          (fun t' => loop time (n + 1) (i + 1) bt' t') = some r := by
        intro b bt'
        obtain ⟨s', h2, o2, f1, f2, _, _, _, _, f⟩ := advance_spec hs
        rw [advance_best, h2]
        simp only [Option.map_some, Option.bind_some]
        by_cases ht' : s'.isTuned = true
        · exact ⟨({ s' with best := b }, bt'), by simp [loop, ht']⟩
        · apply ih
          · exact ⟨o2.rows, o2.depth, o2.z1, o2.zle⟩
          · have less : budget s' < budget s := by
              rcases f with f | f | f
              · unfold budget
                rw [f1, f2, f.2.2.1]
                have := f.1; have := f.2.1
                omega
              · unfold budget
                rw [f1, f2]
                have hlt : s.zSize - s'.block.z + 1 ≤ s.zSize - s.block.z := by omega
                have := Nat.mul_le_mul_right (s.ySize + 1) hlt
                rw [Nat.add_mul, Nat.one_mul] at this
                omega
              · exact absurd f.2.2.2 ht'
            show budget s' ≤ n
            omega
      rw [loop, if_neg ht]
      split
      · exact key s.block (time i)
      · exact key s.best bt

/-- **C18** For any sequence of measured times, tuning from the starting block ends, and the block
then in force was measured, with a time that no measured block beats. -/
theorem C18_fastest (time : Nat → Nat) (t : Tun) (h : Ok t) (hb : t.best = t.block)
    (hn : t.isTuned = false) (fuel : Nat) (hf : budget t < fuel) :
    ∃ r k, tune true time fuel t = some r ∧ r.1.block = r.1.best ∧ Measured t k r.1.block ∧
      r.2 = time k ∧ ∀ j c, Measured t j c → r.2 ≤ time j := by
  obtain ⟨t1, h1, o1, f1, f2, f3, _, _, _, f⟩ := advance_spec h
  have hm0 : Measured t 0 t.block := ⟨t, rfl, rfl, fun i hi => by
    have : i = 0 := by omega
    subst this; exact ⟨t, rfl, hn⟩⟩
  obtain ⟨n, rfl⟩ : ∃ n, fuel = n + 1 := ⟨fuel - 1, by omega⟩
  have hend : ∃ r, loop time (n + 1) 1 (time 0) t1 = some r := by
    by_cases ht : t1.isTuned = true
    · exact ⟨(t1, time 0), by simp [loop, ht]⟩
    · apply loop_ends time n 1 (time 0) t1 o1
      rcases f with f | f | f
      · unfold budget at hf ⊢
        rw [f1, f2, f.2.2.1]
        have := f.1; have := f.2.1
        omega
      · unfold budget at hf ⊢
        rw [f1, f2]
        have hlt : t.zSize - t1.block.z + 1 ≤ t.zSize - t.block.z := by omega
        have := Nat.mul_le_mul_right (t.ySize + 1) hlt
        rw [Nat.add_mul, Nat.one_mul] at this
        omega
      · exact absurd f.2.2.2 ht
  obtain ⟨r, hr⟩ := hend
  have ht1 : { t1 with best := t.block } = t1 := by rw [← hb, ← f3]
  have hspec := loop_spec time t (n + 1) (n + 1) 1 (time 0) t1 t.block r 0
    (by simp [advances, h1]) hm0 rfl
    (by intro j c hj _
        have : j = 0 := by omega
        subst this; exact Nat.le_refl _)
    (by intro j hj
        have : j = 0 := by omega
        subst this; exact ⟨t, rfl, hn⟩)
    rfl (by rw [ht1]; exact hr)
  obtain ⟨k, hk1, hk2, hk3⟩ := hspec
  refine ⟨(setBest r.1, r.2), k, ?_, rfl, hk1, hk2, hk3⟩
  simp [tune, h1, hr]

/-- **C18** The time a decision is based on is that of the slowest rank, the same for all ranks. -/
theorem C18_slowest_rank (locals : List (Nat → Nat)) (i : Nat) (hne : locals ≠ []) :
    (∀ f ∈ locals, f i ≤ reduced locals i) ∧ ∃ g ∈ locals, reduced locals i = g i := by
  have gen : ∀ (l : List Nat) (a : Nat), (∀ x ∈ l, x ≤ l.foldl max a) ∧ a ≤ l.foldl max a ∧
      (l.foldl max a = a ∨ l.foldl max a ∈ l) := by
    intro l
    induction l with
    | nil => intro a; simp
    | cons x xs ih =>
      intro a
      obtain ⟨h1, h2, h3⟩ := ih (max a x)
      simp only [List.foldl_cons]
      refine ⟨?_, by omega, ?_⟩
      · intro y hy
        rcases List.mem_cons.mp hy with rfl | hy
        · omega
        · exact h1 y hy
      · rcases h3 with h3 | h3
        · rw [h3]
          by_cases hax : x ≤ a
          · left; omega
          · right; rw [Nat.max_eq_right (by omega)]; exact List.mem_cons_self ..
        · right; exact List.mem_cons_of_mem _ h3
  obtain ⟨h1, h2, h3⟩ := gen (locals.map (· i)) 0
  refine ⟨fun f hf => h1 (f i) (List.mem_map_of_mem (f := (· i)) hf), ?_⟩
  rcases h3 with h3 | h3
  · obtain ⟨f, fs, rfl⟩ := List.exists_cons_of_ne_nil hne
    refine ⟨f, List.mem_cons_self .., ?_⟩
    have := h1 (f i) (by simp)
    show (List.map (· i) (f :: fs)).foldl max 0 = f i
    omega
  · obtain ⟨g, hg, hgi⟩ := List.mem_map.mp h3
    exact ⟨g, hg, hgi.symm⟩

/-- **C18** A cached line is taken only if it was made with the same number of ranks and threads, the
same grid, field type, device and ghost width, and the block is inside the grid. -/
theorem C18_cache_match (r : Run) (align : Nat) (l : Line) (h : accepts r align l = some true) :
    l.mpi = r.mpi ∧ l.threads = r.threads ∧ l.Lx = r.Lx ∧ l.Lz = r.Lz ∧
    fieldNumber r.type = some l.fType ∧ l.gpu = r.gpu ∧ l.Ng = r.Ng ∧
    l.block.x ≤ r.Lx * lanes r align ∧ l.block.z ≤ r.Lz := by
  unfold accepts at h
  rw [Option.map_eq_some_iff] at h
  obtain ⟨n, hn, h⟩ := h
  simp only [Bool.and_eq_true, beq_iff_eq, decide_eq_true_eq] at h
  obtain ⟨⟨⟨⟨⟨⟨⟨h1, h2⟩, h3⟩, h4⟩, h5⟩, h6⟩, h7⟩, ⟨⟨h8, h9⟩, h10⟩⟩ := h
  exact ⟨h1, h2, h3, h4, by rw [hn, h5], h6, h7, h8, h10⟩

/-- What is written for a run is taken by the same run later. -/
theorem C18_cache_round_trip (r : Run) (align : Nat) (b : Block) (l : Line)
    (hl : written r b = some l) (hx : b.x ≤ r.Lx * lanes r align)
    (hy : b.y ≤ r.Lx * r.Lx / (r.Lx * lanes r align)) (hz : b.z ≤ r.Lz) :
    accepts r align l = some true := by
  unfold written at hl
  rw [Option.map_eq_some_iff] at hl
  obtain ⟨n, hn, hl⟩ := hl
  subst hl
  simp [accepts, hn, hx, hy, hz]

/-- Finding: the precision is not part of the comparison. A result of a double precision run is
taken by a single precision run of the same grid whenever it has at most half the rows. -/
theorem C18_precision_ignored (r : Run) (q : Nat) (hq : 0 < q) (hL : 0 < r.Lx) (b : Block) (l : Line)
    (hb : r.bytes = 8) (hl : written r b = some l)
    (hx : b.x ≤ r.Lx * lanes r (8 * r.type.nData * q))
    (hy : b.y ≤ r.Lx / (2 * q)) (hz : b.z ≤ r.Lz) :
    accepts r (8 * r.type.nData * q) l = some true ∧
    accepts { r with bytes := 4 } (8 * r.type.nData * q) l = some true := by
  have hn0 : 0 < r.type.nData := by cases r.type <;> decide
  have e8 : lanes r (8 * r.type.nData * q) = q := by
    unfold lanes
    rw [hb]
    exact Nat.mul_div_cancel_left q (by omega)
  have e4 : lanes { r with bytes := 4 } (8 * r.type.nData * q) = 2 * q := by
    unfold lanes
    show 8 * r.type.nData * q / (4 * r.type.nData) = 2 * q
    have : 8 * r.type.nData * q = (4 * r.type.nData) * (2 * q) := by
      rw [Nat.mul_assoc 4, Nat.mul_left_comm r.type.nData 2 q, ← Nat.mul_assoc 4 2, Nat.mul_assoc 8]
    rw [this]
    exact Nat.mul_div_cancel_left _ (by omega)
  have hrows : ∀ s, 0 < s → r.Lx * r.Lx / (r.Lx * s) = r.Lx / s := by
    intro s _
    exact Nat.mul_div_mul_left _ _ hL
  rw [e8] at hx
  constructor
  · refine C18_cache_round_trip r _ b l hl (by rw [e8]; exact hx) ?_ hz
    rw [e8, hrows q hq]
    exact Nat.le_trans hy (Nat.div_le_div_left (by omega) hq)
  · refine C18_cache_round_trip { r with bytes := 4 } _ b l hl ?_ ?_ hz
    · rw [e4]
      exact Nat.le_trans hx (Nat.mul_le_mul_left _ (by omega))
    · rw [e4]
      show b.y ≤ r.Lx * r.Lx / (r.Lx * (2 * q))
      rw [hrows (2 * q) (by omega)]
      exact hy

/-- Finding: for a field type without a case in the final switch the best block is not put in
force: the block stays at the last one of the search. -/
theorem C18_unnamed_type : ∃ r, tune false (fun i => i) 50 ⟨8, 6, ⟨512, 2, 1⟩, ⟨512, 2, 1⟩, false⟩ = some r ∧
    r.1.block ≠ r.1.best ∧ r.1.best = ⟨512, 2, 1⟩ := by
  exact ⟨(⟨8, 6, ⟨512, 4, 6⟩, ⟨512, 2, 1⟩, true⟩, 0), by decide +kernel⟩

-- 64 x 64 x 8 saxion, double precision AVX (2 lanes); the same line serves single precision
example : written ⟨1, 4, 64, 8, .saxion, false, 1, 8⟩ ⟨128, 16, 2⟩ =
    some ⟨false, 1, 4, 64, 8, 0, ⟨128, 16, 2⟩, 1⟩ ∧
    accepts ⟨1, 4, 64, 8, .saxion, false, 1, 4⟩ 32 ⟨false, 1, 4, 64, 8, 0, ⟨128, 16, 2⟩, 1⟩ = some true := by
  decide +kernel
-- the third measurement is the fastest: block 8 x 1
example : (tune true (fun i => if i = 2 then 10 else 20 + i) 60
    ⟨8, 6, ⟨512, 2, 1⟩, ⟨512, 2, 1⟩, false⟩).map (·.1.block) = some ⟨512, 8, 1⟩ := by decide +kernel

end Jaxions.Tuner
