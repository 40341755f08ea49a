import Verif.Lemmas.MaskBall
import Mathlib.Tactic.NormNum

/-!
# C29: masking balls around defects
-/

namespace Jaxions
namespace MaskBall

theorem mod_prev {n r : Nat} (hr : r < n) : ((((r + n - 1) % n : Nat) : Int) + 1) % n = r := by
  have h1 : (((r + n - 1 : Nat) : Int) + 1) = (r : Int) + n * 1 := by omega
  rw [Int.natCast_mod, Int.emod_add_emod, h1, Int.add_mul_emod_self_left]
  exact Int.emod_eq_of_lt (by omega) (by omega)

theorem mod_next {n r : Nat} (hr : r < n) : ((((r + 1) % n : Nat) : Int) + -1) % n = r := by
  rw [Int.natCast_mod, Int.emod_add_emod, show ((r + 1 : Nat) : Int) + -1 = r by omega]
  exact Int.emod_eq_of_lt (by omega) (by omega)

/-- Points of either loop. -/
theorem own_acts {c : Cfg} (hc : Fits c) {d : Nat → Bool} {i : Nat} :
    ((∃ z ∈ boundary c, .own i ∈ sliceActs c d z) ∨ (∃ z ∈ bulk c, .own i ∈ bulkActs c d z)) ↔
      ∃ x0 y0 z0, ∃ dx dy dz : Int, x0 < c.Ly ∧ y0 < c.Ly ∧ z0 < c.Lz ∧ d (pos c x0 y0 z0) = true ∧
        ((dx * dx + dy * dy + dz * dz : Int) : ℚ) ≤ c.radius * c.radius ∧
        .own i = pointAct c x0 y0 z0 dx dy dz := by
  have hL := hc.thick
  constructor
  · rintro (⟨z, -, h⟩ | ⟨z, hz, h⟩)
    · obtain ⟨x, y, dx, dy, dz, hx, hy, hd, hb, e⟩ := (mem_sliceActs c hc.radius hc.slab d z _).1 h
      exact ⟨x, y, _, dx, dy, dz, hx, hy, Nat.mod_lt _ (by omega), hd, hb, e⟩
    · obtain ⟨x, y, dx, dy, dz, hx, hy, hd, hb, e⟩ := (mem_bulkActs c hc.radius d z hz _).1 h
      exact ⟨x, y, _, dx, dy, dz, hx, hy, by have := bulk_lt hz; omega, hd, hb, e⟩
  · rintro ⟨x, y, z, dx, dy, dz, hx, hy, hz, hd, hb, e⟩
    rcases slice_mem hc hz with ⟨liz, hl, rfl⟩ | hbk
    · exact Or.inl ⟨liz, hl, (mem_sliceActs c hc.radius hc.slab d liz _).2
        ⟨x, y, dx, dy, dz, hx, hy, hd, hb, e⟩⟩
    · exact Or.inr ⟨z, hbk, (mem_bulkActs c hc.radius d z hbk _).2
        ⟨x, y, dx, dy, dz, hx, hy, hd, hb, e⟩⟩

/-- A load comes from a defect. -/
theorem note_acts {c : Cfg} (hc : Fits c) {d : Nat → Bool} {a : Bool} {b : Nat} {load : Int} {z : Nat}
    (h : note a b load ∈ sliceActs c d z) :
      ∃ x0 y0 z0, ∃ dx dy dz : Int, x0 < c.Ly ∧ y0 < c.Ly ∧ z0 < c.Lz ∧ d (pos c x0 y0 z0) = true ∧
        ((dx * dx + dy * dy + dz * dz : Int) : ℚ) ≤ c.radius * c.radius ∧
        note a b load = pointAct c x0 y0 z0 dx dy dz := by
  have hL := hc.thick
  obtain ⟨x, y, dx, dy, dz, hx, hy, hd, hb, e⟩ := (mem_sliceActs c hc.radius hc.slab d z _).1 h
  exact ⟨x, y, _, dx, dy, dz, hx, hy, Nat.mod_lt _ (by omega), hd, hb, e⟩

/-- The loads reach at most over the whole slab of the neighbour. -/
theorem load_le {c : Cfg} (hc : Fits c) {d : Nat → Bool} {threads m dist m' gh}
    (hsh : Shares (boundary c) threads dist)
    (h : Ran c m (fun _ _ => 0) dist (sliceActs c d) m' gh) (a : Bool) (b : Nat) : gh a b ≤ c.Lz := by
  rcases (ran_spec hsh h).2.1 a b with e | ⟨z, -, hn⟩
  · rw [e]; omega
  · obtain ⟨x, y, z0, dx, dy, dz, hx, hy, hz, -, hb, e⟩ := note_acts hc hn
    obtain ⟨e, -⟩ := (note_point hc hx hy hb a b _).1 e
    have := (ball_le hc hb).2.2
    have := hc.slab
    split at e <;> omega

/-- C29: whatever the order in which the threads run, nothing is accessed out of bounds. -/
theorem C29_safe (c : Cfg) (hc : Fits c) (d : Nat → Bool) (m : Nat → Bool) (gh : Bool → Nat → Int)
    (dist : Nat → List Nat) (sched : List Nat) :
    (∃ s, run c sched (start m gh dist (sliceActs c d)) = some s) ∧
      ((∀ t, ∀ z ∈ dist t, z ∈ bulk c) → ∃ s, run c sched (start m gh dist (bulkActs c d)) = some s) := by
  constructor
  · refine run_some sched (start_inv m gh dist _) ?_
    intro t μ hμ
    obtain ⟨a, ha, hm⟩ := List.mem_flatMap.1 hμ
    obtain ⟨z, -, hz⟩ := List.mem_flatMap.1 ha
    obtain ⟨x, y, dx, dy, dz, hx, hy, -, hb, rfl⟩ := (mem_sliceActs c hc.radius hc.slab d z _).1 hz
    exact pointAct_ok hc hx hy hb μ hm
  · intro hin
    refine run_some sched (start_inv m gh dist _) ?_
    intro t μ hμ
    obtain ⟨a, ha, hm⟩ := List.mem_flatMap.1 hμ
    obtain ⟨z, hzt, hz⟩ := List.mem_flatMap.1 ha
    obtain ⟨x, y, dx, dy, dz, hx, hy, -, hb, rfl⟩ :=
      (mem_bulkActs c hc.radius d z (hin t z hzt) _).1 hz
    exact pointAct_ok hc hx hy hb μ hm

/-- C29: marking what the neighbours sent is in bounds too. -/
theorem C29_safe_receive (c : Cfg) (hc : Fits c) (dB dF : Nat → Bool) {tB tF mB mF distB distF mB' mF' ghB ghF}
    (hB : Shares (boundary c) tB distB) (hF : Shares (boundary c) tF distF)
    (rB : Ran c mB (fun _ _ => 0) distB (sliceActs c dB) mB' ghB)
    (rF : Ran c mF (fun _ _ => 0) distF (sliceActs c dF) mF' ghF) (m : Nat → Bool) :
    ∃ m', receive c (ghB true) (ghF false) m = some m' :=
  receive_some c (load_le hc hB rB true) (load_le hc hF rF false) m

/-- Marks of a rank after the two loops. -/
theorem mask_two {c : Cfg} (hc : Fits c) {defect threads m m'} (e : Exec c defect threads m m') {r : Nat}
    (hr : r < c.ranks) (i : Nat) :
    e.m2 r i = true ↔ m r i = true ∨ ∃ x0 y0 z0, ∃ dx dy dz : Int, x0 < c.Ly ∧ y0 < c.Ly ∧ z0 < c.Lz ∧
        defect r (pos c x0 y0 z0) = true ∧
        ((dx * dx + dy * dy + dz * dz : Int) : ℚ) ≤ c.radius * c.radius ∧
        .own i = pointAct c x0 y0 z0 dx dy dz := by
  rw [(ran_spec (e.sharesB r hr) (e.second r hr)).1 i, (ran_spec (e.shares r hr) (e.first r hr)).1 i,
    or_assoc, own_acts hc]

/-- C29: whatever the order in which the threads run, only sites within the radius of a defect are
marked. -/
theorem C29_sound (c : Cfg) (hc : Fits c) {defect threads m m'} (e : Exec c defect threads m m')
    {r x y z : Nat} (hr : r < c.ranks) (hx : x < c.Ly) (hy : y < c.Ly) (hz : z < c.Lz)
    (h : m' r (pos c x y z) = true) : m r (pos c x y z) = true ∨ InBall c defect r x y z := by
  rcases (receive_spec hc.thick (e.third r hr) _).1 h with h | ⟨idx, hidx, k, h⟩
  · rcases (mask_two hc e hr _).1 h with h | ⟨x0, y0, z0, dx, dy, dz, hx0, hy0, hz0, hd, hb, ha⟩
    · exact Or.inl h
    · obtain ⟨-, -, x', y', z', hx', hy', ep, ex, ey, ez⟩ := (own_point hc hx0 hy0 hb _).1 ha
      obtain ⟨rfl, rfl, rfl⟩ := pos_inj hx hy hx' hy' ep
      refine Or.inr ⟨r, x0, y0, z0, hr, hx0, hy0, hz0, hd, dx, dy, dz, hb, ex.symm, ey.symm, ?_⟩
      have := (zmod (r' := r) hr hz hz 0).2 ⟨rfl, by
        rw [add_zero]; exact Int.emod_eq_of_lt (by omega) (by omega)⟩
      rw [← this]
      congr 1
      push_cast
      omega
  · have hn : 0 < c.ranks := by omega
    rcases h with ⟨hk, ep⟩ | ⟨hk, ep⟩
    · have hp : (r + c.ranks - 1) % c.ranks < c.ranks := Nat.mod_lt _ hn
      have hm := mod_prev hr
      generalize (r + c.ranks - 1) % c.ranks = p at *
      rcases (ran_spec (e.shares p hp) (e.first p hp)).2.1 true idx with h0 | ⟨z1, -, hnote⟩
      · rw [h0] at hk; omega
      · obtain ⟨x0, y0, z0, dx, dy, dz, hx0, hy0, hz0, hd, hb, ha⟩ := note_acts hc hnote
        obtain ⟨el, -, x', y', hx', hy', rfl, ex, ey⟩ := (note_point hc hx0 hy0 hb _ _ _).1 ha
        have ep' : pos c x y z = pos c x' y' k := by
          rw [ep]; unfold pos; rw [Nat.mul_comm k]; omega
        obtain ⟨rfl, rfl, rfl⟩ := pos_inj hx hy hx' hy' ep'
        rw [if_pos rfl] at el
        refine Or.inr ⟨p, x0, y0, z0, hp, hx0, hy0, hz0, hd, dx, dy, (c.Lz : Int) + z - z0,
          ball_mono ?_ hb, ex.symm, ey.symm, ?_⟩
        · have : |dz| = dz := abs_of_nonneg (by omega)
          omega
        · rw [← (zmod (r' := p) hr hz hz 1).2 ⟨rfl, hm⟩]
          congr 1
          push_cast
          omega
    · have hp : (r + 1) % c.ranks < c.ranks := Nat.mod_lt _ hn
      have hm := mod_next hr
      generalize (r + 1) % c.ranks = p at *
      have hkL := load_le hc (e.shares p hp) (e.first p hp) false idx
      rcases (ran_spec (e.shares p hp) (e.first p hp)).2.1 false idx with h0 | ⟨z1, -, hnote⟩
      · rw [h0] at hk; omega
      · obtain ⟨x0, y0, z0, dx, dy, dz, hx0, hy0, hz0, hd, hb, ha⟩ := note_acts hc hnote
        obtain ⟨el, -, x', y', hx', hy', rfl, ex, ey⟩ := (note_point hc hx0 hy0 hb _ _ _).1 ha
        have ep' : pos c x y z = pos c x' y' (c.Lz - 1 - k) := by
          rw [ep]; unfold pos; omega
        obtain ⟨rfl, rfl, rfl⟩ := pos_inj hx hy hx' hy' ep'
        simp only [Bool.false_eq_true, if_false] at el
        refine Or.inr ⟨p, x0, y0, z0, hp, hx0, hy0, hz0, hd, dx, dy, -(k : Int) - 1 - z0,
          ball_mono ?_ hb, ex.symm, ey.symm, ?_⟩
        · have : |dz| = -dz := abs_of_nonpos (by omega)
          omega
        · rw [← (zmod (r' := p) hr hz hz (-1)).2 ⟨rfl, hm⟩]
          congr 1
          push_cast
          omega

/-- C29: whatever the order in which the threads run, marks are never lost, and a site within the
radius of a defect of its own slab is marked. -/
theorem C29_own (c : Cfg) (hc : Fits c) {defect threads m m'} (e : Exec c defect threads m m')
    {r x y z : Nat} (hr : r < c.ranks) (hx : x < c.Ly) (hy : y < c.Ly) (hz : z < c.Lz)
    (h : m r (pos c x y z) = true ∨ ∃ x0 y0 z0, ∃ dx dy : Int, x0 < c.Ly ∧ y0 < c.Ly ∧ z0 < c.Lz ∧
      defect r (pos c x0 y0 z0) = true ∧
      ((dx * dx + dy * dy + ((z : Int) - z0) * ((z : Int) - z0) : Int) : ℚ) ≤ c.radius * c.radius ∧
      ((x0 : Int) + dx) % c.Ly = x ∧ ((y0 : Int) + dy) % c.Ly = y) :
    m' r (pos c x y z) = true := by
  refine (receive_spec hc.thick (e.third r hr) _).2 (Or.inl ((mask_two hc e hr _).2 ?_))
  rcases h with h | ⟨x0, y0, z0, dx, dy, hx0, hy0, hz0, hd, hb, ex, ey⟩
  · exact Or.inl h
  · refine Or.inr ⟨x0, y0, z0, dx, dy, (z : Int) - z0, hx0, hy0, hz0, hd, hb, ?_⟩
    exact (own_point hc hx0 hy0 hb _).2 ⟨by omega, by omega, x, y, z, hx, hy, rfl, ex.symm, ey.symm,
      by omega⟩

/-- C29: with one thread on each rank, the sites marked are exactly those that were marked before and
those within the radius of a defect, whatever the number of ranks. -/
theorem C29_exact (c : Cfg) (hc : Fits c) {defect m m'} (e : Exec c defect 1 m m')
    {r x y z : Nat} (hr : r < c.ranks) (hx : x < c.Ly) (hy : y < c.Ly) (hz : z < c.Lz) :
    m' r (pos c x y z) = true ↔ m r (pos c x y z) = true ∨ InBall c defect r x y z := by
  refine ⟨C29_sound c hc e hr hx hy hz, ?_⟩
  rintro (h | ⟨r', x0, y0, z0, hr', hx0, hy0, hz0, hd, dx, dy, dz, hb, ex, ey, ez⟩)
  · exact C29_own c hc e hr hx hy hz (Or.inl h)
  have hdz := (ball_le hc hb).2.2
  have hsl := hc.slab
  have hn : 0 < c.ranks := by omega
  -- a load left in a ghost column
  have reach : ∀ a load, note a (c.Ly * y + x) load = pointAct c x0 y0 z0 dx dy dz →
      load ≤ e.gh r' a (c.Ly * y + x) := by
    intro a load hnote
    have hmem : ∃ liz ∈ boundary c, liz % c.Lz = z0 := by
      rcases slice_mem hc hz0 with h | h
      · exact h
      · exfalso
        have := bulk_lt h
        obtain ⟨e1, e2, -⟩ := (note_point hc hx0 hy0 hb _ _ _).1 hnote
        split at e1 <;> omega
    obtain ⟨liz, hl, rfl⟩ := hmem
    exact (ran_spec (e.shares r' hr') (e.first r' hr')).2.2 rfl a _ load liz hl
      ((mem_sliceActs c hc.radius hc.slab _ liz _).2 ⟨x0, y0, dx, dy, dz, hx0, hy0, hd, hb, hnote⟩)
  by_cases h1 : (z0 : Int) + dz < 0
  · obtain ⟨k, hk⟩ : ∃ k : Nat, (k : Int) = -((z0 : Int) + dz) - 1 := ⟨_, Int.toNat_of_nonneg (by omega)⟩
    have hz' : c.Lz - 1 - k < c.Lz := by omega
    have hzz := (zmod (r' := r') hr hz hz' (-1)).1 (by
      rw [← ez]; congr 1; push_cast; omega)
    have hpr : r' = (r + 1) % c.ranks := by
      have := hzz.2
      have h2 := mod_next hr
      have h3 : (r' : Int) % c.ranks = (((r + 1) % c.ranks : Nat) : Int) % c.ranks := by
        have e1 := congrArg (fun t : Int => (t + 1) % c.ranks) (this.trans h2.symm)
        simpa only [Int.emod_add_emod, neg_add_cancel_right] using e1
      rw [Int.emod_eq_of_lt (by omega) (by omega), Int.emod_eq_of_lt (by omega)
        (by have := Nat.mod_lt (r + 1) hn; omega)] at h3
      exact_mod_cast h3
    refine (receive_spec hc.thick (e.third r hr) _).2 (Or.inr ⟨c.Ly * y + x, col_lt hx hy, k, Or.inr ⟨?_, ?_⟩⟩)
    · rw [← hpr]
      have := reach false (-((z0 : Int) + dz)) ((note_point hc hx0 hy0 hb _ _ _).2
        ⟨by simp, by omega, x, y, hx, hy, rfl, ex.symm, ey.symm⟩)
      omega
    · rw [← hzz.1]; unfold pos; omega
  · by_cases h2 : (z0 : Int) + dz < c.Lz
    · obtain ⟨k, hk⟩ : ∃ k : Nat, (k : Int) = (z0 : Int) + dz := ⟨_, Int.toNat_of_nonneg (by omega)⟩
      have hzz := (zmod (r' := r') hr hz (z' := k) (by omega) 0).1 (by
        rw [← ez]; congr 1; push_cast; omega)
      have hrr : r' = r := by
        have := hzz.2
        rw [add_zero, Int.emod_eq_of_lt (by omega) (by omega)] at this
        exact_mod_cast this
      subst hrr
      refine C29_own c hc e hr hx hy hz (Or.inr ⟨x0, y0, z0, dx, dy, hx0, hy0, hz0, hd, ?_, ex, ey⟩)
      rw [show (z : Int) - z0 = dz by omega]
      exact hb
    · obtain ⟨k, hk⟩ : ∃ k : Nat, (k : Int) = (z0 : Int) + dz - c.Lz := ⟨_, Int.toNat_of_nonneg (by omega)⟩
      have hzz := (zmod (r' := r') hr hz (z' := k) (by omega) 1).1 (by
        rw [← ez]; congr 1; push_cast; omega)
      have hpr : r' = (r + c.ranks - 1) % c.ranks := by
        have := hzz.2
        have h2 := mod_prev hr
        have h3 : (r' : Int) % c.ranks = (((r + c.ranks - 1) % c.ranks : Nat) : Int) % c.ranks := by
          have e1 := congrArg (fun t : Int => (t + -1) % c.ranks) (this.trans h2.symm)
          simpa only [Int.emod_add_emod, add_neg_cancel_right] using e1
        rw [Int.emod_eq_of_lt (by omega) (by omega), Int.emod_eq_of_lt (by omega)
          (by have := Nat.mod_lt (r + c.ranks - 1) hn; omega)] at h3
        exact_mod_cast h3
      refine (receive_spec hc.thick (e.third r hr) _).2 (Or.inr ⟨c.Ly * y + x, col_lt hx hy, k, Or.inl ⟨?_, ?_⟩⟩)
      · rw [← hpr]
        have := reach true ((z0 : Int) + dz + 1 - c.Lz) ((note_point hc hx0 hy0 hb _ _ _).2
          ⟨by simp, by omega, x, y, hx, hy, rfl, ex.symm, ey.symm⟩)
        omega
      · rw [hzz.1]; unfold pos; rw [Nat.mul_comm k]; omega

/-! ### Executions exist -/

theorem step_todo {c : Cfg} {s s' : St} {t : Nat} (h : step c s t = some s') (u : Nat) :
    s'.todo u = if u = t then (s.todo u).tail else s.todo u := by
  unfold step at h
  cases hT : s.todo t with
  | nil =>
    rw [hT] at h
    cases h
    split
    · rename_i e; rw [e, hT]; rfl
    · rfl
  | cons a ms =>
    rw [hT] at h
    dsimp only at h
    obtain ⟨s1, -, rfl⟩ := Option.map_eq_some_iff.1 h
    dsimp only
    split
    · rename_i e; rw [e, hT]; rfl
    · rfl

theorem finish {c : Cfg} {m gh0 prog} (hok : ∀ t, ∀ x ∈ prog t, x.Ok c) (n : Nat) {s : St}
    (h : Inv m gh0 prog s) (hn : (s.todo 0).length = n) (he : ∀ t, t ≠ 0 → s.todo t = []) :
    ∃ s', run c (List.replicate n 0) s = some s' ∧ ∀ t, s'.todo t = [] := by
  induction n generalizing s with
  | zero =>
    refine ⟨s, rfl, fun t => ?_⟩
    by_cases ht : t = 0
    · rw [ht]; exact List.eq_nil_of_length_eq_zero hn
    · exact he t ht
  | succ n ih =>
    obtain ⟨s1, h1⟩ := step_some 0 h hok
    obtain ⟨s2, h2, h3⟩ := ih (step_inv h h1) (by
        rw [step_todo h1, if_pos rfl, List.length_tail, hn]; rfl) (by
        intro t ht; rw [step_todo h1, if_neg ht]; exact he t ht)
    refine ⟨s2, ?_, h3⟩
    unfold run at h2 ⊢
    rw [List.replicate_succ, List.foldlM_cons, h1]
    exact h2

theorem loop_exists {c : Cfg} (l : List Nat) (acts : Nat → List Act)
    (hok : ∀ z ∈ l, ∀ a ∈ acts z, ∀ x ∈ a.micros, x.Ok c) (m : Nat → Bool) (gh : Bool → Nat → Int) :
    Shares l 1 (fun t => if t = 0 then l else []) ∧
      ∃ m' gh', Ran c m gh (fun t => if t = 0 then l else []) acts m' gh' := by
  refine ⟨⟨fun t ht => if_neg (by omega), by simp⟩, ?_⟩
  obtain ⟨s', h1, h2⟩ := finish (c := c) (n := (((l.flatMap acts).flatMap Act.micros).length))
    (prog := fun t => (((if t = 0 then l else []).flatMap acts).flatMap Act.micros)) (by
      intro t x hx
      obtain ⟨a, ha, hx⟩ := List.mem_flatMap.1 hx
      obtain ⟨z, hz, ha⟩ := List.mem_flatMap.1 ha
      split at hz
      · exact hok z hz a ha x hx
      · simp at hz) (start_inv m gh _ acts) (by simp [start]) (by
      intro t ht; simp [start, ht])
  exact ⟨_, _, _, s', h1, h2, rfl, rfl⟩

/-- C29: the hypotheses of `C29_exact` are met from every state. -/
theorem C29_runs (c : Cfg) (hc : Fits c) (defect : Nat → Nat → Bool) (m : Nat → Nat → Bool) :
    ∃ m', Nonempty (Exec c defect 1 m m') := by
  have okS : ∀ r, ∀ z ∈ boundary c, ∀ a ∈ sliceActs c (defect r) z, ∀ x ∈ a.micros, x.Ok c := by
    intro r z _ a ha
    obtain ⟨x, y, dx, dy, dz, hx, hy, -, hb, rfl⟩ := (mem_sliceActs c hc.radius hc.slab _ z _).1 ha
    exact pointAct_ok hc hx hy hb
  have okB : ∀ r, ∀ z ∈ bulk c, ∀ a ∈ bulkActs c (defect r) z, ∀ x ∈ a.micros, x.Ok c := by
    intro r z hz a ha
    obtain ⟨x, y, dx, dy, dz, hx, hy, -, hb, rfl⟩ := (mem_bulkActs c hc.radius _ z hz _).1 ha
    exact pointAct_ok hc hx hy hb
  choose sh m1 gh h1 using fun r => loop_exists _ _ (okS r) (m r) (fun _ _ => 0)
  choose shB m2 gh2 h2 using fun r => loop_exists _ _ (okB r) (m1 r) (gh r)
  choose m' h3 using fun r => C29_safe_receive c hc _ _ (sh 0) (sh 0) (h1 ((r + c.ranks - 1) % c.ranks))
    (h1 ((r + 1) % c.ranks)) (m2 r)
  exact ⟨m', ⟨⟨fun _ t => if t = 0 then boundary c else [], fun _ t => if t = 0 then bulk c else [], m1, m2,
    gh, gh2, fun r _ => sh r, fun r _ => shB r, fun r _ => h1 r, fun r _ => h2 r, fun r _ => h3 r⟩⟩⟩

/-- Three ranks, a defect in the last slice of the last rank, radius 1.5. -/
example : ∃ c : Cfg, Fits c ∧ ∃ defect m',
    Nonempty (Exec c defect 1 (fun _ _ => false) m') ∧ m' 0 (pos c 0 0 0) = true ∧
      m' 0 (pos c 3 0 0) = true ∧ m' 0 (pos c 0 0 1) = false := by
  have hc : Fits ⟨5, 3, 3, 3 / 2⟩ := by
    constructor <;> decide +kernel
  obtain ⟨m', ⟨e⟩⟩ := C29_runs ⟨5, 3, 3, 3 / 2⟩ hc (fun r i => r == 2 && i == pos ⟨5, 3, 3, 3 / 2⟩ 4 0 2)
    (fun _ _ => false)
  refine ⟨_, hc, _, m', ⟨e⟩, ?_, ?_, ?_⟩
  · refine (C29_exact _ hc e (by decide) (by decide) (by decide) (by decide)).2 (Or.inr ?_)
    exact ⟨2, 4, 0, 2, by decide, by decide, by decide, by decide, by decide, 1, 0, 1,
      by decide +kernel, by decide, by decide, by decide⟩
  · refine (C29_exact _ hc e (by decide) (by decide) (by decide) (by decide)).2 (Or.inr ?_)
    exact ⟨2, 4, 0, 2, by decide, by decide, by decide, by decide, by decide, -1, 0, 1,
      by decide +kernel, by decide, by decide, by decide⟩
  · rw [← Bool.not_eq_true]
    intro h
    rcases (C29_exact _ hc e (by decide) (by decide) (by decide) (by decide)).1 h with
      h | ⟨r', x', y', z', hr', hx', hy', hz', hd, dx, dy, dz, hb, -, -, ez⟩
    · cases h
    · simp only [Bool.and_eq_true, beq_iff_eq] at hd
      obtain ⟨rfl, hp⟩ := hd
      obtain ⟨-, -, rfl⟩ := pos_inj hx' hy' (by decide) (by decide) hp
      have hz := (ball_le hc hb).2.2
      have : (Cfg.rz ⟨5, 3, 3, 3 / 2⟩ : Int) = 1 := by decide +kernel
      rw [this] at hz
      norm_num at ez
      omega

/-! ### What goes wrong -/

/-- One rank, `2 × 2 × 6`, radius 2, defects at `(0, 0, 4)` and `(0, 0, 5)`. -/
def cRace : Cfg := ⟨2, 6, 1, 2⟩

def dRace : Nat → Bool := fun i => i == 16 || i == 20

/-- Four threads, one slice each. -/
def distRace : Nat → List Nat := fun t => if t < 4 then [4 + t] else []

/-- The thread of slice 4 stops between its read and its write. -/
def schedRace : List Nat := List.replicate 33 0 ++ List.replicate 43 1 ++ [0]

def sRace : Option St :=
  run cRace schedRace (start (fun _ => false) (fun _ _ => 0) distRace (sliceActs cRace dRace))

def mRace : Option (Nat → Bool) := sRace.bind fun s => receive cRace (s.gh true) (s.gh false) s.mask

/-- C29: the read and the write of a load are atomic one by one but not together; with several threads a
smaller load may replace a larger one, and a site within the radius of a defect stays unmarked. -/
theorem C29_race : ∃ c : Cfg, Fits c ∧ ∃ defect m', Nonempty (Exec c defect 4 (fun _ _ => false) m') ∧
    InBall c defect 0 0 0 1 ∧ m' 0 (pos c 0 0 1) = false := by
  have hc : Fits cRace := by constructor <;> decide +kernel
  have hend : (sRace.map fun s => (s.todo 0, s.todo 1)) = some ([], []) := by decide +kernel
  have hm : (mRace.map fun m => m 4) = some false := by decide +kernel
  obtain ⟨s, hs, hs2⟩ := Option.map_eq_some_iff.1 hend
  obtain ⟨m', hm', hm4⟩ := Option.map_eq_some_iff.1 hm
  simp only [Prod.mk.injEq] at hs2
  have hrec : receive cRace (s.gh true) (s.gh false) s.mask = some m' := by
    unfold mRace at hm'
    rw [hs] at hm'
    exact hm'
  have htodo : ∀ t, s.todo t = [] := by
    intro t
    obtain ⟨done, h1, -, -⟩ := run_inv schedRace (start_inv _ _ _ _) hs
    have h := h1 t
    rcases Nat.lt_or_ge t 4 with h4 | h4
    · have h5 : t = 0 ∨ t = 1 ∨ t = 2 ∨ t = 3 := by omega
      rcases h5 with rfl | rfl | rfl | rfl
      · exact hs2.1
      · exact hs2.2
      · have e : ((distRace 2).flatMap (sliceActs cRace dRace)).flatMap Act.micros = [] := by decide +kernel
        beta_reduce at h
        rw [e] at h
        exact (List.append_eq_nil_iff.1 h.symm).2
      · have e : ((distRace 3).flatMap (sliceActs cRace dRace)).flatMap Act.micros = [] := by decide +kernel
        beta_reduce at h
        rw [e] at h
        exact (List.append_eq_nil_iff.1 h.symm).2
    · have e : ((distRace t).flatMap (sliceActs cRace dRace)).flatMap Act.micros = [] := by
        simp [distRace, not_lt.2 h4]
      beta_reduce at h
      rw [e] at h
      exact (List.append_eq_nil_iff.1 h.symm).2
  have hsh : Shares (boundary cRace) 4 distRace :=
    ⟨fun t ht => if_neg (by omega), by decide +kernel⟩
  have hshB : Shares (bulk cRace) 4 (fun t => if t < 2 then [2 + t] else []) :=
    ⟨fun t ht => if_neg (by omega), by decide +kernel⟩
  have hbulk : ∀ t : Nat, ((if t < 2 then [2 + t] else []).flatMap (bulkActs cRace dRace)).flatMap
      Act.micros = [] := by
    intro t
    by_cases ht : t < 2
    · have h5 : t = 0 ∨ t = 1 := by omega
      rcases h5 with rfl | rfl <;> decide +kernel
    · simp [ht]
  refine ⟨cRace, hc, fun _ => dRace, fun _ => m', ⟨⟨fun _ => distRace,
    fun _ t => if t < 2 then [2 + t] else [], fun _ => s.mask, fun _ => s.mask, fun _ => s.gh,
    fun _ => s.gh, fun _ _ => hsh, fun _ _ => hshB, ?_, ?_, fun _ _ => hrec⟩⟩, ?_, hm4⟩
  · exact fun _ _ => ⟨schedRace, s, hs, htodo, rfl, rfl⟩
  · exact fun _ _ => ⟨[], _, rfl, hbulk, rfl, rfl⟩
  · exact ⟨0, 0, 0, 5, by decide, by decide, by decide, by decide, by decide +kernel, 0, 0, 2,
      by decide +kernel, by decide, by decide, by decide⟩

/-- Two ranks with two slices each, radius 3, one defect at `(0, 0, 1)` of rank 0. -/
def cThin : Cfg := ⟨4, 2, 2, 3⟩

def dThin : Nat → Nat → Bool := fun r i => r == 0 && i == 16

def distThin : Nat → List Nat := fun t => if t < 1 then [0, 1] else []

def sThin (r : Nat) : Option St :=
  run cThin (List.replicate 100 0) (start (fun _ => false) (fun _ _ => 0) distThin (sliceActs cThin (dThin r)))

/-- C29: if the radius is larger than the slab, a site next to a defect may stay unmarked, with one thread
too: the ball is cut to `0 ≤ dz < Lz`. -/
theorem C29_thin : ∃ c : Cfg, 0 ≤ c.radius ∧ 1 < c.Lz ∧ c.rz ≤ c.Ly ∧ ∃ defect m',
    Nonempty (Exec c defect 1 (fun _ _ => false) m') ∧ InBall c defect 0 0 0 0 ∧ m' 0 (pos c 0 0 0) = false := by
  have run0 : ((sThin 0).map fun s => s.todo 0) = some [] := by decide +kernel
  have run1 : ((sThin 1).map fun s => s.todo 0) = some [] := by decide +kernel
  obtain ⟨s0, hs0, ht0⟩ := Option.map_eq_some_iff.1 run0
  obtain ⟨s1, hs1, ht1⟩ := Option.map_eq_some_iff.1 run1
  have todo : ∀ r s, sThin r = some s → s.todo 0 = [] → ∀ t, s.todo t = [] := by
    intro r s hs h0 t
    by_cases ht : t = 0
    · rw [ht]; exact h0
    · obtain ⟨done, h1, -, -⟩ := run_inv _ (start_inv _ _ _ _) hs
      have h := h1 t
      have e : ((distThin t).flatMap (sliceActs cThin (dThin r))).flatMap Act.micros = [] := by
        simp [distThin, ht]
      beta_reduce at h
      rw [e] at h
      exact (List.append_eq_nil_iff.1 h.symm).2
  have hm0 : ((sThin 0).bind fun s => (sThin 1).bind fun s' =>
      (receive cThin (s'.gh true) (s'.gh false) s.mask).map fun m => m 0) = some false := by decide +kernel
  have hm1 : ((sThin 0).bind fun s => (sThin 1).bind fun s' =>
      (receive cThin (s.gh true) (s.gh false) s'.mask).map fun m => m 0) = some true := by decide +kernel
  simp only [hs0, hs1, Option.bind_some] at hm0 hm1
  obtain ⟨m0, e0, e0'⟩ := Option.map_eq_some_iff.1 hm0
  obtain ⟨m1, e1, -⟩ := Option.map_eq_some_iff.1 hm1
  have hsh : Shares (boundary cThin) 1 distThin := ⟨fun t ht => if_neg (by omega), by decide +kernel⟩
  have hshB : Shares (bulk cThin) 1 (fun _ => []) := ⟨fun _ _ => rfl, by decide +kernel⟩
  have two : ∀ r, r < cThin.ranks → r = 0 ∨ r = 1 := by
    intro r hr
    have : r < 2 := hr
    omega
  refine ⟨cThin, by decide +kernel, by decide, by decide +kernel, dThin, fun r => if r = 0 then m0 else m1,
    ⟨⟨fun _ => distThin, fun _ _ => [], fun r => if r = 0 then s0.mask else s1.mask,
      fun r => if r = 0 then s0.mask else s1.mask, fun r => if r = 0 then s0.gh else s1.gh,
      fun r => if r = 0 then s0.gh else s1.gh, fun _ _ => hsh, fun _ _ => hshB, ?_, ?_, ?_⟩⟩, ?_, ?_⟩
  · intro r hr
    rcases two r hr with rfl | rfl
    · exact ⟨_, s0, hs0, todo 0 s0 hs0 ht0, rfl, rfl⟩
    · exact ⟨_, s1, hs1, todo 1 s1 hs1 ht1, rfl, rfl⟩
  · intro r _
    exact ⟨[], _, rfl, fun _ => rfl, rfl, rfl⟩
  · intro r hr
    rcases two r hr with rfl | rfl
    · exact e0
    · exact e1
  · exact ⟨0, 0, 0, 1, by decide, by decide, by decide, by decide, by decide +kernel, 0, 0, -1,
      by decide +kernel, by decide, by decide, by decide⟩
  · exact e0'

/-- C29: with one slice per rank nothing crosses to the next rank: a rank without defects stays as it was,
however close the defects of its neighbours are. -/
theorem C29_one_slice (c : Cfg) (h : c.Lz = 1) {defect threads m m'} (e : Exec c defect threads m m')
    {r : Nat} (hr : r < c.ranks) (hd : ∀ i, defect r i = false) (j : Nat) : m' r j = m r j := by
  have h3 := e.third r hr
  unfold receive at h3
  rw [if_neg (by omega), Option.some.injEq] at h3
  rw [← h3]
  have nS : ∀ z, sliceActs c (defect r) z = [] := by
    intro z; unfold sliceActs; simp [hd]
  have nB : ∀ z, bulkActs c (defect r) z = [] := by
    intro z; unfold bulkActs; simp [hd]
  have h1 := (ran_spec (e.shares r hr) (e.first r hr)).1 j
  have h2 := (ran_spec (e.sharesB r hr) (e.second r hr)).1 j
  simp only [nS, nB, List.not_mem_nil, and_false, exists_false, or_false] at h1 h2
  exact Bool.eq_iff_iff.2 (h2.trans h1)

/-- One slice per rank, radius 1: the defect of rank 0 is next to the site of rank 1. -/
example : InBall ⟨2, 1, 3, 1⟩ (fun r _ => r == 0) 1 0 0 0 :=
  ⟨0, 0, 0, 0, by decide, by decide, by decide, by decide, rfl, 0, 0, 1, by decide +kernel, by decide,
    by decide, by decide⟩

end MaskBall
end Jaxions
