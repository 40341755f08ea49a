import Verif.Props.MaskerShape

/-
C74: the diffused mask on the ranks from beginning to end, the values of the other masks and the masks of
axitons.
-/

namespace Jaxions.Masker

open AxSpec (Grid Site)

variable {g : Grid}

/-- One iteration on all the ranks. -/
def IterAll (g : Grid) (grow : Bool) (R : ℕ) (order : ℕ → List ℕ) (st st' : ℕ → Rank) : Prop :=
  ∃ m1 : ℕ → Heap ℕ ℝ, (∀ r, r < R → stage g (st r).m2 = some (m1 r)) ∧
    ∀ r, r < R → iterRank g grow (order r) (m1 ((r + R - 1) % R)) (m1 ((r + 1) % R))
      { st r with m2 := m1 r } = some (st' r)

/-- C74.  Any number of iterations on the ranks is that number on the whole lattice. -/
theorem C74_diffuse_all (hL : 2 ≤ g.L) (hN : 1 ≤ g.Ng) (hz : 2 * g.Ng ≤ g.Lz) {R : ℕ} (G : ℕ)
    (V : ℕ → ℕ → ℕ → ℝ) (B : ℕ → ℕ → ℕ → Byte) (st : ℕ → Rank) (hst : ∀ r, r < R → Part g r V B (st r))
    (order : ℕ → ℕ → List ℕ) (ho : ∀ k r, r < R → Indices g (order k r)) :
    ∃ seq : ℕ → ℕ → Rank, seq 0 = st ∧ ∀ k,
      IterAll g (decide (k < G)) R (order k) (seq k) (seq (k + 1)) ∧
      ∀ r, r < R → Part g r (run g.L (R * g.Lz) G V B k).1 (run g.L (R * g.Lz) G V B k).2 (seq k r) := by
  have hstep : ∀ k (s : ℕ → Rank), ∃ s' : ℕ → Rank,
      (∀ r, r < R → Part g r (run g.L (R * g.Lz) G V B k).1 (run g.L (R * g.Lz) G V B k).2 (s r)) →
      IterAll g (decide (k < G)) R (order k) s s' ∧
      ∀ r, r < R → Part g r (run g.L (R * g.Lz) G V B (k + 1)).1 (run g.L (R * g.Lz) G V B (k + 1)).2 (s' r) := by
    intro k s
    by_cases h : ∀ r, r < R → Part g r (run g.L (R * g.Lz) G V B k).1 (run g.L (R * g.Lz) G V B k).2 (s r)
    · obtain ⟨m1, s2, h1, h2, h3⟩ := C74_diffuse hL hN hz (decide (k < G)) _ _ s h (order k) (ho k)
      exact ⟨s2, fun _ => ⟨⟨m1, h1, h2⟩, h3⟩⟩
    · exact ⟨s, fun h' => absurd h' h⟩
  choose nxt hnxt using hstep
  let seq : ℕ → ℕ → Rank := fun k => Nat.rec st (fun k s => nxt k s) k
  have hp : ∀ k, ∀ r, r < R →
      Part g r (run g.L (R * g.Lz) G V B k).1 (run g.L (R * g.Lz) G V B k).2 (seq k r) := by
    intro k
    induction k with
    | zero => exact hst
    | succ k ih => exact (hnxt k (seq k) ih).2
  exact ⟨seq, rfl, fun k => ⟨(hnxt k (seq k) (hp k)).1, hp k⟩⟩

/-- C74.  The diffused mask from the string map to the stored array, on any number of ranks and with any
orders of the threads.  At each site the array has `1 - W`, with `W` between zero and one, equal to one
within `⌊radius⌋` steps of a corner of a pierced plaquette of the whole lattice, and positive exactly
within `⌊radius²⌋ + 1` steps; the mask of the string map is where `W` is above a half. -/
theorem C74_diff (hg : g.Ok) (hL : 2 ≤ g.L) (hz : 2 * g.Ng ≤ g.Lz) {R : ℕ} (f : ℕ → ℕ → ℕ → Byte) (st : ℕ → Rank)
    (hmap : ∀ r, r < R → HasMap g r f (st r)) (hclear : ∀ r, r < R → Clear g (st r))
    (radius : ℝ) (hr0 : 0 ≤ radius)
    (last rest : ℕ → List Site) (ofuse : ℕ → List (ℕ × ℕ)) (obeg : ℕ → List ℕ) (oit : ℕ → ℕ → List ℕ)
    (oend : ℕ → List Site)
    (hl : ∀ r, r < R → Sites g (· = g.Lz - 1) (last r)) (hr : ∀ r, r < R → Sites g (· < g.Lz - 1) (rest r))
    (hf : ∀ r, r < R → Pairs g (ofuse r)) (hb : ∀ r, r < R → Indices g (obeg r))
    (hi : ∀ k r, r < R → Indices g (oit k r)) (he : ∀ r, r < R → g.Order (oend r)) :
    ∃ (s1 s2 : ℕ → Rank) (seq : ℕ → ℕ → Rank) (s4 : ℕ → Rank),
      (∀ r, r < R → marks g (last r) (rest r) (st r) = some (s1 r)) ∧
      (∀ r, r < R → fuse g (s1 ((r + R - 1) % R)).out (ofuse r) (s1 r) = some (s2 r)) ∧
      (∀ r, r < R → begin g (obeg r) (s2 r) = some (seq 0 r)) ∧
      (∀ k, k < iters radius + 1 →
        IterAll g (decide (k < grows radius)) R (oit k) (seq k) (seq (k + 1))) ∧
      (∀ r, r < R → finish g (oend r) (seq (iters radius + 1) r) = some (s4 r)) ∧
      ∀ r, r < R → ∀ x y z, x < g.L → y < g.L → z < g.Lz → ∃ W : ℝ,
        (s4 r).m2 (g.v3 + g.bare (x, y, z)) = some (1 - W) ∧ (s4 r).m2 (g.pad (x, y, z)) = some (1 - W) ∧
        0 ≤ W ∧ W ≤ 1 ∧
        (Within g.L (R * g.Lz) ⌊radius⌋₊ (Corner g.L (R * g.Lz) f) x y (r * g.Lz + z) → W = 1) ∧
        (0 < W ↔ Within g.L (R * g.Lz) (⌊radius * radius⌋₊ + 1) (Corner g.L (R * g.Lz) f) x y (r * g.Lz + z)) ∧
        ∃ b, (s4 r).sd (g.bare (x, y, z)) = some b ∧ (b.mask = true ↔ 1 / 2 < W) := by
  classical
  obtain ⟨s1, s2, e1, e2, e3⟩ := C74_premask hg f st hmap hclear last rest ofuse hl hr hf
  have hbeg : ∀ r, ∃ s', r < R → (begin g (obeg r) (s2 r) = some s' ∧ Part g r
      (fun x y z => if Corner g.L (R * g.Lz) f x y z then 1 else 0)
      (fun x y z => if Corner g.L (R * g.Lz) f x y z then (f x y z).defect.addMask else (f x y z).defect) s') := by
    intro r
    by_cases h : r < R
    · obtain ⟨h1, h2, h3⟩ := e3 r h
      obtain ⟨s', hs⟩ := C74_begin hg (C := Corner g.L (R * g.Lz) f) h2 h3 h1 (hb r h)
      exact ⟨s', fun _ => hs⟩
    · exact ⟨st r, fun h' => absurd h' h⟩
  choose s3 hs3 using hbeg
  obtain ⟨seq, q0, q1⟩ := C74_diffuse_all hL hg.Ng hz (grows radius) _ _ s3 (fun r h => (hs3 r h).2) oit hi
  have hfin := fun r (h : r < R) => C74_finish hg ((q1 (iters radius + 1)).2 r h) (he r h)
  let s4 : ℕ → Rank := fun r => if h : r < R then (hfin r h).choose else st r
  have hs4 := fun r (h : r < R) => (hfin r h).choose_spec
  have h4 : ∀ r (h : r < R), s4 r = (hfin r h).choose := fun r h => dif_pos h
  refine ⟨s1, s2, seq, s4, e1, e2, ?_, fun k _ => (q1 k).1,
    fun r h => by rw [h4 r h]; exact (hs4 r h).1, ?_⟩
  · intro r h
    rw [q0]
    exact (hs3 r h).1
  · intro r h x y z hx hy hzz
    have hT : r * g.Lz + z < R * g.Lz := pair_lt h hzz
    obtain ⟨p1, p2, p3⟩ := (hs4 r h).2 x y z hx hy hzz
    rw [← h4 r h] at p1 p2 p3
    have hstart : Start g.L (R * g.Lz) (Corner g.L (R * g.Lz) f)
        (fun x y z => if Corner g.L (R * g.Lz) f x y z then 1 else 0)
        (fun x y z => if Corner g.L (R * g.Lz) f x y z then (f x y z).defect.addMask else (f x y z).defect) := by
      refine ⟨fun x y z _ _ _ hC => if_pos hC, fun x y z _ _ _ hC => if_neg hC, fun x y z _ _ _ => ?_⟩
      split
      · next hC => exact ⟨fun _ => hC, fun _ => rfl⟩
      · next hC => exact ⟨fun hm => (nomatch hm), fun hC' => absurd hC' hC⟩
    obtain ⟨j, hj⟩ : ∃ j, iters radius + 1 = grows radius + j :=
      ⟨iters radius + 1 - grows radius, by have := grows_le radius hr0; omega⟩
    have hrun := run_spec (G := grows radius) hstart j x y (r * g.Lz + z) hx hy hT
    rw [← hj] at hrun
    obtain ⟨r1, r2, r3, r4, r5⟩ := hrun
    refine ⟨_, p1, p2, r1, r2, r3, r4, _, p3, ?_⟩
    split
    · next hlt => exact ⟨fun _ => hlt, fun _ => rfl⟩
    · next hlt =>
      refine ⟨fun hm => ?_, fun h' => absurd h' hlt⟩
      have := r3 (r5.1 hm)
      rw [this] at hlt
      norm_num at hlt

/-! ### Values of the masks -/

/-- C74.  Whatever the mask, what is stored is between zero and one if the smoothed strings are not
negative and the cut is positive. -/
theorem C74_final_range (k : SMask) {cut v : ℝ} (hc : 0 < cut) (hv : 0 ≤ v) (h1 : k = .diff → v ≤ 1) (b : Byte) :
    0 ≤ (final k cut v b).1 ∧ (final k cut v b).1 ≤ 1 := by
  cases k with
  | redo => unfold final; dsimp only; split <;> norm_num
  | ball => unfold final; dsimp only; split <;> norm_num
  | diff => exact ⟨by show 0 ≤ 1 - v; linarith [h1 rfl], by show 1 - v ≤ 1; linarith⟩
  | gaus =>
    unfold final; dsimp only
    split
    · norm_num
    · next h =>
      have : v / cut ≤ 1 := (div_le_one hc).2 (not_lt.1 h)
      have h2 : 0 ≤ v / cut := div_nonneg hv hc.le
      exact ⟨by show 0 ≤ 1 - v / cut; linarith, by show 1 - v / cut ≤ 1; linarith⟩

/-- C74.  For the top hat and the balls, a stored zero and the mask of the string map go together, if the map
had no mask before (top hat).  For the linear mask the zero is there at the cut too. -/
theorem C74_final_mask {cut v : ℝ} (hc : 0 < cut) (b : Byte) :
    (b.mask = false → ((final .redo cut v b).1 = 0 ↔ (final .redo cut v b).2.mask = true)) ∧
    ((final .ball cut v b).1 = 0 ↔ (final .ball cut v b).2.mask = true) ∧
    (b.mask = false → ((final .gaus cut v b).1 = 0 ↔ (final .gaus cut v b).2.mask = true ∨ v = cut)) ∧
    (b.mask = false → ((final .redo cut v b).2.mask = true ↔ cut < v)) := by
  refine ⟨fun hb => ?_, ?_, fun hb => ?_, fun hb => ?_⟩
  · unfold final; dsimp only
    split
    · exact ⟨fun _ => rfl, fun _ => rfl⟩
    · simp [hb]
  · unfold final; dsimp only
    cases b.mask <;> simp
  · unfold final; dsimp only
    split
    · exact ⟨fun _ => Or.inl rfl, fun _ => rfl⟩
    · next h =>
      dsimp only
      rw [hb, sub_eq_zero, eq_comm, div_eq_one_iff_eq (ne_of_gt hc)]
      simp
  · unfold final; dsimp only
    split
    · next h => exact ⟨fun _ => h, fun _ => rfl⟩
    · next h => exact ⟨fun h' => absurd (hb.symm.trans h') (by simp), fun h' => absurd h' h⟩

/-- C74.  The cut is a positive number for any radius that is not zero, if the calibration is not zero. -/
theorem C74_cut_pos {calib radius : ℝ} (hr : 0 < radius) (hc : calib ≠ 0) :
    ∃ c, maskcut calib radius = some c ∧ 0 < c := by
  have h2 : 0 < |radius| * |radius| := by rw [abs_mul_abs_self]; positivity
  unfold maskcut
  by_cases h : calib < 0
  · rw [if_pos h, if_neg hr.ne']
    split
    · exact ⟨_, rfl, by positivity⟩
    · next h8 =>
      split
      · next h4 =>
        refine ⟨_, rfl, div_pos ?_ h2⟩
        rw [abs_of_pos hr]
        norm_num
        linarith
      · refine ⟨_, rfl, div_pos ?_ h2⟩
        rw [abs_of_pos hr]
        norm_num
        linarith [not_lt.1 h8]
  · have hp : 0 < calib := lt_of_le_of_ne (not_lt.1 h) hc.symm
    rw [if_neg h, if_neg (mul_pos hp hr).ne']
    refine ⟨_, rfl, ?_⟩
    have := Real.pi_pos
    have h3 : 0 < calib * radius := mul_pos hp hr
    positivity

/-- C74: the code's fault.  A calibration of zero is not rejected and its cut is not a number (zero times
infinity): then no site is above the cut. -/
theorem C74_cut_zero (radius : ℝ) : maskcut 0 radius = none := by
  unfold maskcut
  rw [if_neg (lt_irrefl _), zero_mul, if_pos rfl]

/-- C74.  The smaller the cut the more is masked; and with the calibration the cut falls with the radius. -/
theorem C74_cut_anti {calib r r' c c' : ℝ} (hc : 0 < calib) (hr : 0 < r) (h : r ≤ r')
    (e : maskcut calib r = some c) (e' : maskcut calib r' = some c') : c' ≤ c := by
  unfold maskcut at e e'
  rw [if_neg (not_lt.2 hc.le), if_neg (mul_pos hc hr).ne'] at e
  rw [if_neg (not_lt.2 hc.le), if_neg (mul_pos hc (lt_of_lt_of_le hr h)).ne'] at e'
  obtain rfl := Option.some.inj e
  obtain rfl := Option.some.inj e'
  have hpi := Real.pi_pos
  have h1 : calib * r ≤ calib * r' := mul_le_mul_of_nonneg_left h hc.le
  have h0 : 0 < calib * r := mul_pos hc hr
  refine mul_le_mul_of_nonneg_right ?_ (Real.exp_pos _).le
  refine div_le_div_of_nonneg_left (by norm_num) (by positivity) ?_
  have : calib * r * (calib * r) ≤ calib * r' * (calib * r') := mul_self_le_mul_self h0.le h1
  nlinarith

/-- C74.  Without calibration the cut is that of the fits: it falls with the square of the radius beyond 8,
and also below, but for a step at 8. -/
theorem C74_cut_fit {calib r r' c c' : ℝ} (hc : calib < 0) (hr : 0 < r) (h : r ≤ r')
    (h8 : r' ≤ 8 ∨ 8 < r) (e : maskcut calib r = some c) (e' : maskcut calib r' = some c') :
    c' ≤ c ∧ (8 < r → c * r ^ 2 = 0.21) := by
  have hr' : 0 < r' := lt_of_lt_of_le hr h
  unfold maskcut at e e'
  rw [if_pos hc, if_neg hr.ne'] at e
  rw [if_pos hc, if_neg hr'.ne'] at e'
  rw [abs_of_pos hr] at e
  rw [abs_of_pos hr'] at e'
  have hq : 0 < r * r := by positivity
  have hq' : 0 < r' * r' := by positivity
  have hrr : r * r ≤ r' * r' := mul_self_le_mul_self hr.le h
  rcases h8 with h8 | h8
  · refine ⟨?_, fun hh => absurd (lt_of_lt_of_le hh h) (not_lt.2 h8)⟩
    rw [if_neg (not_lt.2 h8)] at e'
    rw [if_neg (not_lt.2 (le_trans h h8))] at e
    by_cases h4 : r < 4
    · rw [if_pos h4] at e
      obtain rfl := Option.some.inj e
      by_cases h4' : r' < 4
      · rw [if_pos h4'] at e'
        obtain rfl := Option.some.inj e'
        refine div_le_div₀ ?_ (by linarith) hq hrr
        norm_num; linarith
      · rw [if_neg h4'] at e'
        obtain rfl := Option.some.inj e'
        -- both fits meet a number between them at 4
        refine le_trans (b := (0.0133 : ℝ)) ?_ ?_
        · rw [div_le_iff₀ hq']
          nlinarith [not_lt.1 h4']
        · rw [le_div_iff₀ hq]
          nlinarith
    · rw [if_neg h4] at e
      rw [if_neg (fun hh => h4 (lt_of_le_of_lt h hh))] at e'
      obtain rfl := Option.some.inj e
      obtain rfl := Option.some.inj e'
      refine div_le_div₀ ?_ (by linarith) hq hrr
      norm_num; linarith
  · rw [if_pos h8] at e
    rw [if_pos (lt_of_lt_of_le h8 h)] at e'
    obtain rfl := Option.some.inj e
    obtain rfl := Option.some.inj e'
    refine ⟨div_le_div_of_nonneg_left (by norm_num) hq hrr, fun _ => ?_⟩
    rw [pow_two, div_mul_cancel₀ _ hq.ne']

/-- C74: the code's fault.  At 8 the cut steps up: a mask of radius 8.1 has a higher cut than one of radius 8. -/
theorem C74_cut_step {calib : ℝ} (hc : calib < 0) : ∃ c c' : ℝ, maskcut calib 8 = some c ∧
    maskcut calib 8.1 = some c' ∧ c < c' := by
  unfold maskcut
  refine ⟨(0.22619714 - 0.00363601 * |8|) / (|8| * |8|), 0.21 / (8.1 * 8.1), ?_, ?_, ?_⟩
  · rw [if_pos hc, if_neg (by norm_num), if_neg (by norm_num), if_neg (by norm_num)]
  · rw [if_pos hc, if_neg (by norm_num), if_pos (by norm_num)]
  · rw [abs_of_pos (by norm_num)]
    norm_num

/-! ### Axitons -/

/-- C74.  A mask of axitons, when the marks are kept: a site is marked when its energy or its angle is above
the threshold or when it was marked, and whatever else the map had is forgotten. -/
theorem C74_axiton (P : AxPar) (hP : P.cum = true) (e m : ℝ) (b : Byte) :
    ((axiton P e m b).wall = true ↔ P.ethres < e ∨ P.tthres < |m * P.iR| ∨ b.wall = true) ∧
    (axiton P e m b).only = false ∧ (axiton P e m b).mask = false := by
  unfold axiton
  rw [hP]
  simp only [if_true, gt_iff_lt]
  split
  · next h => exact ⟨⟨fun _ => h, fun _ => rfl⟩, rfl, rfl⟩
  · next h => exact ⟨⟨fun h' => (by cases h'), fun h' => absurd h' h⟩, rfl, rfl⟩

/-- C74.  Marks that are kept are never lost, whatever comes. -/
theorem C74_axiton_kept (P : ℕ → AxPar) (hP : ∀ n, (P n).cum = true) (e m : ℕ → ℝ) (b : ℕ → Byte)
    (hb : ∀ n, b (n + 1) = axiton (P n) (e n) (m n) (b n)) {n k : ℕ} (h : n ≤ k) (hw : (b n).wall = true) :
    (b k).wall = true := by
  induction k, h using Nat.le_induction with
  | base => exact hw
  | succ k _ ih =>
    rw [hb]
    exact ((C74_axiton (P k) (hP k) _ _ _).1).2 (Or.inr (Or.inr ih))

/-- C74.  When the marks are not kept, a second mask finds exactly what is above the thresholds. -/
theorem C74_axiton_fresh (P : AxPar) (hP : P.cum = false) (e m e' m' : ℝ) (b : Byte) :
    (axiton P e' m' (axiton P e m b)).wall = true ↔ P.ethres < e' ∨ P.tthres < |m' * P.iR| := by
  have h0 : (axiton P e m b).xyp = false := by unfold axiton; split_ifs <;> rfl
  generalize axiton P e m b = b' at *
  unfold axiton
  rw [hP, h0]
  simp only [Bool.false_eq_true, if_false, or_false, gt_iff_lt]
  split
  · next h => exact ⟨fun _ => h, fun _ => rfl⟩
  · next h => exact ⟨fun h' => (by cases h'), fun h' => absurd h' h⟩

/-- C74: the code's fault.  But the first one, on a map of strings, also takes every site with a positive
winding in the first plane. -/
theorem C74_axiton_string (P : AxPar) (hP : P.cum = false) {e m : ℝ} (he : e ≤ P.ethres)
    (hm : |m * P.iR| ≤ P.tthres) (b : Byte) : (axiton P e m b).wall = true ↔ b.xyp = true := by
  unfold axiton
  rw [hP]
  simp only [Bool.false_eq_true, if_false, gt_iff_lt]
  split
  · next h =>
    rcases h with h | h | h
    · exact absurd h (not_lt.2 he)
    · exact absurd h (not_lt.2 hm)
    · exact ⟨fun _ => h, fun _ => rfl⟩
  · next h => exact ⟨fun h' => (by cases h'), fun h' => absurd (Or.inr (Or.inr h')) h⟩

/-! ### A case: two ranks of `2 × 2 × 2` and one pierced plaquette -/

open AxSpec (smallGrid smallOrder small_ok small_order)

def twoRanks (r : ℕ) : Rank where
  m2 := fun _ => some 0
  out := fun _ => some false
  sd := fun a => some (if r = 0 ∧ a = 0 then { xyp := true } else {})

def lastSites : List Site := [(1, 0, 1), (0, 0, 1), (0, 1, 1), (1, 1, 1)]
def restSites : List Site := [(0, 0, 0), (0, 1, 0), (1, 0, 0), (1, 1, 0)]
def slicePairs : List (ℕ × ℕ) := [(0, 0), (1, 1), (1, 0), (0, 1)]

theorem two_map (r : ℕ) (_ : r < 2) : HasMap smallGrid r single (twoRanks r) := by
  intro x y z hx hy hz
  simp only [smallGrid] at hx hy hz
  have e : (r = 0 ∧ smallGrid.bare (x, y, z) = 0) ↔ (x = 0 ∧ y = 0 ∧ r * smallGrid.Lz + z = 0) := by
    simp only [Grid.bare, Grid.S, smallGrid]
    omega
  show some (ite _ _ _) = some (ite _ _ _)
  rw [if_congr e rfl rfl]

theorem last_sites : Sites smallGrid (· = smallGrid.Lz - 1) lastSites := by
  refine ⟨by decide, ?_⟩
  rintro ⟨x, y, z⟩
  simp only [lastSites, List.mem_cons, Prod.mk.injEq, List.not_mem_nil, or_false, Grid.In, smallGrid]
  omega

theorem rest_sites : Sites smallGrid (· < smallGrid.Lz - 1) restSites := by
  refine ⟨by decide, ?_⟩
  rintro ⟨x, y, z⟩
  simp only [restSites, List.mem_cons, Prod.mk.injEq, List.not_mem_nil, or_false, Grid.In, smallGrid]
  omega

theorem slice_pairs : Pairs smallGrid slicePairs := by
  rintro ⟨x, y⟩
  simp only [slicePairs, List.mem_cons, Prod.mk.injEq, List.not_mem_nil, or_false, smallGrid]
  omega

theorem small_indices : Indices smallGrid (List.range 8) := by
  refine ⟨List.nodup_range, fun j => ?_⟩
  simp [Grid.S, smallGrid]

/-- With radius zero: the plaquette is masked, its neighbours partly, and two slices away nothing is. -/
example : ∃ s4 : ℕ → Rank, (s4 0).m2 (smallGrid.pad (1, 1, 0)) = some 0 ∧
    (∃ v, (s4 0).m2 (smallGrid.pad (1, 1, 1)) = some v ∧ v < 1) ∧
    (s4 1).m2 (smallGrid.pad (1, 1, 0)) = some 1 := by
  obtain ⟨s1, s2, seq, s4, _, _, _, _, _, h⟩ := C74_diff small_ok (by decide) (by decide) (R := 2) single twoRanks
    two_map (fun r _ => ⟨fun _ _ => rfl, fun _ _ => rfl⟩) 0 le_rfl (fun _ => lastSites) (fun _ => restSites)
    (fun _ => slicePairs) (fun _ => List.range 8) (fun _ _ => List.range 8) (fun _ => smallOrder)
    (fun _ _ => last_sites) (fun _ _ => rest_sites) (fun _ _ => slice_pairs) (fun _ _ => small_indices)
    (fun _ _ _ => small_indices) (fun _ _ => small_order)
  have hC : Corner 2 4 single 1 1 0 := (single_corners le_rfl (by norm_num)).2 ⟨le_rfl, le_rfl, rfl⟩
  refine ⟨s4, ?_, ?_, ?_⟩
  · obtain ⟨W, _, h2, _, _, h5, _⟩ := h 0 (by norm_num) 1 1 0 (by decide) (by decide) (by decide)
    rw [h2, h5 ⟨1, 1, 0, by decide, by decide, by decide, hC, by decide⟩]
    norm_num
  · obtain ⟨W, _, h2, _, _, _, h6, _⟩ := h 0 (by norm_num) 1 1 1 (by decide) (by decide) (by decide)
    refine ⟨_, h2, ?_⟩
    have : 0 < W := h6.2 ⟨1, 1, 0, by decide, by decide, by decide, hC, by norm_num; decide⟩
    linarith
  · obtain ⟨W, _, h2, h3, _, _, h6, _⟩ := h 1 (by norm_num) 1 1 0 (by decide) (by decide) (by decide)
    have : ¬ 0 < W := by
      rw [h6]
      rintro ⟨x', y', z', hx', hy', hz', hC', hd⟩
      have := (single_corners (T := 4) le_rfl (by norm_num)).1 hC'
      obtain ⟨_, _, rfl⟩ := this
      norm_num at hd
      have e : circ (2 * smallGrid.Lz) (1 * smallGrid.Lz + 0) 0 = 2 := by decide
      simp only [one_mul, add_zero] at e
      omega
    rw [h2, show W = 0 by linarith]
    norm_num

example : maskcut (5 / 4) 2 ≠ none := by
  obtain ⟨c, h, _⟩ := C74_cut_pos (calib := 5 / 4) (radius := 2) (by norm_num) (by norm_num)
  rw [h]; simp

example : (axiton ⟨2, 3, 1, false⟩ 0 0 { xyp := true }).wall = true :=
  (C74_axiton_string ⟨2, 3, 1, false⟩ rfl (by norm_num) (by norm_num) _).2 rfl

end Jaxions.Masker
