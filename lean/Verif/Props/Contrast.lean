import Verif.Model.Contrast
import Verif.Spec.Contrast
import Verif.Spec.DensMap
import Mathlib.Tactic.Linarith
import Mathlib.Tactic.FieldSimp
/-
C94: extremes over all ranks and the density map in bytes.
-/

namespace Jaxions.Contrast

/-- `a` is at least as far out as `b`. -/
def Beats : Kind → ℝ → ℝ → Prop
  | .max, a, b => b ≤ a
  | .min, a, b => a ≤ b

theorem Beats.refl (k : Kind) (a : ℝ) : Beats k a a := by cases k <;> exact le_refl a

theorem Beats.trans {k : Kind} {a b c : ℝ} (h1 : Beats k a b) (h2 : Beats k b c) : Beats k a c := by
  cases k
  · exact le_trans h2 h1
  · exact le_trans h1 h2

theorem replaces_spec (k : Kind) (c t : ℝ) :
    Beats k (if replaces k c t then t else c) c ∧ Beats k (if replaces k c t then t else c) t := by
  cases k <;> simp only [replaces, Beats, decide_eq_true_eq] <;> split_ifs with h
  · exact ⟨le_of_lt h, le_refl _⟩
  · exact ⟨le_refl _, not_lt.1 h⟩
  · exact ⟨le_of_lt h, le_refl _⟩
  · exact ⟨le_refl _, not_lt.1 h⟩

theorem join_spec (k : Kind) (c : ℝ) (p : Option ℝ) :
    (join k c p = c ∨ p = some (join k c p)) ∧ Beats k (join k c p) c ∧
      ∀ t, p = some t → Beats k (join k c p) t := by
  cases p with
  | none => exact ⟨Or.inl rfl, Beats.refl k c, by simp⟩
  | some t =>
    obtain ⟨h1, h2⟩ := replaces_spec k c t
    refine ⟨?_, h1, ?_⟩
    · show (if replaces k c t then t else c) = c ∨ some t = some (if replaces k c t then t else c)
      split_ifs
      · exact Or.inr rfl
      · exact Or.inl rfl
    · rintro _ ⟨⟩
      exact h2

theorem joins_spec (k : Kind) (ps : List (Option ℝ)) (c : ℝ) :
    (ps.foldl (join k) c = c ∨ some (ps.foldl (join k) c) ∈ ps) ∧ Beats k (ps.foldl (join k) c) c ∧
      ∀ t, some t ∈ ps → Beats k (ps.foldl (join k) c) t := by
  induction ps generalizing c with
  | nil => exact ⟨Or.inl rfl, Beats.refl k c, by simp⟩
  | cons p ps ih =>
    obtain ⟨h1, h2, h3⟩ := ih (join k c p)
    obtain ⟨g1, g2, g3⟩ := join_spec k c p
    rw [List.foldl_cons]
    refine ⟨?_, h2.trans g2, ?_⟩
    · rcases h1 with h1 | h1
      · rw [h1]
        rcases g1 with g1 | g1
        · exact Or.inl g1
        · right; rw [← g1]; simp
      · right; exact List.mem_cons_of_mem _ h1
    · intro t ht
      rcases List.mem_cons.1 ht with ht | ht
      · exact h2.trans (g3 t ht.symm)
      · exact h3 t ht

theorem iters_spec (k : Kind) (data : ℕ → ℝ) (l : List ℕ) (cur : Option ℝ) :
    (∀ v, l.foldl (iter k data) cur = some v → cur = some v ∨ ∃ i ∈ l, data i = v) ∧
      (∀ c, cur = some c → ∃ v, l.foldl (iter k data) cur = some v ∧ Beats k v c) ∧
      ∀ i ∈ l, ∃ v, l.foldl (iter k data) cur = some v ∧ Beats k v (data i) := by
  induction l generalizing cur with
  | nil => exact ⟨fun v h => Or.inl h, fun c h => ⟨c, h, Beats.refl k c⟩, by simp⟩
  | cons j l ih =>
    obtain ⟨h1, h2, h3⟩ := ih (iter k data cur j)
    rw [List.foldl_cons]
    have hi : ∃ w, iter k data cur j = some w ∧ Beats k w (data j) ∧ (∀ c, cur = some c → Beats k w c) ∧
        (cur = some w ∨ data j = w) := by
      cases cur with
      | none => exact ⟨data j, rfl, Beats.refl _ _, by simp, Or.inr rfl⟩
      | some c =>
        obtain ⟨g1, g2⟩ := replaces_spec k c (data j)
        refine ⟨_, rfl, g2, ?_, ?_⟩
        · rintro _ ⟨⟩; exact g1
        · split_ifs
          · exact Or.inr rfl
          · exact Or.inl rfl
    obtain ⟨w, e, w1, w2, w3⟩ := hi
    obtain ⟨v, e2, hv⟩ := h2 w e
    refine ⟨?_, ?_, ?_⟩
    · intro v hv
      rcases h1 v hv with h | ⟨i, hi, h⟩
      · rw [e] at h
        cases h
        rcases w3 with h | h
        · exact Or.inl h
        · exact Or.inr ⟨j, by simp, h⟩
      · exact Or.inr ⟨i, List.mem_cons_of_mem _ hi, h⟩
    · intro c hc
      exact ⟨v, e2, hv.trans (w2 c hc)⟩
    · intro i hi
      rcases List.mem_cons.1 hi with rfl | hi
      · exact ⟨v, e2, hv.trans w1⟩
      · exact h3 i hi

theorem findRank_spec (k : Kind) (data : ℕ → ℝ) (threads : List (List ℕ)) :
    (findRank k data threads = data 0 ∨ ∃ i ∈ threads.flatten, data i = findRank k data threads) ∧
      Beats k (findRank k data threads) (data 0) ∧
      ∀ i ∈ threads.flatten, Beats k (findRank k data threads) (data i) := by
  obtain ⟨h1, h2, h3⟩ := joins_spec k (threads.map fun l => l.foldl (iter k data) none) (data 0)
  refine ⟨?_, h2, ?_⟩
  · rcases h1 with h1 | h1
    · exact Or.inl h1
    · obtain ⟨l, hl, e⟩ := List.mem_map.1 h1
      rcases (iters_spec k data l none).1 _ e with h | ⟨i, hi, h⟩
      · simp at h
      · exact Or.inr ⟨i, List.mem_flatten.2 ⟨l, hl, hi⟩, h⟩
  · intro i hi
    obtain ⟨l, hl, hi⟩ := List.mem_flatten.1 hi
    obtain ⟨v, e, hv⟩ := (iters_spec k data l none).2.2 i hi
    exact (h3 v (List.mem_map.2 ⟨l, hl, e⟩)).trans hv

theorem allreduce_spec (k : Kind) (l : List ℝ) (hl : l ≠ []) :
    allreduce k l ∈ l ∧ ∀ t ∈ l, Beats k (allreduce k l) t := by
  cases l with
  | nil => exact absurd rfl hl
  | cons a l =>
    have e : allreduce k (a :: l) = (l.map some).foldl (join k) a := by
      rw [List.foldl_map]; rfl
    obtain ⟨h1, h2, h3⟩ := joins_spec k (l.map some) a
    rw [e]
    refine ⟨?_, ?_⟩
    · rcases h1 with h1 | h1
      · rw [h1]; simp
      · obtain ⟨b, hb, e⟩ := List.mem_map.1 h1
        simp only [Option.some.injEq] at e
        rw [← e]; exact List.mem_cons_of_mem _ hb
    · intro t ht
      rcases List.mem_cons.1 ht with rfl | ht
      · exact h2
      · exact h3 t (List.mem_map.2 ⟨t, ht, rfl⟩)

/-- The iterations of the loops of all ranks, split over any number of threads. -/
def AllThreads (P n : ℕ) (threads : ℕ → List (List ℕ)) : Prop :=
  ∀ r < P, (threads r).flatten.Perm (List.range' 1 (n - 1))

theorem find_spec (k : Kind) {P n : ℕ} (hP : 0 < P) (hn : 0 < n) (data : ℕ → ℕ → ℝ)
    (threads : ℕ → List (List ℕ)) (ht : AllThreads P n threads) :
    find k P data threads ∈ Values P n data ∧
      ∀ v ∈ Values P n data, Beats k (find k P data threads) v := by
  obtain ⟨h1, h2⟩ := allreduce_spec k ((List.range P).map fun r => findRank k (data r) (threads r))
    (by simp; omega)
  refine ⟨?_, ?_⟩
  · obtain ⟨r, hr, e⟩ := List.mem_map.1 h1
    have hr := List.mem_range.1 hr
    obtain ⟨g1, -, -⟩ := findRank_spec k (data r) (threads r)
    rcases g1 with g1 | ⟨i, hi, g1⟩
    · exact ⟨r, 0, hr, hn, g1.symm.trans e⟩
    · have := (ht r hr).mem_iff.1 hi
      rw [List.mem_range'_1] at this
      exact ⟨r, i, hr, by omega, g1.trans e⟩
  · rintro v ⟨r, i, hr, hi, rfl⟩
    refine (h2 _ (List.mem_map.2 ⟨r, List.mem_range.2 hr, rfl⟩)).trans ?_
    obtain ⟨-, g2, g3⟩ := findRank_spec k (data r) (threads r)
    rcases Nat.eq_zero_or_pos i with rfl | h0
    · exact g2
    · apply g3
      rw [(ht r hr).mem_iff, List.mem_range'_1]
      omega

/-- **C94** `find` gives the maximum over all numbers of all ranks, for every number of ranks and
threads and every split of the work. -/
theorem C94_max {P n : ℕ} (hP : 0 < P) (hn : 0 < n) (data : ℕ → ℕ → ℝ)
    (threads : ℕ → List (List ℕ)) (ht : AllThreads P n threads) :
    IsGreatest (Values P n data) (find .max P data threads) :=
  ⟨(find_spec .max hP hn data threads ht).1, (find_spec .max hP hn data threads ht).2⟩

/-- **C94** The same for the minimum. -/
theorem C94_min {P n : ℕ} (hP : 0 < P) (hn : 0 < n) (data : ℕ → ℕ → ℝ)
    (threads : ℕ → List (List ℕ)) (ht : AllThreads P n threads) :
    IsLeast (Values P n data) (find .min P data threads) :=
  ⟨(find_spec .min hP hn data threads ht).1, (find_spec .min hP hn data threads ht).2⟩

theorem cMin_eq (m : ℝ) : cMin m = Real.log (max m (1 / 1000)) := by
  unfold cMin lowCut
  split_ifs with h
  · rw [max_eq_right h]
  · rw [max_eq_left (le_of_lt (not_le.1 h))]

/-- Position on the scale, from 0 to 255. -/
noncomputable def pos (M m x : ℝ) : ℝ :=
  (Real.log x - Real.log (max m (1 / 1000))) * (255 / (Real.log M - Real.log (max m (1 / 1000))))

open Classical in
/-- The level as a number. -/
noncomputable def lev (M m x : ℝ) : ℕ := if x ≤ 1 / 1000 then 0 else ⌊pos M m x + 1 / 2⌋.toNat

theorem span_pos {M m : ℝ} (h : m < M) (hM : 1 / 1000 < M) :
    0 < Real.log M - Real.log (max m (1 / 1000)) := by
  have h1 : max m (1 / 1000) < M := max_lt h hM
  have h0 : (0 : ℝ) < max m (1 / 1000) := lt_of_lt_of_le (by norm_num) (le_max_right _ _)
  exact sub_pos.2 (Real.log_lt_log h0 h1)

theorem pos_bounds {M m x : ℝ} (h : m < M) (h1 : m ≤ x) (h2 : x ≤ M) (hx : 1 / 1000 < x) :
    0 ≤ pos M m x ∧ pos M m x ≤ 255 := by
  have hs := span_pos h (lt_of_lt_of_le hx h2)
  have h0 : (0 : ℝ) < max m (1 / 1000) := lt_of_lt_of_le (by norm_num) (le_max_right _ _)
  have hx0 : (0 : ℝ) < x := lt_trans (by norm_num) hx
  have a : Real.log (max m (1 / 1000)) ≤ Real.log x := Real.log_le_log h0 (max_le h1 (le_of_lt hx))
  have b : Real.log x ≤ Real.log M := Real.log_le_log hx0 h2
  unfold pos
  refine ⟨mul_nonneg (sub_nonneg.2 a) (div_nonneg (by norm_num) (le_of_lt hs)), ?_⟩
  rw [mul_div_assoc', div_le_iff₀ hs]
  nlinarith

theorem pos_mono {M m x y : ℝ} (h : m < M) (hM : 1 / 1000 < M) (hx : 0 < x) (hxy : x ≤ y) :
    pos M m x ≤ pos M m y := by
  have hs := span_pos h hM
  unfold pos
  refine mul_le_mul_of_nonneg_right ?_ (div_nonneg (by norm_num) (le_of_lt hs))
  exact sub_le_sub_right (Real.log_le_log hx hxy) _

theorem lev_cast {M m x : ℝ} (h : m < M) (h1 : m ≤ x) (h2 : x ≤ M) (hx : 1 / 1000 < x) :
    ((lev M m x : ℕ) : ℤ) = ⌊pos M m x + 1 / 2⌋ := by
  unfold lev
  rw [if_neg (not_le.2 hx)]
  refine Int.toNat_of_nonneg (Int.floor_nonneg.2 ?_)
  linarith [(pos_bounds h h1 h2 hx).1]

theorem lev_le {M m x : ℝ} (h : m < M) (h1 : m ≤ x) (h2 : x ≤ M) : lev M m x ≤ 255 := by
  by_cases hx : x ≤ 1 / 1000
  · unfold lev; rw [if_pos hx]; norm_num
  · have hx := not_le.1 hx
    have e := lev_cast h h1 h2 hx
    have : ⌊pos M m x + 1 / 2⌋ < 256 := by
      rw [Int.floor_lt]
      push_cast
      linarith [(pos_bounds h h1 h2 hx).2]
    omega

theorem lev_mono {M m x y : ℝ} (h : m < M) (h1 : m ≤ x) (h2 : y ≤ M) (hxy : x ≤ y) :
    lev M m x ≤ lev M m y := by
  by_cases hx : x ≤ 1 / 1000
  · unfold lev; rw [if_pos hx]; exact Nat.zero_le _
  · have hx := not_le.1 hx
    have e1 := lev_cast h h1 (le_trans hxy h2) hx
    have e2 := lev_cast h (le_trans h1 hxy) h2 (lt_of_lt_of_le hx hxy)
    have : ⌊pos M m x + 1 / 2⌋ ≤ ⌊pos M m y + 1 / 2⌋ := by
      apply Int.floor_le_floor
      have := pos_mono h (lt_of_lt_of_le hx (le_trans hxy h2)) (lt_trans (by norm_num) hx) hxy
      linarith
    omega

theorem lev_top {M m : ℝ} (h : m < M) (hM : 1 / 1000 < M) : lev M m M = 255 := by
  have e := lev_cast h (le_of_lt h) (le_refl M) hM
  have hs := span_pos h hM
  have : pos M m M = 255 := by
    unfold pos
    rw [mul_div_assoc', mul_comm, mul_div_assoc, div_self hs.ne', mul_one]
  rw [this] at e
  have : ⌊(255 : ℝ) + 1 / 2⌋ = 255 := by
    rw [Int.floor_eq_iff]; norm_num
  rw [this] at e
  exact_mod_cast e

theorem level_eq {M m x : ℝ} (h : m < M) (h1 : m ≤ x) (h2 : x ≤ M) :
    (level M m x).map toByte = some (lev M m x) := by
  unfold level lowCut
  by_cases hx : x ≤ 1 / 1000
  · rw [if_pos hx]
    unfold lev
    rw [if_pos hx]
    rfl
  · rw [if_neg hx, cMin_eq]
    have hx := not_le.1 hx
    rw [if_neg (span_pos h (lt_of_lt_of_le hx h2)).ne']
    have e := lev_cast h h1 h2 hx
    have hb := lev_le h h1 h2
    have : cRound (pos M m x) = ⌊pos M m x + 1 / 2⌋ := if_pos (pos_bounds h h1 h2 hx).1
    show some (toByte (cRound (pos M m x))) = _
    rw [this, ← e]
    unfold toByte
    congr 1
    omega

theorem grey_near {M m x : ℝ} (h : m < M) (h1 : m ≤ x) (h2 : x ≤ M) (hx : 1 / 1000 < x) :
    |Real.log (grey M m (lev M m x)) - Real.log x| ≤
      (Real.log M - Real.log (max m (1 / 1000))) / 510 := by
  have hs := span_pos h (lt_of_lt_of_le hx h2)
  have e : ((lev M m x : ℕ) : ℝ) = (⌊pos M m x + 1 / 2⌋ : ℝ) := by
    exact_mod_cast congrArg (fun i : ℤ => (i : ℝ)) (lev_cast h h1 h2 hx)
  have f1 := Int.floor_le (pos M m x + 1 / 2)
  have f2 := Int.lt_floor_add_one (pos M m x + 1 / 2)
  rw [← e] at f1 f2
  unfold grey
  rw [Real.log_exp]
  have hp : Real.log x = Real.log (max m (1 / 1000)) +
      pos M m x * ((Real.log M - Real.log (max m (1 / 1000))) / 255) := by
    unfold pos
    field_simp
    ring
  rw [hp]
  generalize Real.log M - Real.log (max m (1 / 1000)) = s at *
  generalize pos M m x = t at *
  generalize ((lev M m x : ℕ) : ℝ) = b at *
  rw [abs_le]
  constructor <;> nlinarith

/-- Writing the cells one after the other. -/
theorem bytes_spec (M m : ℝ) (first : ℕ) (m2 : Heap ℕ ℝ) (f : ℕ → ℕ) (order : List ℕ)
    (rC : Heap ℕ ℕ) (hal : ∀ i ∈ order, (rC i).isSome)
    (hv : ∀ i ∈ order, ∃ x b, m2 (first + i) = some x ∧ level M m x = some b ∧ toByte b = f i) :
    ∃ h, bytes M m first m2 order rC = some h ∧ (∀ i ∈ order, h i = some (f i)) ∧
      ∀ i, i ∉ order → h i = rC i := by
  induction order generalizing rC with
  | nil => exact ⟨rC, rfl, by simp, fun _ _ => rfl⟩
  | cons j l ih =>
    obtain ⟨x, b, e1, e2, e3⟩ := hv j (by simp)
    have ew := write_eq rC j (toByte b) (hal j (by simp))
    obtain ⟨h, eh, h1, h2⟩ := ih (fun c => if c = j then some (toByte b) else rC c)
      (fun i hi => by
        show (if i = j then some (toByte b) else rC i).isSome = true
        split_ifs
        · rfl
        · exact hal i (List.mem_cons_of_mem _ hi))
      (fun i hi => hv i (List.mem_cons_of_mem _ hi))
    refine ⟨h, ?_, ?_, ?_⟩
    · unfold bytes at eh ⊢
      rw [List.foldlM_cons, e1]
      simp only [Option.bind_eq_bind, Option.bind_some, e2, ew]
      exact eh
    · intro i hi
      by_cases hl : i ∈ l
      · exact h1 i hl
      · rcases List.mem_cons.1 hi with rfl | hi
        · rw [h2 i hl, if_pos rfl, e3]
        · exact absurd hi hl
    · intro i hi
      rw [h2 i (fun h => hi (List.mem_cons_of_mem _ h)), if_neg (fun h => hi (by rw [h]; simp))]

/-- **C94** The map in bytes.  For every number of ranks and threads and every order of the cells, as
long as the numbers are not all equal: every cell gets a level from 0 to 255; the scale is the same on
all ranks, so of two cells anywhere the larger has the higher or the same level; cells up to 1/1000 get
0, the maximum gets 255; and from the level and the stored extremes the number is recovered up to a
factor `(M / max(m, 1/1000))^(1/510)`. -/
theorem C94_map {P n : ℕ} (hP : 0 < P) (hn : 0 < n) (data : ℕ → ℕ → ℝ)
    (threads threads' : ℕ → List (List ℕ)) (ht : AllThreads P n threads)
    (ht' : AllThreads P n threads') (hne : find .min P data threads' < find .max P data threads)
    (first : ℕ) (m2 : ℕ → Heap ℕ ℝ) (hm : ∀ r < P, ∀ i < n, m2 r (first + i) = some (data r i))
    (rC : ℕ → Heap ℕ ℕ) (hc : ∀ r < P, ∀ i < n, (rC r i).isSome)
    (order : ℕ → List ℕ) (ho : ∀ r < P, (order r).Perm (List.range n)) :
    let M := find .max P data threads
    let m := find .min P data threads'
    ∃ B : ℕ → ℕ → ℕ,
      (∀ r < P, ∃ h, bytes M m first (m2 r) (order r) (rC r) = some h ∧
        (∀ i < n, h i = some (B r i)) ∧ ∀ i, n ≤ i → h i = rC r i) ∧
      (∀ r < P, ∀ i < n, B r i ≤ 255) ∧
      (∀ r < P, ∀ i < n, ∀ s < P, ∀ j < n, data r i ≤ data s j → B r i ≤ B s j) ∧
      (∀ r < P, ∀ i < n, data r i ≤ 1 / 1000 → B r i = 0) ∧
      (∀ r < P, ∀ i < n, 1 / 1000 < data r i → (∀ s < P, ∀ j < n, data s j ≤ data r i) →
        B r i = 255) ∧
      ∀ r < P, ∀ i < n, 1 / 1000 < data r i →
        |Real.log (grey M m (B r i)) - Real.log (data r i)| ≤
          (Real.log M - Real.log (max m (1 / 1000))) / 510 := by
  intro M m
  obtain ⟨a1, a2⟩ := C94_max hP hn data threads ht
  obtain ⟨b1, b2⟩ := C94_min hP hn data threads' ht'
  have hlo : ∀ r < P, ∀ i < n, m ≤ data r i := fun r hr i hi => b2 ⟨r, i, hr, hi, rfl⟩
  have hhi : ∀ r < P, ∀ i < n, data r i ≤ M := fun r hr i hi => a2 ⟨r, i, hr, hi, rfl⟩
  refine ⟨fun r i => lev M m (data r i), ?_, ?_, ?_, ?_, ?_, ?_⟩
  · intro r hr
    have hmem : ∀ i, i ∈ order r ↔ i < n := fun i => by
      rw [(ho r hr).mem_iff, List.mem_range]
    obtain ⟨h, e, h1, h2⟩ := bytes_spec M m first (m2 r) (fun i => lev M m (data r i)) (order r) (rC r)
      (fun i hi => hc r hr i ((hmem i).1 hi))
      (fun i hi => by
        have hi := (hmem i).1 hi
        have := level_eq hne (hlo r hr i hi) (hhi r hr i hi)
        obtain ⟨b, e1, e2⟩ := Option.map_eq_some_iff.1 this
        exact ⟨_, b, hm r hr i hi, e1, e2⟩)
    exact ⟨h, e, fun i hi => h1 i ((hmem i).2 hi), fun i hi => h2 i (by rw [hmem]; omega)⟩
  · intro r hr i hi
    exact lev_le hne (hlo r hr i hi) (hhi r hr i hi)
  · intro r hr i hi s hs j hj h
    exact lev_mono hne (hlo r hr i hi) (hhi s hs j hj) h
  · intro r hr i hi h
    exact if_pos h
  · intro r hr i hi h hmax
    have e : data r i = M := by
      refine le_antisymm (hhi r hr i hi) ?_
      obtain ⟨s, j, hs, hj, e⟩ := a1
      rw [← show data s j = M from e]
      exact hmax s hs j hj
    show lev M m (data r i) = 255
    rw [e] at h ⊢
    exact lev_top hne h
  · intro r hr i hi h
    exact grey_near hne (hlo r hr i hi) (hhi r hr i hi) h

/-- **C94** (violated by a map without contrast) If all numbers are equal and above 1/1000 the scale has
length zero, and the conversion of the first cell has no defined result.  At or below 1/1000 the map is
zero everywhere. -/
theorem C94_flat (c : ℝ) (n first : ℕ) (hn : 0 < n) (m2 : Heap ℕ ℝ)
    (hm : ∀ i < n, m2 (first + i) = some c) (rC : Heap ℕ ℕ) (hc : ∀ i < n, (rC i).isSome)
    (order : List ℕ) (ho : order.Perm (List.range n)) :
    (1 / 1000 < c → bytes c c first m2 order rC = none) ∧
      (c ≤ 1 / 1000 → ∃ h, bytes c c first m2 order rC = some h ∧ ∀ i < n, h i = some 0) := by
  have hmem : ∀ i, i ∈ order ↔ i < n := fun i => by rw [ho.mem_iff, List.mem_range]
  refine ⟨fun h => ?_, fun h => ?_⟩
  · cases order with
    | nil =>
      have := (hmem 0).2 hn
      simp at this
    | cons j l =>
      have hl : level c c c = none := by
        unfold level lowCut
        rw [if_neg (not_le.2 h), cMin_eq, max_eq_left (le_of_lt h), if_pos (sub_self _)]
      unfold bytes
      rw [List.foldlM_cons, hm j ((hmem j).1 (by simp))]
      simp only [Option.bind_eq_bind, Option.bind_some, hl, Option.bind_none]
  · obtain ⟨g, e, h1, -⟩ := bytes_spec c c first m2 (fun _ => 0) order rC
      (fun i hi => hc i ((hmem i).1 hi))
      (fun i hi => ⟨c, 0, hm i ((hmem i).1 hi), if_pos h, rfl⟩)
    exact ⟨g, e, fun i hi => h1 i ((hmem i).2 hi)⟩

/-- **C94** The radial map is looked for where the energy puts it (C93) exactly if there is one ghost
slice on each side; with more ghosts the bytes are those of other numbers. -/
theorem C94_radial (Lx Lz Ng comps : ℕ) (hL : 0 < Lx) :
    rhoFirst Lx Lz = DensMap.place Lx Lz Ng comps .rho ↔ Ng = 1 := by
  show Lx * Lx * Lz + Lx * Lx * 2 = (Lz + 2 * Ng) * (Lx * Lx) ↔ Ng = 1
  have h : 0 < Lx * Lx := Nat.mul_pos hL hL
  generalize Lx * Lx = s at h
  have e : (Lz + 2 * Ng) * s = s * Lz + s * (2 * Ng) := by ring
  rw [e]
  constructor
  · intro h'
    have : s * 2 = s * (2 * Ng) := by omega
    have := Nat.eq_of_mul_eq_mul_left h this
    omega
  · rintro rfl; rfl

/-! ### Cases -/

/-- Two ranks of three cells, on one of them two threads, the second joined first. -/
example : AllThreads 2 3 (fun r => if r = 0 then [[2], [1]] else [[1, 2], []]) := by
  intro r hr
  have : r = 0 ∨ r = 1 := by omega
  rcases this with rfl | rfl
  · show [2, 1].Perm [1, 2]
    exact List.Perm.swap _ _ _
  · show [1, 2].Perm [1, 2]
    exact List.Perm.refl _

/-- Values 10, 11, … on these ranks: the maximum is 15 and the minimum is 10. -/
theorem six (threads : ℕ → List (List ℕ)) (ht : AllThreads 2 3 threads) :
    find .max 2 (fun r i => 10 + 3 * r + i) threads = 15 ∧
      find .min 2 (fun r i => 10 + 3 * r + i) threads = 10 := by
  have h1 := C94_max (by decide) (by decide) (fun r i => (10 + 3 * r + i : ℝ)) threads ht
  have h2 := C94_min (by decide) (by decide) (fun r i => (10 + 3 * r + i : ℝ)) threads ht
  refine ⟨h1.unique ⟨⟨1, 2, by decide, by decide, by norm_num⟩, ?_⟩,
    h2.unique ⟨⟨0, 0, by decide, by decide, by norm_num⟩, ?_⟩⟩
  · rintro v ⟨r, i, hr, hi, rfl⟩
    have a : (r : ℝ) ≤ 1 := by exact_mod_cast Nat.le_of_lt_succ hr
    have b : (i : ℝ) ≤ 2 := by exact_mod_cast Nat.le_of_lt_succ hi
    show (10 + 3 * r + i : ℝ) ≤ 15
    linarith
  · rintro v ⟨r, i, hr, hi, rfl⟩
    have a : (0 : ℝ) ≤ r := Nat.cast_nonneg r
    have b : (0 : ℝ) ≤ i := Nat.cast_nonneg i
    show (10 : ℝ) ≤ 10 + 3 * r + i
    linarith

/-- The map of these numbers: the last cell of the second rank is white. -/
example : ∃ h, bytes 15 10 7 (fun a => some (13 + ((a - 7 : ℕ) : ℝ))) [2, 0, 1] (fun _ => some 9) = some h ∧
    h 2 = some 255 ∧ h 3 = some 9 := by
  have ht : AllThreads 2 3 (fun _ => [[1], [2]]) := fun r _ => List.Perm.refl _
  obtain ⟨e1, e2⟩ := six _ ht
  have h := C94_map (P := 2) (n := 3) (by decide) (by decide) (fun r i => (10 + 3 * r + i : ℝ)) _ _ ht ht
    (by rw [e1, e2]; norm_num) 7 (fun r a => some (10 + 3 * r + ((a - 7 : ℕ) : ℝ)))
    (fun r _ i _ => by simp) (fun _ _ => some 9) (fun _ _ _ _ => rfl) (fun _ => [2, 0, 1])
    (fun _ _ => by decide)
  simp only [e1, e2] at h
  obtain ⟨B, h1, -, -, -, h5, -⟩ := h
  obtain ⟨g, e, g1, g2⟩ := h1 1 (by decide)
  refine ⟨g, ?_, ?_, g2 3 (by decide)⟩
  · norm_num at e ⊢
    exact e
  · rw [g1 2 (by decide), h5 1 (by decide) 2 (by decide) (by norm_num)]
    intro s hs j hj
    have a : (s : ℝ) ≤ 1 := by exact_mod_cast Nat.le_of_lt_succ hs
    have b : (j : ℝ) ≤ 2 := by exact_mod_cast Nat.le_of_lt_succ hj
    push_cast
    linarith

end Jaxions.Contrast
