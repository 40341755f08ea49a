import Verif.Lemmas.Spectral

/-
C46: the spectral propagators and the ghost width.
-/

namespace Jaxions.Spectral

variable {K : Type}

/-- What a Saxion stage does, for every ghost width of at least one: the cell `S + i` of
the array (not the cell of site `i`) is updated with the velocity and Laplacian of site
`i`; nothing else of `m` changes.  `X` names the old content of those cells. -/
theorem saxStage_any (r : Rank) (hs : 0 < r.step) (hd : r.step ∣ r.V)
    (lap : List K → ℕ → K) (upd : Upd K) {order : List (ℕ × ℕ)}
    (ho : order.Perm (lanes r.S (r.V + r.S) r.step)) {n2 : ℕ} (hn : r.V ≤ n2) {M W X : ℕ → K}
    {h : Heap Loc K} (H : Holds r n2 M W h) (hX : ∀ i < r.V, h ⟨.m, r.S + i⟩ = some (X i)) :
    ∃ h', saxStage r lap upd order h = some h' ∧
      (∀ i < r.V, h' ⟨.m, r.S + i⟩ =
        some (upd (X i) (W i) (lap ((List.range r.V).map M) i)).1) ∧
      (∀ i < r.V, h' ⟨.v, i⟩ = some (upd (X i) (W i) (lap ((List.range r.V).map M) i)).2) ∧
      (∀ k, (k < r.S ∨ r.V + r.S ≤ k) → h' ⟨.m, k⟩ = h ⟨.m, k⟩) ∧
      (∀ k, (h' ⟨.m2, k⟩).isSome = (h ⟨.m2, k⟩).isSome) := by
  obtain ⟨h1, e1, e2, e3⟩ := applyLap_spec lap (fun i => ⟨.m, r.Ng * r.S + i⟩)
    (fun i => ⟨.m2, i⟩) r.V h M H.m (fun i hi => H.m2All i (by omega))
    (fun i _ j _ hij => by simpa using hij)
  have hm1 : ∀ k, h1 ⟨.m, k⟩ = h ⟨.m, k⟩ := fun k => e3 _ (fun i _ => by simp)
  have hv1 : ∀ k, h1 ⟨.v, k⟩ = h ⟨.v, k⟩ := fun k => e3 _ (fun i _ => by simp)
  obtain ⟨h2, k1, k2, k3, k4⟩ := kernel_spec upd r.S r.V r.step hs hd (fun i => i) ho h1 X W
    (fun i => lap ((List.range r.V).map M) i) (fun i hi => by rw [hm1, hX i hi])
    (fun i hi => by rw [hv1, H.v i hi])
    (fun i hi => by
      show h1 ⟨.m2, i / r.step * r.step + i % r.step⟩ = _
      rw [Nat.div_add_mod' i r.step]
      exact e2 i hi)
  refine ⟨h2, ?_, k2, k3, ?_, ?_⟩
  · unfold saxStage; rw [e1]; exact k1
  · intro k hk
    rw [k4 _ (fun i hi => ⟨by simp; omega, by simp⟩), hm1]
  · intro k
    rw [k4 _ (fun i hi => ⟨by simp, by simp⟩)]
    by_cases hk : k < r.V
    · rw [e2 k hk, Option.isSome_some, H.m2All k (by omega)]
    · rw [e3 _ (fun i hi => by simp; omega)]

/-- C46, Saxion, one ghost slice: a stage updates every physical site exactly once from
its own value, velocity and Laplacian, and keeps the ghost slices. -/
theorem C46_saxion_stage (r : Rank) (hNg : r.Ng = 1) (hs : 0 < r.step) (hd : r.step ∣ r.V)
    (lap : List K → ℕ → K) (upd : Upd K) {order : List (ℕ × ℕ)}
    (ho : order.Perm (lanes r.S (r.V + r.S) r.step)) {n2 : ℕ} (hn : r.V ≤ n2) {s : (ℕ → K) × (ℕ → K)}
    {h : Heap Loc K} (H : Holds r n2 s.1 s.2 h) :
    ∃ h', saxStage r lap upd order h = some h' ∧
      Holds r n2 (stepSites r.V lap upd s).1 (stepSites r.V lap upd s).2 h' ∧
      (∀ k, (k < r.S ∨ r.V + r.S ≤ k) → h' ⟨.m, k⟩ = h ⟨.m, k⟩) := by
  have hm : ∀ i < r.V, h ⟨.m, r.S + i⟩ = some (s.1 i) := by
    intro i hi
    have := H.m i hi
    rwa [hNg, Nat.one_mul] at this
  obtain ⟨h', e1, e2, e3, e4, e5⟩ := saxStage_any r hs hd lap upd ho hn H hm
  refine ⟨h', e1, ⟨?_, e3, ?_, ?_⟩, e4⟩
  · intro i hi
    rw [hNg, Nat.one_mul]
    exact e2 i hi
  · intro i hi
    by_cases hk : i < r.S ∨ r.V + r.S ≤ i
    · rw [e4 i hk]; exact H.mAll i hi
    · have := e2 (i - r.S) (by omega)
      rw [show r.S + (i - r.S) = i by omega] at this
      rw [this]; rfl
  · intro i hi
    rw [e5]; exact H.m2All i hi

/-- C46, Saxion, one ghost slice, a whole step of any number of stages: the result is
the sitewise evolution. -/
theorem C46_saxion_partial (r : Rank) (hNg : r.Ng = 1) (hs : 0 < r.step) (hd : r.step ∣ r.V)
    (lap : List K → ℕ → K) (ss : List (Upd K × List (ℕ × ℕ)))
    (ho : ∀ s ∈ ss, s.2.Perm (lanes r.S (r.V + r.S) r.step)) {n2 : ℕ} (hn : r.V ≤ n2)
    {s : (ℕ → K) × (ℕ → K)} {h : Heap Loc K} (H : Holds r n2 s.1 s.2 h) :
    ∃ h', runStages (saxStage r lap) ss h = some h' ∧
      Holds r n2 (ss.foldl (fun t u => stepSites r.V lap u.1 t) s).1
        (ss.foldl (fun t u => stepSites r.V lap u.1 t) s).2 h' := by
  induction ss generalizing s h with
  | nil => exact ⟨h, rfl, H⟩
  | cons u ss ih =>
    obtain ⟨h1, e1, e2, -⟩ := C46_saxion_stage r hNg hs hd lap u.1 (ho u List.mem_cons_self) hn H
    obtain ⟨h', k1, k2⟩ := ih (fun t ht => ho t (List.mem_cons_of_mem _ ht)) e2
    exact ⟨h', by simp only [runStages, e1, Option.bind_some]; exact k1, k2⟩

/-- C46 fails for more ghost slices: the last `Ng - 1` physical slices are never moved,
whatever the update. -/
theorem C46_saxion_frozen (r : Rank) (hNg : 2 ≤ r.Ng) (hs : 0 < r.step) (hd : r.step ∣ r.V)
    (lap : List K → ℕ → K) (upd : Upd K) {order : List (ℕ × ℕ)}
    (ho : order.Perm (lanes r.S (r.V + r.S) r.step)) {n2 : ℕ} (hn : r.V ≤ n2) {M W : ℕ → K}
    {h : Heap Loc K} (H : Holds r n2 M W h) :
    ∃ h', saxStage r lap upd order h = some h' ∧
      ∀ i < r.V, r.V ≤ i + (r.Ng - 1) * r.S → h' ⟨.m, r.Ng * r.S + i⟩ = some (M i) := by
  have hin : ∀ i < r.V, r.S + i < (r.Lz + 2 * r.Ng) * r.S := by
    intro i hi
    have h1 : r.V + 1 * r.S ≤ (r.Lz + 2 * r.Ng) * r.S := by
      unfold Rank.V; rw [← Nat.add_mul]; exact Nat.mul_le_mul_right _ (by omega)
    omega
  have hX : ∀ i < r.V, h ⟨.m, r.S + i⟩ = some ((h ⟨.m, r.S + i⟩).getD (M 0)) := by
    intro i hi
    obtain ⟨x, hx⟩ := Option.isSome_iff_exists.1 (H.mAll _ (hin i hi))
    rw [hx]; rfl
  obtain ⟨h', e1, -, -, e4, -⟩ := saxStage_any r hs hd lap upd ho hn H hX
  refine ⟨h', e1, ?_⟩
  intro i hi hlast
  have h2 : r.Ng * r.S = (r.Ng - 1) * r.S + r.S := by
    rw [← Nat.succ_mul]; congr 1; omega
  rw [e4 _ (.inr (by omega)), H.m i hi]

/-- C46 fails for more ghost slices: site `i` is updated with the velocity and the
Laplacian of the site `Ng - 1` slices further. -/
theorem C46_saxion_mispaired (r : Rank) (hNg : 1 ≤ r.Ng) (hs : 0 < r.step) (hd : r.step ∣ r.V)
    (lap : List K → ℕ → K) (upd : Upd K) {order : List (ℕ × ℕ)}
    (ho : order.Perm (lanes r.S (r.V + r.S) r.step)) {n2 : ℕ} (hn : r.V ≤ n2) {M W : ℕ → K}
    {h : Heap Loc K} (H : Holds r n2 M W h) :
    ∃ h', saxStage r lap upd order h = some h' ∧
      ∀ i, i + (r.Ng - 1) * r.S < r.V → h' ⟨.m, r.Ng * r.S + i⟩ =
        some (upd (M i) (W (i + (r.Ng - 1) * r.S))
          (lap ((List.range r.V).map M) (i + (r.Ng - 1) * r.S))).1 := by
  have hin : ∀ i < r.V, r.S + i < (r.Lz + 2 * r.Ng) * r.S := by
    intro i hi
    have h1 : r.V + 1 * r.S ≤ (r.Lz + 2 * r.Ng) * r.S := by
      unfold Rank.V; rw [← Nat.add_mul]; exact Nat.mul_le_mul_right _ (by omega)
    omega
  have hX : ∀ i < r.V, h ⟨.m, r.S + i⟩ = some ((h ⟨.m, r.S + i⟩).getD (M 0)) := by
    intro i hi
    obtain ⟨x, hx⟩ := Option.isSome_iff_exists.1 (H.mAll _ (hin i hi))
    rw [hx]; rfl
  obtain ⟨h', e1, e2, -, -, -⟩ := saxStage_any r hs hd lap upd ho hn H hX
  refine ⟨h', e1, ?_⟩
  intro i hi
  have h2 : r.Ng * r.S + i = r.S + (i + (r.Ng - 1) * r.S) := by
    have : r.Ng * r.S = (r.Ng - 1) * r.S + r.S := by
      rw [← Nat.succ_mul]; congr 1; omega
    omega
  rw [h2, e2 _ hi, ← h2, H.m i (by omega)]
  rfl

/-- C46, Axion: for every ghost width of at least one and vectors that stay inside a
row, a stage evolves the cells `S + i` as if they were the physical sites. -/
theorem axStage_any (r : Rank) (hs : 0 < r.step) (hd : r.step ∣ r.Lx)
    (hL : 0 < r.Lx) (lap : List K → ℕ → K) (upd : Upd K) {order : List (ℕ × ℕ)}
    (ho : order.Perm (lanes r.S (r.V + r.S) r.step)) {n2 : ℕ}
    (hn : r.Lz * r.Lx * (r.Lx + 2) ≤ n2) {M W X : ℕ → K}
    {h : Heap Loc K} (H : Holds r n2 M W h) (hX : ∀ i < r.V, h ⟨.m, r.S + i⟩ = some (X i)) :
    ∃ h', axStage r lap upd order h = some h' ∧
      (∀ i < r.V, h' ⟨.m, r.S + i⟩ =
        some (upd (X i) (W i) (lap ((List.range r.V).map X) i)).1) ∧
      (∀ i < r.V, h' ⟨.v, i⟩ = some (upd (X i) (W i) (lap ((List.range r.V).map X) i)).2) ∧
      (∀ k, (k < r.S ∨ r.V + r.S ≤ k) → h' ⟨.m, k⟩ = h ⟨.m, k⟩) ∧
      (∀ k, k < n2 → (h' ⟨.m2, k⟩).isSome) := by
  have hV : r.V = r.Lz * r.Lx * r.Lx := by unfold Rank.V Rank.S; rw [Nat.mul_assoc]
  have hdV : r.step ∣ r.V := by rw [hV]; exact Nat.dvd_mul_left_of_dvd hd _
  have hpad : ∀ i < r.V, padIx r.Lx i < n2 := by
    intro i hi
    exact Nat.lt_of_lt_of_le (padIx_lt hL (by rwa [hV] at hi)) hn
  have hmem : ∀ p : Loc × Loc, p ∈ ((List.range (r.Lz * r.Lx)).flatMap fun sl =>
      (List.range r.Lx).map fun x =>
        ((⟨.m2, sl * (r.Lx + 2) + x⟩, ⟨.m, r.S + (sl * r.Lx + x)⟩) : Loc × Loc)) ↔
      ∃ i < r.V, p = (⟨.m2, padIx r.Lx i⟩, ⟨.m, r.S + i⟩) := by
    intro p
    simp only [List.mem_flatMap, List.mem_map, List.mem_range]
    constructor
    · rintro ⟨sl, hsl, x, hx, rfl⟩
      refine ⟨sl * r.Lx + x, ?_, by rw [padIx_row x sl hx]⟩
      rw [hV]
      calc sl * r.Lx + x < (sl + 1) * r.Lx := by rw [Nat.succ_mul]; omega
        _ ≤ _ := Nat.mul_le_mul_right _ hsl
    · rintro ⟨i, hi, rfl⟩
      refine ⟨i / r.Lx, Nat.div_lt_of_lt_mul (by rwa [hV, Nat.mul_comm] at hi), i % r.Lx,
        Nat.mod_lt _ hL, ?_⟩
      rw [Nat.div_add_mod', ← padIx_row _ _ (Nat.mod_lt i hL), Nat.div_add_mod']
  obtain ⟨h0, c1, c2, c3⟩ := copyCells_spec _ h
    (by
      intro p hp
      obtain ⟨i, hi, rfl⟩ := (hmem p).1 hp
      exact ⟨H.m2All _ (hpad i hi), by rw [hX i hi]; rfl⟩)
    (by
      intro p hp q hq
      obtain ⟨i, hi, rfl⟩ := (hmem p).1 hp
      obtain ⟨j, hj, rfl⟩ := (hmem q).1 hq
      simp)
    (by
      intro p hp q hq hpq
      obtain ⟨i, hi, rfl⟩ := (hmem p).1 hp
      obtain ⟨j, hj, rfl⟩ := (hmem q).1 hq
      have : padIx r.Lx i = padIx r.Lx j := by simpa using hpq
      rw [padIx_inj hL this])
  have hm0 : ∀ k, h0 ⟨.m, k⟩ = h ⟨.m, k⟩ := fun k => c3 _ (by
    intro p hp
    obtain ⟨i, hi, rfl⟩ := (hmem p).1 hp
    simp)
  have hv0 : ∀ k, h0 ⟨.v, k⟩ = h ⟨.v, k⟩ := fun k => c3 _ (by
    intro p hp
    obtain ⟨i, hi, rfl⟩ := (hmem p).1 hp
    simp)
  have hp0 : ∀ i < r.V, h0 ⟨.m2, padIx r.Lx i⟩ = some (X i) := by
    intro i hi
    rw [c2 _ ((hmem _).2 ⟨i, hi, rfl⟩), hX i hi]
  obtain ⟨h1, e1, e2, e3⟩ := applyLap_spec lap (fun i => ⟨.m2, padIx r.Lx i⟩)
    (fun i => ⟨.m2, padIx r.Lx i⟩) r.V h0 X hp0 (fun i hi => by rw [hp0 i hi]; rfl)
    (fun i _ j _ hij => padIx_inj hL (by simpa using hij))
  have hm1 : ∀ k, h1 ⟨.m, k⟩ = h ⟨.m, k⟩ := fun k => by rw [e3 _ (fun i _ => by simp), hm0]
  have hv1 : ∀ k, h1 ⟨.v, k⟩ = h ⟨.v, k⟩ := fun k => by rw [e3 _ (fun i _ => by simp), hv0]
  obtain ⟨h2, k1, k2, k3, k4⟩ := kernel_spec upd r.S r.V r.step hs hdV (padIx r.Lx) ho h1 X W
    (fun i => lap ((List.range r.V).map X) i) (fun i hi => by rw [hm1, hX i hi])
    (fun i hi => by rw [hv1, H.v i hi])
    (fun i hi => by rw [padIx_vec hs hd hL]; exact e2 i hi)
  refine ⟨h2, ?_, k2, k3, ?_, ?_⟩
  · unfold axStage
    rw [c1]
    simp only [Option.bind_some]
    rw [e1]
    exact k1
  · intro k hk
    rw [k4 _ (fun i hi => ⟨by simp; omega, by simp⟩), hm1]
  · intro k hk
    rw [k4 _ (fun i hi => ⟨by simp, by simp⟩)]
    by_cases hc : ∃ i < r.V, (⟨.m2, k⟩ : Loc) = ⟨.m2, padIx r.Lx i⟩
    · obtain ⟨i, hi, hki⟩ := hc
      rw [hki, e2 i hi]; rfl
    · rw [e3 _ (fun i hi hk' => hc ⟨i, hi, hk'⟩), copyCells_isSome c1]
      exact H.m2All k hk

/-- C46, Axion, one ghost slice: a whole step of any number of stages is the sitewise
evolution. -/
theorem C46_axion_partial (r : Rank) (hNg : r.Ng = 1) (hs : 0 < r.step) (hd : r.step ∣ r.Lx)
    (hL : 0 < r.Lx) (lap : List K → ℕ → K) (ss : List (Upd K × List (ℕ × ℕ)))
    (ho : ∀ s ∈ ss, s.2.Perm (lanes r.S (r.V + r.S) r.step)) {n2 : ℕ}
    (hn : r.Lz * r.Lx * (r.Lx + 2) ≤ n2) {s : (ℕ → K) × (ℕ → K)} {h : Heap Loc K}
    (H : Holds r n2 s.1 s.2 h) :
    ∃ h', runStages (axStage r lap) ss h = some h' ∧
      Holds r n2 (ss.foldl (fun t u => stepSites r.V lap u.1 t) s).1
        (ss.foldl (fun t u => stepSites r.V lap u.1 t) s).2 h' := by
  induction ss generalizing s h with
  | nil => exact ⟨h, rfl, H⟩
  | cons u ss ih =>
    have hm : ∀ i < r.V, h ⟨.m, r.S + i⟩ = some (s.1 i) := by
      intro i hi
      have := H.m i hi
      rwa [hNg, Nat.one_mul] at this
    obtain ⟨h1, e1, e2, e3, e4, e5⟩ :=
      axStage_any r hs hd hL lap u.1 (ho u List.mem_cons_self) hn H hm
    have H1 : Holds r n2 (stepSites r.V lap u.1 s).1 (stepSites r.V lap u.1 s).2 h1 := by
      refine ⟨?_, e3, ?_, e5⟩
      · intro i hi
        rw [hNg, Nat.one_mul]
        exact e2 i hi
      · intro i hi
        by_cases hk : i < r.S ∨ r.V + r.S ≤ i
        · rw [e4 i hk]; exact H.mAll i hi
        · have := e2 (i - r.S) (by omega)
          rw [show r.S + (i - r.S) = i by omega] at this
          rw [this]; rfl
    obtain ⟨h', k1, k2⟩ := ih (fun t ht => ho t (List.mem_cons_of_mem _ ht)) H1
    exact ⟨h', by simp only [runStages, e1, Option.bind_some]; exact k1, k2⟩

/-- C46 fails for the Axion as well with more ghost slices: the last `Ng - 1` physical
slices are never moved. -/
theorem C46_axion_frozen (r : Rank) (hNg : 2 ≤ r.Ng) (hs : 0 < r.step) (hd : r.step ∣ r.Lx)
    (hL : 0 < r.Lx) (lap : List K → ℕ → K) (upd : Upd K) {order : List (ℕ × ℕ)}
    (ho : order.Perm (lanes r.S (r.V + r.S) r.step)) {n2 : ℕ}
    (hn : r.Lz * r.Lx * (r.Lx + 2) ≤ n2) {M W : ℕ → K} {h : Heap Loc K} (H : Holds r n2 M W h) :
    ∃ h', axStage r lap upd order h = some h' ∧
      ∀ i < r.V, r.V ≤ i + (r.Ng - 1) * r.S → h' ⟨.m, r.Ng * r.S + i⟩ = some (M i) := by
  have hin : ∀ i < r.V, r.S + i < (r.Lz + 2 * r.Ng) * r.S := by
    intro i hi
    have h1 : r.V + 1 * r.S ≤ (r.Lz + 2 * r.Ng) * r.S := by
      unfold Rank.V; rw [← Nat.add_mul]; exact Nat.mul_le_mul_right _ (by omega)
    omega
  have hX : ∀ i < r.V, h ⟨.m, r.S + i⟩ = some ((h ⟨.m, r.S + i⟩).getD (M 0)) := by
    intro i hi
    obtain ⟨x, hx⟩ := Option.isSome_iff_exists.1 (H.mAll _ (hin i hi))
    rw [hx]; rfl
  obtain ⟨h', e1, -, -, e4, -⟩ := axStage_any r hs hd hL lap upd ho hn H hX
  refine ⟨h', e1, ?_⟩
  intro i hi hlast
  have h2 : r.Ng * r.S = (r.Ng - 1) * r.S + r.S := by
    rw [← Nat.succ_mul]; congr 1; omega
  rw [e4 _ (.inr (by omega)), H.m i hi]

/-- The vector condition is needed: if a vector crosses the end of a row, a lane of it
reads the padding instead of the Laplacian of any site. -/
theorem C46_axion_reads_padding {Lx b l : ℕ} (hL : 0 < Lx) (h1 : Lx ≤ b % Lx + l)
    (h2 : b % Lx + l < Lx + 2) (i : ℕ) : padIx Lx b + l ≠ padIx Lx i := by
  unfold padIx
  intro h
  have hi := Nat.mod_lt i hL
  have d : ∀ a c, a < Lx + 2 → (a + c * (Lx + 2)) % (Lx + 2) = a := by
    intro a c ha
    rw [Nat.add_mul_mod_self_right, Nat.mod_eq_of_lt ha]
  have e1 := d (b % Lx + l) (b / Lx) h2
  rw [show b % Lx + l + b / Lx * (Lx + 2) = b % Lx + b / Lx * (Lx + 2) + l by omega, h,
    d _ _ (by omega)] at e1
  omega

/-- Such vectors exist for sizes the constructor accepts: length 6, four lanes. -/
example : 6 ≤ 4 % 6 + 2 ∧ 4 % 6 + 2 < 6 + 2 ∧ 4 ∣ 6 * 6 := by decide

/-- A rank with two sites per row, two slices, one ghost slice, one lane per vector,
that meets the hypotheses. -/
example : ∃ h : Heap Loc ℕ, Holds ⟨2, 2, 1, 1⟩ 16 (fun i => i) (fun _ => 1) h ∧
    ∃ h', runStages (saxStage ⟨2, 2, 1, 1⟩ (fun _ _ => 0))
      [(fun a b _ => (a + b, b), lanes 4 12 1)] h = some h' ∧ h' ⟨.m, 4 + 7⟩ = some 8 := by
  refine ⟨fun a => if a.idx < 16 then
    (match a.reg with | .m => some (a.idx - 4) | .v => some 1 | .m2 => some 0) else none, ?_, ?_⟩
  · refine ⟨?_, ?_, ?_, ?_⟩
    · intro i hi
      have : i < 8 := hi
      simp [Rank.S]; omega
    · intro i hi
      have : i < 8 := hi
      simp; omega
    · intro i hi
      have : i < 16 := hi
      simp [this]
    · intro i hi
      simp [hi]
  · refine ⟨_, rfl, ?_⟩
    rfl

end Jaxions.Spectral
