import Verif.Props.AxionPotential

/-
**C72** From the second half of `m2` to the transform, and what the stored data sets hold.
-/

namespace Jaxions.AxSpec

open Complex

variable {g : Grid}

/-- `lower` copies the second half onto the first. -/
theorem lower_spec {t : M2} (hr : g.Room t) :
    ∃ t', lower g t = some t' ∧ (∀ a, a < g.v3 → t' a = t (g.v3 + a)) ∧
      (∀ a, g.v3 ≤ a → t' a = t a) := by
  obtain ⟨t', e1, e2, e3⟩ := memmove_spec (fun i => i) (fun i => g.v3 + i) g.v3 t
    (fun i hi => hr _ (by omega)) (fun i hi => hr _ (by omega)) (fun i _ j _ h => h)
  exact ⟨t', e1, e2, fun a ha => e3 a fun i hi => by omega⟩

/-- `squeeze` moves row `r` of padded rows to row `r` of bare ones. -/
theorem squeeze_spec {α : Type} (hg : g.Ok) {t : Heap ℕ α} (hr : g.Room t) :
    ∃ t', squeeze g t = some t' ∧
      (∀ r i, 1 ≤ r → r < g.L * g.Lz → i < g.L → t' (r * g.L + i) = t (r * (g.L + 2) + i)) ∧
      ∀ a, a < g.L ∨ g.L * g.Lz * g.L ≤ a → t' a = t a := by
  have hlast : ∀ r i, r < g.L * g.Lz → i < g.L → r * (g.L + 2) + i < g.v3 := by
    intro r i h1 h2
    have h3 : r / g.L < g.Lz := Nat.div_lt_of_lt_mul h1
    have h4 := pad_lt hg (i, r % g.L, r / g.L) ⟨h2, Nat.mod_lt _ hg.L, h3⟩
    have h5 := div_mul_add_mod r g.L
    unfold Grid.pad at h4
    dsimp only at h4
    calc r * (g.L + 2) + i = (r / g.L * g.L + r % g.L) * (g.L + 2) + i := by rw [h5]
      _ = i + (g.L + 2) * (r % g.L) + g.L * (g.L + 2) * (r / g.L) := by ring
      _ < _ := h4
  have := range_inv (f := fun (t : Heap ℕ α) i => memmove (fun j => (i + 1) * g.L + j)
      (fun j => (i + 1) * (g.L + 2) + j) g.L t) (s := t)
    (P := fun n t' => (∀ r i, 1 ≤ r → r < n + 1 → i < g.L → t' (r * g.L + i) = t (r * (g.L + 2) + i)) ∧
      (∀ a, a < g.L ∨ (n + 1) * g.L ≤ a → t' a = t a) ∧ g.Room t') (g.L * g.Lz - 1)
    ⟨fun r i h1 h2 => by omega, fun a _ => rfl, hr⟩
    (by
      intro n hn t1 ⟨h1, h2, h3⟩
      obtain ⟨t2, e1, e2, e3⟩ := memmove_spec (fun j => (n + 1) * g.L + j)
        (fun j => (n + 1) * (g.L + 2) + j) g.L t1
        (fun i hi => h3 _ (by have := hlast (n + 1) i (by omega) hi; omega))
        (fun i hi => h3 _ (by
          have := hlast (n + 1) i (by omega) hi
          have : (n + 1) * g.L ≤ (n + 1) * (g.L + 2) := Nat.mul_le_mul_left _ (by omega)
          omega))
        (fun i _ j _ h => by omega)
      refine ⟨t2, e1, ?_, ?_, ?_⟩
      · intro r i hr1 hr2 hi
        by_cases hrn : r = n + 1
        · subst hrn
          rw [e2 i hi, h2]
          right
          have : (n + 1) * g.L ≤ (n + 1) * (g.L + 2) := Nat.mul_le_mul_left _ (by omega)
          omega
        · rw [e3, h1 r i hr1 (by omega) hi]
          intro j hj
          have : r * g.L + i < (n + 1) * g.L := pair_lt (by omega) hi
          omega
      · intro a ha
        rw [e3, h2]
        · rcases ha with ha | ha
          · exact Or.inl ha
          · right
            have : (n + 1) * g.L ≤ (n + 1 + 1) * g.L := Nat.mul_le_mul_right _ (by omega)
            omega
        · intro j hj
          rcases ha with ha | ha
          · have : g.L ≤ (n + 1) * g.L := Nat.le_mul_of_pos_left _ (by omega)
            omega
          · have : (n + 1) * g.L + j < (n + 1 + 1) * g.L := pair_lt (by omega) hj
            omega
      · intro a ha
        by_cases hd : ∃ j, j < g.L ∧ a = (n + 1) * g.L + j
        · obtain ⟨j, hj, rfl⟩ := hd
          rw [e2 j hj]
          exact h3 _ (by have := hlast (n + 1) j (by omega) hj; omega)
        · rw [e3 a fun j hj hc => hd ⟨j, hj, hc⟩]
          exact h3 a ha)
  obtain ⟨t', e1, e2, e3, _⟩ := this
  have hpos : 1 ≤ g.L * g.Lz := Nat.mul_pos hg.L hg.Lz
  have hn : g.L * g.Lz - 1 + 1 = g.L * g.Lz := by omega
  rw [hn] at e2 e3
  exact ⟨t', e1, e2, e3⟩

/-- **C72** Without a mask in the second half, the array of the gradient along z goes to the
transform as it was built. -/
theorem C72_third (hg : g.Ok) {t : M2} (hr : g.Room t) {k : Mask} (hk : ¬ Kept k) :
    ∃ t', third g k t = some t' ∧ ∀ p, g.In p → t' (g.pad p) = t (g.zcell k p) := by
  obtain ⟨t', e1, e2, _⟩ := lower_spec hr
  refine ⟨t', ?_, ?_⟩
  · unfold third
    rw [e1]
    exact if_neg hk
  · intro p hp
    rw [e2 _ (pad_lt hg p hp), Grid.zcell, if_neg fun hc => hk ((built_diff k).1 hc)]

/-- **C72** (negative) With a mask in the second half, that array is not padded, and the loop takes
padding out of it once more: site `(0, 1, 0)` gets the value of site `(4, 1, 0)`. -/
theorem C72_third_moved (hg : g.Ok) (h5 : 5 ≤ g.L) {t : M2} (hr : g.Room t) {k : Mask} (hk : Kept k) :
    ∃ t', third g k t = some t' ∧ t' (g.pad (0, 1, 0)) = t (g.zcell k (4, 1, 0)) := by
  obtain ⟨t1, e1, e2, e3⟩ := lower_spec hr
  have hr1 : g.Room t1 := by
    intro a ha
    by_cases hc : a < g.v3
    · rw [e2 a hc]; exact hr _ (by omega)
    · rw [e3 a (by omega)]; exact hr a ha
  obtain ⟨t2, f1, f2, _⟩ := squeeze_spec hg hr1
  refine ⟨t2, ?_, ?_⟩
  · unfold third
    rw [e1]
    simp only [Option.bind_eq_bind, Option.bind_some]
    rw [if_pos (show k = .gaus ∨ k = .diff from hk), f1]
  · have hlz : g.L ≤ g.L * g.Lz := Nat.le_mul_of_pos_right _ hg.Lz
    have h1 := f2 1 2 (by omega) (by omega) (by omega)
    have hlt : g.bare (4, 1, 0) < g.v3 := bare_lt hg _ ⟨by show 4 < g.L; omega, by show 1 < g.L; omega, hg.Lz⟩
    have e4 : g.bare (4, 1, 0) = 1 * (g.L + 2) + 2 := by
      simp only [Grid.bare]; ring
    rw [show g.pad (0, 1, 0) = 1 * g.L + 2 by simp only [Grid.pad]; ring, h1, e2 _ (by rw [← e4]; exact hlt),
      Grid.zcell, if_pos ((built_diff k).2 hk), e4]

/-- **C72** (negative) And the array transformed as the linear potential is the mask itself. -/
theorem C72_potential_mask (hg : g.Ok) {order : List Site} (ho : g.Order order) {t : M2} (hr : g.Room t)
    {T z0 : ℕ} {M : Mem} {φ ω : ℕ → ℕ → ℕ → ℂ} {hit : ℕ → ℕ → ℕ → Bool}
    (h : Holds g T z0 M φ ω hit) (P : Par) (k : Mask) (hk : Kept k) (q : Site → ℝ)
    (hq : ∀ p, g.In p → t (g.v3 + g.bare p) = some (some (q p))) :
    ∃ t' t'', sweep (stepV g k P M) order t = some t' ∧ lower g t' = some t'' ∧
      ∀ p, g.In p → t'' (g.bare p) = some (some (q p)) := by
  obtain ⟨t', e1, _, e3⟩ := C72_potential hg ho hr h P k q fun _ => hq
  have hr' : g.Room t' := by
    intro a ha
    by_cases hc : g.v3 ≤ a
    · rw [e3 hk a hc]; exact hr a ha
    · obtain ⟨s, hs, _, hs2⟩ := one_write hg ho hr (step := stepV g k P M)
        (fun p => some (q p * P.R * (2 * Real.sin (arg (φ p.1 p.2.1 (z0 + p.2.2) - P.shift) / 2))))
        (by
          intro p hp t1 h1
          unfold stepV
          rw [start_eq hg h hp]
          simp only [Option.bind_eq_bind, Option.bind_some, (built_diff k).2 hk, h1, hq p hp,
            Option.map_some, Gadget.atan2, show ∀ a : ℝ, (0.5 : ℝ) * a = a / 2 from fun a => by norm_num; ring]
          congr 2
          ring)
      rw [e1] at hs
      rw [Option.some.inj hs]
      by_cases hp : ∃ p, g.In p ∧ a = g.pad p
      · obtain ⟨p, hp, rfl⟩ := hp
        rw [‹∀ p, g.In p → s (g.pad p) = _› p hp]; rfl
      · rw [hs2 a fun p hp' hc' => hp ⟨p, hp', hc'⟩]; exact hr a ha
  obtain ⟨t'', f1, f2, _⟩ := lower_spec hr'
  refine ⟨t', t'', e1, f1, fun p hp => ?_⟩
  rw [f2 _ (bare_lt hg p hp), e3 hk _ (by omega), hq p hp]

/-- **C72** (negative) The gradient along z takes the place of the mask.  The velocity built after it,
as in a second run with the same mask, is weighted with that gradient. -/
theorem C72_mask_lost (hg : g.Ok) {order : List Site} (ho : g.Order order) {t : M2} (hr : g.Room t)
    {T z0 : ℕ} {M : Mem} {φ ω : ℕ → ℕ → ℕ → ℂ} {hit : ℕ → ℕ → ℕ → Bool}
    (h : Holds g T z0 M φ ω hit) (P : Par) (hP : P.Full) (k : Mask) (hk : Kept k) (q : Site → ℝ)
    (hq : ∀ p, g.In p → t (g.v3 + g.bare p) = some (some (q p)))
    (hplain : ∀ x y z, x < g.L → y < g.L → z < g.Lz →
      Plain P (around g.L T φ x y (z0 + z)) ∧ φ x y (z0 + z) - P.shift ≠ 0) :
    ∃ t' t'', sweep (stepGYZ g k P M) order t = some t' ∧ sweep (stepK g k P M) order t' = some t'' ∧
      ∀ x y z, x < g.L → y < g.L → z < g.Lz →
        t'' (g.pad (x, y, z)) = some (some (1 / P.delta / 2 * (q (x, y, z) * P.R *
          phaseRate (φ x y (z0 + z) - P.shift)
            (φ x y ((z0 + z + 1) % T) - φ x y ((z0 + z + T - 1) % T))) * P.R *
          phaseRate (φ x y (z0 + z) - P.shift) (ω x y (z0 + z)))) := by
  obtain ⟨t', e1, e2, e3⟩ := C72_gradient_yz hg ho hr h P hP k q fun _ => hq
  have hcell : ∀ p, g.zcell k p = g.v3 + g.bare p := fun p => by
    rw [Grid.zcell, if_pos ((built_diff k).2 hk)]
  have hr' : g.Room t' := by
    intro a ha
    by_cases hp : ∃ p, g.In p ∧ (a = g.pad p ∨ a = g.zcell k p)
    · obtain ⟨⟨x, y, z⟩, hp, hc⟩ := hp
      have := e2 x y z hp.1 hp.2.1 hp.2.2 (Or.inl (hplain x y z hp.1 hp.2.1 hp.2.2))
      rcases hc with rfl | rfl
      · rw [this.1]; rfl
      · rw [this.2]; rfl
    · rw [e3 a fun p hp' => ⟨fun hc => hp ⟨p, hp', Or.inl hc⟩, fun hc => hp ⟨p, hp', Or.inr hc⟩⟩]
      exact hr a ha
  obtain ⟨t'', f1, f2, _⟩ := C72_velocity hg ho hr' h P hP k
    (fun p => 1 / P.delta / 2 * (q p * P.R *
          phaseRate (φ p.1 p.2.1 (z0 + p.2.2) - P.shift)
            (φ p.1 p.2.1 ((z0 + p.2.2 + 1) % T) - φ p.1 p.2.1 ((z0 + p.2.2 + T - 1) % T))))
    (fun _ p hp => by
      have := (e2 p.1 p.2.1 p.2.2 hp.1 hp.2.1 hp.2.2 (Or.inl (hplain _ _ _ hp.1 hp.2.1 hp.2.2))).2
      rw [hcell] at this
      rw [this]
      rcases hk with rfl | rfl <;> rfl)
  refine ⟨t', t'', e1, f1, fun x y z hx hy hz => ?_⟩
  rw [f2 x y z hx hy hz (Or.inl (hplain x y z hx hy hz))]
  rcases hk with rfl | rfl <;> rfl

/-- **C72** (negative) With the mask of the saxion the old gradient stores no gradient: first the
velocity itself, then the field of the slice below. -/
theorem C72_old_saxion (hg : g.Ok) {order : List Site} (ho : g.Order order) {t : M2} (hr : g.Room t)
    {T z0 : ℕ} {M : Mem} {φ ω : ℕ → ℕ → ℕ → ℂ} {hit : ℕ → ℕ → ℕ → Bool}
    (h : Holds g T z0 M φ ω hit) (P : Par) :
    ∃ t' t'', sweep (stepCGX g .saxi P M) order t = some t' ∧
      sweep (stepCGYZ g .saxi P M) order t = some t'' ∧
      ∀ x y z, x < g.L → y < g.L → z < g.Lz →
        t' (g.pad (x, y, z)) = some (some (ω x y (z0 + z)).re) ∧
        t'' (g.pad (x, y, z)) = some (some (φ x y ((z0 + z + T - 1) % T)).re) := by
  have hv3 : ∀ p, g.In p → g.v3 ≤ g.v3 + g.pad p ∧ g.v3 + g.pad p < 2 * g.v3 := fun p hp => by
    have := pad_lt hg p hp; omega
  have hinj : ∀ p p', g.In p → g.In p' → g.v3 + g.pad p = g.v3 + g.pad p' → p = p' :=
    fun p p' hp hp' he => pad_inj p p' hp hp' (by omega)
  obtain ⟨t', e1, e2, _⟩ := two_writes hg ho hr (step := stepCGX g .saxi P M)
    (fun p => g.v3 + g.pad p) (fun p => some (ω p.1 p.2.1 (z0 + p.2.2)).re)
    (fun p => some (ω p.1 p.2.1 (z0 + p.2.2)).im) hv3 hinj (by
      intro p hp t1 _
      unfold stepCGX
      rw [near_spec h hp, show M.v (g.bare p) = _ from h.v _ _ _ hp.1 hp.2.1 hp.2.2]
      rfl)
  obtain ⟨t'', f1, f2, _⟩ := two_writes hg ho hr (step := stepCGYZ g .saxi P M)
    (fun p => g.v3 + g.pad p) (fun p => some (φ p.1 p.2.1 ((z0 + p.2.2 + T - 1) % T)).re)
    (fun p => some (φ p.1 p.2.1 ((z0 + p.2.2 + T - 1) % T)).im) hv3 hinj (by
      intro p hp t1 _
      unfold stepCGYZ
      rw [near_spec h hp, show M.m (g.ma (g.bare p)) = _ from
        h.m p.1 p.2.1 p.2.2 hp.1 hp.2.1 (by have := hp.2.2; omega)]
      rfl)
  exact ⟨t', t'', e1, f1, fun x y z hx hy hz =>
    ⟨(e2 (x, y, z) ⟨hx, hy, hz⟩).1, (f2 (x, y, z) ⟨hx, hy, hz⟩).1⟩⟩

/-! ### Data sets -/

/-- **C72** What the stored data sets are made from.  Those of the velocity, the gradient and the
linear potential are each filled by the one computation of their name; the data set of the nonlinear
potential only if the linear one is asked for too, else it is zero; its older version always is. -/
theorem C72_stored (n : Nrt) (mass2 : ℝ) (d : Dataset) (l : List Filled) (h : (d, l) ∈ stored n mass2) :
    l = match d with
      | .sK => [.K true]
      | .sG => [.G true]
      | .sV => [.V]
      | .sS => if n.V then [.Vnl] else []
      | .sCK => [.K false]
      | .sCG => [.G false]
      | .sCV => [.VV]
      | .sCS => [] := by
  unfold stored at h
  simp only [List.mem_append, List.mem_ite_nil_right, List.mem_singleton, Prod.mk.injEq] at h
  obtain ⟨K, G, V, S, CK, CG, CV, CS⟩ := n
  dsimp only at h ⊢
  by_cases hm : 0 < mass2
  · rcases h with ((((((h | h) | h) | h) | h) | h) | h) | h
    all_goals
      obtain ⟨hc, rfl, rfl⟩ := h
      cases K <;> cases G <;> cases V <;> cases CK <;> cases CG <;> cases CV <;>
        simp_all [fills, Filled.bin, Dataset.bin]
  · rcases h with ((((((h | h) | h) | h) | h) | h) | h) | h
    all_goals
      obtain ⟨hc, rfl, rfl⟩ := h
      cases K <;> cases G <;> cases V <;> cases CK <;> cases CG <;> cases CV <;>
        simp_all [fills, Filled.bin, Dataset.bin]

/-! ### A case -/

/-- A grid of 2³ sites on one rank. -/
def smallGrid : Grid := ⟨2, 2, 1⟩

/-- The field is 1 for even x and `i` for odd x; its velocity is `i`; every other site is near a
string. -/
noncomputable def smallMem : Mem where
  m a := some (if a % 2 = 0 then 1 else I)
  v _ := some I
  sd a := some (a % 2 == 0)

def smallOrder : List Site :=
  [(0, 0, 0), (1, 0, 0), (0, 1, 0), (1, 1, 0), (0, 0, 1), (1, 0, 1), (0, 1, 1), (1, 1, 1)]

theorem small_ok : smallGrid.Ok := ⟨by decide, by decide, by decide, by decide⟩

theorem small_order : smallGrid.Order smallOrder := by
  refine ⟨by decide, ?_⟩
  rintro ⟨x, y, z⟩
  constructor
  · intro h
    simp only [smallOrder, List.mem_cons, Prod.mk.injEq, List.not_mem_nil, or_false] at h
    unfold Grid.In smallGrid
    dsimp only
    omega
  · rintro ⟨hx, hy, hz⟩
    simp only [smallGrid] at hx hy hz
    simp only [smallOrder, List.mem_cons, Prod.mk.injEq, List.not_mem_nil, or_false]
    omega

theorem small_holds : Holds smallGrid 2 0 smallMem (fun x _ _ => if x % 2 = 0 then 1 else I)
    (fun _ _ _ => I) (fun x _ _ => x % 2 == 0) := by
  refine ⟨by decide, ?_, ?_, ?_⟩
  · intro x y j hx hy hj
    have : smallGrid.ma (x + smallGrid.L * y + smallGrid.S * j) % 2 = x % 2 := by
      simp only [Grid.ma, Grid.S, smallGrid]
      omega
    simp only [smallMem, this]
  · intro x y z _ _ _
    rfl
  · intro x y z _ _ _
    have : (x + smallGrid.L * y + smallGrid.S * z) % 2 = x % 2 := by
      simp only [Grid.S, smallGrid]
      omega
    simp only [smallMem, this]

/-- Velocities with the string mask and `R = 3`: 0 at the masked site, 0 where the field and its
velocity are parallel; without the mask, 3 at the first. -/
example : ∃ t' t'', sweep (stepK smallGrid .redo ⟨3, 0, 1, 1, none⟩ smallMem) smallOrder
      (fun _ => some none) = some t' ∧
    sweep (stepK smallGrid .flat ⟨3, 0, 1, 1, none⟩ smallMem) smallOrder (fun _ => some none) = some t'' ∧
    t' (smallGrid.pad (0, 1, 1)) = some (some 0) ∧ t' (smallGrid.pad (1, 1, 1)) = some (some 0) ∧
    t'' (smallGrid.pad (0, 1, 1)) = some (some 3) := by
  have hroom : smallGrid.Room (fun _ => some none : M2) := fun _ _ => rfl
  have hfull : (⟨3, 0, 1, 1, none⟩ : Par).Full := fun _ h => nomatch h
  obtain ⟨t', e1, e2, _⟩ := C72_velocity small_ok small_order hroom small_holds ⟨3, 0, 1, 1, none⟩ hfull
    .redo (fun _ => 0) (by simp)
  obtain ⟨t'', f1, f2, _⟩ := C72_velocity small_ok small_order hroom small_holds ⟨3, 0, 1, 1, none⟩ hfull
    .flat (fun _ => 0) (by simp)
  refine ⟨t', t'', e1, f1, ?_, ?_, ?_⟩
  · rw [e2 0 1 1 (by decide) (by decide) (by decide) (Or.inl ⟨fun _ h => (nomatch h), by simp⟩)]
    simp [maskedRate, maskFactor]
  · rw [e2 1 1 1 (by decide) (by decide) (by decide) (Or.inl ⟨fun _ h => (nomatch h), by simp⟩)]
    simp [maskedRate, maskFactor, phaseRate]
  · rw [f2 0 1 1 (by decide) (by decide) (by decide) (Or.inl ⟨fun _ h => (nomatch h), by simp⟩)]
    simp [maskedRate, maskFactor, phaseRate]

/-- Gradients of the same field: along z there is none. -/
example : ∃ t', sweep (stepGYZ smallGrid .flat ⟨3, 0, 1, 1, none⟩ smallMem) smallOrder
      (fun _ => some none) = some t' ∧ t' (smallGrid.zcell .flat (1, 0, 1)) = some (some 0) := by
  obtain ⟨t', e1, e2, _⟩ := C72_gradient_yz small_ok small_order (t := fun _ => some none) (fun _ _ => rfl)
    small_holds ⟨3, 0, 1, 1, none⟩ (fun _ h => nomatch h) .flat (fun _ => 0) (by simp)
  refine ⟨t', e1, ?_⟩
  rw [(e2 1 0 1 (by decide) (by decide) (by decide) (Or.inl ⟨fun _ h => (nomatch h), by simp⟩)).2]
  simp [maskedRate, phaseRate]

/-- Asked for alone, the nonlinear potential is stored as zeros; with the linear one it is not. -/
example : (Dataset.sS, []) ∈ stored ⟨false, false, false, true, false, false, false, false⟩ 1 ∧
    (Dataset.sS, [Filled.Vnl]) ∈ stored ⟨false, false, true, true, false, false, false, false⟩ 1 := by
  simp [stored, fills, Filled.bin, Dataset.bin]

/-- The third gradient of a grid of 5³ sites with a mask of distances. -/
example : ∃ t', third ⟨5, 5, 1⟩ .diff (fun a => some (some (a : ℝ))) = some t' ∧
    t' ((⟨5, 5, 1⟩ : Grid).pad (0, 1, 0)) = some (some (((⟨5, 5, 1⟩ : Grid).zcell .diff (4, 1, 0) : ℕ) : ℝ)) :=
  C72_third_moved ⟨by decide, by decide, by decide, by decide⟩ (by decide) (fun _ _ => rfl) (Or.inr rfl)

end Jaxions.AxSpec
