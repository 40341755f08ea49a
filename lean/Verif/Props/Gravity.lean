import Verif.Lemmas.Gravity
import Verif.Lemmas.Pad
import Verif.Basic.DivMod
/-
C60: the gravitational potential.
-/
namespace Jaxions.Gravity

open Finset

/-! ### The loop over the modes -/

/-- A division of the lattice over the ranks. -/
structure Geo.Ok (g : Geo) : Prop where
  ranks : 0 < g.n
  side : 0 < g.Lx
  depth : 0 < g.Lz
  dvd : g.n ∣ g.Lx

namespace Geo.Ok
variable {g : Geo} (ok : g.Ok)
include ok

theorem Tz_pos : 0 < g.Tz := Nat.mul_pos ok.ranks ok.depth

theorem modes_eq : g.modes = g.Lx / g.n * g.Tz * g.hLx := by
  obtain ⟨q, hq⟩ := ok.dvd
  unfold Geo.modes Geo.Tz
  rw [hq, Nat.mul_div_cancel_left _ ok.ranks]
  ring

theorem part_pos : 0 < g.Lx / g.n :=
  Nat.div_pos (Nat.le_of_dvd ok.side ok.dvd) ok.ranks

theorem kz_lt (i : ℕ) : i / g.hLx % g.Tz < g.Tz := Nat.mod_lt _ ok.Tz_pos

theorem ky_lt {r i : ℕ} (hr : r < g.n) (hi : i < g.modes) :
    r * (g.Lx / g.n) + i / g.hLx / g.Tz < g.Lx := by
  have h1 : i / g.hLx / g.Tz < g.Lx / g.n := by
    rw [Nat.div_lt_iff_lt_mul ok.Tz_pos, Nat.div_lt_iff_lt_mul (by unfold Geo.hLx; omega)]
    rw [ok.modes_eq] at hi
    exact hi
  calc _ < g.n * (g.Lx / g.n) := pair_lt hr h1
    _ = g.Lx := Nat.mul_div_cancel' ok.dvd

end Geo.Ok

theorem signed_natCast {N k : ℕ} (hk : k < N) :
    signed ((k : ℕ) : ZMod N) = if (k : ℤ) > (N / 2 : ℕ) then (k : ℤ) - N else k := by
  unfold signed
  rw [ZMod.val_natCast_of_lt hk]
  by_cases h : k ≤ N / 2
  · rw [if_pos h, if_neg (by omega)]
  · rw [if_neg h, if_pos (by omega)]

/-- The wave numbers computed by the loop are those of the mode. -/
theorem number_eq {g : Geo} (ok : g.Ok) {r i : ℕ} (hr : r < g.n) (hi : i < g.modes) :
    g.number r i = (signed (modeOf g r i).1, signed (modeOf g r i).2.1, signed (modeOf g r i).2.2) := by
  have hh : 0 < g.hLx := by unfold Geo.hLx; omega
  have hx : i % g.hLx < g.hLx := Nat.mod_lt _ hh
  have hy := ok.ky_lt hr hi
  have hz := ok.kz_lt i
  unfold modeOf
  dsimp only
  have hx' : i % g.hLx < g.Lx ∨ g.Lx = 1 := by
    unfold Geo.hLx at hx ⊢
    have := ok.side
    omega
  have e1 : i - i / g.hLx * g.hLx = i % g.hLx := by
    have := div_mul_add_mod i g.hLx; omega
  have e2 : i / g.hLx - g.Tz * (i / g.hLx / g.Tz) = i / g.hLx % g.Tz := by
    have := div_mul_add_mod (i / g.hLx) g.Tz
    rw [Nat.mul_comm] at this
    omega
  rw [signed_natCast hy, signed_natCast hz]
  have e3 : signed ((i % g.hLx : ℕ) : ZMod g.Lx) = (i % g.hLx : ℕ) := by
    rcases hx' with h | h
    · rw [signed_natCast h, if_neg]
      unfold Geo.hLx at hx ⊢
      omega
    · have : i % g.hLx = 0 := by unfold Geo.hLx at hx ⊢; rw [h] at hx ⊢; omega
      rw [this]
      simp [signed]
  rw [e3]
  unfold Geo.number Geo.zBase Geo.hLy Geo.hTz
  dsimp only
  rw [e1, e2]
  have e4 : ((i / g.hLx / g.Tz : ℕ) : ℤ) + (g.Lx / g.n * r : ℕ) =
      ((r * (g.Lx / g.n) + i / g.hLx / g.Tz : ℕ) : ℤ) := by push_cast; ring
  rw [e4]

theorem ilap_fold (g : Geo) (norm : ℝ) (r : ℕ) (order : List ℕ) (hnd : order.Nodup) (a : ℕ → Option ℂ)
    (i : ℕ) : order.foldl (ilapMode g norm r) a i =
      if i ∈ order then ilapMode g norm r a i i else a i := by
  induction order generalizing a with
  | nil => simp
  | cons j order ih =>
    rw [List.nodup_cons] at hnd
    rw [List.foldl_cons, ih hnd.2]
    by_cases hij : i = j
    · subst hij
      rw [if_neg hnd.1, if_pos (by simp)]
    · have e : ilapMode g norm r a j i = a i := by simp [ilapMode, hij]
      by_cases hm : i ∈ order
      · rw [if_pos hm, if_pos (by simp [hm])]
        simp only [ilapMode, if_true, hij, if_false]
      · rw [if_neg hm, if_neg (by simp [hm, hij]), e]

theorem modeOf_eq_zero {g : Geo} (ok : g.Ok) {r i : ℕ} (hr : r < g.n) (hi : i < g.modes) :
    modeOf g r i = 0 ↔ r = 0 ∧ i = 0 := by
  have hh : 0 < g.hLx := by unfold Geo.hLx; omega
  have hx : i % g.hLx < g.hLx := Nat.mod_lt _ hh
  have hy := ok.ky_lt hr hi
  have hz := ok.kz_lt i
  constructor
  · intro h
    unfold modeOf at h
    rw [Prod.mk_eq_zero, Prod.mk_eq_zero] at h
    obtain ⟨h1, h2, h3⟩ := h
    rw [ZMod.natCast_eq_zero_iff] at h1 h2 h3
    have e2 := Nat.eq_zero_of_dvd_of_lt h2 hy
    have e3 := Nat.eq_zero_of_dvd_of_lt h3 hz
    have e1 : i % g.hLx = 0 := by
      refine Nat.eq_zero_of_dvd_of_lt h1 ?_ |> fun h => h
      unfold Geo.hLx at hx ⊢
      have := ok.side
      by_contra hge
      have : g.Lx = 1 := by omega
      rw [this] at hx hge
      omega
    have hp := ok.part_pos
    have hr0 : r = 0 := by
      rcases Nat.eq_zero_or_pos r with h | h
      · exact h
      · have h1 := Nat.mul_pos h hp
        generalize i / g.hLx / g.Tz = q at e2
        generalize r * (g.Lx / g.n) = q' at e2 h1
        omega
    refine ⟨hr0, ?_⟩
    have d1 := div_mul_add_mod i g.hLx
    have d2 := div_mul_add_mod (i / g.hLx) g.Tz
    have e4 : i / g.hLx / g.Tz = 0 := by
      generalize i / g.hLx / g.Tz = q at e2
      omega
    rw [e3, e4] at d2
    rw [e1, ← d2] at d1
    simpa using d1.symm
  · rintro ⟨rfl, rfl⟩
    simp [modeOf]

/-- The loop turns the spectrum of the density into that of the potential, whatever the order. -/
theorem ilap_eq {g : Geo} [NeZero g.Lx] [NeZero g.Tz] (ok : g.Ok) (k₀ : ℝ)
    (ρ : Torus g.Lx g.Tz → ℝ) {r : ℕ} (hr : r < g.n) {order : List ℕ}
    (ho : order.Perm (List.range g.modes)) {a : ℕ → Option ℂ}
    (ha : ∀ i, i < g.modes → a i = some (dft (fun x => (ρ x : ℂ)) (modeOf g r i))) {i : ℕ}
    (hi : i < g.modes) :
    ilap g (-1 / (k₀ * k₀ * (g.Lx * g.Lx * g.Tz : ℕ))) r order a i =
      some (solved k₀ ρ (modeOf g r i)) := by
  have hnd : order.Nodup := ho.nodup_iff.2 List.nodup_range
  have hmem : i ∈ order := by rw [ho.mem_iff]; exact List.mem_range.2 hi
  have hz := modeOf_eq_zero ok hr hi
  have hfold := ilap_fold g (-1 / (k₀ * k₀ * (g.Lx * g.Lx * g.Tz : ℕ))) r order hnd a i
  rw [if_pos hmem] at hfold
  have hk : (g.number r i).1 * (g.number r i).1 + (g.number r i).2.1 * (g.number r i).2.1 +
      (g.number r i).2.2 * (g.number r i).2.2 = ksq (modeOf g r i) := by
    rw [number_eq ok hr hi]
    unfold ksq
    ring
  unfold ilap
  by_cases h0 : r = 0 ∧ i = 0
  · rw [if_pos h0.1, if_pos h0.2, hz.2 h0]
    simp [solved]
  · have hval : order.foldl (ilapMode g (-1 / (k₀ * k₀ * (g.Lx * g.Lx * g.Tz : ℕ))) r) a i =
        some (solved k₀ ρ (modeOf g r i)) := by
      rw [hfold]
      unfold ilapMode
      have hne : modeOf g r i ≠ 0 := fun h => h0 (hz.1 h)
      have hks : ksq (modeOf g r i) ≠ 0 := fun h => hne ((ksq_eq_zero _).1 h)
      rw [if_pos rfl, ha i hi, hk, Option.bind_some, if_neg hks]
      unfold solved
      rw [if_neg hne]
      push_cast
      rfl
    by_cases hr0 : r = 0
    · rw [if_pos hr0, if_neg (fun h => h0 ⟨hr0, h⟩)]
      exact hval
    · rw [if_neg hr0]
      exact hval

/-! ### Rows -/

theorem onAll_spec {α : Type} {n : ℕ} {f : ℕ → Heap ℕ α → Option (Heap ℕ α)} {w : ℕ → Heap ℕ α}
    {Q : ℕ → Heap ℕ α → Prop} (hf : ∀ r < n, ∃ h, f r (w r) = some h ∧ Q r h) :
    ∃ w', onAll n f w = some w' ∧ ∀ r < n, Q r (w' r) := by
  obtain ⟨w', e, p1, p2⟩ := loop_inv (n := n) (s := w)
    (body := fun r w => (f r (w r)).map fun h r' => if r' = r then h else w r')
    (P := fun m t => (∀ r < m, Q r (t r)) ∧ ∀ r, m ≤ r → t r = w r)
    ⟨by omega, fun _ _ => rfl⟩
    (by
      rintro r hr t ⟨t1, t2⟩
      obtain ⟨h, e, q⟩ := hf r hr
      refine ⟨fun r' => if r' = r then h else t r', by rw [t2 r (Nat.le_refl _), e]; rfl, ?_, ?_⟩
      · intro j hj
        dsimp only
        split
        · rename_i h'; subst h'; exact q
        · exact t1 j (by omega)
      · intro j hj
        dsimp only
        rw [if_neg (by omega)]
        exact t2 j (by omega))
  exact ⟨w', e, p1⟩

theorem mem_downTo1 {ss t : ℕ} : t ∈ downTo1 ss ↔ 1 ≤ t ∧ t < ss := by
  simp only [downTo1, List.mem_reverse, List.mem_map, List.mem_range]
  constructor
  · rintro ⟨a, h, rfl⟩; omega
  · intro h; exact ⟨t - 1, by omega, by omega⟩

theorem downTo1_pairwise (ss : ℕ) : (downTo1 ss).Pairwise (· > ·) := by
  simp only [downTo1, List.pairwise_reverse, List.pairwise_map]
  exact List.pairwise_lt_range.imp fun h => by omega

variable {α : Type}

/-- Padding in place, last row first; the first row stays. -/
theorem pad_rows {Lx ss : ℕ} (hL : 0 < Lx) (h : Heap ℕ α) (ha : ∀ a, a < ss * (Lx + 2) → (h a).isSome) :
    ∃ h', Pad.moveLines 0 Lx 0 (Lx + 2) Lx (downTo1 ss) h = some h' ∧
      (∀ i, i < ss * Lx → h' (rowIx Lx i) = h i) ∧ ∀ a, a < ss * (Lx + 2) → (h' a).isSome := by
  have hle : ∀ t i, t < ss → i < Lx → t * Lx + i < ss * (Lx + 2) := by
    intro t i ht hi
    exact Nat.lt_of_lt_of_le (pair_lt ht hi) (Nat.mul_le_mul_left _ (by omega))
  have hle' : ∀ t i, t < ss → i < Lx → t * (Lx + 2) + i < ss * (Lx + 2) := by
    intro t i ht hi
    exact pair_lt ht (by omega)
  obtain ⟨h', e, h1, h2⟩ := Pad.moveLines_spec 0 Lx 0 (Lx + 2) Lx (by omega) (downTo1 ss) h
    ((downTo1_pairwise ss).imp fun h => Nat.ne_of_gt h)
    (fun t ht i hi => by rw [Nat.zero_add]; exact ha _ (hle t i (mem_downTo1.1 ht).2 hi))
    (fun t ht i hi => by rw [Nat.zero_add]; exact ha _ (hle' t i (mem_downTo1.1 ht).2 hi))
    ((downTo1_pairwise ss).imp (by
      intro t u htu i hi j hj
      have q1 : (u + 1) * Lx ≤ t * Lx := Nat.mul_le_mul_right _ htu
      have q2 : t * Lx ≤ t * (Lx + 2) := Nat.mul_le_mul_left _ (by omega)
      rw [Nat.add_mul] at q1
      omega))
  refine ⟨h', e, ?_, ?_⟩
  · intro i hi
    have hd : i / Lx < ss := (Nat.div_lt_iff_lt_mul hL).2 hi
    have hm : i % Lx < Lx := Nat.mod_lt _ hL
    unfold rowIx
    by_cases h0 : i / Lx = 0
    · have hi' : i % Lx = i := by have := div_mul_add_mod i Lx; rw [h0] at this; omega
      rw [h0, Nat.zero_mul, Nat.zero_add, hi']
      refine h2 i ?_
      intro t ht j _ e'
      have := (mem_downTo1.1 ht).1
      have : 1 * (Lx + 2) ≤ t * (Lx + 2) := Nat.mul_le_mul_right _ this
      omega
    · have := h1 (i / Lx) (mem_downTo1.2 ⟨Nat.pos_of_ne_zero h0, hd⟩) (i % Lx) hm
      rw [Nat.zero_add, Nat.zero_add, div_mul_add_mod] at this
      exact this
  · intro a haa
    by_cases hc : ∃ t ∈ downTo1 ss, ∃ i < Lx, a = 0 + t * (Lx + 2) + i
    · obtain ⟨t, ht, i, hi, rfl⟩ := hc
      rw [h1 t ht i hi, Nat.zero_add]
      exact ha _ (hle t i (mem_downTo1.1 ht).2 hi)
    · rw [h2 a (fun t ht i hi e' => hc ⟨t, ht, i, hi, e'⟩)]
      exact ha a haa

theorem rowIx_lt {Lx ss i : ℕ} (hL : 0 < Lx) (hi : i < ss * Lx) : rowIx Lx i < ss * (Lx + 2) := by
  have hd : i / Lx < ss := (Nat.div_lt_iff_lt_mul hL).2 hi
  have hm : i % Lx < Lx := Nat.mod_lt _ hL
  exact pair_lt hd (by omega)

theorem rowIx_inj {Lx i j : ℕ} (hL : 0 < Lx) (h : rowIx Lx i = rowIx Lx j) : i = j := by
  have h1 : i % Lx < Lx + 2 := by have := Nat.mod_lt i hL; omega
  have h2 : j % Lx < Lx + 2 := by have := Nat.mod_lt j hL; omega
  obtain ⟨e1, e2⟩ := pair_inj h1 h2 h
  rw [← div_mul_add_mod i Lx, ← div_mul_add_mod j Lx, e1, e2]

/-- Filling the padded rows. -/
theorem fill_rows {Lx ss : ℕ} (hL : 0 < Lx) (h : Heap ℕ α) (X : ℕ → α)
    (ha : ∀ a, a < ss * (Lx + 2) → (h a).isSome) :
    ∃ h', writeAll ((List.range (ss * Lx)).map fun i => (rowIx Lx i, X i)) h = some h' ∧
      (∀ i, i < ss * Lx → h' (rowIx Lx i) = some (X i)) ∧ ∀ a, a < ss * (Lx + 2) → (h' a).isSome := by
  have hfst : ((List.range (ss * Lx)).map fun i => (rowIx Lx i, X i)).map Prod.fst =
      (List.range (ss * Lx)).map (rowIx Lx) := by rw [List.map_map]; rfl
  obtain ⟨h', e, h1, h2⟩ := writeAll_spec ((List.range (ss * Lx)).map fun i => (rowIx Lx i, X i)) h
    (by
      intro p hp
      obtain ⟨i, hi, rfl⟩ := List.mem_map.1 hp
      exact ha _ (rowIx_lt hL (List.mem_range.1 hi)))
    (by
      rw [hfst]
      exact List.Nodup.map (fun _ _ h => rowIx_inj hL h) List.nodup_range)
  have h3 : ∀ i, i < ss * Lx → h' (rowIx Lx i) = some (X i) := fun i hi =>
    h1 (rowIx Lx i, X i) (List.mem_map.2 ⟨i, List.mem_range.2 hi, rfl⟩)
  refine ⟨h', e, h3, ?_⟩
  intro a haa
  by_cases hc : a ∈ (List.range (ss * Lx)).map (rowIx Lx)
  · obtain ⟨i, hi, rfl⟩ := List.mem_map.1 hc
    rw [h3 i (List.mem_range.1 hi)]; rfl
  · rw [h2 a (by rw [hfst]; exact hc)]
    exact ha a haa

theorem unpad_rows {Lx ss : ℕ} (hL : 0 < Lx) (h : Heap ℕ α)
    (ha : ∀ a, a < ss * (Lx + 2) → (h a).isSome) :
    ∃ h', Pad.moveLines 0 (Lx + 2) 0 Lx Lx (Pad.up ss) h = some h' ∧
      ∀ i, i < ss * Lx → h' i = h (rowIx Lx i) := by
  obtain ⟨h', e, h1, -⟩ := Pad.moved_of 0 (Lx + 2) 0 Lx Lx ss (le_refl _) (Pad.up ss) h
    List.nodup_range (fun t => List.mem_range)
    (fun t ht i hi => by
      rw [Nat.zero_add]; exact ha _ (pair_lt ht (by omega)))
    (fun t ht i hi => by
      rw [Nat.zero_add]
      exact ha _ (Nat.lt_of_lt_of_le (pair_lt ht hi) (Nat.mul_le_mul_left _ (by omega))))
    (Pad.up_ok 0 (Lx + 2) 0 Lx Lx ss (le_refl _) (by omega) (le_refl _))
  refine ⟨h', e, fun i hi => ?_⟩
  have := h1 (i / Lx) ((Nat.div_lt_iff_lt_mul hL).2 hi) (i % Lx) (Nat.mod_lt _ hL)
  rw [Nat.zero_add, Nat.zero_add, div_mul_add_mod] at this
  exact this

/-! ### The potential -/

/-- The potential left by the full transform solves the Poisson equation of the density, for every
number of ranks and every order of the threads. -/
theorem C60_poisson (g : Geo) [NeZero g.Lx] [NeZero g.Tz] (ok : g.Ok) (P : Plan) (hP : P.Exact g)
    {k₀ : ℝ} (hk : k₀ ≠ 0) (order : ℕ → List ℕ) (ho : ∀ r, (order r).Perm (List.range g.modes))
    (ρ : Torus g.Lx g.Tz → ℝ) (w : ℕ → Heap ℕ ℝ)
    (hroom : ∀ r, r < g.n → ∀ a, a < g.lines * (g.Lx + 2) → (w r a).isSome)
    (hρ : ∀ r i, r < g.n → i < g.vol → w r i = some (ρ (siteOf g (r * g.vol + i)))) :
    ∃ w' Φ, graCpu g P k₀ order w = some w' ∧ Poisson k₀ ρ Φ ∧
      ∀ r i, r < g.n → i < g.vol → w' r i = some (Φ (siteOf g (r * g.vol + i))) := by
  have hL := ok.side
  have hvol : g.vol = g.lines * g.Lx := by unfold Geo.vol Geo.lines; ring
  have hv : 0 < g.vol := by
    unfold Geo.vol; exact Nat.mul_pos ok.depth (Nat.mul_pos hL hL)
  obtain ⟨w1, e1, p1⟩ := onAll_spec (n := g.n) (w := w)
    (f := fun _ h => Pad.moveLines 0 g.Lx 0 (g.Lx + 2) g.Lx (downTo1 g.lines) h)
    (Q := fun r h' => (∀ i, i < g.lines * g.Lx → h' (rowIx g.Lx i) = w r i) ∧
      ∀ a, a < g.lines * (g.Lx + 2) → (h' a).isSome)
    (fun r hr => pad_rows hL (w r) (hroom r hr))
  have hread := readAll_map (g.n * g.vol) (fun i => (i / g.vol, rowIx g.Lx (i % g.vol)))
    (fun i => ρ (siteOf g i)) (fun p : ℕ × ℕ => w1 p.1 p.2)
    (by
      intro i hi
      have hr : i / g.vol < g.n := (Nat.div_lt_iff_lt_mul hv).2 hi
      have hm : i % g.vol < g.vol := Nat.mod_lt _ hv
      dsimp only
      rw [(p1 _ hr).1 _ (by rw [← hvol]; exact hm), hρ _ _ hr hm, div_mul_add_mod])
  obtain ⟨F, eF, hF⟩ := hP.bck
    (fun r => ilap g (-1 / (k₀ * k₀ * (g.Lx * g.Lx * g.Tz : ℕ))) r (order r)
      (P.fwd ((List.range (g.n * g.vol)).map fun i => ρ (siteOf g i)) r))
    (solved k₀ ρ) (solved_neg k₀ ρ)
    (fun r i hr hi => ilap_eq ok k₀ ρ hr (ho r) (fun j hj => hP.fwd ρ r j hr hj) hi)
  obtain ⟨w2, e2, p2⟩ := onAll_spec (n := g.n) (w := w1)
    (f := fun r h => writeAll ((List.range g.vol).map fun i =>
      (rowIx g.Lx i, F (r * g.vol + i))) h)
    (Q := fun r h' => (∀ i, i < g.lines * g.Lx → h' (rowIx g.Lx i) = some (F (r * g.vol + i))) ∧
      ∀ a, a < g.lines * (g.Lx + 2) → (h' a).isSome)
    (fun r hr => by
      rw [hvol]
      exact fill_rows hL (w1 r) (fun i => F (r * (g.lines * g.Lx) + i)) (p1 r hr).2)
  obtain ⟨w3, e3, p3⟩ := onAll_spec (n := g.n) (w := w2)
    (f := fun _ h => Pad.moveLines 0 (g.Lx + 2) 0 g.Lx g.Lx (Pad.up g.lines) h)
    (Q := fun r h' => ∀ i, i < g.lines * g.Lx → h' i = w2 r (rowIx g.Lx i))
    (fun r hr => unpad_rows hL (w2 r) (p2 r hr).2)
  have hreal : ∀ x, ((synth (solved k₀ ρ) x).re : ℂ) = synth (solved k₀ ρ) x := fun x =>
    Complex.conj_eq_iff_re.1 (synth_real (solved_neg k₀ ρ) x)
  refine ⟨w3, fun x => (synth (solved k₀ ρ) x).re, ?_, solved_poisson hk ρ _ hreal, ?_⟩
  · unfold graCpu
    simp only [e1, hread, eF, e2, Option.bind_eq_bind, Option.bind_some]
    exact e3
  · intro r i hr hi
    have hlt : r * g.vol + i < g.n * g.vol := pair_lt hr hi
    rw [p3 r hr i (by rw [← hvol]; exact hi), (p2 r hr).1 i (by rw [← hvol]; exact hi)]
    congr 1
    have := hF _ hlt
    rw [← hreal] at this
    exact_mod_cast this

/-! ### Lattices that are not cubes -/

section Box
variable {L T : ℕ} [NeZero L] [NeZero T]

theorem poisson_dft {k₀ : ℝ} {ρ Φ : Torus L T → ℝ} (h : Poisson k₀ ρ Φ) {k : Torus L T}
    (hk : k ≠ 0) :
    -(k₀ ^ 2 * ksq k : ℂ) * dft (fun y => (Φ y : ℂ)) k = dft (fun y => (ρ y : ℂ)) k := by
  have hN := card_ne (L := L) (T := T)
  have h1 : (fun x => lapS k₀ (fun y => (Φ y : ℂ)) x) = synth fun k =>
      (1 / (L * L * T : ℂ)) * (-(k₀ ^ 2 * ksq k) * dft (fun y => (Φ y : ℂ)) k) := by
    funext x
    unfold lapS synth
    rw [mul_sum]
    exact sum_congr rfl fun k _ => by ring
  have h2 := dft_synth (fun k => (1 / (L * L * T : ℂ)) *
    (-(k₀ ^ 2 * ksq k) * dft (fun y => (Φ y : ℂ)) k)) k
  rw [← h1, ← mul_assoc, mul_one_div_cancel hN, one_mul] at h2
  rw [← h2]
  have h3 : (fun x => lapS k₀ (fun y => (Φ y : ℂ)) x) =
      fun x => (ρ x : ℂ) - ((∑ y, ρ y : ℝ) : ℂ) / (L * L * T) := funext h.eq
  rw [h3]
  unfold dft
  simp only [sub_mul]
  rw [sum_sub_distrib, ← mul_sum, wave_sum, if_neg (neg_ne_zero.2 hk), mul_zero, sub_zero]

/-- A density that is the same in a direction has no waves along it. -/
theorem dft_shift {f : Torus L T → ℂ} {e : Torus L T} (hf : ∀ x, f (x + e) = f x) {k : Torus L T}
    (hk : wave (-k) e ≠ 1) : dft f k = 0 := by
  have h : dft f k = wave (-k) e * dft f k := by
    conv_lhs => unfold dft
    rw [← Equiv.sum_comp (Equiv.addRight e)]
    unfold dft
    rw [mul_sum]
    refine sum_congr rfl fun x _ => ?_
    rw [Equiv.coe_addRight, hf, wave_comm, wave_add, wave_comm, wave_comm e]
    ring
  have : (1 - wave (-k) e) * dft f k = 0 := by rw [sub_mul, one_mul, ← h, sub_self]
  rcases mul_eq_zero.1 this with h | h
  · exact absurd (sub_eq_zero.1 h).symm hk
  · exact h

theorem std_one {N : ℕ} [NeZero N] {a : ZMod N} (h : (ZMod.stdAddChar a : ℂ) = 1) : a = 0 :=
  ZMod.injective_stdAddChar (by rw [h, AddChar.map_zero_eq_one])

/-- The result counts waves along `z` in units of the wave number along `x`.  Where the spacing of
the sites is the same in all directions, the lengths have the ratio `c = L/T`, and layers across `z`
get a potential that is `1/c²` of the right one. -/
theorem C60_layers {k₀ : ℝ} {ρ Φ : Torus L T → ℝ} (h : Poisson k₀ ρ Φ)
    (hz : ∀ x y : Torus L T, x.2.2 = y.2.2 → ρ x = ρ y) (c : ℝ) (x : Torus L T) :
    lapBox k₀ c (fun y => (Φ y : ℂ)) x = c ^ 2 * (ρ x - (∑ y, ρ y) / (L * L * T)) := by
  have e := h.eq x
  rw [← e]
  unfold lapBox lapS
  rw [mul_left_comm, mul_sum (a := (c : ℂ) ^ 2)]
  congr 1
  refine sum_congr rfl fun k _ => ?_
  by_cases hk : k.1 = 0 ∧ k.2.1 = 0
  · have h1 : signed k.1 = 0 := (signed_eq_zero _).2 hk.1
    have h2 : signed k.2.1 = 0 := (signed_eq_zero _).2 hk.2
    unfold ksq
    rw [h1, h2]
    push_cast
    ring
  · have hk0 : k ≠ 0 := by rintro rfl; exact hk ⟨rfl, rfl⟩
    have hρ : dft (fun y => (ρ y : ℂ)) k = 0 := by
      by_cases h1 : k.1 = 0
      · refine dft_shift (e := (0, 1, 0)) (fun x => by rw [hz (x + (0, 1, 0)) x (by simp)]) ?_
        intro h'
        refine hk ⟨h1, ?_⟩
        have : (ZMod.stdAddChar (-k.2.1) : ℂ) = 1 := by simpa [wave] using h'
        exact neg_eq_zero.1 (std_one this)
      · refine dft_shift (e := (1, 0, 0)) (fun x => by rw [hz (x + (1, 0, 0)) x (by simp)]) ?_
        intro h'
        refine h1 ?_
        have : (ZMod.stdAddChar (-k.1) : ℂ) = 1 := by simpa [wave] using h'
        exact neg_eq_zero.1 (std_one this)
    have hd := poisson_dft h hk0
    rw [hρ] at hd
    by_cases hk₀ : k₀ = 0
    · subst hk₀
      simp
    · have : dft (fun y => (Φ y : ℂ)) k = 0 := by
        rcases mul_eq_zero.1 hd with h' | h'
        · exfalso
          have h3 : ksq k ≠ 0 := fun h => hk0 ((ksq_eq_zero k).1 h)
          refine neg_ne_zero.2 (mul_ne_zero (pow_ne_zero 2 ?_) ?_) h'
          · exact_mod_cast hk₀
          · exact_mod_cast h3
        · exact h'
      rw [this]
      ring

/-- The potential is the only one. -/
theorem C60_unique {k₀ : ℝ} (hk : k₀ ≠ 0) {ρ Φ Φ' : Torus L T → ℝ} (h : Poisson k₀ ρ Φ)
    (h' : Poisson k₀ ρ Φ') : Φ = Φ' := by
  have hd : dft (fun y => (Φ y : ℂ)) = dft (fun y => (Φ' y : ℂ)) := by
    funext k
    by_cases hk0 : k = 0
    · subst hk0
      rw [dft_zero, dft_zero]
      exact_mod_cast h.mean.trans h'.mean.symm
    · have e := (poisson_dft h hk0).trans (poisson_dft h' hk0).symm
      refine mul_left_cancel₀ (neg_ne_zero.2 (mul_ne_zero (pow_ne_zero 2 ?_) ?_)) e
      · exact_mod_cast hk
      · exact_mod_cast fun h => hk0 ((ksq_eq_zero k).1 h)
  funext x
  have e := synth_dft (fun y => (Φ y : ℂ)) x
  rw [hd, synth_dft] at e
  exact_mod_cast (mul_left_cancel₀ (card_ne (L := L) (T := T)) e).symm

end Box

/-! ### A library that keeps its promise exists -/

/-- Number of a site. -/
def indexOf (g : Geo) (x : Torus g.Lx g.Tz) : ℕ :=
  x.2.2.val * (g.Lx * g.Lx) + x.2.1.val * g.Lx + x.1.val

theorem indexOf_lt (g : Geo) [NeZero g.Lx] [NeZero g.Tz] (x : Torus g.Lx g.Tz) :
    indexOf g x < g.n * g.vol := by
  have h : g.n * g.vol = g.Tz * (g.Lx * g.Lx) := by unfold Geo.vol Geo.Tz; ring
  rw [h]
  unfold indexOf
  rw [Nat.add_assoc]
  exact pair_lt (ZMod.val_lt _) (pair_lt (ZMod.val_lt _) (ZMod.val_lt _))

theorem siteOf_indexOf (g : Geo) [NeZero g.Lx] [NeZero g.Tz] (x : Torus g.Lx g.Tz) :
    siteOf g (indexOf g x) = x := by
  have h1 : x.1.val < g.Lx := ZMod.val_lt _
  have h2 : x.2.1.val < g.Lx := ZMod.val_lt _
  have hp := pair_lt h2 h1
  have hL : 0 < g.Lx := by omega
  obtain ⟨d1, -⟩ := divmod_of (b := g.Lx * g.Lx) (q := x.2.2.val) hp
  have e : indexOf g x = (x.2.2.val * g.Lx + x.2.1.val) * g.Lx + x.1.val := by
    unfold indexOf; ring
  obtain ⟨d3, d4⟩ := divmod_of (b := g.Lx) (q := x.2.2.val * g.Lx + x.2.1.val) h1
  obtain ⟨-, d6⟩ := divmod_of (b := g.Lx) (q := x.2.2.val) h2
  unfold siteOf
  refine Prod.ext ?_ (Prod.ext ?_ ?_)
  · dsimp only; rw [e, d4, ZMod.natCast_zmod_val]
  · dsimp only; rw [e, d3, d6, ZMod.natCast_zmod_val]
  · dsimp only
    unfold indexOf
    rw [Nat.add_assoc, d1, ZMod.natCast_zmod_val]

/-- Every mode with `k_x ≤ Lx/2` is stored by some rank. -/
theorem stored {g : Geo} [NeZero g.Lx] [NeZero g.Tz] (ok : g.Ok) (k : Torus g.Lx g.Tz)
    (hk : k.1.val ≤ g.Lx / 2) : ∃ r i, r < g.n ∧ i < g.modes ∧ modeOf g r i = k := by
  have hp := ok.part_pos
  have h1 : k.1.val < g.hLx := by unfold Geo.hLx; omega
  have h2 : k.2.1.val < g.Lx := ZMod.val_lt _
  have h3 : k.2.2.val < g.Tz := ZMod.val_lt _
  have hq : k.2.1.val % (g.Lx / g.n) < g.Lx / g.n := Nat.mod_lt _ hp
  obtain ⟨d1, d2⟩ := divmod_of (b := g.hLx)
    (q := k.2.1.val % (g.Lx / g.n) * g.Tz + k.2.2.val) h1
  obtain ⟨d3, d4⟩ := divmod_of (b := g.Tz) (q := k.2.1.val % (g.Lx / g.n)) h3
  refine ⟨k.2.1.val / (g.Lx / g.n),
    (k.2.1.val % (g.Lx / g.n) * g.Tz + k.2.2.val) * g.hLx + k.1.val, ?_, ?_, ?_⟩
  · rw [Nat.div_lt_iff_lt_mul hp, Nat.mul_div_cancel' ok.dvd]
    exact h2
  · rw [ok.modes_eq]
    exact pair_lt (pair_lt hq h3) h1
  · unfold modeOf
    refine Prod.ext ?_ (Prod.ext ?_ ?_)
    · dsimp only; rw [d2, ZMod.natCast_zmod_val]
    · dsimp only; rw [d1, d3, div_mul_add_mod, ZMod.natCast_zmod_val]
    · dsimp only; rw [d1, d4, ZMod.natCast_zmod_val]

/-- A Hermitian spectrum is known from the stored modes. -/
theorem hermitian_unique {g : Geo} [NeZero g.Lx] [NeZero g.Tz] (ok : g.Ok)
    {H H' : Torus g.Lx g.Tz → ℂ} (hH : ∀ k, H (-k) = starRingEnd ℂ (H k))
    (hH' : ∀ k, H' (-k) = starRingEnd ℂ (H' k))
    (h : ∀ r i, r < g.n → i < g.modes → H (modeOf g r i) = H' (modeOf g r i)) : H = H' := by
  funext k
  by_cases hk : k.1.val ≤ g.Lx / 2
  · obtain ⟨r, i, hr, hi, rfl⟩ := stored ok k hk
    exact h r i hr hi
  · have hk' : (-k).1.val ≤ g.Lx / 2 := by
      have e : (-k).1 = -k.1 := rfl
      have hlt : k.1.val < g.Lx := ZMod.val_lt _
      rw [e, ZMod.neg_val]
      split <;> omega
    obtain ⟨r, i, hr, hi, e⟩ := stored ok (-k) hk'
    have := h r i hr hi
    rw [e, hH, hH'] at this
    exact (starRingEnd ℂ).injective this

open Classical in
/-- Transforms by their formulas. -/
noncomputable def formulaPlan (g : Geo) [NeZero g.Lx] [NeZero g.Tz] : Plan where
  fwd xs r i := some (dft (fun x => ((xs.getD (indexOf g x) 0 : ℝ) : ℂ)) (modeOf g r i))
  bck A :=
    if h : ∃ H : Torus g.Lx g.Tz → ℂ, (∀ k, H (-k) = starRingEnd ℂ (H k)) ∧
        ∀ r i, r < g.n → i < g.modes → A r i = some (H (modeOf g r i)) then
      some fun i => (synth h.choose (siteOf g i)).re
    else none

theorem formulaPlan_exact {g : Geo} [NeZero g.Lx] [NeZero g.Tz] (ok : g.Ok) :
    (formulaPlan g).Exact g := by
  constructor
  · intro ρ r i _ _
    unfold formulaPlan
    dsimp only
    congr 2
    funext x
    rw [List.getD_eq_getElem?_getD, List.getElem?_map,
      List.getElem?_range (indexOf_lt g x)]
    simp [siteOf_indexOf]
  · intro A H hH hA
    have h : ∃ H : Torus g.Lx g.Tz → ℂ, (∀ k, H (-k) = starRingEnd ℂ (H k)) ∧
        ∀ r i, r < g.n → i < g.modes → A r i = some (H (modeOf g r i)) := ⟨H, hH, hA⟩
    have e : h.choose = H := by
      refine hermitian_unique ok h.choose_spec.1 hH fun r i hr hi => ?_
      have := h.choose_spec.2 r i hr hi
      rw [hA r i hr hi] at this
      exact (Option.some.inj this).symm
    refine ⟨fun i => (synth H (siteOf g i)).re, ?_, fun i _ =>
      Complex.conj_eq_iff_re.1 (synth_real hH _)⟩
    unfold formulaPlan
    dsimp only
    rw [dif_pos h, e]

/-! ### Concrete cases -/

theorem demo_ok : (⟨2, 4, 2⟩ : Geo).Ok := ⟨by decide, by decide, by decide, by decide⟩

/-- Two ranks with four by four by two sites each, a density with one peak. -/
example : ∃ w' Φ, graCpu ⟨2, 4, 2⟩ (@formulaPlan ⟨2, 4, 2⟩ ⟨by decide⟩ ⟨by decide⟩) 1
      (fun _ => List.range (⟨2, 4, 2⟩ : Geo).modes)
      (fun r a => if a < 48 then some (if r = 0 ∧ a = 5 then 1 else 0) else none) = some w' ∧
    @Poisson 4 4 ⟨by decide⟩ ⟨by decide⟩ 1 (fun x => if x = (1, 1, 0) then 1 else 0) Φ ∧
    ∀ r i, r < 2 → i < 32 → w' r i = some (Φ (siteOf ⟨2, 4, 2⟩ (r * 32 + i))) := by
  have : NeZero (⟨2, 4, 2⟩ : Geo).Lx := ⟨by decide⟩
  have : NeZero (⟨2, 4, 2⟩ : Geo).Tz := ⟨by decide⟩
  refine C60_poisson ⟨2, 4, 2⟩ demo_ok _ (formulaPlan_exact demo_ok) one_ne_zero _
    (fun _ => List.Perm.refl _) (fun x => if x = (1, 1, 0) then 1 else 0) _ ?_ ?_
  · intro r _ a ha
    have ha : a < 48 := ha
    simp [ha]
  · intro r i hr hi
    have hr : r < 2 := hr
    have hi : i < 32 := hi
    have key : ∀ r < 2, ∀ i < 32, (r = 0 ∧ i = 5) ↔ (((r * 32 + i) % 4 : ℕ) : ZMod 4) = 1 ∧
        (((r * 32 + i) / 4 % 4 : ℕ) : ZMod 4) = 1 ∧ (((r * 32 + i) / 16 : ℕ) : ZMod 4) = 0 := by
      decide +kernel
    have h := key r hr i hi
    have e : siteOf ⟨2, 4, 2⟩ (r * (⟨2, 4, 2⟩ : Geo).vol + i) = (1, 1, 0) ↔ (r = 0 ∧ i = 5) := by
      rw [h]
      change ((((r * 32 + i) % 4 : ℕ) : ZMod 4), (((r * 32 + i) / 4 % 4 : ℕ) : ZMod 4),
        (((r * 32 + i) / 16 : ℕ) : ZMod 4)) = (1, 1, 0) ↔ _
      rw [Prod.mk.injEq, Prod.mk.injEq]
    dsimp only
    rw [if_pos (by omega)]
    simp only [e]

/-- On a lattice twice as long in `z` as in `x`, a layer has a potential whose Laplacian is a quarter
of the contrast of the layer. -/
theorem C60_stretched : ∃ ρ Φ : Torus 2 4 → ℝ, Poisson 1 ρ Φ ∧
    lapBox 1 (1 / 2) (fun y => (Φ y : ℂ)) 0 ≠ ρ 0 - (∑ y, ρ y) / (2 * 2 * 4) := by
  have hreal : ∀ (ρ : Torus 2 4 → ℝ) x, ((synth (solved 1 ρ) x).re : ℂ) = synth (solved 1 ρ) x :=
    fun ρ x => Complex.conj_eq_iff_re.1 (synth_real (solved_neg 1 ρ) x)
  let ρ : Torus 2 4 → ℝ := fun x => if x.2.2 = 0 then 1 else 0
  have hP : Poisson 1 ρ fun x => (synth (solved 1 ρ) x).re :=
    solved_poisson one_ne_zero ρ _ fun x => hreal ρ x
  refine ⟨ρ, _, hP, ?_⟩
  have hl := C60_layers hP (fun x y h => by simp only [ρ, h]) (1 / 2) 0
  have hsum : ∑ y, ρ y = 4 := by
    have : (univ.filter fun x : Torus 2 4 => x.2.2 = 0).card = 4 := by decide
    simp only [ρ]
    rw [sum_boole, this]
    norm_num
  push_cast at hl ⊢
  rw [hl]
  have hsum' : ∑ y, ((ρ y : ℝ) : ℂ) = 4 := by exact_mod_cast hsum
  have h0 : ((ρ 0 : ℝ) : ℂ) = 1 := by simp [ρ]
  rw [hsum', h0]
  norm_num

end Jaxions.Gravity
