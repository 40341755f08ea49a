import Verif.Spec.SpecLap
import Verif.Lemmas.WKBField
import Verif.Lemmas.Spectral
/-
Helper lemmas for C82: the loop over the modes.
-/
namespace Jaxions.SpecLap

open Gravity WKB

variable {g : Gravity.Geo}

theorem width_pos (ok : g.Ok) (half : Bool) : 0 < width g half := by
  unfold width; have := ok.side; split <;> omega

/-- Number of modes of a rank. -/
def count (g : Gravity.Geo) (half : Bool) : ℕ := Ly g * (g.Tz * width g half)

theorem mem_iterations {half : Bool} {o : ℕ × ℕ × ℕ} :
    o ∈ iterations g half ↔ o.1 < Ly g ∧ o.2.1 < g.Tz ∧ o.2.2 < width g half := by
  obtain ⟨a, b, c⟩ := o
  simp only [iterations, List.mem_flatMap, List.mem_map, List.mem_range, Prod.mk.injEq]
  constructor
  · rintro ⟨oy, h1, oz, h2, ox, h3, rfl, rfl, rfl⟩
    exact ⟨h1, h2, h3⟩
  · rintro ⟨h1, h2, h3⟩
    exact ⟨a, h1, b, h2, c, h3, rfl, rfl, rfl⟩

theorem iterations_nodup (half : Bool) : (iterations g half).Nodup := by
  unfold iterations
  rw [List.nodup_flatMap]
  refine ⟨fun oy _ => ?_, ?_⟩
  · rw [List.nodup_flatMap]
    refine ⟨fun oz _ => ?_, ?_⟩
    · exact List.Nodup.map (fun _ _ h => by simpa using h) List.nodup_range
    · refine List.nodup_range.imp ?_
      intro a b hab x hx hy
      simp only [List.mem_map] at hx hy
      obtain ⟨c, -, rfl⟩ := hx
      obtain ⟨d, -, e⟩ := hy
      simp only [Prod.mk.injEq] at e
      exact hab e.2.1.symm
  · refine List.nodup_range.imp ?_
    intro a b hab x hx hy
    simp only [List.mem_flatMap, List.mem_map] at hx hy
    obtain ⟨_, -, c, -, rfl⟩ := hx
    obtain ⟨_, -, d, -, e⟩ := hy
    simp only [Prod.mk.injEq] at e
    exact hab e.1.symm

theorem idx_eq (half : Bool) (o : ℕ × ℕ × ℕ) :
    idx g half o = (o.1 * g.Tz + o.2.1) * width g half + o.2.2 := by unfold idx; ring

section
variable {half : Bool} {o : ℕ × ℕ × ℕ}

theorem idx_mod (ho : o ∈ iterations g half) : idx g half o % width g half = o.2.2 := by
  rw [idx_eq]; exact mod_of (mem_iterations.1 ho).2.2

theorem idx_div (ho : o ∈ iterations g half) : idx g half o / width g half = o.1 * g.Tz + o.2.1 := by
  rw [idx_eq]; exact div_of (mem_iterations.1 ho).2.2

theorem idx_z (ho : o ∈ iterations g half) : idx g half o / width g half % g.Tz = o.2.1 := by
  rw [idx_div ho]; exact mod_of (mem_iterations.1 ho).2.1

theorem idx_y (ho : o ∈ iterations g half) : idx g half o / width g half / g.Tz = o.1 := by
  rw [idx_div ho]; exact div_of (mem_iterations.1 ho).2.1

theorem idx_lt (ho : o ∈ iterations g half) : idx g half o < count g half := by
  obtain ⟨h1, h2, h3⟩ := mem_iterations.1 ho
  rw [idx_eq, count, ← Nat.mul_assoc]
  exact pair_lt (pair_lt h1 h2) h3

theorem idx_inj {o' : ℕ × ℕ × ℕ} (ho : o ∈ iterations g half) (ho' : o' ∈ iterations g half)
    (h : idx g half o = idx g half o') : o = o' := by
  refine Prod.ext ?_ (Prod.ext ?_ ?_)
  · rw [← idx_y ho, ← idx_y ho', h]
  · rw [← idx_z ho, ← idx_z ho', h]
  · rw [← idx_mod ho, ← idx_mod ho', h]

end

theorem idx_surj (ok : g.Ok) (half : Bool) {i : ℕ} (hi : i < count g half) :
    ∃ o ∈ iterations g half, idx g half o = i := by
  have hw := width_pos ok half
  have hT := ok.Tz_pos
  refine ⟨(i / width g half / g.Tz, i / width g half % g.Tz, i % width g half), ?_, ?_⟩
  · rw [mem_iterations]
    refine ⟨?_, Nat.mod_lt _ hT, Nat.mod_lt _ hw⟩
    rw [Nat.div_lt_iff_lt_mul hT, Nat.div_lt_iff_lt_mul hw, Nat.mul_assoc]
    exact hi
  · rw [idx_eq]
    dsimp only
    rw [div_mul_add_mod, div_mul_add_mod]

/-- Mode `i` of rank `r` in rows of `W` modes. -/
def modeW (g : Gravity.Geo) (W r i : ℕ) : Torus g.Lx g.Tz :=
  ((i % W : ℕ), (r * (g.Lx / g.n) + i / W / g.Tz : ℕ), (i / W % g.Tz : ℕ))

theorem wrap_sq {N k : ℕ} (hk : k < N) : wrap (k : ℕ) N = signed ((k : ℕ) : ZMod N) := by
  rw [signed_natCast hk]; rfl

/-- The weight is the square of the wave vector of the mode. -/
theorem p2_eq (ok : g.Ok) (half : Bool) {r : ℕ} (hr : r < g.n) {o : ℕ × ℕ × ℕ}
    (ho : o ∈ iterations g half) : p2 g r o = ksq (modeW g (width g half) r (idx g half o)) := by
  obtain ⟨h1, h2, h3⟩ := mem_iterations.1 ho
  unfold modeW ksq p2
  dsimp only
  rw [idx_mod ho, idx_y ho, idx_z ho]
  have hy : r * (g.Lx / g.n) + o.1 < g.Lx := by
    calc _ < g.n * (g.Lx / g.n) := pair_lt hr h1
      _ = g.Lx := Nat.mul_div_cancel' ok.dvd
  have e1 : o.1 + Ly g * r = r * (g.Lx / g.n) + o.1 := by unfold Ly; ring
  rw [e1, wrap_sq hy, wrap_sq h2]
  have e2 : wrap (o.2.2 : ℕ) g.Lx = signed ((o.2.2 : ℕ) : ZMod g.Lx) := by
    refine wrap_sq ?_
    unfold width at h3
    have := ok.side
    split at h3 <;> omega
  rw [e2]
  ring

/-- What a mode array has to obey. -/
structure Lawful {σ : Type} (A : Access σ) (N : ℕ) (good : σ → Prop) : Prop where
  stores : ∀ h i c, good h → i < N → ∃ h', A.store h i c = some h' ∧ good h' ∧
    A.load h' i = some c ∧ ∀ j, j ≠ i → A.load h' j = A.load h j

theorem weigh_spec {σ : Type} {A : Access σ} (ok : g.Ok) (half : Bool) {good : σ → Prop}
    (hA : Lawful A (count g half) good) {r : ℕ} (hr : r < g.n) {order : List (ℕ × ℕ × ℕ)}
    (hord : order.Perm (iterations g half)) {h : σ} (hg : good h) {H : Torus g.Lx g.Tz → ℂ}
    (hH : ∀ i < count g half, A.load h i = some (H (modeW g (width g half) r i))) :
    ∃ h', weigh A g half r order h = some h' ∧ good h' ∧
      ∀ i < count g half, A.load h' i = some (H (modeW g (width g half) r i) *
        (ksq (modeW g (width g half) r i) : ℂ)) := by
  have hnd : order.Nodup := hord.nodup_iff.2 (iterations_nodup half)
  have hmem : ∀ o, o ∈ order ↔ o ∈ iterations g half := fun o => hord.mem_iff
  obtain ⟨h', e, p1, p2', p3⟩ := foldlM_inv (f := times A g half r) (s := h) order
    (P := fun pre t => good t ∧
      (∀ o ∈ iterations g half, o ∈ pre → A.load t (idx g half o) =
        some (H (modeW g (width g half) r (idx g half o)) * (p2 g r o : ℂ))) ∧
      ∀ o ∈ iterations g half, o ∉ pre → A.load t (idx g half o) =
        some (H (modeW g (width g half) r (idx g half o))))
    ⟨hg, by simp, fun o ho _ => hH _ (idx_lt ho)⟩
    (by
      rintro pre o post hsplit t ⟨t1, t2, t3⟩
      have ho : o ∈ iterations g half := (hmem o).1 (by rw [hsplit]; simp)
      have hnot : o ∉ pre := by
        rw [hsplit] at hnd
        intro hc
        exact (List.nodup_append.1 hnd).2.2 o hc o (by simp) rfl
      obtain ⟨t', s1, s2, s3, s4⟩ := hA.stores t (idx g half o)
        (H (modeW g (width g half) r (idx g half o)) * (p2 g r o : ℂ)) t1 (idx_lt ho)
      refine ⟨t', ?_, s2, ?_, ?_⟩
      · unfold times
        rw [t3 o ho hnot]
        exact s1
      · intro u hu hup
        by_cases huo : u = o
        · rw [huo]; exact s3
        · have : u ∈ pre := by
            rcases List.mem_append.1 hup with h | h
            · exact h
            · exact absurd (List.mem_singleton.1 h) huo
          rw [s4 _ (fun hc => huo (idx_inj hu ho hc)), t2 u hu this]
      · intro u hu hup
        have huo : u ≠ o := fun hc => hup (by rw [hc]; simp)
        rw [s4 _ (fun hc => huo (idx_inj hu ho hc)), t3 u hu (fun hc => hup (by simp [hc]))])
  refine ⟨h', e, p1, ?_⟩
  intro i hi
  obtain ⟨o, ho, rfl⟩ := idx_surj ok half hi
  rw [p2' o ho ((hmem o).2 ho), p2_eq ok half hr ho]

theorem lawful_pairs {N n : ℕ} (hN : 2 * n ≤ N) : Lawful pairsOf n (WKB.Alloc N) := by
  refine ⟨?_⟩
  intro h i c hg hi
  obtain ⟨h', e, p1, p2, p3⟩ := store_spec hg (i := i) (by omega) c
  refine ⟨h', e, p2, p1, ?_⟩
  intro j hj
  exact load_congr (p3 _ (by omega) (by omega)) (p3 _ (by omega) (by omega))

theorem lawful_single {N n : ℕ} (hN : n ≤ N) :
    Lawful single n (fun h : Heap ℕ ℂ => ∀ a, a < N → (h a).isSome) := by
  refine ⟨?_⟩
  intro h i c hg hi
  refine ⟨_, write_eq h i c (hg i (by omega)), ?_, ?_, ?_⟩
  · intro a ha
    split
    · rfl
    · exact hg a ha
  · simp [single]
  · intro j hj
    simp [single, hj]

theorem count_half (ok : g.Ok) : count g true = g.modes := by
  rw [ok.modes_eq]; unfold count Ly width Geo.hLx; simp only [if_true]; ring

theorem count_full (ok : g.Ok) : count g false = g.vol := by
  obtain ⟨q, hq⟩ := ok.dvd
  unfold count Ly width Geo.vol Geo.Tz
  simp only [Bool.false_eq_true, if_false]
  rw [hq, Nat.mul_div_cancel_left _ ok.ranks]
  ring

end Jaxions.SpecLap
