import Verif.Lemmas.GroupsSeeds
import Verif.Props.Index
import Mathlib.Tactic.Ring
import Mathlib.Tactic.Linarith

/-
The neighbours of the code are the neighbours of the lattice.
-/

namespace Jaxions.Groups

variable {g : Geo}

theorem no_eq (a : Site) : a.no g = siteNo g.n1 a.x a.y a.z := by
  unfold Site.no siteNo
  ring

theorem no_lt {a : Site} (h : a.In g) : a.no g < g.n3 := by
  obtain ⟨h1, h2, h3⟩ := h
  unfold Site.no Geo.n3 Geo.n2
  have e1 : a.y + g.n1 * a.z + 1 ≤ g.n1 * g.Lz := by
    calc a.y + g.n1 * a.z + 1 ≤ g.n1 * (a.z + 1) := by rw [Nat.mul_succ]; omega
      _ ≤ g.n1 * g.Lz := Nat.mul_le_mul_left _ h3
  calc a.x + g.n1 * (a.y + g.n1 * a.z) < g.n1 * (a.y + g.n1 * a.z + 1) := by
        rw [Nat.mul_succ]; omega
    _ ≤ g.n1 * (g.n1 * g.Lz) := Nat.mul_le_mul_left _ e1
    _ = g.Lz * (g.n1 * g.n1) := by ring

theorem no_inj {a b : Site} (ha : a.In g) (hb : b.In g) (h : a.no g = b.no g) : a = b := by
  have e1 := C03_coords_of_number g.n1 a.x a.y a.z ha.1 ha.2.1
  have e2 := C03_coords_of_number g.n1 b.x b.y b.z hb.1 hb.2.1
  have h' : a.x + g.n1 * (a.y + g.n1 * a.z) = b.x + g.n1 * (b.y + g.n1 * b.z) := h
  rw [h', e2] at e1
  cases a; cases b
  simp only [Prod.mk.injEq] at e1
  simp only [Site.mk.injEq]
  exact ⟨e1.1.symm, e1.2.1.symm, e1.2.2.symm⟩

theorem site_of {i : ℕ} (hi : i < g.n3) : ∃ a : Site, a.In g ∧ a.no g = i := by
  have := C03_number_of_coords g.n1 g.Lz i hi
  exact ⟨⟨_, _, _⟩, ⟨this.2.1, this.2.2.1, this.2.2.2⟩, this.1⟩

theorem back_iff {n a b : ℕ} (ha : a < n) (hb : b < n) :
    a = (b + 1) % n ↔ b = (a + n - 1) % n := by
  have h1 : (b + 1) % n = if b + 1 = n then 0 else b + 1 := by
    split
    · next h => rw [h, Nat.mod_self]
    · exact Nat.mod_eq_of_lt (by omega)
  have h2 : (a + n - 1) % n = if a = 0 then n - 1 else a - 1 := by
    split
    · next h => subst h; rw [Nat.zero_add]; exact Nat.mod_eq_of_lt (by omega)
    · have : a + n - 1 = (a - 1) + n := by omega
      rw [this, Nat.add_mod_right]
      exact Nat.mod_eq_of_lt (by omega)
  rw [h1, h2]
  split <;> split <;> omega

theorem up_iff {a : Site} (h : a.In g) : a.no g < g.n3 - g.n2 ↔ a.z + 1 < g.Lz := by
  have hb : ∀ z, (a.z < z ↔ a.no g < z * g.n2) := by
    intro z
    have h1 : a.x + g.n1 * a.y < g.n2 := by
      unfold Geo.n2
      calc a.x + g.n1 * a.y < g.n1 * (a.y + 1) := by rw [Nat.mul_succ]; have := h.1; omega
        _ ≤ g.n1 * g.n1 := Nat.mul_le_mul_left _ h.2.1
    have h2 : a.no g = (a.x + g.n1 * a.y) + a.z * g.n2 := by unfold Site.no Geo.n2; ring
    constructor
    · intro hz
      have : (a.z + 1) * g.n2 ≤ z * g.n2 := Nat.mul_le_mul_right _ hz
      rw [Nat.succ_mul] at this
      omega
    · intro hz
      by_contra hc
      have : z * g.n2 ≤ a.z * g.n2 := Nat.mul_le_mul_right _ (by omega)
      omega
  have e : g.n3 - g.n2 = (g.Lz - 1) * g.n2 := by
    unfold Geo.n3; rw [Nat.sub_mul, Nat.one_mul]
  rw [e, ← hb]
  have := h.2.2
  omega

theorem down_iff {a : Site} (hn : 2 ≤ g.n1) (h : a.In g) :
    g.n2 < a.no g ↔ 1 ≤ a.z ∧ a ≠ ⟨0, 0, 1⟩ := by
  have h1 : a.x + g.n1 * a.y < g.n2 := by
    unfold Geo.n2
    calc a.x + g.n1 * a.y < g.n1 * (a.y + 1) := by rw [Nat.mul_succ]; have := h.1; omega
      _ ≤ g.n1 * g.n1 := Nat.mul_le_mul_left _ h.2.1
  have h2 : a.no g = (a.x + g.n1 * a.y) + a.z * g.n2 := by unfold Site.no Geo.n2; ring
  obtain ⟨x, y, z⟩ := a
  simp only [ne_eq, Site.mk.injEq] at *
  rw [h2]
  rcases Nat.lt_trichotomy z 1 with hz | hz | hz
  · have : z = 0 := by omega
    subst this; simp; omega
  · subst hz
    simp only [Nat.one_mul, le_refl, true_and, and_true]
    constructor
    · rintro h3 ⟨rfl, rfl⟩; simp at h3
    · intro h3
      rcases Nat.eq_zero_or_pos x with hx | hx
      · rcases Nat.eq_zero_or_pos y with hy | hy
        · exact absurd ⟨hx, hy⟩ h3
        · have : 0 < g.n1 * y := Nat.mul_pos (by omega) hy
          omega
      · omega
  · have : 2 * g.n2 ≤ z * g.n2 := Nat.mul_le_mul_right _ hz
    have : 0 < g.n2 := by omega
    constructor
    · intro _; exact ⟨by omega, fun h => by omega⟩
    · intro _; omega

theorem nebo_iff (hn : 2 ≤ g.n1) {a : Site} (ha : a.In g) (k : ℤ) :
    k ∈ nebo g (a.no g) ↔ ∃ b : Site, b.In g ∧ k = (b.no g : ℕ) ∧ Sees g a b := by
  have hO := (C03_neighbours g.n1 a.x a.y a.z hn ha.1 ha.2.1).2
  have hm := fun t => Nat.mod_lt t (show 0 < g.n1 by omega)
  have hno : ∀ x y z, siteNo g.n1 x y z = (⟨x, y, z⟩ : Site).no g := fun x y z => (no_eq ⟨x, y, z⟩).symm
  have hup : ∀ x y z, (((⟨x, y, z⟩ : Site).no g : ℕ) : ℤ) + g.n2 = ((⟨x, y, z + 1⟩ : Site).no g : ℕ) := by
    intro x y z; unfold Site.no Geo.n2; push_cast; ring
  unfold nebo
  rw [← no_eq] at hO
  rw [hO]
  simp only [hno]
  rw [List.mem_append, List.mem_append]
  obtain ⟨x, y, z⟩ := a
  obtain ⟨hx, hy, hz⟩ := ha
  simp only at hx hy hz
  have u := up_iff (g := g) (a := ⟨x, y, z⟩) ⟨hx, hy, hz⟩
  have d := down_iff (g := g) (a := ⟨x, y, z⟩) hn ⟨hx, hy, hz⟩
  simp only [ne_eq, Site.mk.injEq] at u d
  constructor
  · rintro ((h | h) | h)
    · simp only [List.mem_cons, List.not_mem_nil, or_false] at h
      rcases h with h | h | h | h
      · exact ⟨_, ⟨hm _, hy, hz⟩, h, Or.inl ⟨rfl, rfl, Or.inl rfl⟩, by simp; omega⟩
      · refine ⟨_, ⟨hm _, hy, hz⟩, h, Or.inl ⟨rfl, rfl, Or.inr ?_⟩, by simp; omega⟩
        exact (back_iff hx (hm _)).2 rfl
      · exact ⟨_, ⟨hx, hm _, hz⟩, h, Or.inr (Or.inl ⟨rfl, rfl, Or.inl rfl⟩), by simp; omega⟩
      · refine ⟨_, ⟨hx, hm _, hz⟩, h, Or.inr (Or.inl ⟨rfl, rfl, Or.inr ?_⟩), by simp; omega⟩
        exact (back_iff hy (hm _)).2 rfl
    · split at h
      · next hc =>
        rw [List.mem_singleton, hup] at h
        exact ⟨_, ⟨hx, hy, u.1 hc⟩, h, Or.inr (Or.inr ⟨rfl, rfl, Or.inl rfl⟩), by simp⟩
      · simp at h
    · split at h
      · next hc =>
        have hc' := d.1 hc
        obtain ⟨w, rfl⟩ : ∃ w, z = w + 1 := ⟨z - 1, by omega⟩
        rw [List.mem_singleton, ← hup, add_sub_cancel_right] at h
        refine ⟨_, ⟨hx, hy, by simp only; omega⟩, h, Or.inr (Or.inr ⟨rfl, rfl, Or.inr rfl⟩), ?_⟩
        simp only [Site.mk.injEq]
        omega
      · simp at h
  · rintro ⟨⟨x', y', z'⟩, ⟨hx', hy', hz'⟩, rfl, ht, hs⟩
    simp only at hx' hy' hz'
    simp only [Site.mk.injEq, Touch] at ht hs
    rcases ht with ⟨rfl, rfl, h | h⟩ | ⟨rfl, rfl, h | h⟩ | ⟨rfl, rfl, h | h⟩
    · left; left; rw [h]; simp
    · left; left; rw [(back_iff hx hx').1 h]; simp
    · left; left; rw [h]; simp
    · left; left; rw [(back_iff hy hy').1 h]; simp
    · subst h
      left; right
      rw [if_pos (u.2 hz'), List.mem_singleton, hup]
    · subst h
      right
      rw [if_pos (d.2 ⟨by omega, by omega⟩), List.mem_singleton, ← hup, add_sub_cancel_right]

theorem fine (hn : 2 ≤ g.n1) : Fine g false := by
  refine ⟨fun i j _ _ h => h, ?_⟩
  intro i hi n hnb
  obtain ⟨a, ha, rfl⟩ := site_of hi
  obtain ⟨b, hb, rfl, -⟩ := (nebo_iff hn ha n).1 hnb
  have := no_lt hb
  omega

/-- The steps in terms of sites. -/
theorem reach_iff (hn : 2 ≤ g.n1) (m2h : ℕ → ℕ) (before : List Group) {p : Site} (hp : p.In g) {i : ℕ} :
    Relation.ReflTransGen (Hop g m2h before) (p.no g) i ↔
      ∃ a : Site, a.In g ∧ i = a.no g ∧ Reached g m2h before p a := by
  constructor
  · intro h
    induction h with
    | refl => exact ⟨p, hp, rfl, .refl⟩
    | tail _ h ih =>
      obtain ⟨a, ha, rfl, hr⟩ := ih
      obtain ⟨h1, h2, h3⟩ := h
      obtain ⟨b, hb, e, hs⟩ := (nebo_iff hn ha _).1 h1
      have e' := Int.ofNat_inj.1 e
      subst e'
      refine ⟨b, hb, rfl, hr.tail ⟨ha, hb, h2, ?_, hs⟩⟩
      intro G hG hc
      exact h3 (List.mem_flatMap.2 ⟨G, hG, hc⟩)
  · rintro ⟨a, ha, rfl, hr⟩
    induction hr with
    | refl => exact .refl
    | tail _ h ih =>
      obtain ⟨h1, h2, h3, h4, h5⟩ := h
      refine (ih h1).tail ⟨(nebo_iff hn h1 _).2 ⟨_, h2, rfl, h5⟩, h3, ?_⟩
      intro hc
      obtain ⟨G, hG, hc⟩ := List.mem_flatMap.1 hc
      exact h4 G hG hc

end Jaxions.Groups
