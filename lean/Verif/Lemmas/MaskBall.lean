import Verif.Spec.MaskBall
import Verif.Basic.DivMod
import Mathlib.Algebra.Order.Field.Rat
import Mathlib.Data.Rat.Cast.Order
import Mathlib.Tactic.Ring
import Mathlib.Tactic.Linarith
import Mathlib.Tactic.Push
import Mathlib.Tactic.Positivity

/-!
# Lemmas about masking
-/

namespace Jaxions
namespace MaskBall

/-! ### Balls -/

theorem inflsqGo_spec (aux : ℚ) (fuel ts : Nat) (h1 : ∀ v < ts, ((v * v : Nat) : ℚ) ≤ aux)
    (h2 : aux < (((ts + fuel) * (ts + fuel) : Nat) : ℚ)) :
    (∀ v < inflsqGo aux fuel ts, ((v * v : Nat) : ℚ) ≤ aux) ∧
      aux < ((inflsqGo aux fuel ts * inflsqGo aux fuel ts : Nat) : ℚ) := by
  induction fuel generalizing ts with
  | zero => exact ⟨h1, h2⟩
  | succ fuel ih =>
    unfold inflsqGo
    split
    · rename_i hle
      refine ih (ts + 1) ?_ ?_
      · intro v hv
        rcases Nat.lt_succ_iff_lt_or_eq.1 hv with h | rfl
        · exact h1 v h
        · exact hle
      · rwa [show ts + 1 + fuel = ts + (fuel + 1) by omega]
    · rename_i hgt
      exact ⟨h1, lt_of_not_ge hgt⟩

/-- `inflsq` is the largest integer whose square is not larger, `-1` if there is none. -/
theorem inflsq_iff (aux : ℚ) (d : Int) :
    (-inflsq aux ≤ d ∧ d ≤ inflsq aux) ↔ ((d * d : Int) : ℚ) ≤ aux := by
  obtain ⟨u, hu⟩ : ∃ u, u = inflsqGo aux (aux.floor.toNat + 2) 0 := ⟨_, rfl⟩
  have hb : aux < (((0 + (aux.floor.toNat + 2)) * (0 + (aux.floor.toNat + 2)) : Nat) : ℚ) := by
    have h1 := (Rat.floor_lt_iff (a := aux) (x := aux.floor + 1)).1 (by omega)
    have h2 : ((aux.floor + 1 : Int) : ℚ) ≤ ((aux.floor.toNat + 1 : Nat) : ℚ) := by
      have : aux.floor + 1 ≤ ((aux.floor.toNat + 1 : Nat) : Int) := by omega
      exact_mod_cast this
    have h3 : ((aux.floor.toNat + 1 : Nat) : ℚ) ≤
        (((0 + (aux.floor.toNat + 2)) * (0 + (aux.floor.toNat + 2)) : Nat) : ℚ) := by
      have : aux.floor.toNat + 1 ≤ (0 + (aux.floor.toNat + 2)) * (0 + (aux.floor.toNat + 2)) := by
        nlinarith
      exact_mod_cast this
    linarith
  obtain ⟨hlo, hhi⟩ := inflsqGo_spec aux (aux.floor.toNat + 2) 0 (by simp) hb
  have e : inflsq aux = (u : Int) - 1 := by unfold inflsq; rw [hu]
  rw [← hu] at hlo hhi
  have key : ∀ n : Nat, ((n * n : Nat) : ℚ) ≤ aux ↔ n < u := by
    intro n
    constructor
    · intro h
      by_contra hc
      have : u * u ≤ n * n := Nat.mul_le_mul (by omega) (by omega)
      have : ((u * u : Nat) : ℚ) ≤ ((n * n : Nat) : ℚ) := by exact_mod_cast this
      linarith
    · exact hlo n
  have hsq : ((d * d : Int) : ℚ) = ((d.natAbs * d.natAbs : Nat) : ℚ) := by
    have : d * d = ((d.natAbs * d.natAbs : Nat) : Int) := by
      push_cast
      rw [← Int.natAbs_mul_self' d, Int.natCast_natAbs]
    rw [this]
    norm_cast
  rw [hsq, key, e]
  omega

theorem mem_irange {a b d : Int} : d ∈ irange a b ↔ a ≤ d ∧ d ≤ b := by
  unfold irange
  simp only [List.mem_map, List.mem_range]
  constructor
  · rintro ⟨k, hk, rfl⟩; omega
  · rintro ⟨h1, h2⟩; exact ⟨(d - a).toNat, by omega, by omega⟩

/-- A point of the ball has `|dz| ≤ rz`. -/
theorem dz_le (c : Cfg) (hR : 0 ≤ c.radius) {dz : Int} {q : ℚ} (hq : 0 ≤ q)
    (h : ((dz * dz : Int) : ℚ) + q ≤ c.radius * c.radius) : -(c.rz : Int) ≤ dz ∧ dz ≤ c.rz := by
  have hfl : (0 : Int) ≤ c.radius.floor := Rat.le_floor_iff.2 (by simpa using hR)
  have hrz : (c.rz : Int) = c.radius.floor := by unfold Cfg.rz; omega
  have hd : ((dz * dz : Int) : ℚ) ≤ c.radius * c.radius := by linarith
  have habs : ∀ e : Int, ((e * e : Int) : ℚ) ≤ c.radius * c.radius → e ≤ c.rz := by
    intro e he
    rw [hrz]
    refine Rat.le_floor_iff.2 ?_
    by_contra hc
    have hlt : c.radius < (e : ℚ) := lt_of_not_ge hc
    push_cast at he
    nlinarith
  refine ⟨?_, habs dz hd⟩
  have := habs (-dz) (by rwa [neg_mul_neg])
  omega

/-- What a point of a ball asks for. -/
def pointAct (c : Cfg) (x y z : Nat) (dx dy dz : Int) : Act :=
  if z + dz < 0 then .front (c.Ly * wrap c.Ly y dy + wrap c.Ly x dx) (-(z + dz))
  else if z + dz ≥ c.Lz then .back (c.Ly * wrap c.Ly y dy + wrap c.Ly x dx) (z + dz + 1 - c.Lz)
  else .own (c.Ly * c.Ly * (z + dz).toNat + c.Ly * wrap c.Ly y dy + wrap c.Ly x dx)

theorem mem_ball (R2 : ℚ) (dx dy : Int) (q : ℚ) :
    ((-inflsq (R2 - q) ≤ dy ∧ dy ≤ inflsq (R2 - q)) ∧
      (-inflsq (R2 - q - ((dy * dy : Int) : ℚ)) ≤ dx ∧ dx ≤ inflsq (R2 - q - ((dy * dy : Int) : ℚ)))) ↔
      ((dx * dx : Int) : ℚ) + ((dy * dy : Int) : ℚ) + q ≤ R2 := by
  rw [inflsq_iff, inflsq_iff]
  constructor
  · rintro ⟨_, h⟩; linarith
  · intro h
    have : (0 : ℚ) ≤ ((dx * dx : Int) : ℚ) := by exact_mod_cast mul_self_nonneg dx
    constructor <;> linarith

/-- Points of a slice of the boundary loop, `rz ≤ Lz`. -/
theorem mem_sliceActs (c : Cfg) (hR : 0 ≤ c.radius) (hrz : c.rz ≤ c.Lz) (defect : Nat → Bool)
    (liz : Nat) (a : Act) :
    a ∈ sliceActs c defect liz ↔ ∃ x y, ∃ dx dy dz : Int, x < c.Ly ∧ y < c.Ly ∧
      defect (pos c x y (liz % c.Lz)) = true ∧
      ((dx * dx + dy * dy + dz * dz : Int) : ℚ) ≤ c.radius * c.radius ∧
      a = pointAct c x y (liz % c.Lz) dx dy dz := by
  unfold sliceActs
  simp only [if_neg (not_lt.2 hrz), List.mem_flatMap, List.mem_range]
  constructor
  · rintro ⟨y, hy, x, hx, h⟩
    split at h
    · rename_i hdef
      simp only [List.mem_flatMap, List.mem_map, mem_irange] at h
      obtain ⟨dz, hdz, dy, hdy, dx, hdx, rfl⟩ := h
      refine ⟨x, y, dx, dy, dz, hx, hy, hdef, ?_, rfl⟩
      have := (mem_ball _ dx dy _).1 ⟨hdy, hdx⟩
      push_cast at this ⊢
      linarith
    · simp at h
  · rintro ⟨x, y, dx, dy, dz, hx, hy, hdef, hb, rfl⟩
    refine ⟨y, hy, x, hx, ?_⟩
    unfold pos at hdef
    rw [if_pos hdef]
    simp only [List.mem_flatMap, List.mem_map, mem_irange]
    have hb' : ((dx * dx : Int) : ℚ) + ((dy * dy : Int) : ℚ) + ((dz * dz : Int) : ℚ) ≤
        c.radius * c.radius := by push_cast at hb ⊢; linarith
    have h0 : (0 : ℚ) ≤ ((dx * dx : Int) : ℚ) + ((dy * dy : Int) : ℚ) := by
      have h1 : (0 : ℚ) ≤ ((dx * dx : Int) : ℚ) := by exact_mod_cast mul_self_nonneg dx
      have h2 : (0 : ℚ) ≤ ((dy * dy : Int) : ℚ) := by exact_mod_cast mul_self_nonneg dy
      linarith
    have hm := (mem_ball _ dx dy _).2 hb'
    exact ⟨dz, dz_le c hR h0 (by linarith), dy, hm.1, dx, hm.2, rfl⟩

/-- Points of a slice of the bulk loop. -/
theorem mem_bulkActs (c : Cfg) (hR : 0 ≤ c.radius) (defect : Nat → Bool) (z : Nat)
    (hz : z ∈ bulk c) (a : Act) :
    a ∈ bulkActs c defect z ↔ ∃ x y, ∃ dx dy dz : Int, x < c.Ly ∧ y < c.Ly ∧
      defect (pos c x y z) = true ∧
      ((dx * dx + dy * dy + dz * dz : Int) : ℚ) ≤ c.radius * c.radius ∧
      a = pointAct c x y z dx dy dz := by
  have hzr : c.rz ≤ z ∧ z + c.rz < c.Lz := by
    unfold bulk at hz
    split at hz
    · simp only [List.mem_map, List.mem_range] at hz
      obtain ⟨k, hk, rfl⟩ := hz
      omega
    · simp at hz
  have hact : ∀ x y, ∀ dx dy dz : Int, -(c.rz : Int) ≤ dz → dz ≤ c.rz →
      pointAct c x y z dx dy dz = .own ((z + dz).toNat * (c.Ly * c.Ly) + c.Ly * wrap c.Ly y dy +
        wrap c.Ly x dx) := by
    intro x y dx dy dz h1 h2
    unfold pointAct
    rw [if_neg (by omega), if_neg (by omega), Nat.mul_comm (c.Ly * c.Ly)]
  unfold bulkActs
  simp only [List.mem_flatMap, List.mem_range]
  constructor
  · rintro ⟨y, hy, x, hx, h⟩
    split at h
    · rename_i hdef
      simp only [List.mem_flatMap, List.mem_map, mem_irange] at h
      obtain ⟨dz, hdz, dy, hdy, dx, hdx, rfl⟩ := h
      refine ⟨x, y, dx, dy, dz, hx, hy, hdef, ?_, (hact x y dx dy dz hdz.1 hdz.2).symm⟩
      have := (mem_ball _ dx dy _).1 ⟨hdy, hdx⟩
      push_cast at this ⊢
      linarith
    · simp at h
  · rintro ⟨x, y, dx, dy, dz, hx, hy, hdef, hb, rfl⟩
    refine ⟨y, hy, x, hx, ?_⟩
    unfold pos at hdef
    rw [if_pos hdef]
    simp only [List.mem_flatMap, List.mem_map, mem_irange]
    have hb' : ((dx * dx : Int) : ℚ) + ((dy * dy : Int) : ℚ) + ((dz * dz : Int) : ℚ) ≤
        c.radius * c.radius := by push_cast at hb ⊢; linarith
    have h0 : (0 : ℚ) ≤ ((dx * dx : Int) : ℚ) + ((dy * dy : Int) : ℚ) := by
      have h1 : (0 : ℚ) ≤ ((dx * dx : Int) : ℚ) := by exact_mod_cast mul_self_nonneg dx
      have h2 : (0 : ℚ) ≤ ((dy * dy : Int) : ℚ) := by exact_mod_cast mul_self_nonneg dy
      linarith
    have hm := (mem_ball _ dx dy _).2 hb'
    have hdz := dz_le c hR h0 (by linarith)
    exact ⟨dz, hdz, dy, hm.1, dx, hm.2, (hact x y dx dy dz hdz.1 hdz.2).symm⟩

/-! ### Threads -/

/-- In bounds. -/
def Micro.Ok (c : Cfg) : Micro → Prop
  | .mark i => i < c.Ly * c.Ly * c.Lz
  | .rd _ col => col < c.Ly * c.Ly
  | .wr _ col _ => col < c.Ly * c.Ly

/-- What holds in every state of a parallel loop. -/
def Inv (m : Nat → Bool) (gh0 : Bool → Nat → Int) (prog : Nat → List Micro) (s : St) : Prop :=
  ∃ done : Nat → List Micro, (∀ t, prog t = done t ++ s.todo t) ∧
    (∀ j, s.mask j = true ↔ m j = true ∨ ∃ t, .mark j ∈ done t) ∧
    (∀ a b, s.gh a b = gh0 a b ∨ ∃ t, .wr a b (s.gh a b) ∈ done t)

theorem step_inv {c : Cfg} {m gh0 prog} {s s' : St} {t : Nat} (h : Inv m gh0 prog s)
    (hs : step c s t = some s') : Inv m gh0 prog s' := by
  obtain ⟨done, h1, h2, h3⟩ := h
  unfold step at hs
  cases hT : s.todo t with
  | nil =>
    rw [hT] at hs
    cases hs
    exact ⟨done, h1, h2, h3⟩
  | cons a ms =>
    rw [hT] at hs
    dsimp only at hs
    obtain ⟨s1, he, rfl⟩ := Option.map_eq_some_iff.1 hs
    have mono : ∀ u x, x ∈ done u → x ∈ (if u = t then done u ++ [a] else done u) := by
      intro u x hx
      split
      · exact List.mem_append_left _ hx
      · exact hx
    have inv : ∀ u x, x ∈ (if u = t then done u ++ [a] else done u) → x ∈ done u ∨ (u = t ∧ x = a) := by
      intro u x hx
      split at hx
      · rename_i hu
        rcases List.mem_append.1 hx with h | h
        · exact Or.inl h
        · exact Or.inr ⟨hu, by simpa using h⟩
      · exact Or.inl hx
    refine ⟨fun u => if u = t then done u ++ [a] else done u, ?_, ?_, ?_⟩
    · intro u
      dsimp only
      by_cases hu : u = t
      · subst hu
        rw [if_pos rfl, if_pos rfl, h1 u, hT]; simp
      · rw [if_neg hu, if_neg hu, h1 u]
    · intro j
      have hmask : s1.mask j = true ↔ s.mask j = true ∨ a = .mark j := by
        cases a with
        | mark i =>
          simp only [exec] at he
          split at he
          · cases he
            by_cases hj : j = i
            · subst hj; simp
            · simp [hj, Ne.symm hj]
          · cases he
        | rd side col =>
          simp only [exec] at he
          split at he
          · cases he; simp
          · cases he
        | wr side col load =>
          simp only [exec] at he
          split at he
          · cases he; split <;> simp
          · cases he
      dsimp only
      rw [hmask, h2 j]
      constructor
      · rintro ((h | ⟨u, hu⟩) | h)
        · exact Or.inl h
        · exact Or.inr ⟨u, mono u _ hu⟩
        · exact Or.inr ⟨t, by rw [if_pos rfl, h]; simp⟩
      · rintro (h | ⟨u, hu⟩)
        · exact Or.inl (Or.inl h)
        · rcases inv u _ hu with h | ⟨_, h⟩
          · exact Or.inl (Or.inr ⟨u, h⟩)
          · exact Or.inr h.symm
    · intro x y
      dsimp only
      have hgh : s1.gh x y = s.gh x y ∨ a = .wr x y (s1.gh x y) := by
        cases a with
        | mark i =>
          simp only [exec] at he
          split at he
          · cases he; simp
          · cases he
        | rd side col =>
          simp only [exec] at he
          split at he
          · cases he; simp
          · cases he
        | wr side col load =>
          simp only [exec] at he
          split at he
          · cases he
            split
            · dsimp only
              by_cases hxy : x = side ∧ y = col
              · rw [if_pos hxy]; exact Or.inr (by rw [hxy.1, hxy.2])
              · rw [if_neg hxy]; exact Or.inl rfl
            · exact Or.inl rfl
          · cases he
      rcases hgh with h | h
      · rw [h]
        rcases h3 x y with h' | ⟨u, hu⟩
        · exact Or.inl h'
        · exact Or.inr ⟨u, mono u _ hu⟩
      · exact Or.inr ⟨t, by rw [if_pos rfl, ← h]; simp⟩

theorem step_some {c : Cfg} {m gh0 prog} {s : St} (t : Nat) (h : Inv m gh0 prog s)
    (hok : ∀ t, ∀ x ∈ prog t, x.Ok c) : ∃ s', step c s t = some s' := by
  obtain ⟨done, h1, -, -⟩ := h
  unfold step
  cases hT : s.todo t with
  | nil => exact ⟨s, rfl⟩
  | cons a ms =>
    have ha : a.Ok c := hok t a (by rw [h1 t, hT]; simp)
    cases a with
    | mark i => simp only [Micro.Ok] at ha; simp only [exec]; rw [if_pos ha]; exact ⟨_, rfl⟩
    | rd side col => simp only [Micro.Ok] at ha; simp only [exec]; rw [if_pos ha]; exact ⟨_, rfl⟩
    | wr side col load => simp only [Micro.Ok] at ha; simp only [exec]; rw [if_pos ha]; exact ⟨_, rfl⟩

theorem start_inv (m : Nat → Bool) (gh0 : Bool → Nat → Int) (dist acts) :
    Inv m gh0 (fun t => ((dist t).flatMap acts).flatMap Act.micros) (start m gh0 dist acts) :=
  ⟨fun _ => [], by simp [start], by simp [start], by simp [start]⟩

theorem run_inv {c : Cfg} {m gh0 prog} (sched : List Nat) {s s' : St} (h : Inv m gh0 prog s)
    (hs : run c sched s = some s') : Inv m gh0 prog s' := by
  induction sched generalizing s with
  | nil => cases hs; exact h
  | cons t l ih =>
    unfold run at hs
    rw [List.foldlM_cons] at hs
    obtain ⟨s1, h1, h2⟩ := Option.bind_eq_some_iff.1 hs
    exact ih (step_inv h h1) h2

theorem run_some {c : Cfg} {m gh0 prog} (sched : List Nat) {s : St} (h : Inv m gh0 prog s)
    (hok : ∀ t, ∀ x ∈ prog t, x.Ok c) : ∃ s', run c sched s = some s' := by
  induction sched generalizing s with
  | nil => exact ⟨s, rfl⟩
  | cons t l ih =>
    obtain ⟨s1, h1⟩ := step_some t h hok
    obtain ⟨s2, h2⟩ := ih (step_inv h h1)
    refine ⟨s2, ?_⟩
    unfold run at h2 ⊢
    rw [List.foldlM_cons, h1]
    exact h2

/-- What holds in every state if there is one thread. -/
def Alone (gh0 : Bool → Nat → Int) (prog : List Micro) (s : St) : Prop :=
  (∀ t, t ≠ 0 → s.todo t = []) ∧ (∀ a b, gh0 a b ≤ s.gh a b) ∧
    (∃ done, prog = done ++ s.todo 0 ∧ ∀ a b load, .wr a b load ∈ done → load ≤ s.gh a b) ∧
    ∃ l : List Act, s.todo 0 = l.flatMap Act.micros ∨
      ∃ a b load, s.todo 0 = .wr a b load :: l.flatMap Act.micros ∧ s.aux 0 = s.gh a b

theorem step_alone {c : Cfg} {gh0 prog} {s s' : St} {t : Nat} (h : Alone gh0 prog s)
    (hs : step c s t = some s') : Alone gh0 prog s' := by
  obtain ⟨h1, h2, ⟨done, h3, h4⟩, l, h5⟩ := h
  by_cases ht : t = 0
  swap
  · unfold step at hs
    rw [h1 t ht] at hs
    cases hs
    exact ⟨h1, h2, ⟨done, h3, h4⟩, l, h5⟩
  subst ht
  have rest : ∀ ms u, u ≠ 0 → (if u = 0 then ms else s.todo u) = [] := by
    intro ms u hu; rw [if_neg hu]; exact h1 u hu
  unfold step at hs
  rcases h5 with h5 | ⟨a, b, load, h5, haux⟩
  · cases l with
    | nil =>
      simp only [List.flatMap_nil] at h5
      rw [h5] at hs
      cases hs
      exact ⟨h1, h2, ⟨done, h3, h4⟩, [], Or.inl (by simpa using h5)⟩
    | cons act l =>
      have note : ∀ side col load, s.todo 0 = .rd side col :: .wr side col load :: l.flatMap Act.micros →
          Alone gh0 prog s' := by
        intro side col load hT
        rw [hT] at hs
        dsimp only at hs
        obtain ⟨s1, he, rfl⟩ := Option.map_eq_some_iff.1 hs
        simp only [exec] at he
        split at he
        · cases he
          refine ⟨rest _, h2, ⟨done ++ [.rd side col], ?_, ?_⟩, l, Or.inr ⟨side, col, load, ?_, ?_⟩⟩
          · rw [h3, hT]; simp
          · intro a b ld hm
            exact h4 a b ld (by simpa using hm)
          · simp
          · simp
        · cases he
      cases act with
      | own i =>
        have hT : s.todo 0 = .mark i :: l.flatMap Act.micros := by rw [h5]; rfl
        rw [hT] at hs
        dsimp only at hs
        obtain ⟨s1, he, rfl⟩ := Option.map_eq_some_iff.1 hs
        simp only [exec] at he
        split at he
        · cases he
          refine ⟨rest _, h2, ⟨done ++ [.mark i], ?_, ?_⟩, l, Or.inl ?_⟩
          · rw [h3, hT]; simp
          · intro a b ld hm
            exact h4 a b ld (by simpa using hm)
          · simp
        · cases he
      | front col load => exact note false col load (by rw [h5]; rfl)
      | back col load => exact note true col load (by rw [h5]; rfl)
  · rw [h5] at hs
    dsimp only at hs
    obtain ⟨s1, he, rfl⟩ := Option.map_eq_some_iff.1 hs
    simp only [exec] at he
    split at he
    · cases he
      rw [haux]
      by_cases hl : load > s.gh a b
      · simp only [if_pos hl]
        have up : ∀ x y, s.gh x y ≤ if x = a ∧ y = b then load else s.gh x y := by
          intro x y
          split
          · rename_i e; rw [e.1, e.2]; omega
          · exact le_refl _
        refine ⟨rest _, fun x y => le_trans (h2 x y) (up x y), ⟨done ++ [.wr a b load], ?_, ?_⟩, l, Or.inl ?_⟩
        · rw [h3, h5]; simp
        · intro x y ld hm
          rcases List.mem_append.1 hm with hm | hm
          · exact le_trans (h4 x y ld hm) (up x y)
          · simp only [List.mem_singleton, Micro.wr.injEq] at hm
            obtain ⟨rfl, rfl, rfl⟩ := hm
            simp
        · simp
      · simp only [if_neg hl]
        refine ⟨rest _, h2, ⟨done ++ [.wr a b load], ?_, ?_⟩, l, Or.inl ?_⟩
        · rw [h3, h5]; simp
        · intro x y ld hm
          rcases List.mem_append.1 hm with hm | hm
          · exact h4 x y ld hm
          · simp only [List.mem_singleton, Micro.wr.injEq] at hm
            obtain ⟨rfl, rfl, rfl⟩ := hm
            exact not_lt.1 hl
        · simp
    · cases he

theorem run_alone {c : Cfg} {gh0 prog} (sched : List Nat) {s s' : St} (h : Alone gh0 prog s)
    (hs : run c sched s = some s') : Alone gh0 prog s' := by
  induction sched generalizing s with
  | nil => cases hs; exact h
  | cons t l ih =>
    unfold run at hs
    rw [List.foldlM_cons] at hs
    obtain ⟨s1, h1, h2⟩ := Option.bind_eq_some_iff.1 hs
    exact ih (step_alone h h1) h2

/-- The point of a ball that leaves a load. -/
def note (side : Bool) (col : Nat) (load : Int) : Act :=
  if side then .back col load else .front col load

theorem mark_mem {l : List Act} {j : Nat} : .mark j ∈ l.flatMap Act.micros ↔ .own j ∈ l := by
  simp only [List.mem_flatMap]
  constructor
  · rintro ⟨a, ha, h⟩
    cases a <;> simp [Act.micros] at h
    rwa [h]
  · intro h
    exact ⟨_, h, by simp [Act.micros]⟩

theorem wr_mem {l : List Act} {a : Bool} {b : Nat} {load : Int} :
    .wr a b load ∈ l.flatMap Act.micros ↔ note a b load ∈ l := by
  simp only [List.mem_flatMap]
  constructor
  · rintro ⟨x, hx, h⟩
    cases x <;> simp [Act.micros] at h <;> obtain ⟨rfl, rfl, rfl⟩ := h <;> simpa [note] using hx
  · intro h
    refine ⟨_, h, ?_⟩
    cases a <;> simp [Act.micros, note]

theorem shares_mem {l : List Nat} {threads dist} (h : Shares l threads dist) (z : Nat) :
    (∃ t, z ∈ dist t) ↔ z ∈ l := by
  rw [← h.2.mem_iff]
  simp only [List.mem_flatMap, List.mem_range]
  constructor
  · rintro ⟨t, ht⟩
    refine ⟨t, ?_, ht⟩
    by_contra hc
    rw [h.1 t (by omega)] at ht
    simp at ht
  · rintro ⟨t, -, ht⟩; exact ⟨t, ht⟩

/-- Result of a parallel loop. -/
theorem ran_spec {c : Cfg} {m gh0 dist acts m' gh' l threads} (hsh : Shares l threads dist)
    (h : Ran c m gh0 dist acts m' gh') :
    (∀ j, m' j = true ↔ m j = true ∨ ∃ z ∈ l, .own j ∈ acts z) ∧
      (∀ a b, gh' a b = gh0 a b ∨ ∃ z ∈ l, note a b (gh' a b) ∈ acts z) ∧
      (threads = 1 → ∀ a b load, ∀ z ∈ l, note a b load ∈ acts z → load ≤ gh' a b) := by
  obtain ⟨sched, s, hrun, hend, rfl, rfl⟩ := h
  obtain ⟨done, h1, h2, h3⟩ := run_inv sched (start_inv m gh0 dist acts) hrun
  have hd : ∀ t, done t = ((dist t).flatMap acts).flatMap Act.micros := by
    intro t
    have := h1 t
    rw [hend t, List.append_nil] at this
    exact this.symm
  refine ⟨?_, ?_, ?_⟩
  · intro j
    rw [h2 j]
    refine or_congr Iff.rfl ⟨?_, ?_⟩
    · rintro ⟨t, ht⟩
      rw [hd t, mark_mem] at ht
      obtain ⟨z, hz, hm⟩ := List.mem_flatMap.1 ht
      exact ⟨z, (shares_mem hsh z).1 ⟨t, hz⟩, hm⟩
    · rintro ⟨z, hz, hm⟩
      obtain ⟨t, ht⟩ := (shares_mem hsh z).2 hz
      exact ⟨t, by rw [hd t, mark_mem]; exact List.mem_flatMap.2 ⟨z, ht, hm⟩⟩
  · intro a b
    rcases h3 a b with h | ⟨t, ht⟩
    · exact Or.inl h
    · rw [hd t, wr_mem] at ht
      obtain ⟨z, hz, hm⟩ := List.mem_flatMap.1 ht
      exact Or.inr ⟨z, (shares_mem hsh z).1 ⟨t, hz⟩, hm⟩
  · rintro rfl a b load z hz hm
    have hemp : ∀ t, t ≠ 0 → dist t = [] := fun t ht => hsh.1 t (by omega)
    have hal : Alone gh0 (((dist 0).flatMap acts).flatMap Act.micros) (start m gh0 dist acts) := by
      refine ⟨?_, fun _ _ => le_refl _, ⟨[], by simp [start], by simp⟩, _, Or.inl rfl⟩
      intro t ht
      simp [start, hemp t ht]
    obtain ⟨-, -, ⟨dn, e1, e2⟩, -⟩ := run_alone sched hal hrun
    rw [hend 0, List.append_nil] at e1
    refine e2 a b load ?_
    rw [← e1, wr_mem]
    obtain ⟨t, ht⟩ := (shares_mem hsh z).2 hz
    by_cases h0 : t = 0
    · subst h0; exact List.mem_flatMap.2 ⟨z, ht, hm⟩
    · rw [hemp t h0] at ht; simp at ht

/-! ### Marking what was received -/

theorem markAll {β : Type} {l : List β} {ok : β → Prop} [DecidablePred ok] {g : β → Nat} {m m' : Nat → Bool}
    (h : l.foldlM (fun m k => if ok k then some fun j => if j = g k then true else m j else none) m =
      some m') (j : Nat) : m' j = true ↔ m j = true ∨ ∃ k ∈ l, j = g k := by
  induction l generalizing m with
  | nil => cases h; simp
  | cons k l ih =>
    rw [List.foldlM_cons] at h
    obtain ⟨m1, h1, h2⟩ := Option.bind_eq_some_iff.1 h
    split at h1
    · cases h1
      rw [ih h2]
      by_cases hj : j = g k <;> simp [hj]
    · cases h1

theorem markAll_some {β : Type} {l : List β} {ok : β → Prop} [DecidablePred ok] {g : β → Nat}
    (hok : ∀ k ∈ l, ok k) (m : Nat → Bool) :
    ∃ m', l.foldlM (fun m k => if ok k then some fun j => if j = g k then true else m j else none) m =
      some m' := by
  induction l generalizing m with
  | nil => exact ⟨m, rfl⟩
  | cons k l ih =>
    rw [List.foldlM_cons, if_pos (hok k (by simp))]
    exact ih (fun k hk => hok k (by simp [hk])) _

theorem receive_spec {c : Cfg} {recvB recvF : Nat → Int} {m m' : Nat → Bool} (hLz : 1 < c.Lz)
    (h : receive c recvB recvF m = some m') (j : Nat) :
    m' j = true ↔ m j = true ∨ ∃ idx < c.Ly * c.Ly, ∃ k : Nat,
      ((k : Int) < recvB idx ∧ j = idx + k * (c.Ly * c.Ly)) ∨
      ((k : Int) < recvF idx ∧ j = idx + c.Ly * c.Ly * (c.Lz - 1 - k)) := by
  unfold receive at h
  rw [if_pos hLz] at h
  have gen : ∀ (l : List Nat) (m m' : Nat → Bool), l.foldlM (fun m idx => do
      let m ← (List.range (recvB idx).toNat).foldlM (fun m dz =>
        if idx + dz * (c.Ly * c.Ly) < c.Ly * c.Ly * c.Lz then
          some fun j => if j = idx + dz * (c.Ly * c.Ly) then true else m j
        else none) m
      (List.range (recvF idx).toNat).foldlM (fun m dz =>
        if dz < c.Lz then
          some fun j => if j = idx + c.Ly * c.Ly * (c.Lz - 1 - dz) then true else m j
        else none) m) m = some m' → (m' j = true ↔ m j = true ∨ ∃ idx ∈ l, ∃ k : Nat,
      ((k : Int) < recvB idx ∧ j = idx + k * (c.Ly * c.Ly)) ∨
      ((k : Int) < recvF idx ∧ j = idx + c.Ly * c.Ly * (c.Lz - 1 - k))) := by
    intro l
    induction l with
    | nil => intro m m' h; cases h; simp
    | cons idx l ih =>
      intro m m' h
      rw [List.foldlM_cons] at h
      obtain ⟨m1, h1, h2⟩ := Option.bind_eq_some_iff.1 h
      obtain ⟨m0, h0, h1⟩ := Option.bind_eq_some_iff.1 h1
      rw [ih m1 m' h2, markAll h1 j, markAll h0 j]
      simp only [List.mem_range, Int.lt_toNat]
      constructor
      · rintro (((h | ⟨k, hk, e⟩) | ⟨k, hk, e⟩) | ⟨i, hi, hh⟩)
        · exact Or.inl h
        · exact Or.inr ⟨idx, by simp, k, Or.inl ⟨by omega, e⟩⟩
        · exact Or.inr ⟨idx, by simp, k, Or.inr ⟨by omega, e⟩⟩
        · exact Or.inr ⟨i, by simp [hi], hh⟩
      · rintro (h | ⟨i, hi, k, hk⟩)
        · exact Or.inl (Or.inl (Or.inl h))
        · rcases List.mem_cons.1 hi with rfl | hi
          · rcases hk with ⟨hk, e⟩ | ⟨hk, e⟩
            · exact Or.inl (Or.inl (Or.inr ⟨k, by omega, e⟩))
            · exact Or.inl (Or.inr ⟨k, by omega, e⟩)
          · exact Or.inr ⟨i, hi, k, hk⟩
  have := gen _ m m' h
  simpa only [List.mem_range] using this

theorem receive_some (c : Cfg) {recvB recvF : Nat → Int} (hB : ∀ i, recvB i ≤ c.Lz)
    (hF : ∀ i, recvF i ≤ c.Lz) (m : Nat → Bool) : ∃ m', receive c recvB recvF m = some m' := by
  unfold receive
  split
  · have gen : ∀ (l : List Nat) (m : Nat → Bool), (∀ i ∈ l, i < c.Ly * c.Ly) → ∃ m', l.foldlM (fun m idx => do
        let m ← (List.range (recvB idx).toNat).foldlM (fun m dz =>
          if idx + dz * (c.Ly * c.Ly) < c.Ly * c.Ly * c.Lz then
            some fun j => if j = idx + dz * (c.Ly * c.Ly) then true else m j
          else none) m
        (List.range (recvF idx).toNat).foldlM (fun m dz =>
          if dz < c.Lz then
            some fun j => if j = idx + c.Ly * c.Ly * (c.Lz - 1 - dz) then true else m j
          else none) m) m = some m' := by
      intro l
      induction l with
      | nil => intro m _; exact ⟨m, rfl⟩
      | cons idx l ih =>
        intro m hl
        obtain ⟨m0, h0⟩ := markAll_some (l := List.range (recvB idx).toNat)
          (ok := fun dz => idx + dz * (c.Ly * c.Ly) < c.Ly * c.Ly * c.Lz)
          (g := fun dz => idx + dz * (c.Ly * c.Ly)) (by
            intro k hk
            have hk' := List.mem_range.1 hk
            have := hB idx
            have h1 := hl idx (by simp)
            have h2 : (k + 1) * (c.Ly * c.Ly) ≤ c.Lz * (c.Ly * c.Ly) := Nat.mul_le_mul_right _ (by omega)
            rw [Nat.mul_comm (c.Ly * c.Ly) c.Lz]
            rw [Nat.succ_mul] at h2
            omega) m
        obtain ⟨m1, h1⟩ := markAll_some (l := List.range (recvF idx).toNat)
          (ok := fun dz => dz < c.Lz)
          (g := fun dz => idx + c.Ly * c.Ly * (c.Lz - 1 - dz)) (by
            intro k hk
            have hk' := List.mem_range.1 hk
            have := hF idx
            omega) m0
        obtain ⟨m2, h2⟩ := ih m1 (fun i hi => hl i (by simp [hi]))
        refine ⟨m2, ?_⟩
        rw [List.foldlM_cons]
        refine Option.bind_eq_some_iff.2 ⟨m1, Option.bind_eq_some_iff.2 ⟨m0, h0, h1⟩, h2⟩
    exact gen _ m (fun i hi => List.mem_range.1 hi)
  · exact ⟨m, rfl⟩

/-! ### Geometry -/

theorem wrap_spec {Ly y : Nat} {d : Int} (hy : y < Ly) (hd : -(Ly : Int) ≤ d ∧ d ≤ Ly) (hs : Ly < 2 ^ 62) :
    wrap Ly y d < Ly ∧ (wrap Ly y d : Int) = ((y : Int) + d) % Ly := by
  unfold wrap
  have h1 : ((Ly : Int) + y + d) % 2 ^ 64 = (Ly : Int) + y + d := Int.emod_eq_of_lt (by omega) (by omega)
  rw [h1]
  refine ⟨Nat.mod_lt _ (by omega), ?_⟩
  rw [Int.natCast_mod, Int.toNat_of_nonneg (by omega), add_assoc, Int.add_emod_left]

theorem pos_inj {c : Cfg} {x y z x' y' z' : Nat} (hx : x < c.Ly) (hy : y < c.Ly) (hx' : x' < c.Ly)
    (hy' : y' < c.Ly) (h : pos c x y z = pos c x' y' z') : x = x' ∧ y = y' ∧ z = z' := by
  unfold pos at h
  have e1 : z * (c.Ly * c.Ly) + (y * c.Ly + x) = z' * (c.Ly * c.Ly) + (y' * c.Ly + x') := by
    rw [Nat.mul_comm z, Nat.mul_comm z', Nat.mul_comm y, Nat.mul_comm y']; omega
  obtain ⟨hz, e2⟩ := pair_inj (pair_lt hy hx) (pair_lt hy' hx') e1
  obtain ⟨hy, hx⟩ := pair_inj hx hx' e2
  exact ⟨hx, hy, hz⟩

theorem pos_lt {c : Cfg} {x y z : Nat} (hx : x < c.Ly) (hy : y < c.Ly) (hz : z < c.Lz) :
    pos c x y z < c.Ly * c.Ly * c.Lz := by
  have h := pair_lt hz (pair_lt hy hx)
  unfold pos
  rw [Nat.mul_comm (c.Ly * c.Ly) c.Lz, Nat.mul_comm (c.Ly * c.Ly) z, Nat.mul_comm c.Ly y]
  omega

/-- Slices of the whole lattice. -/
theorem zmod {n Lz r r' z z' : Nat} (hr : r < n) (hz : z < Lz) (hz' : z' < Lz) (q : Int) :
    ((r' * Lz + z' : Nat) + q * Lz) % ((n * Lz : Nat) : Int) = (r * Lz + z : Nat) ↔
      z = z' ∧ ((r' : Int) + q) % n = r := by
  have hn : (0 : Int) < n := by omega
  obtain ⟨e, he⟩ : ∃ e : Nat, (e : Int) = ((r' : Int) + q) % n :=
    ⟨_, Int.toNat_of_nonneg (Int.emod_nonneg _ (by omega))⟩
  have hen : e < n := by
    have := Int.emod_lt_of_pos ((r' : Int) + q) hn
    omega
  have hd := Int.emod_add_mul_ediv ((r' : Int) + q) n
  have h1 : ((r' * Lz + z' : Nat) + q * Lz) % ((n * Lz : Nat) : Int) = (e * Lz + z' : Nat) := by
    have hlt : e * Lz + z' < n * Lz := pair_lt hen hz'
    have e1 : (((r' * Lz + z' : Nat) : Int) + q * Lz) =
        (e * Lz + z' : Nat) + ((n * Lz : Nat) : Int) * (((r' : Int) + q) / n) := by
      have : ((r' : Int) + q) = e + n * (((r' : Int) + q) / n) := by rw [he]; exact hd.symm
      push_cast
      calc (r' : Int) * Lz + z' + q * Lz = ((r' : Int) + q) * Lz + z' := by ring
        _ = (e + n * (((r' : Int) + q) / n)) * Lz + z' := by rw [← this]
        _ = _ := by ring
    rw [e1, Int.add_mul_emod_self_left]
    exact Int.emod_eq_of_lt (by omega) (by exact_mod_cast hlt)
  rw [h1, ← he]
  constructor
  · intro h
    have h' : e * Lz + z' = r * Lz + z := by exact_mod_cast h
    obtain ⟨a, b⟩ := pair_inj hz' hz h'
    exact ⟨b.symm, by exact_mod_cast a⟩
  · rintro ⟨rfl, h⟩
    have : e = r := by exact_mod_cast h
    rw [this]

/-- A point of a ball is within the lattice. -/
theorem ball_le {c : Cfg} (hc : Fits c) {dx dy dz : Int}
    (hb : ((dx * dx + dy * dy + dz * dz : Int) : ℚ) ≤ c.radius * c.radius) :
    (-(c.Ly : Int) ≤ dx ∧ dx ≤ c.Ly) ∧ (-(c.Ly : Int) ≤ dy ∧ dy ≤ c.Ly) ∧
      (-(c.rz : Int) ≤ dz ∧ dz ≤ c.rz) := by
  have h1 : (0 : ℚ) ≤ ((dx * dx : Int) : ℚ) := by exact_mod_cast mul_self_nonneg dx
  have h2 : (0 : ℚ) ≤ ((dy * dy : Int) : ℚ) := by exact_mod_cast mul_self_nonneg dy
  have h3 : (0 : ℚ) ≤ ((dz * dz : Int) : ℚ) := by exact_mod_cast mul_self_nonneg dz
  have hb' : ((dx * dx : Int) : ℚ) + ((dy * dy : Int) : ℚ) + ((dz * dz : Int) : ℚ) ≤
      c.radius * c.radius := by push_cast at hb ⊢; linarith
  have a1 := dz_le c hc.radius (dz := dx) (add_nonneg h2 h3) (by linarith)
  have a2 := dz_le c hc.radius (dz := dy) (add_nonneg h1 h3) (by linarith)
  have a3 := dz_le c hc.radius (dz := dz) (add_nonneg h1 h2) (by linarith)
  have := hc.wide
  omega

/-- The ball is convex along `z`. -/
theorem ball_mono {c : Cfg} {dx dy dz e : Int} (he : -|dz| ≤ e ∧ e ≤ |dz|)
    (hb : ((dx * dx + dy * dy + dz * dz : Int) : ℚ) ≤ c.radius * c.radius) :
    ((dx * dx + dy * dy + e * e : Int) : ℚ) ≤ c.radius * c.radius := by
  have h : e * e ≤ dz * dz := by
    rw [← abs_mul_abs_self e, ← abs_mul_abs_self dz]
    have : |e| ≤ |dz| := abs_le.2 he
    exact mul_self_le_mul_self (abs_nonneg _) this
  have h' : ((dx * dx + dy * dy + e * e : Int) : ℚ) ≤ ((dx * dx + dy * dy + dz * dz : Int) : ℚ) := by
    exact_mod_cast by omega
  linarith

/-- Every slice is in one of the two loops. -/
theorem slice_mem {c : Cfg} (hc : Fits c) {z : Nat} (hz : z < c.Lz) :
    (∃ liz ∈ boundary c, liz % c.Lz = z) ∨ z ∈ bulk c := by
  have h1 := hc.slab
  unfold boundary bulk
  rw [if_neg (by omega)]
  simp only [List.mem_map, List.mem_range]
  by_cases ha : z < c.rz
  · refine Or.inl ⟨c.Lz + z, ⟨c.rz + z, by omega, by omega⟩, ?_⟩
    rw [Nat.add_mod_left, Nat.mod_eq_of_lt hz]
  · by_cases hb : z + c.rz < c.Lz
    · refine Or.inr ?_
      rw [if_pos (by omega)]
      exact List.mem_map.2 ⟨z - c.rz, List.mem_range.2 (by omega), by omega⟩
    · exact Or.inl ⟨z, ⟨z - (c.Lz - c.rz), by omega, by omega⟩, Nat.mod_eq_of_lt hz⟩

theorem bulk_lt {c : Cfg} {z : Nat} (h : z ∈ bulk c) : c.rz ≤ z ∧ z + c.rz < c.Lz := by
  unfold bulk at h
  split at h
  · simp only [List.mem_map, List.mem_range] at h
    obtain ⟨k, hk, rfl⟩ := h
    omega
  · simp at h

/-- What a mark says. -/
theorem own_point {c : Cfg} (hc : Fits c) {x y z : Nat} {dx dy dz : Int} (hx : x < c.Ly) (hy : y < c.Ly)
    (hb : ((dx * dx + dy * dy + dz * dz : Int) : ℚ) ≤ c.radius * c.radius) (i : Nat) :
    .own i = pointAct c x y z dx dy dz ↔ 0 ≤ (z : Int) + dz ∧ (z : Int) + dz < c.Lz ∧
      ∃ x' y' z', x' < c.Ly ∧ y' < c.Ly ∧ i = pos c x' y' z' ∧ (x' : Int) = ((x : Int) + dx) % c.Ly ∧
        (y' : Int) = ((y : Int) + dy) % c.Ly ∧ (z' : Int) = z + dz := by
  obtain ⟨b1, b2, b3⟩ := ball_le hc hb
  obtain ⟨w1, w2⟩ := wrap_spec hx b1 hc.size
  obtain ⟨v1, v2⟩ := wrap_spec hy b2 hc.size
  unfold pointAct
  split
  · constructor
    · intro h; cases h
    · rintro ⟨h, -⟩; omega
  · split
    · constructor
      · intro h; cases h
      · rintro ⟨-, h, -⟩; omega
    · rw [Act.own.injEq]
      constructor
      · intro h
        exact ⟨by omega, by omega, _, _, (z + dz).toNat, w1, v1, h, w2, v2, by omega⟩
      · rintro ⟨-, -, x', y', z', -, -, rfl, e1, e2, e3⟩
        have e1' : x' = wrap c.Ly x dx := by omega
        have e2' : y' = wrap c.Ly y dy := by omega
        have e3' : z' = ((z : Int) + dz).toNat := by omega
        subst e1' e2' e3'
        rfl

/-- What a load says. -/
theorem note_point {c : Cfg} (hc : Fits c) {x y z : Nat} {dx dy dz : Int} (hx : x < c.Ly) (hy : y < c.Ly)
    (hb : ((dx * dx + dy * dy + dz * dz : Int) : ℚ) ≤ c.radius * c.radius) (a : Bool) (col : Nat) (load : Int) :
    note a col load = pointAct c x y z dx dy dz ↔
      load = (if a then (z : Int) + dz + 1 - c.Lz else -((z : Int) + dz)) ∧ 0 < load ∧
      ∃ x' y', x' < c.Ly ∧ y' < c.Ly ∧ col = c.Ly * y' + x' ∧ (x' : Int) = ((x : Int) + dx) % c.Ly ∧
        (y' : Int) = ((y : Int) + dy) % c.Ly := by
  obtain ⟨b1, b2, b3⟩ := ball_le hc hb
  obtain ⟨w1, w2⟩ := wrap_spec hx b1 hc.size
  obtain ⟨v1, v2⟩ := wrap_spec hy b2 hc.size
  have colEq : ∀ x' y' : Nat, (x' : Int) = ((x : Int) + dx) % c.Ly → (y' : Int) = ((y : Int) + dy) % c.Ly →
      c.Ly * y' + x' = c.Ly * wrap c.Ly y dy + wrap c.Ly x dx := by
    intro x' y' h1 h2
    have e1 : x' = wrap c.Ly x dx := by omega
    have e2 : y' = wrap c.Ly y dy := by omega
    rw [e1, e2]
  unfold pointAct note
  cases a
  · simp only [Bool.false_eq_true, if_false]
    split
    · rw [Act.front.injEq]
      constructor
      · rintro ⟨rfl, rfl⟩
        exact ⟨rfl, by omega, _, _, w1, v1, rfl, w2, v2⟩
      · rintro ⟨rfl, -, x', y', -, -, rfl, e1, e2⟩
        exact ⟨colEq x' y' e1 e2, rfl⟩
    · constructor
      · intro h; split at h <;> cases h
      · rintro ⟨h, h', -⟩; omega
  · simp only [if_true]
    split
    · constructor
      · intro h; cases h
      · rintro ⟨h, h', -⟩; omega
    · split
      · rw [Act.back.injEq]
        constructor
        · rintro ⟨rfl, rfl⟩
          exact ⟨rfl, by omega, _, _, w1, v1, rfl, w2, v2⟩
        · rintro ⟨rfl, -, x', y', -, -, rfl, e1, e2⟩
          exact ⟨colEq x' y' e1 e2, rfl⟩
      · constructor
        · intro h; cases h
        · rintro ⟨h, h', -⟩; omega

theorem col_lt {c : Cfg} {x y : Nat} (hx : x < c.Ly) (hy : y < c.Ly) : c.Ly * y + x < c.Ly * c.Ly := by
  rw [Nat.mul_comm c.Ly y]; exact pair_lt hy hx

/-- Every act of a slice is in bounds. -/
theorem pointAct_ok {c : Cfg} (hc : Fits c) {x y z : Nat} {dx dy dz : Int} (hx : x < c.Ly) (hy : y < c.Ly)
    (hb : ((dx * dx + dy * dy + dz * dz : Int) : ℚ) ≤ c.radius * c.radius) :
    ∀ μ ∈ (pointAct c x y z dx dy dz).micros, μ.Ok c := by
  obtain ⟨b1, b2, b3⟩ := ball_le hc hb
  obtain ⟨w1, -⟩ := wrap_spec hx b1 hc.size
  obtain ⟨v1, -⟩ := wrap_spec hy b2 hc.size
  have hcol := col_lt w1 v1
  unfold pointAct
  intro μ hμ
  split at hμ
  · simp only [Act.micros, List.mem_cons, List.not_mem_nil, or_false] at hμ
    rcases hμ with rfl | rfl <;> exact hcol
  · split at hμ
    · simp only [Act.micros, List.mem_cons, List.not_mem_nil, or_false] at hμ
      rcases hμ with rfl | rfl <;> exact hcol
    · simp only [Act.micros, List.mem_cons, List.not_mem_nil, or_false] at hμ
      rw [hμ]
      exact pos_lt w1 v1 (by omega)

end MaskBall
end Jaxions
