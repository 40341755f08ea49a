import Verif.Props.WKBField
/-
C61: concrete cases that meet the hypotheses of the theorems.
-/
namespace Jaxions.WKB

open Cosmo Gravity

/-- A box of side 6; the mass grows with the seventh power of the time until 3. -/
noncomputable def demoC : Cosmos where
  lSize := 6
  lambda := 1
  lz2e := 0
  indi3 := 1
  nQcd := 7
  nQcdr := 7
  zThRes := 3
  zRestore := 1
  frw := 1
  grav := 0
  pq := .pq1
  ueCosm := false
  sR := fun _ => 0
  schi := fun _ => 0

theorem demo_law : Law demoC := by
  constructor <;> norm_num [demoC]

/-- The phases are right from 1 to 2 … -/
example : superTable demoC 1 2 3 = ∫ z in (1 : ℝ)..2, (freq demoC (k0 demoC * (3 : ℕ)) z - conf demoC z) :=
  (C61_phase_iff demo_law one_pos (by norm_num) (by norm_num)).2 (Or.inl (by norm_num [demoC]))

/-- … and wrong from 1 to 4. -/
theorem C61_phase_wrong : superTable demoC 1 4 3 ≠
    ∫ z in (1 : ℝ)..4, (freq demoC (k0 demoC * (3 : ℕ)) z - conf demoC z) := by
  rw [Ne, C61_phase_iff demo_law one_pos (by norm_num) (by norm_num)]
  rintro (⟨-, h⟩ | h)
  · norm_num [demoC] at h
  · have h3 := Real.two_le_pi
    have : k0 demoC * (3 : ℕ) = Real.pi := by
      unfold k0
      change 2 * Real.pi / 6 * ((3 : ℕ) : ℝ) = _
      push_cast
      ring
    rw [this] at h
    linarith

example : ∃ p, prepare demoC 1 4 = some p ∧ p.massphase = ∫ z in (1 : ℝ)..4, conf demoC z :=
  C61_massphase demo_law one_pos (by norm_num)

example (M D : ℂ) : evolve demoC (fun _ => 0) 2 2 (5 ^ 2) M D = some (M, D) :=
  C61_start demo_law two_pos (by norm_num [demoC]) _ 5 rfl M D

example : superTable demoC 1 2 3 + superTable demoC 2 4 3 = superTable demoC 1 4 3 :=
  C61_table_add demo_law one_pos (by norm_num) (by norm_num) 3

example (M D : ℂ) : ((evolve demoC (fun _ => 1) 1 2 (5 ^ 2) M D).bind fun q =>
    evolve demoC (fun _ => 2) 2 4 (5 ^ 2) q.1 q.2) = evolve demoC (fun _ => 3) 1 4 (5 ^ 2) M D :=
  C61_compose demo_law one_pos (by norm_num) (by norm_num) (by norm_num [demoC]) _ _ _ 5 (by norm_num) M D

example : ∃ M D : ℝ → ℂ, (∀ z, 1 ≤ z → z < demoC.zThRes →
      evolve demoC (fun _ => superTable demoC 1 z 3) 1 z ((k0 demoC * (3 : ℕ)) ^ 2) 1 0 =
        some (M z, D z)) ∧
    (1 < demoC.zThRes → M 1 = 1 ∧ D 1 = 0) ∧
    ∀ z, 1 < z → z < demoC.zThRes → HasDerivAt M (D z) z ∧
      HasDerivAt D (-(freq demoC (k0 demoC * (3 : ℕ)) z ^ 2 -
        defect demoC (k0 demoC * (3 : ℕ)) z : ℝ) * M z) z :=
  C61_motion demo_law (by norm_num [demoC]) one_pos (by norm_num)
    (fun z _ => superTable demoC 1 z 3) (fun _ => rfl) 1 0

/-- A step that exists, for two solutions. -/
example : ∃ M' D' N' E', modeStep ⟨1, 4, 1, 2, 0⟩ 3 1 1 0 = some (M', D') ∧
    modeStep ⟨1, 4, 1, 2, 0⟩ 3 1 0 1 = some (N', E') ∧ M' * E' - D' * N' = 1 := by
  have h1 := modeStep_eq (p := ⟨1, 4, 1, 2, 0⟩) (k2 := 3) (ph := 1) (by norm_num) (by norm_num) 1 0
  have h2 := modeStep_eq (p := ⟨1, 4, 1, 2, 0⟩) (k2 := 3) (ph := 1) (by norm_num) (by norm_num) 0 1
  refine ⟨_, _, _, _, h1, h2, ?_⟩
  have := C61_wronskian (p := ⟨1, 4, 1, 2, 0⟩) (by norm_num) (by norm_num) h1 h2
  rw [this]
  ring

/-- Two ranks of four by four by two sites hold a cube. -/
example {r i : ℕ} (hr : r < 2) (hi : i < 24) : k2Table demoC 0 ≤ modeK2 demoC ⟨2, 4, 2⟩ r i ∧
    modeK2 demoC ⟨2, 4, 2⟩ r i < k2Table demoC (powMax 4 4) :=
  C61_table_range demo_ok rfl demo_law hr hi

/-- Two ranks of four by four by one site do not. -/
theorem C61_number_wrong : number ⟨2, 4, 1⟩ 1 0 = (0, 1, 0) ∧
    modeOf ⟨2, 4, 1⟩ 1 0 = (0, 2, 0) := by
  constructor <;> decide

/-- The whole field, on two ranks. -/
example (S : ℝ → ℝ) : ∃ w' φ' ψ',
    wkbInPlace ⟨2, 4, 2⟩ 1 (@formulaPlan ⟨2, 4, 2⟩ ⟨by decide⟩ ⟨by decide⟩) demoC S
      ⟨fun _ => List.range 8, fun _ => (List.range 8).reverse, fun _ => List.range 24,
        fun _ => List.range 32⟩ 1 4
      (fun r => ⟨fun a => if a < 64 then some (r + a) else none,
        fun a => if a < 64 then some (2 * r + a) else none,
        fun a => if a < 128 then some 0 else none⟩) = some w' ∧
    Holds ⟨2, 4, 2⟩ 1 w' φ' ψ' := by
  have : NeZero (⟨2, 4, 2⟩ : Geo).Lx := ⟨by decide⟩
  have : NeZero (⟨2, 4, 2⟩ : Geo).Tz := ⟨by decide⟩
  have key : ∀ r < 2, ∀ i < 32, ((((r * 32 + i) % 4 : ℕ) : ZMod 4).val +
      4 * (((r * 32 + i) / 4 % 4 : ℕ) : ZMod 4).val +
      16 * (((r * 32 + i) / 16 : ℕ) : ZMod 4).val = r * 32 + i) := by decide +kernel
  obtain ⟨w', φ', ψ', e, p, -⟩ := C61_field (g := ⟨2, 4, 2⟩) (Ng := 1) demo_ok (by decide) (by decide)
    one_pos (formulaPlan_exact demo_ok)
    (o := ⟨fun _ => List.range 8, fun _ => (List.range 8).reverse, fun _ => List.range 24,
      fun _ => List.range 32⟩)
    ⟨fun _ => List.Perm.refl _, fun _ => List.reverse_perm _, fun _ => List.Perm.refl _,
      fun _ => List.Perm.refl _⟩ demo_law (z₁ := 1) (z₂ := 4) one_pos (by norm_num)
    (Or.inr (by norm_num)) S
    (w := fun r => ⟨fun a => if a < 64 then some (r + a) else none,
        fun a => if a < 64 then some (2 * r + a) else none,
        fun a => if a < 128 then some 0 else none⟩)
    (φ := fun x : ZMod 4 × ZMod 4 × ZMod 4 =>
      let n := x.1.val + 4 * x.2.1.val + 16 * x.2.2.val
      ((n / 32 : ℕ) : ℝ) + (16 + n % 32 : ℕ))
    (ψ := fun x : ZMod 4 × ZMod 4 × ZMod 4 =>
      let n := x.1.val + 4 * x.2.1.val + 16 * x.2.2.val
      2 * ((n / 32 : ℕ) : ℝ) + (n % 32 : ℕ))
    ⟨fun r _ a ha => by have : a < 64 := ha; simp [this],
      fun r _ a ha => by have : a < 64 := ha; simp [this],
      fun r _ a ha => by have : a < 128 := ha; simp [this]⟩
    (by
      intro r i hr hi
      have hr : r < 2 := hr
      have hi : i < 32 := hi
      have hk := key r hr i hi
      have e1 : (r * 32 + i) / 32 = r := by omega
      have e2 : (r * 32 + i) % 32 = i := by omega
      constructor
      · change (if 1 * (4 * 4) + i < 64 then _ else _) = some (((_ / 32 : ℕ) : ℝ) + (16 + _ % 32 : ℕ))
        rw [if_pos (by omega)]
        change _ = some ((((((r * 32 + i) % 4 : ℕ) : ZMod 4).val +
          4 * (((r * 32 + i) / 4 % 4 : ℕ) : ZMod 4).val +
          16 * (((r * 32 + i) / 16 : ℕ) : ZMod 4).val) / 32 : ℕ) + ((16 + ((((r * 32 + i) % 4 : ℕ) : ZMod 4).val +
          4 * (((r * 32 + i) / 4 % 4 : ℕ) : ZMod 4).val +
          16 * (((r * 32 + i) / 16 : ℕ) : ZMod 4).val) % 32 : ℕ) : ℝ))
        rw [hk, e1, e2]
        rfl
      · change (if i < 64 then _ else _) = _
        rw [if_pos (by omega)]
        change _ = some (2 * ((((((r * 32 + i) % 4 : ℕ) : ZMod 4).val +
          4 * (((r * 32 + i) / 4 % 4 : ℕ) : ZMod 4).val +
          16 * (((r * 32 + i) / 16 : ℕ) : ZMod 4).val) / 32 : ℕ) : ℝ) + (((((r * 32 + i) % 4 : ℕ) : ZMod 4).val +
          4 * (((r * 32 + i) / 4 % 4 : ℕ) : ZMod 4).val +
          16 * (((r * 32 + i) / 16 : ℕ) : ZMod 4).val) % 32 : ℕ))
        rw [hk, e1, e2])
  exact ⟨w', φ', ψ', e, p⟩

end Jaxions.WKB
