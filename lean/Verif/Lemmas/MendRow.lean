import Verif.Lemmas.MendSlice
import Verif.Spec.Laplacian
import Mathlib.Data.List.Nodup

namespace Jaxions
namespace Mend

/-! ## Vectors in memory -/

theorem loadV_eq {α : Type} [Zero α] {n : Nat} {h : Heap Nat α} {a : Nat} {x : Nat → α}
    (hx : ∀ k, k < n → h (a + k) = some (x k)) :
    ∃ x', loadV n h a = some x' ∧ ∀ k, k < n → x' k = x k := by
  refine ⟨fun k => (h (a + k)).getD 0, ?_, ?_⟩
  · rw [loadV, if_pos (fun k hk => by rw [hx k hk]; rfl)]
  · intro k hk; simp [hx k hk]

theorem storeV_eq {α : Type} {n : Nat} {h : Heap Nat α} {a : Nat} (x : Nat → α)
    (hs : ∀ k, k < n → (h (a + k)).isSome) :
    storeV n h a x = some fun j => if a ≤ j ∧ j < a + n then some (x (j - a)) else h j :=
  if_pos hs

theorem block_iff {S B C k : Nat} (hk : k < S) (t : Nat) :
    (t + B * S ≤ t + (C * S + k) ∧ t + (C * S + k) < t + B * S + S) ↔ C = B := by
  constructor
  · rintro ⟨h1, h2⟩
    have := div_of (q := C) hk
    have h3 : C * S + k = B * S + (C * S + k - B * S) := by omega
    have h4 := div_of (q := B) (b := S) (show C * S + k - B * S < S by omega)
    rw [← h3] at h4
    omega
  · rintro rfl; omega

/-- Storing a block of lanes. -/
theorem storeV_block {α : Type} {S : Nat} {h : Heap Nat α} {t B : Nat} (x : Nat → α)
    (hs : ∀ k, k < S → (h (t + (B * S + k))).isSome) :
    ∃ h', storeV S h (t + B * S) x = some h' ∧
      (∀ k, k < S → h' (t + (B * S + k)) = some (x k)) ∧
      (∀ C k, k < S → C ≠ B → h' (t + (C * S + k)) = h (t + (C * S + k))) ∧
      (∀ a, (∀ k, k < S → a ≠ t + (B * S + k)) → h' a = h a) ∧
      ∀ a, (h' a).isSome = (h a).isSome := by
  refine ⟨fun j => if t + B * S ≤ j ∧ j < t + B * S + S then some (x (j - (t + B * S))) else h j,
    storeV_eq x (fun k hk => by rw [Nat.add_assoc]; exact hs k hk), ?_, ?_, ?_, ?_⟩
  · intro k hk
    beta_reduce
    rw [if_pos ((block_iff hk t).mpr rfl), show t + (B * S + k) - (t + B * S) = k by omega]
  · intro C k hk hC
    beta_reduce
    rw [if_neg (fun hc => hC ((block_iff hk t).mp hc))]
  · intro a ha
    beta_reduce
    rw [if_neg]
    rintro ⟨h1, h2⟩
    exact ha (a - (t + B * S)) (by omega) (by omega)
  · intro a
    beta_reduce
    split
    · next hc =>
      have := hs (a - (t + B * S)) (by omega)
      rw [show t + (B * S + (a - (t + B * S))) = a by omega] at this
      rw [this]; rfl
    · rfl

theorem mark_eq {n a D : Nat} (hD : 0 < D) (hit : Nat → Bool) (f : Nat → Nat) {h : Heap Nat Nat}
    (hs : ∀ k, k < n → (h (a + k * D)).isSome) :
    ∃ h', mark n a D hit f h = some h' ∧
      (∀ k, k < n → h' (a + k * D) = (h (a + k * D)).map fun o => if hit k then f o else o) ∧
      ∀ j, (∀ k, k < n → j ≠ a + k * D) → h' j = h j := by
  have hinj : ∀ {i j : Nat}, a + i * D = a + j * D → i = j := by
    intro i j hij
    exact Nat.eq_of_mul_eq_mul_right hD (by omega)
  obtain ⟨h', e, p1, p2, p3⟩ := range_inv (s := h)
    (f := fun h k => if hit k then (h (a + k * D)).bind fun o => h.write (a + k * D) (f o) else some h)
    (P := fun i t =>
      (∀ k, k < i → t (a + k * D) = (h (a + k * D)).map fun o => if hit k then f o else o) ∧
      (∀ k, i ≤ k → t (a + k * D) = h (a + k * D)) ∧
      ∀ j, (∀ k, k < n → j ≠ a + k * D) → t j = h j) n
    ⟨by intros; omega, fun _ _ => rfl, fun _ _ => rfl⟩ (by
      rintro i hi t ⟨q1, q2, q3⟩
      obtain ⟨o, ho⟩ := Option.isSome_iff_exists.mp (hs i hi)
      by_cases hh : hit i = true
      · refine ⟨fun b => if b = a + i * D then some (f o) else t b, ?_, ?_, ?_, ?_⟩
        · rw [if_pos hh, q2 i le_rfl, ho, Option.bind_some]
          exact write_eq _ _ _ (by rw [q2 i le_rfl, ho]; rfl)
        · intro k hk
          dsimp only
          by_cases hki : k = i
          · rw [hki, if_pos rfl, ho, Option.map_some, if_pos hh]
          · rw [if_neg (fun hc => hki (hinj hc)), q1 k (by omega)]
        · intro k hk
          dsimp only
          rw [if_neg (fun hc => by have := hinj hc; omega), q2 k (by omega)]
        · intro j hj
          dsimp only
          rw [if_neg (hj i hi), q3 j hj]
      · refine ⟨t, by rw [if_neg hh], ?_, fun k hk => q2 k (by omega), q3⟩
        intro k hk
        by_cases hki : k = i
        · rw [hki, q2 i le_rfl, ho, Option.map_some, if_neg hh]
        · exact q1 k (by omega))
  exact ⟨h', e, p1, p3⟩

variable {K : Type} [Field K] [LinearOrder K] [IsStrictOrderedRing K] [FloorRing K]

/-! ## The loop of each build -/

/-- Turns that the loop of a build can give. -/
def Build.limit (b : Build) (fuel : Nat) : Nat := if b = .doubleAvx512 then min 1 fuel else fuel

/-- With at most one turn per lane the outer masks of the AVX-512 build do. -/
theorem whileStuck_eq {zP : K} (h : 0 < zP) (w : K) (n : Nat) (ref : Nat → K) (fuel : Nat)
    (a : Nat → K × K) (ha : ∀ k < n, (turnsV zP ((a k).1 - ref k)).natAbs ≤ min 1 fuel) :
    whileStuck zP w n ref (fun k => maskP zP ((a k).1 - ref k)) (fun k => maskM zP ((a k).1 - ref k))
      fuel a = whileV zP w n ref fuel a := by
  match fuel with
  | 0 => rfl
  | fuel + 1 =>
    rw [whileStuck, whileV]
    by_cases hc : anyLane n fun k => maskP zP ((a k).1 - ref k) || maskM zP ((a k).1 - ref k)
    · rw [if_pos hc, if_pos hc]
      have hno : ¬ (anyLane n fun k =>
          maskP zP ((bump zP w (maskP zP ((a k).1 - ref k)) (maskM zP ((a k).1 - ref k)) (a k)).1 - ref k)
          || maskM zP ((bump zP w (maskP zP ((a k).1 - ref k)) (maskM zP ((a k).1 - ref k)) (a k)).1
            - ref k)) = true := by
        rw [anyLane_iff]
        rintro ⟨k, hk, hkk⟩
        rw [hit_iff h] at hkk
        apply hkk
        have ht := turnsV_range h ((a k).1 - ref k)
        have hl := ha k hk
        have hb : (bump zP w (maskP zP ((a k).1 - ref k)) (maskM zP ((a k).1 - ref k)) (a k)).1 =
            (a k).1 + turnsV zP ((a k).1 - ref k) * (2 * zP) := by
          simp only [bump, maskP, maskM, decide_eq_true_eq]
          by_cases h1 : (a k).1 - ref k ≥ zP
          · have h2 : ¬ ((a k).1 - ref k < -zP) := by linarith
            have h3 := turnsV_neg h h1
            rw [if_pos h1, if_neg h2, show turnsV zP ((a k).1 - ref k) = -1 by omega]
            push_cast; ring
          · rw [if_neg h1]
            by_cases h2 : (a k).1 - ref k < -zP
            · have h3 := turnsV_pos h h2
              rw [if_pos h2, show turnsV zP ((a k).1 - ref k) = 1 by omega]
              push_cast; ring
            · rw [if_neg h2, turnsV_small h (by linarith) (by linarith)]
              push_cast; ring
        rw [hb]
        exact turnsV_small h (by linarith [ht.1]) (by linarith [ht.2])
      cases fuel with
      | zero => rw [whileStuck, whileV]
      | succ fuel => rw [whileStuck, whileV, if_neg hno, if_neg hno]
    · rw [if_neg hc, if_neg hc]

theorem whileB_eq {zP : K} (h : 0 < zP) (w : K) (b : Build) (n fuel : Nat) (ref : Nat → K)
    (a : Nat → K × K) (ha : ∀ k < n, (turnsV zP ((a k).1 - ref k)).natAbs ≤ b.limit fuel) :
    ∃ r, whileB b zP w n fuel ref a = some r ∧ ∀ k < n,
      r k = ((a k).1 + turnsV zP ((a k).1 - ref k) * (2 * zP),
        (a k).2 + turnsV zP ((a k).1 - ref k) * w) := by
  have key : whileB b zP w n fuel ref a = whileV zP w n ref fuel a := by
    cases b with
    | double => rfl
    | single => rfl
    | doubleAvx512 => exact whileStuck_eq h w n ref fuel a ha
  rw [key]
  refine whileV_eq h w n ref fuel a fun k hk => (ha k hk).trans ?_
  simp only [Build.limit]
  split <;> omega

/-! ## The flags -/

/-- The byte records a jump in one direction (0 forward, 1 backward). -/
def Has : Build → Nat → Nat → Prop
  | .single, o, bit => o.testBit bit = true
  | _, o, _ => 0 < o

theorem fwd_lt (b : Build) {o : Nat} (ho : o < 4) : b.fwd o < 4 := by
  have : ∀ o < 4, Build.fwd .single o < 4 ∧ Build.fwd .double o < 4 ∧
    Build.fwd .doubleAvx512 o < 4 := by decide
  have := this o ho
  cases b <;> tauto

theorem bwd_lt (b : Build) {o : Nat} (ho : o < 4) : b.bwd o < 4 := by
  have : ∀ o < 4, Build.bwd .single o < 4 ∧ Build.bwd .double o < 4 ∧
    Build.bwd .doubleAvx512 o < 4 := by decide
  have := this o ho
  cases b <;> tauto

theorem has_fwd (b : Build) (o : Nat) : Has b (b.fwd o) 0 := by
  cases b
  · show 0 < 1; decide
  · show (o ||| 1).testBit 0 = true; simp
  · show 0 < 1; decide

theorem has_bwd (b : Build) (o : Nat) : Has b (b.bwd o) 1 := by
  cases b
  · show 0 < 2; decide
  · show (o ||| 2).testBit 1 = true
    rw [Nat.testBit_or]; simp [show Nat.testBit 2 1 = true by decide]
  · show 0 < 1; decide

theorem has_fwd_mono (b : Build) {o bit : Nat} (h : Has b o bit) : Has b (b.fwd o) bit := by
  cases b
  · show 0 < 1; decide
  · show (o ||| 1).testBit bit = true
    rw [Nat.testBit_or, show o.testBit bit = true from h]; rfl
  · show 0 < 1; decide

theorem has_bwd_mono (b : Build) {o bit : Nat} (h : Has b o bit) : Has b (b.bwd o) bit := by
  cases b
  · show 0 < 2; decide
  · show (o ||| 2).testBit bit = true
    rw [Nat.testBit_or, show o.testBit bit = true from h]; rfl
  · show 0 < 1; decide

theorem writes_of (b : Build) {o : Nat} (ho : o < 4) (h0 : Has b o 0) (h1 : Has b o 1) :
    b.writes o = true ∧ 0 < o := by
  cases b
  · exact ⟨decide_eq_true h0, h0⟩
  · have : ∀ o < 4, o.testBit 0 = true → o.testBit 1 = true → Build.writes .single o = true ∧ 0 < o := by
      decide
    exact this o ho h0 h1
  · exact ⟨decide_eq_true h0, h0⟩

/-! ## The scans of a row -/

/-- After `i` iterations of the scans of a row. -/
structure RowInv (b : Build) (zP w : K) (L S D sb t0 : Nat) (γ υ : Nat → Nat → K)
    (kF kB : Nat → Nat → Int) (s0 : Row K) (i : Nat) (s : Row K) : Prop where
  F : ∀ x k, x ≤ i → x < L → k < S → s.m2 (t0 + (x * S + k)) = some (γ x k + kF x k * (2 * zP))
  V : ∀ x k, 0 < x → x ≤ i → x < L → k < S →
    s.m2 (t0 + ((L + x) * S + k)) = some (υ x k + kF x k * w)
  B : ∀ j k, j ≤ i → j < L → k < S → s.m2 (t0 + ((2 * L + (L - j) % L) * S + k)) =
    some (γ ((L - j) % L) k + kB j k * (2 * zP))
  fF : ∀ x k, 0 < x → x ≤ i → x < L → k < S → kF x k ≠ 0 →
    ∃ o, s.str (sb + x + k * D) = some o ∧ Has b o 0
  fB : ∀ x k, 0 < x → L - x ≤ i → x < L → k < S → kB (L - x) k ≠ 0 →
    ∃ o, s.str (sb + x + k * D) = some o ∧ Has b o 1
  f4 : ∀ x k, x < L → k < S → ∃ o, s.str (sb + x + k * D) = some o ∧ o < 4
  cha : ∀ x k, 0 < x → x ≤ i → x < L → k < S → kF x k ≠ 0 → s.cha = true
  m2s : ∀ a, (s.m2 a).isSome = (s0.m2 a).isSome
  strf : ∀ a, (∀ x k, x < L → k < S → a ≠ sb + x + k * D) → s.str a = s0.str a

theorem rowScan_step {zP : K} (h : 0 < zP) (w : K) {b : Build} {fuel Y S mb vb sb t0 : Nat}
    (hY : 0 < Y) (hL : 2 ≤ Y * S) {m v : Heap Nat K} {γ υ : Nat → Nat → K} (hS : 0 < S)
    (hm : ∀ x k, x < Y * S → k < S → m (mb + (x * S + k)) = some (γ x k))
    (hv : ∀ x k, x < Y * S → k < S → v (vb + (x * S + k)) = some (υ x k))
    {kF kB : Nat → Nat → Int}
    (hkF : kF = fun x k => scan (turnsV zP) (2 * zP) 0 (fun x => γ x k) x)
    (hkB : kB = fun x k => scan (turnsV zP) (2 * zP) 0 (back (Y * S) fun x => γ x k) x)
    (hf : ∀ x k, x < Y * S → k < S →
      (kF x k).natAbs ≤ b.limit fuel ∧ (kB x k).natAbs ≤ b.limit fuel)
    {s0 : Row K} (ha : ∀ B k, B < 4 * (Y * S) → k < S → (s0.m2 (t0 + (B * S + k))).isSome)
    {i : Nat} (hi : i + 1 < Y * S) {s : Row K}
    (hs : RowInv b zP w (Y * S) S (Y * (Y * S)) sb t0 γ υ kF kB s0 i s) :
    ∃ s', rowScan b fuel zP w ⟨Y * S, S⟩ mb vb sb t0 m v s i = some s' ∧
      RowInv b zP w (Y * S) S (Y * (Y * S)) sb t0 γ υ kF kB s0 (i + 1) s' := by
  set L := Y * S with hLdef
  set D := Y * L with hD
  have hDL : L ≤ D := Nat.le_mul_of_pos_left L hY
  have hmod1 : (L - (i + 1)) % L = L - (i + 1) := Nat.mod_eq_of_lt (by omega)
  -- addresses
  have A1 : t0 + i * S + S = t0 + (i + 1) * S := by ring
  have A2 : t0 + i * S + S + L * S = t0 + (L + (i + 1)) * S := by ring
  have A3 : t0 + 3 * (L * S) - i * S - S = t0 + (2 * L + (L - (i + 1))) * S := by
    obtain ⟨d, hd⟩ : ∃ d, L = i + 1 + d := ⟨L - (i + 1), by omega⟩
    rw [hd, show i + 1 + d - (i + 1) = d by omega]
    have : (2 * (i + 1 + d) + d) * S + (i * S + S) = 3 * ((i + 1 + d) * S) := by ring
    omega
  have A4 : (if i * S = 0 then t0 + 3 * (L * S) - i * S - S + S - L * S
      else t0 + 3 * (L * S) - i * S - S + S) = t0 + (2 * L + (L - i) % L) * S := by
    rw [A3]
    rcases Nat.eq_zero_or_pos i with rfl | hi0
    · rw [if_pos (Nat.zero_mul S), Nat.sub_zero, Nat.mod_self]
      obtain ⟨d, hd⟩ : ∃ d, L = 1 + d := ⟨L - 1, by omega⟩
      rw [hd, show 1 + d - (0 + 1) = d by omega]
      have : (2 * (1 + d) + d) * S + S = (2 * (1 + d) + 0) * S + (1 + d) * S := by ring
      omega
    · rw [if_neg (by positivity), Nat.mod_eq_of_lt (by omega : L - i < L)]
      rw [show L - i = (L - (i + 1)) + 1 by omega]
      ring
  have A5 : ∀ q, q + i * S + S = q + (i + 1) * S := by intro q; ring
  have A6 : ∀ q, q + L * S - i * S - S = q + (L - (i + 1)) * S := by
    intro q
    obtain ⟨d, hd⟩ : ∃ d, L = i + 1 + d := ⟨L - (i + 1), by omega⟩
    rw [hd, show i + 1 + d - (i + 1) = d by omega]
    have : d * S + (i * S + S) = (i + 1 + d) * S := by ring
    omega
  -- loads
  obtain ⟨mel, e1, c1⟩ := loadV_eq (n := S) (h := s.m2) (a := t0 + i * S)
    (x := fun k => γ i k + kF i k * (2 * zP))
    (fun k hk => by rw [Nat.add_assoc]; exact hs.F i k le_rfl (by omega) hk)
  obtain ⟨mPx, e2, c2⟩ := loadV_eq (n := S) (h := m) (a := mb + (i + 1) * S)
    (x := fun k => γ (i + 1) k) (fun k hk => by rw [Nat.add_assoc]; exact hm _ k hi hk)
  obtain ⟨vPx, e3, c3⟩ := loadV_eq (n := S) (h := v) (a := vb + (i + 1) * S)
    (x := fun k => υ (i + 1) k) (fun k hk => by rw [Nat.add_assoc]; exact hv _ k hi hk)
  obtain ⟨melB, e4, c4⟩ := loadV_eq (n := S) (h := s.m2) (a := t0 + (2 * L + (L - i) % L) * S)
    (x := fun k => γ ((L - i) % L) k + kB i k * (2 * zP))
    (fun k hk => by rw [Nat.add_assoc]; exact hs.B i k le_rfl (by omega) hk)
  obtain ⟨mBMx, e5, c5⟩ := loadV_eq (n := S) (h := m) (a := mb + (L - (i + 1)) * S)
    (x := fun k => γ (L - (i + 1)) k) (fun k hk => by rw [Nat.add_assoc]; exact hm _ k (by omega) hk)
  obtain ⟨vBMx, e6, c6⟩ := loadV_eq (n := S) (h := v) (a := vb + (L - (i + 1)) * S)
    (x := fun k => υ (L - (i + 1)) k) (fun k hk => by rw [Nat.add_assoc]; exact hv _ k (by omega) hk)
  -- turns
  have tF : ∀ k, k < S → turnsV zP (mPx k - mel k) = kF (i + 1) k := by
    intro k hk
    rw [c1 k hk, c2 k hk, hkF]; rfl
  have tB : ∀ k, k < S → turnsV zP (mBMx k - melB k) = kB (i + 1) k := by
    intro k hk
    rw [c4 k hk, c5 k hk, hkB]
    show _ = turnsV zP _
    simp only [back]
    rw [hmod1]
  -- flags
  set hitF : Nat → Bool := fun k => maskP zP (mPx k - mel k) || maskM zP (mPx k - mel k) with hhF
  set hitB : Nat → Bool := fun k => maskP zP (mBMx k - melB k) || maskM zP (mBMx k - melB k) with hhB
  have hitF_iff : ∀ k, k < S → (hitF k = true ↔ kF (i + 1) k ≠ 0) := by
    intro k hk; rw [← tF k hk]; exact hit_iff h _
  have hitB_iff : ∀ k, k < S → (hitB k = true ↔ kB (i + 1) k ≠ 0) := by
    intro k hk; rw [← tB k hk]; exact hit_iff h _
  have D0 : 0 < D := by omega
  obtain ⟨str1, m1, f1, g1⟩ := mark_eq (n := S) (a := sb + (i + 1)) D0 hitF b.fwd (h := s.str) (by
    intro k hk
    obtain ⟨o, ho, _⟩ := hs.f4 (i + 1) k hi hk
    rw [ho]; rfl)
  have ainj : ∀ {x x' k k' : Nat}, x < L → x' < L → sb + x + k * D = sb + x' + k' * D →
      x = x' ∧ k = k' := by
    intro x x' k k' hx hx' he
    have := pair_inj (q := k) (q' := k') (b := D) (show x < D by omega) (show x' < D by omega) (by omega)
    exact ⟨this.2, this.1⟩
  have st1 : ∀ x k, x < L → k < S → str1 (sb + x + k * D) = (s.str (sb + x + k * D)).map fun o =>
      if x = i + 1 ∧ hitF k = true then b.fwd o else o := by
    intro x k hx hk
    by_cases hxi : x = i + 1
    · rw [hxi, f1 k hk]; simp
    · rw [g1 _ (fun k' hk' hc => hxi (ainj hx hi (by rw [hc])).1)]
      simp [hxi]
  obtain ⟨str2, m2e, f2, g2⟩ := mark_eq (n := S) (a := sb + (L - (i + 1))) D0 hitB b.bwd (h := str1) (by
    intro k hk
    rw [st1 _ k (by omega) hk]
    obtain ⟨o, ho, _⟩ := hs.f4 (L - (i + 1)) k (by omega) hk
    rw [ho]; rfl)
  have st2 : ∀ x k, x < L → k < S → str2 (sb + x + k * D) = (s.str (sb + x + k * D)).map fun o =>
      if x = L - (i + 1) ∧ hitB k = true then
        b.bwd (if x = i + 1 ∧ hitF k = true then b.fwd o else o)
      else if x = i + 1 ∧ hitF k = true then b.fwd o else o := by
    intro x k hx hk
    by_cases hxi : x = L - (i + 1)
    · rw [hxi, f2 k hk, st1 _ k (by omega) hk, Option.map_map]
      simp [Function.comp_def]
    · rw [g2 _ (fun k' hk' hc => hxi (ainj hx (by omega) (by rw [hc])).1), st1 x k hx hk]
      simp [hxi]
  -- loops
  obtain ⟨F, l1, d1⟩ := whileB_eq h w b S fuel mel (fun k => (mPx k, vPx k)) (by
    intro k hk; dsimp only; rw [tF k hk]; exact (hf _ k hi hk).1)
  obtain ⟨B, l2, d2⟩ := whileB_eq h w b S fuel melB (fun k => (mBMx k, vBMx k)) (by
    intro k hk; dsimp only; rw [tB k hk]; exact (hf _ k hi hk).2)
  -- stores
  have al : ∀ B k, B < 4 * L → k < S → (s.m2 (t0 + (B * S + k))).isSome := by
    intro B k hB hk; rw [hs.m2s]; exact ha B k hB hk
  obtain ⟨n1, w1, u1, v1, x1, y1⟩ := storeV_block (S := S) (h := s.m2) (t := t0) (B := i + 1)
    (fun k => (F k).1) (fun k hk => al _ k (by omega) hk)
  obtain ⟨n2, w2, u2, v2, x2, y2⟩ := storeV_block (S := S) (h := n1) (t := t0) (B := L + (i + 1))
    (fun k => (F k).2) (fun k hk => by rw [y1]; exact al _ k (by omega) hk)
  obtain ⟨n3, w3, u3, v3, x3, y3⟩ := storeV_block (S := S) (h := n2) (t := t0)
    (B := 2 * L + (L - (i + 1)))
    (fun k => (B k).1) (fun k hk => by rw [y2, y1]; exact al _ k (by omega) hk)
  refine ⟨⟨n3, str2, s.cha || anyLane S hitF || anyLane S hitB⟩, ?_, ?_⟩
  · have gX : (⟨L, S⟩ : Geo).XC = L * S := rfl
    have gY : (⟨L, S⟩ : Geo).YC = Y := geo_YC hS
    simp only [rowScan, gX, gY, A4]
    rw [e1, Option.bind_eq_bind, Option.bind_some]
    simp only [A3, A5, A6, e2, e3, e4, e5, e6, Option.bind_eq_bind, Option.bind_some]
    rw [show sb + i + 1 = sb + (i + 1) by omega, show sb + L - i - 1 = sb + (L - (i + 1)) by omega]
    simp only [← hhF, ← hhB]
    rw [m1, Option.bind_some, m2e, Option.bind_some, l1, Option.bind_some, l2, Option.bind_some, w1,
      Option.bind_some, show t0 + (i + 1) * S + L * S = t0 + (L + (i + 1)) * S by ring, w2,
      Option.bind_some, w3]
    rfl
  · constructor
    · intro x k hx hxL hk
      dsimp only
      rw [v3 _ k hk (by omega), v2 _ k hk (by omega)]
      by_cases hxi : x = i + 1
      · rw [hxi, u1 k hk, d1 k hk]; dsimp only; rw [tF k hk, c2 k hk]
      · rw [v1 _ k hk hxi, hs.F x k (by omega) hxL hk]
    · intro x k h0 hx hxL hk
      dsimp only
      rw [v3 _ k hk (by omega)]
      by_cases hxi : x = i + 1
      · rw [hxi, u2 k hk, d1 k hk]; dsimp only; rw [tF k hk, c3 k hk]
      · rw [v2 _ k hk (by omega), v1 _ k hk (by omega), hs.V x k h0 (by omega) hxL hk]
    · intro j k hj hjL hk
      dsimp only
      by_cases hji : j = i + 1
      · rw [hji, hmod1, u3 k hk, d2 k hk]; dsimp only; rw [tB k hk, c5 k hk]
      · have hne : (L - j) % L ≠ L - (i + 1) := by
          rcases Nat.eq_zero_or_pos j with rfl | hpos
          · rw [Nat.sub_zero, Nat.mod_self]; omega
          · rw [Nat.mod_eq_of_lt (by omega)]; omega
        rw [v3 _ k hk (by omega), v2 _ k hk (by have := Nat.mod_lt (L - j) (show 0 < L by omega); omega),
          v1 _ k hk (by omega), hs.B j k (by omega) hjL hk]
    · intro x k h0 hx hxL hk hne
      dsimp only
      rw [st2 x k hxL hk]
      obtain ⟨o, ho, ho4⟩ := hs.f4 x k hxL hk
      have hb : Has b (if x = i + 1 ∧ hitF k = true then b.fwd o else o) 0 := by
        by_cases hxi : x = i + 1
        · have : hitF k = true := (hitF_iff k hk).mpr (by rw [← hxi]; exact hne)
          rw [if_pos ⟨hxi, this⟩]; exact has_fwd b o
        · rw [if_neg (fun hc => hxi hc.1)]
          obtain ⟨o', ho', hh⟩ := hs.fF x k h0 (by omega) hxL hk hne
          rw [ho] at ho'
          rw [Option.some.inj ho']; exact hh
      rw [ho]
      refine ⟨_, rfl, ?_⟩
      split
      · exact has_bwd_mono b hb
      · exact hb
    · intro x k h0 hx hxL hk hne
      dsimp only
      rw [st2 x k hxL hk]
      obtain ⟨o, ho, ho4⟩ := hs.f4 x k hxL hk
      rw [ho]
      refine ⟨_, rfl, ?_⟩
      beta_reduce
      by_cases hxi : x = L - (i + 1)
      · have : hitB k = true := (hitB_iff k hk).mpr (by
          rw [show i + 1 = L - x by omega]; exact hne)
        rw [if_pos ⟨hxi, this⟩]; exact has_bwd b _
      · rw [if_neg (fun hc => hxi hc.1)]
        obtain ⟨o', ho', hh⟩ := hs.fB x k h0 (by omega) hxL hk hne
        rw [ho] at ho'
        rw [Option.some.inj ho']
        split
        · exact has_fwd_mono b hh
        · exact hh
    · intro x k hxL hk
      dsimp only
      rw [st2 x k hxL hk]
      obtain ⟨o, ho, ho4⟩ := hs.f4 x k hxL hk
      rw [ho]
      refine ⟨_, rfl, ?_⟩
      have h1 : (if x = i + 1 ∧ hitF k = true then b.fwd o else o) < 4 := by
        split
        · exact fwd_lt b ho4
        · exact ho4
      split
      · exact bwd_lt b h1
      · exact h1
    · intro x k h0 hx hxL hk hne
      dsimp only
      by_cases hxi : x = i + 1
      · have : anyLane S hitF = true := anyLane_iff.mpr ⟨k, hk, (hitF_iff k hk).mpr (by
          rw [← hxi]; exact hne)⟩
        rw [this]; simp
      · rw [hs.cha x k h0 (by omega) hxL hk hne]; simp
    · intro a
      dsimp only
      rw [y3, y2, y1, hs.m2s]
    · intro a hna
      dsimp only
      rw [g2 a (fun k hk => hna _ k (by omega) hk), g1 a (fun k hk => hna _ k hi hk), hs.strf a hna]

/-! ## Writing a row -/

theorem rowWrite_eq {zP : K} (h : 0 < zP) (w : K) {b : Build} {Y S mb vb sb t0 : Nat}
    {m v : Heap Nat K} {γ υ : Nat → Nat → K} (hS : 0 < S)
    (hm : ∀ x k, x < Y * S → k < S → m (mb + (x * S + k)) = some (γ x k))
    (hv : ∀ x k, x < Y * S → k < S → v (vb + (x * S + k)) = some (υ x k))
    {kF kB κ : Nat → Nat → Int} {m2 : Heap Nat K} {str : Heap Nat Nat}
    (hF : ∀ x k, x < Y * S → k < S → m2 (t0 + (x * S + k)) = some (γ x k + kF x k * (2 * zP)))
    (hV : ∀ x k, 0 < x → x < Y * S → k < S →
      m2 (t0 + ((Y * S + x) * S + k)) = some (υ x k + kF x k * w))
    (hB : ∀ x k, 0 < x → x < Y * S → k < S → m2 (t0 + ((2 * (Y * S) + x) * S + k)) =
      some (γ x k + kB (Y * S - x) k * (2 * zP)))
    (hfl : ∀ x k, 0 < x → x < Y * S → k < S → ∃ o, str (sb + x + k * (Y * (Y * S))) = some o ∧
      (kF x k = kB (Y * S - x) k → kF x k ≠ 0 → b.writes o = true ∧ 0 < o))
    (κ0 : ∀ k, k < S → κ 0 k = 0)
    (hκ : ∀ x k, 0 < x → x < Y * S → k < S →
      κ x k = if kF x k = kB (Y * S - x) k then kF x k else 0) :
    ∃ m' v', (List.range (Y * S - 1)).foldlM (rowWrite b ⟨Y * S, S⟩ mb vb sb t0 m2 str) (m, v) =
        some (m', v') ∧
      (∀ x k, x < Y * S → k < S → m' (mb + (x * S + k)) = some (γ x k + κ x k * (2 * zP))) ∧
      (∀ x k, x < Y * S → k < S → v' (vb + (x * S + k)) = some (υ x k + κ x k * w)) ∧
      (∀ a, (∀ x k, x < Y * S → k < S → a ≠ mb + (x * S + k)) → m' a = m a) ∧
      (∀ a, (∀ x k, x < Y * S → k < S → a ≠ vb + (x * S + k)) → v' a = v a) := by
  have c0 : (2 * zP : K) ≠ 0 := by positivity
  set L := Y * S with hLdef
  obtain ⟨⟨m', v'⟩, e, p1, p2, p3, p4, p5, p6⟩ := range_inv (s := (m, v))
    (f := rowWrite b ⟨L, S⟩ mb vb sb t0 m2 str)
    (P := fun i t =>
      (∀ x k, x ≤ i → x < L → k < S → t.1 (mb + (x * S + k)) = some (γ x k + κ x k * (2 * zP))) ∧
      (∀ x k, x ≤ i → x < L → k < S → t.2 (vb + (x * S + k)) = some (υ x k + κ x k * w)) ∧
      (∀ x k, i < x → x < L → k < S → t.1 (mb + (x * S + k)) = some (γ x k)) ∧
      (∀ x k, i < x → x < L → k < S → t.2 (vb + (x * S + k)) = some (υ x k)) ∧
      (∀ a, (∀ x k, x < L → k < S → a ≠ mb + (x * S + k)) → t.1 a = m a) ∧
      (∀ a, (∀ x k, x < L → k < S → a ≠ vb + (x * S + k)) → t.2 a = v a)) (L - 1)
    ⟨by
      intro x k hx hxL hk
      obtain rfl : x = 0 := by omega
      dsimp only; rw [hm 0 k hxL hk, κ0 k hk]; simp, by
      intro x k hx hxL hk
      obtain rfl : x = 0 := by omega
      dsimp only; rw [hv 0 k hxL hk, κ0 k hk]; simp, fun x k _ hx hk => hm x k hx hk,
      fun x k _ hx hk => hv x k hx hk, fun _ _ => rfl, fun _ _ => rfl⟩ (by
      rintro i hi ⟨tm, tv⟩ ⟨q1, q2, q3, q4, q5, q6⟩
      dsimp only at q1 q2 q3 q4 q5 q6
      have hi1 : i + 1 < L := by omega
      have gX : (⟨L, S⟩ : Geo).XC = L * S := rfl
      have gY : (⟨L, S⟩ : Geo).YC = Y := geo_YC hS
      have A5 : ∀ q, q + i * S + S = q + (i + 1) * S := by intro q; ring
      have A7 : t0 + (i + 1) * S + 2 * (L * S) = t0 + (2 * L + (i + 1)) * S := by ring
      have A8 : t0 + (i + 1) * S + L * S = t0 + (L + (i + 1)) * S := by ring
      have hstr : ∀ k, k < S → (str (sb + i + 1 + k * (Y * L))).isSome := by
        intro k hk
        obtain ⟨o, ho, _⟩ := hfl (i + 1) k (by omega) hi1 hk
        rw [show sb + i + 1 = sb + (i + 1) by omega, ho]; rfl
      set fl : Nat → Nat := fun k => (str (sb + i + 1 + k * (Y * L))).getD 0 with hfldef
      have flok : ∀ k, k < S → kF (i + 1) k = kB (L - (i + 1)) k → kF (i + 1) k ≠ 0 →
          b.writes (fl k) = true ∧ 0 < fl k := by
        intro k hk h1 h2
        obtain ⟨o, ho, hh⟩ := hfl (i + 1) k (by omega) hi1 hk
        have : fl k = o := by
          rw [hfldef]; dsimp only
          rw [show sb + i + 1 = sb + (i + 1) by omega, ho]; rfl
        rw [this]; exact hh h1 h2
      -- a row position at which nothing is to be written
      have skip : (∀ k, k < S → κ (i + 1) k = 0) →
          (∀ x k, x ≤ i + 1 → x < L → k < S →
            tm (mb + (x * S + k)) = some (γ x k + κ x k * (2 * zP))) ∧
          (∀ x k, x ≤ i + 1 → x < L → k < S → tv (vb + (x * S + k)) = some (υ x k + κ x k * w)) ∧
          (∀ x k, i + 1 < x → x < L → k < S → tm (mb + (x * S + k)) = some (γ x k)) ∧
          (∀ x k, i + 1 < x → x < L → k < S → tv (vb + (x * S + k)) = some (υ x k)) ∧
          (∀ a, (∀ x k, x < L → k < S → a ≠ mb + (x * S + k)) → tm a = m a) ∧
          (∀ a, (∀ x k, x < L → k < S → a ≠ vb + (x * S + k)) → tv a = v a) := by
        intro hz
        refine ⟨?_, ?_, fun x k hx => q3 x k (by omega), fun x k hx => q4 x k (by omega), q5, q6⟩
        · intro x k hx hxL hk
          by_cases hxi : x = i + 1
          · rw [hxi, q3 _ k (by omega) hi1 hk, hz k hk]; simp
          · exact q1 x k (by omega) hxL hk
        · intro x k hx hxL hk
          by_cases hxi : x = i + 1
          · rw [hxi, q4 _ k (by omega) hi1 hk, hz k hk]; simp
          · exact q2 x k (by omega) hxL hk
      obtain ⟨mel, e1, c1⟩ := loadV_eq (n := S) (h := tm) (a := mb + (i + 1) * S)
        (x := fun k => γ (i + 1) k)
        (fun k hk => by rw [Nat.add_assoc]; exact q3 _ k (by omega) hi1 hk)
      obtain ⟨F, e2, c2⟩ := loadV_eq (n := S) (h := m2) (a := t0 + (i + 1) * S)
        (x := fun k => γ (i + 1) k + kF (i + 1) k * (2 * zP))
        (fun k hk => by rw [Nat.add_assoc]; exact hF _ k hi1 hk)
      obtain ⟨B, e3, c3⟩ := loadV_eq (n := S) (h := m2) (a := t0 + (2 * L + (i + 1)) * S)
        (x := fun k => γ (i + 1) k + kB (L - (i + 1)) k * (2 * zP))
        (fun k hk => by rw [Nat.add_assoc]; exact hB _ k (by omega) hi1 hk)
      obtain ⟨old, e4, c4⟩ := loadV_eq (n := S) (h := tv) (a := vb + (i + 1) * S)
        (x := fun k => υ (i + 1) k)
        (fun k hk => by rw [Nat.add_assoc]; exact q4 _ k (by omega) hi1 hk)
      obtain ⟨vv, e5, c5⟩ := loadV_eq (n := S) (h := m2) (a := t0 + (L + (i + 1)) * S)
        (x := fun k => υ (i + 1) k + kF (i + 1) k * w)
        (fun k hk => by rw [Nat.add_assoc]; exact hV _ k (by omega) hi1 hk)
      have hFB : ∀ k, k < S → (F k = B k ↔ kF (i + 1) k = kB (L - (i + 1)) k) := by
        intro k hk
        rw [c2 k hk, c3 k hk]
        constructor
        · intro hc
          exact Int.cast_injective (α := K) (mul_right_cancel₀ c0 (add_left_cancel hc))
        · intro hc; rw [hc]
      by_cases hany : anyLane S (fun k => fl k != 0) = true
      · by_cases hany2 : anyLane S (fun k => decide (F k = B k) && decide (fl k > 0)) = true
        · obtain ⟨tm', w1, u1, v1, x1, y1⟩ := storeV_block (S := S) (h := tm) (t := mb) (B := i + 1)
            (fun k => if F k = B k ∧ b.writes (fl k) = true then F k else mel k)
            (fun k hk => by rw [q3 _ k (by omega) hi1 hk]; rfl)
          obtain ⟨tv', w2, u2, v2, x2, y2⟩ := storeV_block (S := S) (h := tv) (t := vb) (B := i + 1)
            (fun k => if F k = B k ∧ b.writes (fl k) = true then vv k else old k)
            (fun k hk => by rw [q4 _ k (by omega) hi1 hk]; rfl)
          refine ⟨(tm', tv'), ?_, ?_, ?_, ?_, ?_, ?_, ?_⟩
          · simp only [rowWrite, gX, gY, A5, A7]
            rw [if_pos hstr]
            simp only [← hfldef, Option.bind_eq_bind, Option.bind_some, hany, if_true, e1, e2, e3,
              hany2, e4, A8, e5, w1, w2]
            rfl
          · intro x k hx hxL hk
            dsimp only
            by_cases hxi : x = i + 1
            · rw [hxi, u1 k hk, hκ _ k (by omega) hi1 hk]
              by_cases hfb : kF (i + 1) k = kB (L - (i + 1)) k
              · rw [if_pos hfb]
                by_cases hz : kF (i + 1) k = 0
                · rw [hz]
                  have : F k = mel k := by rw [c1 k hk, c2 k hk, hz]; simp
                  rw [this, ite_self, c1 k hk]; simp
                · rw [if_pos ⟨(hFB k hk).mpr hfb, (flok k hk hfb hz).1⟩, c2 k hk]
              · rw [if_neg hfb, if_neg (fun hc => hfb ((hFB k hk).mp hc.1)), c1 k hk]; simp
            · rw [v1 x k hk hxi]; exact q1 x k (by omega) hxL hk
          · intro x k hx hxL hk
            dsimp only
            by_cases hxi : x = i + 1
            · rw [hxi, u2 k hk, hκ _ k (by omega) hi1 hk]
              by_cases hfb : kF (i + 1) k = kB (L - (i + 1)) k
              · rw [if_pos hfb]
                by_cases hz : kF (i + 1) k = 0
                · rw [hz]
                  have : vv k = old k := by rw [c4 k hk, c5 k hk, hz]; simp
                  rw [this, ite_self, c4 k hk]; simp
                · rw [if_pos ⟨(hFB k hk).mpr hfb, (flok k hk hfb hz).1⟩, c5 k hk]
              · rw [if_neg hfb, if_neg (fun hc => hfb ((hFB k hk).mp hc.1)), c4 k hk]; simp
            · rw [v2 x k hk hxi]; exact q2 x k (by omega) hxL hk
          · intro x k hx hxL hk
            dsimp only
            rw [v1 x k hk (by omega)]; exact q3 x k (by omega) hxL hk
          · intro x k hx hxL hk
            dsimp only
            rw [v2 x k hk (by omega)]; exact q4 x k (by omega) hxL hk
          · intro a hna
            dsimp only
            rw [x1 a (fun k hk => hna _ k hi1 hk), q5 a hna]
          · intro a hna
            dsimp only
            rw [x2 a (fun k hk => hna _ k hi1 hk), q6 a hna]
        · refine ⟨(tm, tv), ?_, skip fun k hk => ?_⟩
          · simp only [rowWrite, gX, gY, A5, A7]
            rw [if_pos hstr]
            simp only [← hfldef, Option.bind_eq_bind, Option.bind_some, hany, if_true, e1, e2, e3]
            rw [if_neg hany2]
            rfl
          · rw [hκ _ k (by omega) hi1 hk]
            split
            · next hfb =>
              by_contra hz
              refine hany2 (anyLane_iff.mpr ⟨k, hk, ?_⟩)
              rw [Bool.and_eq_true, decide_eq_true_eq, decide_eq_true_eq]
              exact ⟨(hFB k hk).mpr hfb, (flok k hk hfb hz).2⟩
            · rfl
      · refine ⟨(tm, tv), ?_, skip fun k hk => ?_⟩
        · simp only [rowWrite, gX, gY, A5, A7]
          rw [if_pos hstr]
          simp only [← hfldef, Option.bind_eq_bind, Option.bind_some]
          rw [if_neg hany]
          rfl
        · rw [hκ _ k (by omega) hi1 hk]
          split
          · next hfb =>
            by_contra hz
            refine hany (anyLane_iff.mpr ⟨k, hk, ?_⟩)
            have := (flok k hk hfb hz).2
            simp only [bne_iff_ne, ne_eq]; omega
          · rfl)
  exact ⟨m', v', e, fun x k hx hk => p1 x k (by omega) hx hk, fun x k hx hk => p2 x k (by omega) hx hk,
    p5, p6⟩

/-! ## One row -/

theorem mendRow_eq {zP : K} (h : 0 < zP) (w : K) {b : Build} {fuel Y S mo z y th : Nat}
    (hY : 0 < Y) (hL : 2 ≤ Y * S) (hS : 0 < S) {s : St K} {γ υ : Nat → Nat → K}
    (hm : ∀ x k, x < Y * S → k < S → s.m (mo + z * (Y * S * (Y * S)) + y * (Y * S * S) +
      (x * S + k)) = some (γ x k))
    (hv : ∀ x k, x < Y * S → k < S → s.v (z * (Y * S * (Y * S)) + y * (Y * S * S) +
      (x * S + k)) = some (υ x k))
    (hf : ∀ k, k < S → RowFuel (turnsV zP) (2 * zP) (Y * S) (b.limit fuel) fun x => γ x k)
    (ha : ∀ a, a < 4 * (Y * S * S) → (s.m2 (th * 4 * (Y * S * S) + a)).isSome)
    (hz : ∀ x k, x < Y * S → k < S → s.str (z * (Y * S * (Y * S)) + y * (Y * S) + x +
      k * (Y * (Y * S))) = some 0) :
    ∃ s', mendRow b fuel zP w ⟨Y * S, S⟩ mo s ((z, y), th) = some s' ∧
      (∀ x k, x < Y * S → k < S → s'.m (mo + z * (Y * S * (Y * S)) + y * (Y * S * S) +
        (x * S + k)) =
        some (γ x k + mended (turnsV zP) (2 * zP) (Y * S) (fun x => γ x k) x * (2 * zP))) ∧
      (∀ x k, x < Y * S → k < S → s'.v (z * (Y * S * (Y * S)) + y * (Y * S * S) +
        (x * S + k)) =
        some (υ x k + mended (turnsV zP) (2 * zP) (Y * S) (fun x => γ x k) x * w)) ∧
      (∀ a, (∀ x k, x < Y * S → k < S → a ≠ mo + z * (Y * S * (Y * S)) + y * (Y * S * S) +
        (x * S + k)) → s'.m a = s.m a) ∧
      (∀ a, (∀ x k, x < Y * S → k < S → a ≠ z * (Y * S * (Y * S)) + y * (Y * S * S) +
        (x * S + k)) → s'.v a = s.v a) ∧
      (∀ a, (s'.m2 a).isSome = (s.m2 a).isSome) ∧
      (∀ a, (∀ x k, x < Y * S → k < S → a ≠ z * (Y * S * (Y * S)) + y * (Y * S) + x +
        k * (Y * (Y * S))) → s'.str a = s.str a) := by
  set L := Y * S with hLdef
  set mb := mo + z * (L * L) + y * (L * S) with hmb
  set vb := z * (L * L) + y * (L * S) with hvb
  set sb := z * (L * L) + y * L with hsb
  set t0 := th * 4 * (L * S) with ht0
  set kF : Nat → Nat → Int := fun x k => scan (turnsV zP) (2 * zP) 0 (fun x => γ x k) x with hkF
  set kB : Nat → Nat → Int :=
    fun x k => scan (turnsV zP) (2 * zP) 0 (back L fun x => γ x k) x with hkB
  have al : ∀ B k, B < 4 * L → k < S → (s.m2 (t0 + (B * S + k))).isSome := by
    intro B k hB hk
    refine ha _ ?_
    have := pair_lt hB hk
    rwa [Nat.mul_assoc] at this
  obtain ⟨mel, e1, c1⟩ := loadV_eq (n := S) (h := s.m) (a := mb) (x := fun k => γ 0 k)
    (fun k hk => by have := hm 0 k (by omega) hk; rwa [Nat.zero_mul, Nat.zero_add] at this)
  obtain ⟨n1, w1, u1, v1, x1, y1⟩ := storeV_block (S := S) (h := s.m2) (t := t0) (B := 0) mel
    (fun k hk => al 0 k (by omega) hk)
  obtain ⟨n2, w2, u2, v2, x2, y2⟩ := storeV_block (S := S) (h := n1) (t := t0) (B := 2 * L) mel
    (fun k hk => by rw [y1]; exact al _ k (by omega) hk)
  obtain ⟨r, e2, hr⟩ := range_inv (s := (⟨n2, s.str, false⟩ : Row K))
    (f := rowScan b fuel zP w ⟨L, S⟩ mb vb sb t0 s.m s.v)
    (P := fun i t => RowInv b zP w L S (Y * L) sb t0 γ υ kF kB ⟨n2, s.str, false⟩ i t) (L - 1)
    (by
      constructor
      · intro x k hx _ hk
        obtain rfl : x = 0 := by omega
        dsimp only
        rw [v2 0 k hk (by omega), u1 k hk, c1 k hk, hkF]; simp [scan]
      · intros; omega
      · intro j k hj _ hk
        obtain rfl : j = 0 := by omega
        dsimp only
        rw [Nat.sub_zero, Nat.mod_self, Nat.add_zero, u2 k hk, c1 k hk, hkB]; simp [scan]
      · intros; omega
      · intros; omega
      · intro x k hx hk; exact ⟨0, hz x k hx hk, by omega⟩
      · intros; omega
      · intro a; rfl
      · intro a _; rfl)
    (fun i hi t ht => rowScan_step h w hY hL hS hm hv hkF hkB
      (fun x k hx hk => hf k hk x hx)
      (fun B k hB hk => by dsimp only; rw [y2, y1]; exact al B k hB hk) (by omega) ht)
  have mz : ∀ k, mended (turnsV zP) (2 * zP) L (fun x => γ x k) 0 = 0 := fun k =>
    mended_zero _ _ _ _
  have hB' : ∀ x k, 0 < x → x < L → k < S → r.m2 (t0 + ((2 * L + x) * S + k)) =
      some (γ x k + kB (L - x) k * (2 * zP)) := by
    intro x k h0 hx hk
    have := hr.B (L - x) k (by omega) (by omega) hk
    rw [show (L - (L - x)) % L = x by rw [show L - (L - x) = x by omega, Nat.mod_eq_of_lt hx]] at this
    exact this
  have hpre : ∀ q : Heap Nat K × Heap Nat K, (if r.cha then
      (List.range (L - 1)).foldlM (rowWrite b ⟨L, S⟩ mb vb sb t0 r.m2 r.str) (s.m, s.v)
      else some (s.m, s.v)) = some q →
      mendRow b fuel zP w ⟨L, S⟩ mo s ((z, y), th) = some ⟨q.1, q.2, r.m2, r.str⟩ := by
    intro q hq
    have gX : (⟨L, S⟩ : Geo).XC = L * S := rfl
    have gS : (⟨L, S⟩ : Geo).Sf = L * L := rfl
    simp only [mendRow, gX, gS, ← hmb, ← hvb, ← hsb, ← ht0, e1, Option.bind_eq_bind, Option.bind_some]
    have w1' : storeV S s.m2 t0 mel = some n1 := by
      have := w1; rwa [Nat.zero_mul, Nat.add_zero] at this
    have w2' : storeV S n1 (t0 + 2 * (L * S)) mel = some n2 := by
      have := w2; rwa [Nat.mul_assoc] at this
    rw [w1', Option.bind_some, w2', Option.bind_some, e2, Option.bind_some]
    by_cases hcc : r.cha = true
    · rw [if_pos hcc] at hq ⊢
      rw [hq]; rfl
    · rw [if_neg hcc] at hq ⊢
      rw [← Option.some.inj hq]; rfl
  by_cases hc : r.cha = true
  · obtain ⟨m', v', e3, r1, r2, r3, r4⟩ := rowWrite_eq h w (b := b) (mb := mb) (vb := vb) (sb := sb)
      (t0 := t0) hS hm hv (kF := kF) (kB := kB)
      (κ := fun x k => mended (turnsV zP) (2 * zP) L (fun x => γ x k) x) (m2 := r.m2) (str := r.str)
      (fun x k hx hk => hr.F x k (by omega) hx hk) (fun x k h0 hx hk => hr.V x k h0 (by omega) hx hk)
      hB' (by
        intro x k h0 hx hk
        obtain ⟨o, ho, ho4⟩ := hr.f4 x k hx hk
        refine ⟨o, ho, fun h1 h2 => ?_⟩
        obtain ⟨o1, ho1, hh1⟩ := hr.fF x k h0 (by omega) hx hk h2
        obtain ⟨o2, ho2, hh2⟩ := hr.fB x k h0 (by omega) hx hk (by rw [← h1]; exact h2)
        have e1 : o1 = o := Option.some.inj (ho1.symm.trans ho)
        have e2 : o2 = o := Option.some.inj (ho2.symm.trans ho)
        rw [e1] at hh1
        rw [e2] at hh2
        exact writes_of b ho4 hh1 hh2) (fun k _ => mz k) (fun x k _ _ _ => rfl)
    refine ⟨⟨m', v', r.m2, r.str⟩, hpre (m', v') (by rw [if_pos hc]; exact e3), r1, r2, r3, r4, ?_, ?_⟩
    · intro a; dsimp only; rw [hr.m2s]; dsimp only; rw [y2, y1]
    · exact hr.strf
  · have hz0 : ∀ x k, x < L → k < S →
        mended (turnsV zP) (2 * zP) L (fun x => γ x k) x = 0 := by
      intro x k hx hk
      rcases Nat.eq_zero_or_pos x with rfl | h0
      · exact mz k
      · rw [mended]
        split
        · by_contra hne
          exact hc (hr.cha x k h0 (by omega) hx hk hne)
        · rfl
    refine ⟨⟨s.m, s.v, r.m2, r.str⟩, hpre (s.m, s.v) (by rw [if_neg hc]), ?_, ?_, fun _ _ => rfl,
      fun _ _ => rfl, ?_, ?_⟩
    · intro x k hx hk; dsimp only; rw [hm x k hx hk, hz0 x k hx hk]; simp
    · intro x k hx hk; dsimp only; rw [hv x k hx hk, hz0 x k hx hk]; simp
    · intro a; dsimp only; rw [hr.m2s]; dsimp only; rw [y2, y1]
    · exact hr.strf

/-! ## All rows of a rank -/

open Stencil (cell)

theorem cell_lane {Y S x y z k : Nat} (hS : 0 < S) (hy : y < Y) :
    cell (Y * S) S x (k * Y + y) z = z * (Y * S * (Y * S)) + y * (Y * S * S) + (x * S + k) := by
  rw [cell, Nat.mul_div_cancel Y hS, mod_of hy, div_of hy]; ring

theorem cell_slot {Y S y z : Nat} (hS : 0 < S) :
    cell (Y * S) S 0 y z = z * (Y * S * (Y * S)) + slot Y S 0 y := by
  rw [cell, Nat.mul_div_cancel Y hS, slot]; ring

theorem cell_add {L S x y z N : Nat} : cell L S x y (z + N) = N * (L * L) + cell L S x y z := by
  simp only [cell]; ring

theorem cell_inj {Y S x y z x' y' z' : Nat} (hS : 0 < S) (hY : 0 < Y) (hx : x < Y * S)
    (hx' : x' < Y * S) (hy : y < Y * S) (hy' : y' < Y * S) :
    cell (Y * S) S x y z = cell (Y * S) S x' y' z' ↔ x = x' ∧ y = y' ∧ z = z' := by
  constructor
  · intro he
    have hk : y / Y < S := Nat.div_lt_of_lt_mul hy
    have hk' : y' / Y < S := Nat.div_lt_of_lt_mul hy'
    have e : ∀ x y z, cell (Y * S) S x y z = ((z * Y + y % Y) * (Y * S) + x) * S + y / Y := by
      intro x y z
      rw [cell, Nat.mul_div_cancel Y hS]; ring
    rw [e, e] at he
    obtain ⟨h1, h2⟩ := pair_inj hk hk' he
    obtain ⟨h3, h4⟩ := pair_inj hx hx' h1
    obtain ⟨h5, h6⟩ := pair_inj (Nat.mod_lt y hY) (Nat.mod_lt y' hY) h3
    refine ⟨h4, ?_, h5⟩
    rw [← div_mul_add_mod y Y, ← div_mul_add_mod y' Y, h2, h6]
  · rintro ⟨rfl, rfl, rfl⟩; rfl

theorem mendKernel_eq {zP : K} (h : 0 < zP) (w : K) {b : Build} {fuel Y S mo Lz T : Nat}
    (hY : 0 < Y) (hL : 2 ≤ Y * S) (hS : 0 < S) {s : St K} {γ υ : Nat → Nat → Nat → K}
    (hm : ∀ x y z, x < Y * S → y < Y * S → z < Lz → s.m (mo + cell (Y * S) S x y z) = some (γ z y x))
    (hv : ∀ x y z, x < Y * S → y < Y * S → z < Lz → s.v (cell (Y * S) S x y z) = some (υ z y x))
    (hf : ∀ z y, z < Lz → y < Y * S →
      RowFuel (turnsV zP) (2 * zP) (Y * S) (b.limit fuel) (γ z y))
    (ha : ∀ a, a < T * 4 * (Y * S * S) → (s.m2 a).isSome)
    (hs : ∀ a, a < Y * S * (Y * S) * Lz → (s.str a).isSome)
    {order : List ((Nat × Nat) × Nat)} (ho : RowOrder ⟨Y * S, S⟩ Lz T order) :
    ∃ s', mendKernel b fuel zP w ⟨Y * S, S⟩ Lz mo order s = some s' ∧
      (∀ x y z, x < Y * S → y < Y * S → z < Lz → s'.m (mo + cell (Y * S) S x y z) =
        some (γ z y x + mended (turnsV zP) (2 * zP) (Y * S) (γ z y) x * (2 * zP))) ∧
      (∀ x y z, x < Y * S → y < Y * S → z < Lz → s'.v (cell (Y * S) S x y z) =
        some (υ z y x + mended (turnsV zP) (2 * zP) (Y * S) (γ z y) x * w)) ∧
      (∀ a, (∀ x y z, x < Y * S → y < Y * S → z < Lz → a ≠ mo + cell (Y * S) S x y z) →
        s'.m a = s.m a) ∧
      (∀ a, (∀ x y z, x < Y * S → y < Y * S → z < Lz → a ≠ cell (Y * S) S x y z) →
        s'.v a = s.v a) ∧
      (∀ a, (s'.m2 a).isSome = (s.m2 a).isSome) := by
  set L := Y * S with hLdef
  have gY : (⟨L, S⟩ : Geo).YC = Y := geo_YC hS
  have gS : (⟨L, S⟩ : Geo).Sf = L * L := rfl
  have hky : ∀ {k y : Nat}, k < S → y < Y → k * Y + y < L := by
    intro k y hk hy
    have := pair_lt hk hy
    rw [hLdef, Nat.mul_comm Y S]; exact this
  -- bytes
  have hstr0 : storeV (L * L * Lz) s.str 0 (fun _ => 0) = some fun j =>
      if 0 ≤ j ∧ j < 0 + L * L * Lz then some 0 else s.str j :=
    storeV_eq _ (fun k hk => by rw [Nat.zero_add]; exact hs k hk)
  set str0 : Heap Nat Nat := fun j => if 0 ≤ j ∧ j < 0 + L * L * Lz then some 0 else s.str j
  have byteLt : ∀ {x k y z : Nat}, x < L → k < S → y < Y → z < Lz →
      z * (L * L) + y * L + x + k * (Y * L) < L * L * Lz := by
    intro x k y z hx hk hy hz
    have h1 := pair_lt hz (pair_lt (hky hk hy) hx)
    have : (k * Y + y) * L + x = y * L + x + k * (Y * L) := by ring
    rw [this] at h1
    rw [Nat.mul_comm (L * L) Lz]; omega
  have byteInj : ∀ {x k y z x' k' y' z' : Nat}, x < L → k < S → y < Y → x' < L → k' < S → y' < Y →
      z * (L * L) + y * L + x + k * (Y * L) = z' * (L * L) + y' * L + x' + k' * (Y * L) →
      z = z' ∧ y = y' := by
    intro x k y z x' k' y' z' hx hk hy hx' hk' hy' he
    have e1 : ∀ x k y, (k * Y + y) * L + x = y * L + x + k * (Y * L) := by intro x k y; ring
    have h1 := pair_inj (q := z) (q' := z') (pair_lt (hky hk hy) hx) (pair_lt (hky hk' hy') hx')
      (by rw [e1, e1]; omega)
    have h2 := pair_inj hx hx' h1.2
    have h3 := pair_inj hy hy' h2.1
    exact ⟨h1.1, h3.2⟩
  have cellEq : ∀ {x k y z : Nat}, y < Y → cell L S x (k * Y + y) z =
      z * (L * L) + y * (L * S) + (x * S + k) := fun hy => cell_lane hS hy
  have cellInj : ∀ {x k y z x' k' y' z' : Nat}, x < L → k < S → y < Y → x' < L → k' < S → y' < Y →
      cell L S x (k * Y + y) z = cell L S x' (k' * Y + y') z' → z = z' ∧ y = y' := by
    intro x k y z x' k' y' z' hx hk hy hx' hk' hy' he
    have := (cell_inj hS hY hx hx' (hky hk hy) (hky hk' hy')).mp he
    have h3 := pair_inj hy hy' this.2.1
    exact ⟨this.2.2, h3.2⟩
  have hord : ∀ z y, (z, y) ∈ order.map Prod.fst ↔ z < Lz ∧ y < Y := by
    intro z y
    rw [ho.1.mem_iff, gY]
    simp [and_comm]
  have hnd : (order.map Prod.fst).Nodup := by
    refine ho.1.symm.nodup ?_
    rw [List.nodup_flatMap]
    refine ⟨fun z _ => (List.nodup_range).map (fun a b hab => (Prod.mk.inj hab).2), ?_⟩
    refine List.nodup_range.imp ?_
    intro a b hab
    simp only [Function.onFun, List.disjoint_left, List.mem_map, not_exists, not_and]
    rintro ⟨p, q⟩ ⟨c, _, hc⟩ d _ hd
    exact hab ((Prod.mk.inj hc).1.trans (Prod.mk.inj hd).1.symm)
  obtain ⟨s', e, p1, p2, _, _, p5, p6, p7, _⟩ := foldlM_inv (s := ({ s with str := str0 } : St K))
    (f := mendRow b fuel zP w ⟨L, S⟩ mo)
    (P := fun pre t =>
      (∀ x k y z, x < L → k < S → y < Y → z < Lz → (z, y) ∈ pre.map Prod.fst →
        t.m (mo + cell L S x (k * Y + y) z) = some (γ z (k * Y + y) x +
          mended (turnsV zP) (2 * zP) L (γ z (k * Y + y)) x * (2 * zP))) ∧
      (∀ x k y z, x < L → k < S → y < Y → z < Lz → (z, y) ∈ pre.map Prod.fst →
        t.v (cell L S x (k * Y + y) z) = some (υ z (k * Y + y) x +
          mended (turnsV zP) (2 * zP) L (γ z (k * Y + y)) x * w)) ∧
      (∀ x k y z, x < L → k < S → y < Y → z < Lz → (z, y) ∉ pre.map Prod.fst →
        t.m (mo + cell L S x (k * Y + y) z) = some (γ z (k * Y + y) x)) ∧
      (∀ x k y z, x < L → k < S → y < Y → z < Lz → (z, y) ∉ pre.map Prod.fst →
        t.v (cell L S x (k * Y + y) z) = some (υ z (k * Y + y) x)) ∧
      (∀ a, (∀ x y z, x < L → y < L → z < Lz → a ≠ mo + cell L S x y z) → t.m a = s.m a) ∧
      (∀ a, (∀ x y z, x < L → y < L → z < Lz → a ≠ cell L S x y z) → t.v a = s.v a) ∧
      (∀ a, (t.m2 a).isSome = (s.m2 a).isSome) ∧
      (∀ x k y z, x < L → k < S → y < Y → z < Lz → (z, y) ∉ pre.map Prod.fst →
        t.str (z * (L * L) + y * L + x + k * (Y * L)) = some 0)) order
    ⟨by simp, by simp, fun x k y z hx hk hy hz _ => hm x _ z hx (hky hk hy) hz,
      fun x k y z hx hk hy hz _ => hv x _ z hx (hky hk hy) hz, fun _ _ => rfl, fun _ _ => rfl,
      fun _ => rfl, fun x k y z hx hk hy hz _ => by
        show (if _ then _ else _) = _
        rw [if_pos ⟨Nat.zero_le _, by rw [Nat.zero_add]; exact byteLt hx hk hy hz⟩]⟩ (by
      rintro pre ⟨⟨z, y⟩, th⟩ post hLst t ⟨q1, q2, q3, q4, q5, q6, q7, q8⟩
      have hmem : (z, y) ∈ order.map Prod.fst := by rw [hLst]; simp
      obtain ⟨hz, hy⟩ := (hord z y).mp hmem
      have hth : th < T := ho.2 ((z, y), th) (by rw [hLst]; simp)
      have hnew : (z, y) ∉ pre.map Prod.fst := by
        rw [hLst, List.map_append, List.map_cons] at hnd
        have := List.nodup_append.mp hnd
        intro hc
        exact this.2.2 _ hc (z, y) (by simp) rfl
      obtain ⟨t', e, r1, r2, r3, r4, r5, r6⟩ := mendRow_eq h w (b := b) (mo := mo) (z := z) (y := y)
        (th := th) hY hL hS (s := t) (γ := fun x k => γ z (k * Y + y) x)
        (υ := fun x k => υ z (k * Y + y) x)
        (fun x k hx hk => by
          rw [← q3 x k y z hx hk hy hz hnew, cellEq hy, ← hLdef]; congr 1; omega)
        (fun x k hx hk => by rw [← q4 x k y z hx hk hy hz hnew, cellEq hy])
        (fun k hk => hf z _ hz (hky hk hy))
        (fun a haa => by
          rw [q7]
          refine ha _ ?_
          have : th * (4 * (L * S)) + a < T * (4 * (L * S)) := pair_lt hth haa
          show th * 4 * (L * S) + a < T * 4 * (L * S)
          rw [Nat.mul_assoc th, Nat.mul_assoc T]
          exact this)
        (fun x k hx hk => q8 x k y z hx hk hy hz hnew)
      simp only [← hLdef] at r1 r2 r3 r4 r6
      have hin : ∀ {z' y' : Nat}, (z', y') ∈ (pre ++ [((z, y), th)]).map Prod.fst ↔
          (z', y') ∈ pre.map Prod.fst ∨ (z' = z ∧ y' = y) := by
        intro z' y'
        simp only [List.map_append, List.mem_append, List.map_cons, List.map_nil,
          List.mem_singleton, Prod.mk.injEq]
      have far : ∀ {x k z' y' : Nat}, x < L → k < S → y' < Y → ¬ (z' = z ∧ y' = y) → ∀ x' k', x' < L →
          k' < S → cell L S x (k * Y + y') z' ≠ z * (L * L) + y * (L * S) + (x' * S + k') := by
        intro x k z' y' hx hk hy' hne x' k' hx' hk' hc
        rw [← cellEq hy] at hc
        exact hne (cellInj hx hk hy' hx' hk' hy hc)
      refine ⟨t', e, ?_, ?_, ?_, ?_, ?_, ?_, ?_, ?_⟩
      · intro x k y' z' hx hk hy' hz' hm'
        by_cases hsame : z' = z ∧ y' = y
        · obtain ⟨rfl, rfl⟩ := hsame
          rw [← r1 x k hx hk, cellEq hy']; congr 1; omega
        · rw [r3 _ (fun x' k' hx' hk' hc => far hx hk hy' hsame x' k' hx' hk' (by omega))]
          exact q1 x k y' z' hx hk hy' hz' ((hin.mp hm').resolve_right hsame)
      · intro x k y' z' hx hk hy' hz' hm'
        by_cases hsame : z' = z ∧ y' = y
        · obtain ⟨rfl, rfl⟩ := hsame
          rw [← r2 x k hx hk, cellEq hy']
        · rw [r4 _ (fun x' k' hx' hk' hc => far hx hk hy' hsame x' k' hx' hk' hc)]
          exact q2 x k y' z' hx hk hy' hz' ((hin.mp hm').resolve_right hsame)
      · intro x k y' z' hx hk hy' hz' hm'
        rw [hin, not_or] at hm'
        rw [r3 _ (fun x' k' hx' hk' hc => far hx hk hy' hm'.2 x' k' hx' hk' (by omega))]
        exact q3 x k y' z' hx hk hy' hz' hm'.1
      · intro x k y' z' hx hk hy' hz' hm'
        rw [hin, not_or] at hm'
        rw [r4 _ (fun x' k' hx' hk' hc => far hx hk hy' hm'.2 x' k' hx' hk' hc)]
        exact q4 x k y' z' hx hk hy' hz' hm'.1
      · intro a hna
        rw [r3 a (fun x k hx hk hc => hna x (k * Y + y) z hx (hky hk hy) hz (by
          rw [cellEq hy]; omega)), q5 a hna]
      · intro a hna
        rw [r4 a (fun x k hx hk hc => hna x (k * Y + y) z hx (hky hk hy) hz (by
          rw [cellEq hy]; omega)), q6 a hna]
      · intro a; rw [r5, q7]
      · intro x k y' z' hx hk hy' hz' hm'
        rw [hin, not_or] at hm'
        rw [r6 _ (fun x' k' hx' hk' hc => hm'.2 (byteInj hx hk hy' hx' hk' hy hc))]
        exact q8 x k y' z' hx hk hy' hz' hm'.1)
  have hy : ∀ {y : Nat}, y < L → y = y / Y * Y + y % Y ∧ y / Y < S ∧ y % Y < Y := fun hy =>
    ⟨(div_mul_add_mod _ Y).symm, Nat.div_lt_of_lt_mul hy, Nat.mod_lt _ hY⟩
  refine ⟨s', ?_, ?_, ?_, p5, p6, p7⟩
  · simp only [mendKernel, gS]
    rw [hstr0, Option.bind_eq_bind, Option.bind_some]
    exact e
  · intro x y z hx hyy hz
    obtain ⟨e, h1, h2⟩ := hy hyy
    have := p1 x _ _ z hx h1 h2 hz ((hord _ _).mpr ⟨hz, h2⟩)
    rwa [← e] at this
  · intro x y z hx hyy hz
    obtain ⟨e, h1, h2⟩ := hy hyy
    have := p2 x _ _ z hx h1 h2 hz ((hord _ _).mpr ⟨hz, h2⟩)
    rwa [← e] at this

end Mend
end Jaxions
