import Verif.Lemmas.Mend
import Verif.Basic.Fold

namespace Jaxions
namespace Mend

variable {K : Type} [Field K] [LinearOrder K] [IsStrictOrderedRing K]

/-! ## Scans -/

omit [LinearOrder K] [IsStrictOrderedRing K] in
theorem scan_shift (σ : K → Int) (c : K) (k0 : Int) (g : Nat → K) (b : Nat) : ∀ i,
    scan σ c k0 g (b + i) = scan σ c (scan σ c k0 g b) (fun i => g (b + i)) i
  | 0 => rfl
  | i + 1 => by
    have := scan_shift σ c k0 g b i
    show σ (g (b + i + 1) - (g (b + i) + scan σ c k0 g (b + i) * c)) = _
    rw [this]; rfl

omit [LinearOrder K] [IsStrictOrderedRing K] in
theorem scan_congr (σ : K → Int) (c : K) (k0 : Int) {g g' : Nat → K} {n : Nat}
    (h : ∀ i, i < n → g i = g' i) : ∀ i, i < n → scan σ c k0 g i = scan σ c k0 g' i
  | 0, _ => rfl
  | i + 1, hi => by
    show σ _ = σ _
    rw [scan_congr σ c k0 h i (by omega), h i (by omega), h (i + 1) hi]

/-- The two ways of choosing the turns agree where the answer is clear. -/
def Settles (zP : K) (σ : K → Int) : Prop :=
  (∀ d (k : Int), |d + k * (2 * zP)| < zP → σ d = k) ∧ ∀ d, |d + σ d * (2 * zP)| ≤ zP

theorem settlesV [FloorRing K] {zP : K} (h : 0 < zP) : Settles zP (turnsV zP) := by
  refine ⟨fun d k hk => ?_, fun d => ?_⟩
  · rw [abs_lt] at hk
    exact turnsV_unique h hk.1.le hk.2
  · have := turnsV_range h d
    exact abs_le.mpr ⟨this.1, this.2.le⟩

theorem settlesS [FloorRing K] {zP : K} (h : 0 < zP) : Settles zP (turnsS zP) :=
  ⟨fun _ _ hk => turnsS_unique h hk, turnsS_abs h⟩

omit [IsStrictOrderedRing K] in
/-- A scan follows any smooth continuation. -/
theorem scan_smooth {zP : K} {σ : K → Int} (hσ : Settles zP σ) {g : Nat → K} {k : Nat → Int}
    {n : Nat} (h : ∀ x, x + 1 < n →
      |(g (x + 1) + k (x + 1) * (2 * zP)) - (g x + k x * (2 * zP))| < zP) :
    ∀ x, x < n → scan σ (2 * zP) (k 0) g x = k x
  | 0, _ => rfl
  | x + 1, hx => by
    show σ _ = _
    rw [scan_smooth hσ h x (by omega)]
    refine hσ.1 _ _ ?_
    have := h x hx
    rwa [show g (x + 1) - (g x + k x * (2 * zP)) + k (x + 1) * (2 * zP) =
      (g (x + 1) + k (x + 1) * (2 * zP)) - (g x + k x * (2 * zP)) by ring]

omit [Field K] [LinearOrder K] [IsStrictOrderedRing K] in
theorem back_succ {L : Nat} {x : Nat} (hx : x < L) {α : Type} (g : Nat → α) :
    g ((L - (L - x)) % L) = g x := by
  rw [show L - (L - x) = x by omega, Nat.mod_eq_of_lt hx]

omit [IsStrictOrderedRing K] in
theorem mended_smooth {zP : K} {σ : K → Int} (hσ : Settles zP σ) {g : Nat → K} {k : Nat → Int}
    {L : Nat} (hk : k 0 = 0) (h : SmoothLine zP L fun x => g x + k x * (2 * zP)) {x : Nat}
    (hx : x < L) : mended σ (2 * zP) L g x = k x := by
  have f := scan_smooth hσ h.1 x hx
  rw [hk] at f
  rcases Nat.eq_zero_or_pos x with rfl | hpos
  · unfold mended; split <;> simp [scan, hk]
  · have b := scan_smooth hσ (g := back L g) (k := fun j => k ((L - j) % L)) (n := L) (by
      intro j hj
      have hmod : (L - (j + 1)) % L = L - (j + 1) := Nat.mod_eq_of_lt (by omega)
      simp only [back, hmod]
      rcases Nat.eq_zero_or_pos j with rfl | hj0
      · have := h.2
        simp only [Nat.sub_zero, Nat.mod_self]
        rw [abs_sub_comm]
        simpa using this
      · rw [Nat.mod_eq_of_lt (show L - j < L by omega), abs_sub_comm]
        have := h.1 (L - (j + 1)) (by omega)
        rw [show L - (j + 1) + 1 = L - j by omega] at this
        exact this) (L - x) (by omega)
    simp only [Nat.sub_zero, Nat.mod_self, hk] at b
    rw [back_succ hx k] at b
    rw [mended, f, b, if_pos rfl]

omit [IsStrictOrderedRing K] in
/-- If both directions agree on the whole line, the mended line has no jump, also where it
closes. -/
theorem mended_ring {zP : K} {σ : K → Int} (hσ : Settles zP σ) {g : Nat → K} {L : Nat} (hL : 2 ≤ L)
    (h : ∀ x, 0 < x → x < L → scan σ (2 * zP) 0 g x = scan σ (2 * zP) 0 (back L g) (L - x)) :
    (∀ x, x + 1 < L → |(g (x + 1) + mended σ (2 * zP) L g (x + 1) * (2 * zP)) -
      (g x + mended σ (2 * zP) L g x * (2 * zP))| ≤ zP) ∧
    |(g 0 + mended σ (2 * zP) L g 0 * (2 * zP)) -
      (g (L - 1) + mended σ (2 * zP) L g (L - 1) * (2 * zP))| ≤ zP := by
  have m0 : mended σ (2 * zP) L g 0 = 0 := by unfold mended; split <;> simp [scan]
  have m1 : ∀ x, x < L → mended σ (2 * zP) L g x = scan σ (2 * zP) 0 g x := by
    intro x hx
    rcases Nat.eq_zero_or_pos x with rfl | hpos
    · rw [m0]; rfl
    · rw [mended, if_pos (h x hpos hx)]
  constructor
  · intro x hx
    rw [m1 _ hx, m1 x (by omega)]
    have := hσ.2 (g (x + 1) - (g x + scan σ (2 * zP) 0 g x * (2 * zP)))
    have e : scan σ (2 * zP) 0 g (x + 1) = σ (g (x + 1) - (g x + scan σ (2 * zP) 0 g x * (2 * zP))) :=
      rfl
    rw [e]
    rwa [show ∀ a b c d : K, a + b - (c + d) = a - (c + d) + b by intros; ring]
  · rw [m0, m1 (L - 1) (by omega), h (L - 1) (by omega) (by omega),
      show L - (L - 1) = 0 + 1 by omega]
    have e : scan σ (2 * zP) 0 (back L g) (0 + 1) =
        σ (back L g 1 - (back L g 0 + (0 : Int) * (2 * zP))) := rfl
    have b1 : back L g 1 = g (L - 1) := by
      simp only [back]; rw [Nat.mod_eq_of_lt (by omega)]
    have b0 : back L g 0 = g 0 := by simp [back]
    have := hσ.2 (back L g 1 - (back L g 0 + (0 : Int) * (2 * zP)))
    rw [e]
    rw [b1, b0] at this ⊢
    rw [abs_sub_comm]
    simpa [sub_add_eq_add_sub, add_sub_assoc] using this

/-! ## The line along z -/

variable [FloorRing K]

/-- One rank. -/
theorem lineSlice_eq {zP : K} (h : 0 < zP) (w : K) {Sf NN Lz fuel : Nat} (hS : 0 < Sf)
    (hN : 1 ≤ NN) {m v : Heap Nat K} {ref : K} {g u : Nat → K}
    (hr : m (Sf * (NN - 1)) = some ref) (hm : ∀ i, i < Lz → m (Sf * (NN + i)) = some (g i))
    (hv : ∀ i, i < Lz → v (Sf * i) = some (u i))
    (hf : ∀ i, i < Lz → (scan (turnsS zP) (2 * zP) (turnsS zP (g 0 - ref)) g i).natAbs ≤ fuel) :
    ∃ m' v', (List.range Lz).foldlM (lineSlice fuel zP w Sf NN) (m, v) = some (m', v') ∧
      (∀ i, i < Lz → m' (Sf * (NN + i)) =
        some (g i + scan (turnsS zP) (2 * zP) (turnsS zP (g 0 - ref)) g i * (2 * zP))) ∧
      (∀ i, i < Lz → v' (Sf * i) =
        some (u i + scan (turnsS zP) (2 * zP) (turnsS zP (g 0 - ref)) g i * w)) ∧
      (∀ a, (∀ i, i < Lz → a ≠ Sf * (NN + i)) → m' a = m a) ∧
      (∀ a, (∀ i, i < Lz → a ≠ Sf * i) → v' a = v a) := by
  set k := scan (turnsS zP) (2 * zP) (turnsS zP (g 0 - ref)) g with hk
  have inj : ∀ i j, Sf * i = Sf * j ↔ i = j := fun i j => Nat.mul_right_inj (by omega)
  obtain ⟨s, e, ⟨p1, p2, p3, p4, p5⟩⟩ := range_inv (s := (m, v)) (f := lineSlice fuel zP w Sf NN)
    (P := fun i s => (∀ j, j < i → s.1 (Sf * (NN + j)) = some (g j + k j * (2 * zP))) ∧
      (∀ j, j < i → s.2 (Sf * j) = some (u j + k j * w)) ∧
      (∀ a, (∀ j, j < i → a ≠ Sf * (NN + j)) → s.1 a = m a) ∧
      (∀ a, (∀ j, j < i → a ≠ Sf * j) → s.2 a = v a) ∧ True) Lz
    ⟨by simp, by simp, fun _ _ => rfl, fun _ _ => rfl, trivial⟩ (by
      rintro i hi ⟨sm, sv⟩ ⟨q1, q2, q3, q4, -⟩
      dsimp only at q1 q2 q3 q4
      have x1 : Sf * i + Sf * (NN - 1) = Sf * (NN - 1 + i) := by ring
      have x2 : Sf * i + Sf * NN = Sf * (NN + i) := by ring
      have x3 : i * Sf = Sf * i := by ring
      have r2 : sm (Sf * (NN + i)) = some (g i) := by
        rw [q3 _ (by intro j hj hc; rw [inj] at hc; omega), hm i hi]
      have r3 : sv (Sf * i) = some (u i) := by
        rw [q4 _ (by intro j hj hc; rw [inj] at hc; omega), hv i hi]
      obtain ⟨mel, r1, hki⟩ : ∃ mel, sm (Sf * (NN - 1 + i)) = some mel ∧
          turnsS zP (g i - mel) = k i := by
        cases i with
        | zero =>
          refine ⟨ref, ?_, rfl⟩
          rw [Nat.add_zero, q3 _ (by intro j hj; omega), hr]
        | succ i =>
          refine ⟨_, ?_, rfl⟩
          rw [show NN - 1 + (i + 1) = NN + i by omega]
          exact q1 i (by omega)
      have wl := whileS_eq h w mel fuel (g i, u i) (by rw [hki]; exact hf i hi)
      rw [hki] at wl
      have w1 := write_eq sm (Sf * (NN + i)) (g i + k i * (2 * zP)) (by rw [r2]; rfl)
      have w2 := write_eq sv (Sf * i) (u i + k i * w) (by rw [r3]; rfl)
      refine ⟨(fun b => if b = Sf * (NN + i) then some (g i + k i * (2 * zP)) else sm b,
        fun b => if b = Sf * i then some (u i + k i * w) else sv b), ?_, ?_⟩
      · simp only [lineSlice, x3, x1, x2, r1, r2, r3, Option.bind_eq_bind, Option.bind_some, wl,
          w1, w2]
        rfl
      · dsimp only
        refine ⟨?_, ?_, ?_, ?_, trivial⟩
        · intro j hj
          by_cases hji : j = i
          · rw [hji, if_pos rfl]
          · rw [if_neg (by rw [inj]; omega), q1 j (by omega)]
        · intro j hj
          by_cases hji : j = i
          · rw [hji, if_pos rfl]
          · rw [if_neg (by rw [inj]; omega), q2 j (by omega)]
        · intro a ha
          rw [if_neg (ha i (by omega)), q3 a fun j hj => ha j (by omega)]
        · intro a ha
          rw [if_neg (ha i (by omega)), q4 a fun j hj => ha j (by omega)])
  exact ⟨s.1, s.2, e, p1, p2, p3, p4⟩

/-- The whole line. -/
theorem mendLine_eq {zP : K} (h : 0 < zP) (w : K) {Sf NN Lz n fuel : Nat} (hS : 0 < Sf)
    (hN : 1 ≤ NN) (hL : 0 < Lz) {s : Ranks K} {g u : Nat → K}
    (hm : ∀ r i, r < n → i < Lz → s.m r (Sf * (NN + i)) = some (g (r * Lz + i)))
    (hg : ∀ r, r < n → (s.m r (Sf * (NN - 1))).isSome)
    (hv : ∀ r i, r < n → i < Lz → s.v r (Sf * i) = some (u (r * Lz + i)))
    {k : Nat → Int} (hk : k = scan (turnsS zP) (2 * zP) (turnsS zP (g 0 - g (n * Lz - 1))) g)
    (hf : ∀ z, z < n * Lz → (k z).natAbs ≤ fuel) :
    ∃ s', mendLine fuel zP w Sf Lz NN n s = some s' ∧
      (∀ r i, r < n → i < Lz →
        s'.m r (Sf * (NN + i)) = some (g (r * Lz + i) + k (r * Lz + i) * (2 * zP))) ∧
      (∀ r i, r < n → i < Lz → s'.v r (Sf * i) = some (u (r * Lz + i) + k (r * Lz + i) * w)) ∧
      (∀ r a, (∀ i, i ≤ Lz → a ≠ Sf * (NN - 1 + i)) → s'.m r a = s.m r a) ∧
      (∀ r a, (∀ i, i < Lz → a ≠ Sf * i) → s'.v r a = s.v r a) := by
  have inj : ∀ i j, Sf * i = Sf * j ↔ i = j := fun i j => Nat.mul_right_inj (by omega)
  obtain ⟨s', e, p1, p2, p3, p4, p5, p6⟩ := range_inv (s := s)
    (f := lineRank fuel zP w Sf Lz NN n)
    (P := fun R t =>
      (∀ r i, r < R → i < Lz →
        t.m r (Sf * (NN + i)) = some (g (r * Lz + i) + k (r * Lz + i) * (2 * zP))) ∧
      (∀ r i, r < R → i < Lz → t.v r (Sf * i) = some (u (r * Lz + i) + k (r * Lz + i) * w)) ∧
      (∀ r a, (∀ i, i ≤ Lz → a ≠ Sf * (NN - 1 + i)) → t.m r a = s.m r a) ∧
      (∀ r a, (∀ i, i < Lz → a ≠ Sf * i) → t.v r a = s.v r a) ∧
      (∀ r a, R ≤ r → t.m r a = s.m r a) ∧ ∀ r a, R ≤ r → t.v r a = s.v r a) n
    ⟨by intros; omega, by intros; omega, fun _ _ _ => rfl, fun _ _ _ => rfl, fun _ _ _ => rfl,
      fun _ _ _ => rfl⟩ (by
      rintro R hR t ⟨q1, q2, q3, q4, q5, q6⟩
      -- the value received
      obtain ⟨ref, hrec, href⟩ : ∃ ref, t.m ((R + n - 1) % n) (Sf * (Lz + NN - 1)) = some ref ∧
          turnsS zP (g (R * Lz) - ref) = k (R * Lz) := by
        have ea : Lz + NN - 1 = NN + (Lz - 1) := by omega
        rcases Nat.eq_zero_or_pos R with rfl | hpos
        · refine ⟨g (n * Lz - 1), ?_, by rw [Nat.zero_mul, hk]; rfl⟩
          rw [Nat.zero_add, Nat.mod_eq_of_lt (by omega), q5 _ _ (by omega), ea,
            hm (n - 1) (Lz - 1) (by omega) (by omega)]
          congr 2
          obtain ⟨n', rfl⟩ : ∃ n', n = n' + 1 := ⟨n - 1, by omega⟩
          rw [Nat.add_sub_cancel, Nat.add_mul]; omega
        · obtain ⟨R', rfl⟩ : ∃ R', R = R' + 1 := ⟨R - 1, by omega⟩
          have eb : (R' + 1 + n - 1) % n = R' := by
            rw [show R' + 1 + n - 1 = R' + n by omega, Nat.add_mod_right, Nat.mod_eq_of_lt (by omega)]
          refine ⟨_, by rw [eb, ea]; exact q1 R' (Lz - 1) (by omega) (by omega), ?_⟩
          have e1 : (R' + 1) * Lz = (R' * Lz + (Lz - 1)) + 1 := by rw [Nat.add_mul]; omega
          rw [e1, hk]; rfl
      have galloc : (t.m R (Sf * (NN - 1))).isSome := by
        rw [q5 R _ le_rfl]; exact hg R hR
      have w1 := write_eq (t.m R) (Sf * (NN - 1)) ref galloc
      have hsc : ∀ i, scan (turnsS zP) (2 * zP) (turnsS zP (g (R * Lz + 0) - ref))
          (fun i => g (R * Lz + i)) i = k (R * Lz + i) := by
        intro i
        rw [Nat.add_zero, href, hk, scan_shift]
      obtain ⟨m', v', f1, f2, f3, f4, f5⟩ := lineSlice_eq h w (fuel := fuel) hS hN
        (m := fun b => if b = Sf * (NN - 1) then some ref else t.m R b) (v := t.v R) (ref := ref)
        (g := fun i => g (R * Lz + i)) (u := fun i => u (R * Lz + i)) (Lz := Lz) (by simp) (by
          intro i hi
          rw [if_neg (by rw [inj]; omega), q5 R _ le_rfl, hm R i hR hi]) (by
          intro i hi
          rw [q6 R _ le_rfl, hv R i hR hi]) (by
          intro i hi
          rw [hsc]; exact hf _ (pair_lt hR hi))
      simp only [hsc] at f2 f3
      refine ⟨t.set R m' v', ?_, ?_, ?_, ?_, ?_, ?_, ?_⟩
      · simp only [lineRank, hrec, Option.bind_eq_bind, Option.bind_some, w1, f1]
        rfl
      · intro r i hr hi
        by_cases hrR : r = R
        · simp only [Ranks.set, if_pos hrR]; rw [hrR]; exact f2 i hi
        · simp only [Ranks.set, if_neg hrR]; exact q1 r i (by omega) hi
      · intro r i hr hi
        by_cases hrR : r = R
        · simp only [Ranks.set, if_pos hrR]; rw [hrR]; exact f3 i hi
        · simp only [Ranks.set, if_neg hrR]; exact q2 r i (by omega) hi
      · intro r a ha
        by_cases hrR : r = R
        · simp only [Ranks.set, if_pos hrR]
          rw [f4 a (by
            intro i hi
            have := ha (i + 1) (by omega)
            rwa [show NN - 1 + (i + 1) = NN + i by omega] at this),
            if_neg (by simpa using ha 0 (by omega)), hrR]
          exact q3 R a ha
        · simp only [Ranks.set, if_neg hrR]; exact q3 r a ha
      · intro r a ha
        by_cases hrR : r = R
        · simp only [Ranks.set, if_pos hrR]
          rw [f5 a ha, hrR]; exact q4 R a ha
        · simp only [Ranks.set, if_neg hrR]; exact q4 r a ha
      · intro r a hr
        simp only [Ranks.set, if_neg (show r ≠ R by omega)]
        exact q5 r a (by omega)
      · intro r a hr
        simp only [Ranks.set, if_neg (show r ≠ R by omega)]
        exact q6 r a (by omega))
  exact ⟨s', e, p1, p2, p3, p4⟩

end Mend
end Jaxions
