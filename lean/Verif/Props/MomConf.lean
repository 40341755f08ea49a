import Verif.Lemmas.MomConf
import Mathlib.Analysis.SpecialFunctions.Trigonometric.Deriv
import Mathlib.Analysis.SpecialFunctions.Trigonometric.Bounds
import Mathlib.Analysis.SpecialFunctions.ExpDeriv
import Mathlib.Analysis.Complex.Norm
/-
C66: initial conditions in momentum space.
-/
noncomputable section

namespace Jaxions.MomConf

/-! ### The modes -/

theorem mode_inBox {g : Geo} {rank : ℕ} {c : Cell} (hr : rank < g.ranks) (hc : g.Valid c) :
    g.InBox (g.mode rank c) := by
  have hy : c.y + g.LLy * rank < g.Lx := by
    have h1 : g.LLy * (rank + 1) ≤ g.LLy * g.ranks := Nat.mul_le_mul_left _ hr
    have h2 : g.LLy * g.ranks ≤ g.Lx := by
      unfold Geo.LLy; rw [Nat.mul_comm]; exact Nat.mul_div_le _ _
    have h3 := hc.1
    rw [Nat.mul_add, Nat.mul_one] at h1
    omega
  refine ⟨?_, signed_range hy, signed_range hc.2.1⟩
  have hx := hc.2.2
  unfold Geo.maxLx at hx
  unfold Geo.mode
  cases hcx : g.cmplx with
  | true => rw [hcx] at hx; exact signed_range hx
  | false =>
    rw [hcx] at hx
    have hx : c.x < g.Lx / 2 + 1 := hx
    rw [if_neg (by simp)]
    unfold signed
    dsimp only
    rw [if_neg (by omega)]
    constructor <;> omega

theorem mode_surj {g : Geo} (_ : 0 < g.ranks) (hd : g.ranks ∣ g.Lx) {p : ℤ × ℤ × ℤ}
    (hp : g.InBox p) : ∃ rank < g.ranks, ∃ c, g.Valid c ∧ g.mode rank c = p := by
  obtain ⟨p1, p2, p3⟩ := hp
  obtain ⟨y, hy, ey⟩ := signed_surj p2
  obtain ⟨z, hz, ez⟩ := signed_surj p3
  have hx : ∃ x < g.maxLx, signed g.Lx x = p.1 := by
    unfold Geo.maxLx
    cases hcx : g.cmplx with
    | true => rw [hcx] at p1; exact signed_surj p1
    | false =>
      rw [hcx, if_neg (by simp)] at p1
      refine ⟨p.1.toNat, ?_, ?_⟩
      · rw [if_neg (by simp)]; omega
      · unfold signed; rw [if_neg (by omega)]; omega
  obtain ⟨x, hx, ex⟩ := hx
  have hL : g.LLy * g.ranks = g.Lx := Nat.div_mul_cancel hd
  have hLy : 0 < g.LLy := by
    rcases Nat.eq_zero_or_pos g.LLy with h | h
    · rw [h, Nat.zero_mul] at hL; omega
    · exact h
  refine ⟨y / g.LLy, ?_, ⟨y % g.LLy, z, x⟩, ⟨Nat.mod_lt _ hLy, hz, hx⟩, ?_⟩
  · rw [← hL, Nat.mul_comm] at hy
    exact lt_of_mul_div hy
  · unfold Geo.mode
    dsimp only
    rw [Nat.mod_add_div, ex, ey, ez]

/-- **C66 (modes).** With a number of ranks that divides the side, every mode of the box belongs
to exactly one cell of exactly one rank. -/
theorem C66_modes {g : Geo} (hr : 0 < g.ranks) (hd : g.ranks ∣ g.Lx) (p : ℤ × ℤ × ℤ)
    (hp : g.InBox p) :
    ∃! rc : ℕ × Cell, rc.1 < g.ranks ∧ g.Valid rc.2 ∧ g.mode rc.1 rc.2 = p := by
  obtain ⟨rank, h1, c, h2, h3⟩ := mode_surj hr hd hp
  refine ⟨(rank, c), ⟨h1, h2, h3⟩, ?_⟩
  rintro ⟨rank', c'⟩ ⟨h1', h2', h3'⟩
  dsimp only at h1' h2' h3'
  have e := h3'.trans h3.symm
  have hL : g.LLy * g.ranks = g.Lx := Nat.div_mul_cancel hd
  have hlt : ∀ {r : ℕ} {c : Cell}, r < g.ranks → g.Valid c → c.y + g.LLy * r < g.Lx := by
    intro r c hr hc
    rw [← hL]
    have h1 : g.LLy * (r + 1) ≤ g.LLy * g.ranks := Nat.mul_le_mul_left _ hr
    have := hc.1
    rw [Nat.mul_add, Nat.mul_one] at h1
    omega
  unfold Geo.mode at e
  simp only [Prod.mk.injEq] at e
  obtain ⟨e1, e2, e3⟩ := e
  have e2 := signed_inj (hlt h1' h2') (hlt h1 h2) e2
  have e3 := signed_inj h2'.2.1 h2.2.1 e3
  have e1 : c'.x = c.x := by
    have a := h2.2.2
    have b := h2'.2.2
    unfold Geo.maxLx at a b
    cases hcx : g.cmplx with
    | true =>
      rw [hcx] at a b
      exact signed_inj b a e1
    | false =>
      rw [hcx, if_neg (by simp)] at a b
      unfold signed at e1
      rw [if_neg (by omega), if_neg (by omega)] at e1
      omega
  rw [Nat.add_comm, Nat.mul_comm, Nat.add_comm c.y, Nat.mul_comm g.LLy] at e2
  obtain ⟨e4, e5⟩ := pair_inj h2'.1 h2.1 e2
  rw [Prod.mk.injEq]
  refine ⟨e4, ?_⟩
  cases c; cases c'; simp_all

/-- Sixteen points on four ranks: the mode (3, -7, 5) is in rank 2. -/
example : (⟨16, 16, 4, true⟩ : Geo).mode 2 ⟨1, 5, 3⟩ = (3, -7, 5) := by decide

/-- **C66 (modes, exactly).** The cells of all ranks cover the box exactly when the number of
ranks divides the side. -/
theorem C66_modes_iff {g : Geo} (hr : 0 < g.ranks) (hx : 0 < g.Lx) (hz : 0 < g.Tz) :
    (∀ p, g.InBox p → ∃ rank < g.ranks, ∃ c, g.Valid c ∧ g.mode rank c = p) ↔ g.ranks ∣ g.Lx := by
  refine ⟨fun h => ?_, fun hd p hp => mode_surj hr hd hp⟩
  by_contra hd
  have hlt : g.LLy * g.ranks < g.Lx := by
    have h1 : g.LLy * g.ranks ≤ g.Lx := by
      unfold Geo.LLy; exact Nat.div_mul_le_self _ _
    rcases Nat.lt_or_ge (g.LLy * g.ranks) g.Lx with h2 | h2
    · exact h2
    · exact absurd ⟨g.LLy, by rw [Nat.mul_comm]; omega⟩ hd
  have hin : g.InBox (0, signed g.Lx (g.Lx - 1), 0) := by
    refine ⟨?_, signed_range (by omega), ?_⟩
    · split_ifs
      · unfold InRange; constructor <;> simp [hx]
      · simp
    · unfold InRange; constructor <;> simp [hz]
  obtain ⟨rank, h1, c, h2, h3⟩ := h _ hin
  unfold Geo.mode at h3
  simp only [Prod.mk.injEq] at h3
  have h4 : g.LLy * (rank + 1) ≤ g.LLy * g.ranks := Nat.mul_le_mul_left _ h1
  rw [Nat.mul_add, Nat.mul_one] at h4
  have h5 := h2.1
  have := signed_inj (by omega) (by omega) h3.2.1
  omega

/-- Ten points on four ranks: the last two rows are in no rank. -/
example : ¬ (4 ∣ 10) := by decide

/-! ### The loop -/

theorem instantiated_of {K : Kind} (h : K ≠ .kcole) : instantiated K = K := by
  cases K <;> first | rfl | exact absurd rfl h

/-- Which thread does a cell, and after how many others that it draws for. -/
theorem tickets {P : Par} {g : Geo} {rank : ℕ} {L : List (ℕ × Cell)} (hL : g.Schedule L) :
    ∃ ticket : Cell → ℕ × ℕ,
      (∀ c, g.Valid c → ∃ a b, L = a ++ ((ticket c).1, c) :: b ∧
        (ticket c).2 = turns g P rank a (ticket c).1) ∧
      (∀ c c', g.Valid c → g.Valid c' → sq (g.mode rank c) ≤ 3 * (g.kmax P.kMax : ℤ) ^ 2 →
        sq (g.mode rank c') ≤ 3 * (g.kmax P.kMax : ℤ) ^ 2 → ticket c = ticket c' → c = c') := by
  have hex : ∀ c, ∃ tk : ℕ × ℕ, g.Valid c → ∃ a b, L = a ++ (tk.1, c) :: b ∧
      tk.2 = turns g P rank a tk.1 := by
    intro c
    by_cases hc : g.Valid c
    · obtain ⟨t, ht⟩ := hL.exists hc
      obtain ⟨a, b, hab⟩ := List.append_of_mem ht
      exact ⟨(t, turns g P rank a t), fun _ => ⟨a, b, hab, rfl⟩⟩
    · exact ⟨(0, 0), fun h => absurd h hc⟩
  choose ticket htk using hex
  refine ⟨ticket, htk, ?_⟩
  · intro c c' hc hc' hd hd' he
    obtain ⟨a, b, hab, ht⟩ := htk c hc
    obtain ⟨a', b', hab', ht'⟩ := htk c' hc'
    rw [← he] at ht' hab'
    have hcount : turns g P rank a (ticket c).1 = turns g P rank a' (ticket c).1 := by
      rw [← ht, ← ht']
    have key : ∀ {a a' b b' : List (ℕ × Cell)} {c c' : Cell} {t : ℕ},
        g.drawn P rank c = true → a ++ (t, c) :: b = a' ++ (t, c') :: b' →
        a.length < a'.length → turns g P rank a t < turns g P rank a' t := by
      intro a a' b b' c c' t hd h hlt
      obtain ⟨m, hm⟩ : ∃ m, a' = a ++ (t, c) :: m := by
        rcases List.append_eq_append_iff.1 h with ⟨m, h1, h2⟩ | ⟨m, h1, h2⟩
        · cases m with
          | nil => rw [h1] at hlt; simp at hlt
          | cons x m =>
            rw [List.cons_append] at h2
            injection h2 with h3 h4
            exact ⟨m, by rw [h1, h3]⟩
        · rw [h1] at hlt; simp at hlt
      rw [hm, show a ++ (t, c) :: m = a ++ ([(t, c)] ++ m) by simp, turns_append, turns_append]
      have : turns g P rank [(t, c)] t = 1 := by simp [turns, hd]
      omega
    rcases Nat.lt_trichotomy a.length a'.length with h | h | h
    · have := key (drawn_iff.2 hd) (hab.symm.trans hab') h
      omega
    · obtain ⟨_, h2⟩ := List.append_inj (hab.symm.trans hab') h
      injection h2 with h3 _
      injection h3
    · have := key (drawn_iff.2 hd') (hab'.symm.trans hab) h
      omega

/-- **C66 (loop).** Whatever threads do the iterations and in whatever order, every cell of the
array is set: to zero outside the ball `p² ≤ 3 kmax²`, inside it to the value of its type for
numbers that no other cell uses.  Nothing beyond the array changes. -/
theorem C66_loop {K : Kind} {P : Par} {g : Geo} {rank : ℕ} {draws : ℕ → ℕ → Draw}
    {L : List (ℕ × Cell)} {s : State} (hL : g.Schedule L) (hs : g.Allocated s)
    (hr : ∀ c, g.Valid c → g.drawn P rank c = true → Reads K P (modP (g.mode rank c))) :
    ∃ s', fill K P g rank draws L s = some s' ∧ ∃ ticket : Cell → ℕ × ℕ,
      (∀ c, g.Valid c → sq (g.mode rank c) ≤ 3 * (g.kmax P.kMax : ℤ) ^ 2 →
        ∃ o, modeOut K P g.Lx (modP (g.mode rank c))
            (draws (ticket c).1 (s.used (ticket c).1 + pairs K * (ticket c).2))
            (draws (ticket c).1 (s.used (ticket c).1 + pairs K * (ticket c).2 + 1)) = some o ∧
          s'.fM (g.idx c) = some o.1 ∧
          s'.fV (g.idx c) = (o.2.map some).getD (s.fV (g.idx c))) ∧
      (∀ c, g.Valid c → ¬ sq (g.mode rank c) ≤ 3 * (g.kmax P.kMax : ℤ) ^ 2 →
        s'.fM (g.idx c) = some 0 ∧ s'.fV (g.idx c) = s.fV (g.idx c)) ∧
      (∀ c c', g.Valid c → g.Valid c' → sq (g.mode rank c) ≤ 3 * (g.kmax P.kMax : ℤ) ^ 2 →
        sq (g.mode rank c') ≤ 3 * (g.kmax P.kMax : ℤ) ^ 2 → ticket c = ticket c' → c = c') ∧
      (∀ a, g.LLy * g.Tz * g.maxLx ≤ a → s'.fM a = s.fM a ∧ s'.fV a = s.fV a) := by
  obtain ⟨s', e1, e2, e3⟩ := fill_spec (draws := draws) hL hs hr
  obtain ⟨ticket, htk, hinj⟩ := tickets (P := P) (rank := rank) hL
  refine ⟨s', e1, ticket, ?_, ?_, hinj, e3⟩
  · intro c hc hd
    obtain ⟨a, b, hab, ht⟩ := htk c hc
    have := e2 a _ b hab
    unfold Filled at this
    rw [if_pos (drawn_iff.2 hd)] at this
    rw [ht]; exact this
  · intro c hc hd
    obtain ⟨a, b, hab, ht⟩ := htk c hc
    have := e2 a _ b hab
    unfold Filled at this
    rwa [if_neg (fun h => hd (drawn_iff.1 h))] at this

/-- **C66 (independence).** Every mode has random numbers of its own: sets of draws, no two of
which have a draw in common, such that the values stored for a mode depend on the draws of its set
only. -/
theorem C66_independent {K : Kind} {P : Par} {g : Geo} {rank : ℕ} {L : List (ℕ × Cell)} {s : State}
    (hL : g.Schedule L) (hs : g.Allocated s)
    (hr : ∀ c, g.Valid c → g.drawn P rank c = true → Reads K P (modP (g.mode rank c))) :
    ∃ own : Cell → Set (ℕ × ℕ),
      (∀ c c', g.Valid c → g.Valid c' → sq (g.mode rank c) ≤ 3 * (g.kmax P.kMax : ℤ) ^ 2 →
        sq (g.mode rank c') ≤ 3 * (g.kmax P.kMax : ℤ) ^ 2 → c ≠ c' → Disjoint (own c) (own c')) ∧
      ∀ draws draws' s₁ s₂, fill K P g rank draws L s = some s₁ →
        fill K P g rank draws' L s = some s₂ → ∀ c, g.Valid c →
        (∀ x ∈ own c, draws x.1 x.2 = draws' x.1 x.2) →
        s₁.fM (g.idx c) = s₂.fM (g.idx c) ∧ s₁.fV (g.idx c) = s₂.fV (g.idx c) := by
  obtain ⟨ticket, htk, hinj⟩ := tickets (P := P) (rank := rank) hL
  let at' : Cell → ℕ := fun c => s.used (ticket c).1 + pairs K * (ticket c).2
  refine ⟨fun c => {x | x.1 = (ticket c).1 ∧ (x.2 = at' c ∨ K = .vthermal ∧ x.2 = at' c + 1)},
    ?_, ?_⟩
  · intro c c' hc hc' hd hd' hne
    rw [Set.disjoint_left]
    rintro ⟨t, k⟩ ⟨h1, h2⟩ ⟨h1', h2'⟩
    dsimp only at h1 h2 h1' h2'
    apply hne
    apply hinj c c' hc hc' hd hd'
    have ht : (ticket c).1 = (ticket c').1 := h1.symm.trans h1'
    refine Prod.ext ht ?_
    simp only [at', ht] at h2 h2'
    by_cases hK : K = .vthermal
    · subst hK
      simp only [pairs] at h2 h2'
      omega
    · have hp : pairs K = 1 := by cases K <;> first | rfl | exact absurd rfl hK
      rw [hp] at h2 h2'
      simp only [hK, false_and, or_false] at h2 h2'
      omega
  · intro draws draws' s₁ s₂ h1 h2 c hc hagree
    obtain ⟨s', e1, e2, -⟩ := fill_spec (draws := draws) hL hs hr
    obtain ⟨s'', f1, f2, -⟩ := fill_spec (draws := draws') hL hs hr
    rw [e1] at h1
    rw [f1] at h2
    cases h1
    cases h2
    obtain ⟨a, b, hab, ht⟩ := htk c hc
    have u := e2 a _ b hab
    have v := f2 a _ b hab
    unfold Filled at u v
    dsimp only at u v
    rw [← ht] at u v
    have g1 : draws (ticket c).1 (at' c) = draws' (ticket c).1 (at' c) :=
      hagree ((ticket c).1, at' c) ⟨rfl, Or.inl rfl⟩
    by_cases hdr : g.drawn P rank c = true
    · rw [if_pos hdr] at u v
      obtain ⟨o, o1, o2, o3⟩ := u
      obtain ⟨q, q1, q2, q3⟩ := v
      have : modeOut K P g.Lx (modP (g.mode rank c)) (draws (ticket c).1 (at' c))
          (draws (ticket c).1 (at' c + 1)) =
          modeOut K P g.Lx (modP (g.mode rank c)) (draws' (ticket c).1 (at' c))
          (draws' (ticket c).1 (at' c + 1)) := by
        by_cases hK : K = .vthermal
        · rw [g1, hagree ((ticket c).1, at' c + 1) ⟨rfl, Or.inr ⟨hK, rfl⟩⟩]
        · rw [g1]
          cases K <;> first | rfl | exact absurd rfl hK
      have hoq : o = q := by
        have e := o1.symm.trans (this.trans q1)
        injection e
      rw [o2, o3, q2, q3, hoq]
      exact ⟨rfl, rfl⟩
    · rw [if_neg hdr] at u v
      rw [u.1, u.2, v.1, v.2]
      exact ⟨rfl, rfl⟩

/-- A schedule of two threads on a rank with two cells. -/
example : (⟨2, 1, 2, true⟩ : Geo).Schedule [(1, ⟨0, 0, 1⟩), (0, ⟨0, 0, 0⟩)] := by
  unfold Geo.Schedule
  decide

/-! ### The spectrum -/

theorem norm_marsa (d : Draw) : ‖marsa false d‖ = 1 := by
  unfold marsa
  rw [if_neg (by simp), mul_one, mul_comm, Complex.norm_exp_ofReal_mul_I]

/-- **C66 (phase).** Every phase is drawn for exactly one number of the unit interval. -/
theorem C66_phase (al : ℝ) (w : ℂ) (hw : ‖w‖ = 1) :
    ∃! u : ℝ, 0 ≤ u ∧ u < 1 ∧ marsa false ⟨u, al⟩ = w := by
  have hm : ∀ u : ℝ, marsa false ⟨u, al⟩ =
      Complex.exp ((2 * Real.pi * u : ℝ) * Complex.I) := by
    intro u
    unfold marsa
    rw [if_neg (by simp), mul_one, mul_comm]
  have hpi := Real.two_pi_pos
  obtain ⟨θ, hθ⟩ : ∃ θ : ℝ, Complex.exp ((θ : ℝ) * Complex.I) = w := by
    refine ⟨Complex.arg w, ?_⟩
    have := Complex.norm_mul_exp_arg_mul_I w
    rwa [hw, Complex.ofReal_one, one_mul] at this
  refine ⟨Int.fract (θ / (2 * Real.pi)), ⟨Int.fract_nonneg _, Int.fract_lt_one _, ?_⟩, ?_⟩
  · rw [hm, ← hθ, Complex.exp_eq_exp_iff_exists_int]
    refine ⟨-⌊θ / (2 * Real.pi)⌋, ?_⟩
    have : 2 * Real.pi * Int.fract (θ / (2 * Real.pi)) =
        θ - ⌊θ / (2 * Real.pi)⌋ * (2 * Real.pi) := by
      rw [Int.fract]
      field_simp
    rw [this]
    push_cast
    ring
  · rintro u ⟨h0, h1, hu⟩
    rw [hm, ← hθ, Complex.exp_eq_exp_iff_exists_int] at hu
    obtain ⟨n, hn⟩ := hu
    have him := congrArg Complex.im hn
    simp only [Complex.add_im, Complex.mul_im, Complex.ofReal_re, Complex.ofReal_im,
      Complex.I_re, Complex.I_im, Complex.mul_re, Complex.intCast_re, Complex.intCast_im,
      Complex.re_ofNat, Complex.im_ofNat] at him
    have : u = θ / (2 * Real.pi) + n := by
      field_simp
      linarith
    rw [this] at h0 h1 ⊢
    symm
    rw [Int.fract_eq_iff]
    exact ⟨h0, h1, -n, by push_cast; ring⟩

theorem norm_scaled (d : Draw) (x : ℝ) : ‖marsa false d * (x : ℂ)‖ = |x| := by
  rw [norm_mul, norm_marsa, one_mul, Complex.norm_real, Real.norm_eq_abs]

theorem modeOut_norm {K : Kind} {P : Par} {Lx n : ℕ} {d d' : Draw} {o : ℂ × Option ℂ}
    (hP : P.rand = false) (hk : 0 < P.kCrt) (h1 : K ≠ .spax) (h2 : K ≠ .vthermal)
    (h : modeOut K P Lx n d d' = some o) : ‖o.1‖ = shape K P.kCrt Lx (Real.sqrt n) := by
  have hq : (n : ℝ) / (P.kCrt * P.kCrt) = (Real.sqrt n / P.kCrt) ^ 2 := by
    rw [div_pow, Real.sq_sqrt (Nat.cast_nonneg n), pow_two]
  have hz : Real.sqrt n = 0 ↔ n = 0 := by
    rw [Real.sqrt_eq_zero (Nat.cast_nonneg n), Nat.cast_eq_zero]
  unfold modeOut at h
  dsimp only at h
  rw [hq, hP] at h
  cases K <;> first | exact absurd rfl h1 | exact absurd rfl h2 | skip
  all_goals
    dsimp only at h
    rw [Option.some.injEq] at h
    subst h
    dsimp only [shape]
    try rw [norm_scaled]
  · exact norm_marsa d
  · unfold sinc
    by_cases h0 : n = 0
    · rw [if_pos h0, if_pos (hz.2 h0), abs_one]
    · rw [if_neg h0, if_neg (fun h => h0 (hz.1 h))]
  · unfold sinc
    by_cases h0 : n = 0
    · rw [if_pos h0, if_pos (hz.2 h0), abs_one]
    · rw [if_neg h0, if_neg (fun h => h0 (hz.1 h))]
  · by_cases h0 : n = 0
    · rw [if_pos h0, hz.2 h0]; simp
    · rw [if_neg h0, abs_of_pos (Real.exp_pos _)]
  · by_cases h0 : n = 0
    · rw [if_pos h0, hz.2 h0]; simp
    · rw [if_neg h0, abs_of_pos (Real.exp_pos _)]
  · by_cases h0 : n = 0
    · rw [if_pos h0, hz.2 h0]; simp
    · rw [if_neg h0, abs_of_pos (div_pos (Real.exp_pos _) (Real.rpow_pos_of_pos (by positivity) _)),
        add_comm]
      congr 3
      rw [div_pow, div_pow, mul_pow]
      field_simp
      ring
  · by_cases h0 : n = 0
    · rw [if_pos h0, hz.2 h0]; simp
    · rw [if_neg h0, abs_of_pos (Real.exp_pos _)]

theorem zeroMode_fM {K : Kind} {rank : ℕ} {mode0 : ℝ} {s : State} (hM : (s.fM 0).isSome)
    (hV : (s.fV 0).isSome) : ∃ s' m', zeroMode K rank mode0 s = some (s', m') ∧
      (∀ a, a ≠ 0 → s'.fM a = s.fM a ∧ s'.fV a = s.fV a) ∧
      (s'.fM 0 = s.fM 0 ∨ rank = 0 ∧ K ≠ .spax ∧
        s'.fM 0 = some (Complex.exp (Complex.I * (mode0 : ℂ)))) := by
  obtain ⟨zM, hzM⟩ := Option.isSome_iff_exists.1 hM
  obtain ⟨zV, hzV⟩ := Option.isSome_iff_exists.1 hV
  unfold zeroMode
  by_cases h1 : K = .spax
  · exact ⟨s, mode0, by rw [if_pos h1], fun _ _ => ⟨rfl, rfl⟩, Or.inl rfl⟩
  rw [if_neg h1]
  by_cases h2 : rank = 0
  · rw [if_pos h2]
    by_cases h3 : mode0 < 3.141597
    · rw [if_pos h3]
      dsimp only
      by_cases h4 : K.inV = true
      · rw [if_pos h4, write_eq _ _ _ hV]
        exact ⟨_, _, rfl, fun a ha => ⟨rfl, if_neg ha⟩, Or.inl rfl⟩
      · rw [if_neg h4, write_eq _ _ _ hM]
        exact ⟨_, _, rfl, fun a ha => ⟨if_neg ha, rfl⟩, Or.inr ⟨h2, h1, by simp⟩⟩
    · rw [if_neg h3]
      by_cases h4 : K.inV = true
      · rw [if_pos h4, hzV]
        exact ⟨_, _, rfl, fun a ha => ⟨rfl, rfl⟩, Or.inl rfl⟩
      · rw [if_neg h4]
        exact ⟨s, zM.arg, by rw [hzM]; rfl, fun a ha => ⟨rfl, rfl⟩, Or.inl rfl⟩
  · rw [if_neg h2]
    exact ⟨_, _, rfl, fun a ha => ⟨rfl, rfl⟩, Or.inl rfl⟩

theorem fill_alloc {K : Kind} {P : Par} {g : Geo} {rank : ℕ} {draws : ℕ → ℕ → Draw}
    {L : List (ℕ × Cell)} {s s' : State} (h : fill K P g rank draws L s = some s') (a : ℕ) :
    (s'.fM a).isSome = (s.fM a).isSome ∧ (s'.fV a).isSome = (s.fV a).isSome := by
  unfold fill at h
  induction L generalizing s with
  | nil => cases h; exact ⟨rfl, rfl⟩
  | cons i L ih =>
    rw [List.foldlM_cons] at h
    cases hi : step K P g rank draws s i with
    | none => rw [hi] at h; exact absurd h (by simp)
    | some t =>
      rw [hi] at h
      obtain ⟨h1, h2⟩ := ih h
      rw [h1, h2]
      have hw : ∀ {f f' : Heap ℕ ℂ} {b : ℕ} {x : ℂ}, f.write b x = some f' →
          (f' a).isSome = (f a).isSome := by
        intro f f' b x hf
        unfold Heap.write at hf
        split at hf
        · next hs =>
          rw [Option.some.injEq] at hf
          subst hf
          dsimp only
          by_cases hab : a = b
          · rw [if_pos hab, hab, hs]; rfl
          · rw [if_neg hab]
        · exact absurd hf (by simp)
      unfold step at hi
      dsimp only at hi
      split at hi
      · cases ho : modeOut K P g.Lx (modP (g.mode rank i.2)) (draws i.1 (s.used i.1))
            (draws i.1 (s.used i.1 + 1)) with
        | none => rw [ho] at hi; exact absurd hi (by simp)
        | some o =>
          rw [ho] at hi
          dsimp only [Option.bind_some] at hi
          cases hm : s.fM.write (g.idx i.2) o.1 with
          | none => rw [hm] at hi; exact absurd hi (by simp)
          | some M =>
            rw [hm] at hi
            dsimp only [Option.bind_some] at hi
            cases hv : putV s.fV (g.idx i.2) o.2 with
            | none => rw [hv] at hi; exact absurd hi (by simp)
            | some V =>
              rw [hv] at hi
              have hi := Option.some.inj hi
              subst hi
              refine ⟨hw hm, ?_⟩
              dsimp only
              cases h2 : o.2 with
              | none => rw [h2] at hv; cases hv; rfl
              | some b => rw [h2] at hv; exact hw hv
      · cases hm : s.fM.write (g.idx i.2) 0 with
        | none => rw [hm] at hi; exact absurd hi (by simp)
        | some M =>
          rw [hm] at hi
          have hi := Option.some.inj hi
          subst hi
          exact ⟨hw hm, rfl⟩

theorem idx_zero {g : Geo} {c : Cell} (hc : g.Valid c) (h : g.idx c = 0) : c = ⟨0, 0, 0⟩ := by
  have : g.Valid ⟨0, 0, 0⟩ := ⟨Nat.lt_of_le_of_lt (Nat.zero_le _) hc.1,
    Nat.lt_of_le_of_lt (Nat.zero_le _) hc.2.1, Nat.lt_of_le_of_lt (Nat.zero_le _) hc.2.2⟩
  refine idx_inj hc this ?_
  rw [h]; simp [Geo.idx]

theorem mode_zero (g : Geo) : g.mode 0 ⟨0, 0, 0⟩ = (0, 0, 0) := by
  simp [Geo.mode, signed_zero]

/-- **C66 (spectrum).** Without random moduli the amplitude of every mode after the call is the
documented function of its length, and zero outside the ball: for every number of ranks and
threads, every order and every sequence of random numbers. -/
theorem C66_spectrum {K : Kind} {P : Par} {g : Geo} {rank : ℕ} {draws : ℕ → ℕ → Draw}
    {L : List (ℕ × Cell)} {s : State} {mode0 : ℝ} (hL : g.Schedule L) (hs : g.Allocated s)
    (hg : 0 < g.LLy * g.Tz * g.maxLx)
    (hP : P.rand = false) (hk : 0 < P.kCrt) (h1 : K ≠ .spax) (h2 : K ≠ .vthermal)
    (h3 : K ≠ .kcole) :
    ∃ s' m', momConf K P g rank draws mode0 L s = some (s', m') ∧
      ∀ c, g.Valid c → ∃ z, s'.fM (g.idx c) = some z ∧
        ‖z‖ = if sq (g.mode rank c) ≤ 3 * (g.kmax P.kMax : ℤ) ^ 2
          then shape K P.kCrt g.Lx (Real.sqrt (sq (g.mode rank c) : ℝ)) else 0 := by
  obtain ⟨t, e1, tk, e2, e3, -, -⟩ := C66_loop (K := K) (P := P) (rank := rank) (draws := draws)
    hL hs (fun c _ _ h => absurd h h1)
  have ha := fill_alloc e1 0
  obtain ⟨s', m', z1, z2, z3⟩ := zeroMode_fM (K := K) (rank := rank) (mode0 := mode0) (s := t)
    (by rw [ha.1]; exact (hs _ hg).1) (by rw [ha.2]; exact (hs _ hg).2)
  refine ⟨s', m', ?_, ?_⟩
  · unfold momConf
    rw [instantiated_of h3, e1]; exact z1
  have hcast : ∀ p, ((sq p : ℤ) : ℝ) = ((modP p : ℕ) : ℝ) := by
    intro p; rw [← modP_eq]; push_cast; rfl
  have hval : ∀ c, g.Valid c → ∃ z, t.fM (g.idx c) = some z ∧
      ‖z‖ = if sq (g.mode rank c) ≤ 3 * (g.kmax P.kMax : ℤ) ^ 2
        then shape K P.kCrt g.Lx (Real.sqrt (sq (g.mode rank c) : ℝ)) else 0 := by
    intro c hc
    by_cases hd : sq (g.mode rank c) ≤ 3 * (g.kmax P.kMax : ℤ) ^ 2
    · obtain ⟨o, o1, o2, -⟩ := e2 c hc hd
      refine ⟨_, o2, ?_⟩
      rw [if_pos hd, hcast]
      exact modeOut_norm hP hk h1 h2 o1
    · refine ⟨_, (e3 c hc hd).1, ?_⟩
      rw [if_neg hd, norm_zero]
  intro c hc
  by_cases h0 : g.idx c = 0
  · rcases z3 with h | ⟨hr, -, h⟩
    · rw [h0, h, ← h0]; exact hval c hc
    · refine ⟨_, by rw [h0]; exact h, ?_⟩
      have := idx_zero hc h0
      subst this
      rw [hr, mode_zero, mul_comm, Complex.norm_exp_ofReal_mul_I]
      rw [if_pos (by unfold sq; positivity)]
      have : ((sq (0, 0, 0) : ℤ) : ℝ) = 0 := by simp [sq]
      rw [this, Real.sqrt_zero]
      cases K <;> simp [shape] <;> first | exact absurd rfl h1 | exact absurd rfl h2
  · rw [(z2 _ h0).1]; exact hval c hc

/-- Two threads on a rank with two cells. -/
example : ∃ s' m', momConf .exp2 ⟨1, 1, 0, 1, [], false⟩ ⟨2, 1, 2, true⟩ 0 (fun _ _ => ⟨1 / 4, 1⟩) 1
    [(1, ⟨0, 0, 1⟩), (0, ⟨0, 0, 0⟩)] ⟨fun _ => some 0, fun _ => some 0, fun _ => 0⟩ =
      some (s', m') := by
  obtain ⟨s', m', h, -⟩ := C66_spectrum (K := .exp2) (P := ⟨1, 1, 0, 1, [], false⟩)
    (g := ⟨2, 1, 2, true⟩) (rank := 0) (draws := fun _ _ => ⟨1 / 4, 1⟩) (mode0 := 1)
    (L := [(1, ⟨0, 0, 1⟩), (0, ⟨0, 0, 0⟩)]) (s := ⟨fun _ => some 0, fun _ => some 0, fun _ => 0⟩)
    (by unfold Geo.Schedule; decide) (fun _ _ => ⟨rfl, rfl⟩) (by decide) rfl (by norm_num)
    (by decide) (by decide) (by decide)
  exact ⟨s', m', h⟩

/-- The default spectrum at `kcr = 2` for a mode of length two. -/
example : shape .exp2 2 16 2 = Real.exp (-1) := by norm_num [shape]

/-- **C66 (cut).** Every mode with all three numbers up to `kmax` is drawn. -/
theorem C66_cut_box {g : Geo} {P : Par} {rank : ℕ} {c : Cell}
    (h1 : |(g.mode rank c).1| ≤ g.kmax P.kMax) (h2 : |(g.mode rank c).2.1| ≤ g.kmax P.kMax)
    (h3 : |(g.mode rank c).2.2| ≤ g.kmax P.kMax) :
    sq (g.mode rank c) ≤ 3 * (g.kmax P.kMax : ℤ) ^ 2 := by
  unfold sq
  have a1 := sq_le_sq' (by linarith [(abs_le.1 h1).1]) (abs_le.1 h1).2
  have a2 := sq_le_sq' (by linarith [(abs_le.1 h2).1]) (abs_le.1 h2).2
  have a3 := sq_le_sq' (by linarith [(abs_le.1 h3).1]) (abs_le.1 h3).2
  linarith

example : (⟨16, 16, 4, true⟩ : Geo).kmax 100 = 7 := by decide

/-- **C66 (cut, not a sphere of radius kmax).** The help text promises modes with `k < kmax`.  For
every `kmax ≥ 1` some mode longer than `kmax` has an amplitude that is not zero. -/
theorem C66_cut_beyond {P : Par} {g : Geo} (hr : 0 < g.ranks) (hd : g.ranks ∣ g.Lx)
    (h4 : 4 ≤ g.Lx) (hz : 0 < g.Tz) (hc : g.cmplx = true) (hk1 : 1 ≤ P.kMax)
    (hP : P.rand = false) (hk : 0 < P.kCrt) :
    ∃ rank < g.ranks, ∃ c, g.Valid c ∧ (g.kmax P.kMax : ℤ) ^ 2 < sq (g.mode rank c) ∧
      ∀ (draws : ℕ → ℕ → Draw) (L : List (ℕ × Cell)) (s : State) (mode0 : ℝ),
        g.Schedule L → g.Allocated s →
        ∃ s' m' z, momConf .exp2 P g rank draws mode0 L s = some (s', m') ∧
          s'.fM (g.idx c) = some z ∧ z ≠ 0 := by
  have hkm : 1 ≤ g.kmax P.kMax ∧ g.kmax P.kMax ≤ g.Lx / 2 - 1 := by
    unfold Geo.kmax; split_ifs <;> omega
  have hin : g.InBox ((g.kmax P.kMax : ℤ), (g.kmax P.kMax : ℤ), 0) := by
    refine ⟨?_, ?_, ?_⟩
    · rw [hc]; unfold InRange; constructor <;> dsimp only <;> omega
    · unfold InRange; constructor <;> dsimp only <;> omega
    · unfold InRange; constructor <;> dsimp only <;> omega
  obtain ⟨rank, h1, c, h2, h3⟩ := mode_surj hr hd hin
  have hsq : sq (g.mode rank c) = 2 * (g.kmax P.kMax : ℤ) ^ 2 := by
    rw [h3]; unfold sq; ring
  have hpos : 0 < (g.kmax P.kMax : ℤ) ^ 2 := by
    have : (0 : ℤ) < g.kmax P.kMax := by omega
    positivity
  refine ⟨rank, h1, c, h2, by omega, ?_⟩
  intro draws L s mode0 hL hs
  have hg : 0 < g.LLy * g.Tz * g.maxLx :=
    Nat.mul_pos (Nat.mul_pos (by have := h2.1; omega) hz) (by have := h2.2.2; omega)
  obtain ⟨s', m', e1, e2⟩ := C66_spectrum (K := .exp2) (rank := rank) (draws := draws)
    (mode0 := mode0) hL hs hg hP hk (by simp) (by simp) (by simp)
  obtain ⟨z, z1, z2⟩ := e2 c h2
  refine ⟨s', m', z, e1, z1, ?_⟩
  rw [if_pos (by omega)] at z2
  intro h0
  rw [h0, norm_zero] at z2
  exact absurd z2 (ne_of_lt (Real.exp_pos _))

/-- **C66 (KCOLE).** The type `MOM_KCOLE` gives the spectrum of `MOM_MEXP`. -/
theorem C66_kcole {P : Par} {g : Geo} {rank : ℕ} {draws : ℕ → ℕ → Draw}
    {L : List (ℕ × Cell)} {s : State} {mode0 : ℝ} :
    momConf .kcole P g rank draws mode0 L s = momConf .exp P g rank draws mode0 L s := rfl

/-- The two differ at a mode of length two with `kcr = 1`. -/
example : shape .kcole 1 16 2 ≠ shape .exp 1 16 2 := by
  norm_num [shape, Real.exp_injective.eq_iff]

/-! ### The table of amplitudes -/

/-- **C66 (table).** For a lattice at least as deep as wide, all ranks read inside the table
exactly when it has more than `⌊√(3 kmax²)⌋ + 1` entries. -/
theorem C66_table {P : Par} {g : Geo} (hr : 0 < g.ranks) (hd : g.ranks ∣ g.Lx)
    (h2 : 2 ≤ g.Lx) (hz : g.Lx ≤ g.Tz) {draws : ℕ → ℕ → Draw} {mode0 : ℝ}
    {L : ℕ → List (ℕ × Cell)} {s : State} (hL : ∀ rank < g.ranks, g.Schedule (L rank))
    (hs : g.Allocated s) :
    (∀ rank < g.ranks, (momConf .spax P g rank draws mode0 (L rank) s).isSome) ↔
      Nat.sqrt (3 * g.kmax P.kMax ^ 2) + 1 < P.tab.length := by
  constructor
  · intro h
    have hkm : g.kmax P.kMax ≤ g.Lx / 2 - 1 := by
      unfold Geo.kmax; split_ifs <;> omega
    have hin : g.InBox ((g.kmax P.kMax : ℤ), (g.kmax P.kMax : ℤ), (g.kmax P.kMax : ℤ)) := by
      refine ⟨?_, ?_, ?_⟩
      · cases g.cmplx with
        | true => unfold InRange; constructor <;> dsimp only <;> omega
        | false => rw [if_neg (by simp)]; constructor <;> dsimp only <;> omega
      · unfold InRange; constructor <;> dsimp only <;> omega
      · unfold InRange; constructor <;> dsimp only <;> omega
    obtain ⟨rank, h1, c, hc, h3⟩ := mode_surj hr hd hin
    obtain ⟨t, ht⟩ := (hL rank h1).exists hc
    have hm : modP (g.mode rank c) = 3 * g.kmax P.kMax ^ 2 := by
      have := modP_eq (g.mode rank c)
      rw [h3] at this ⊢
      have h5 : sq ((g.kmax P.kMax : ℤ), (g.kmax P.kMax : ℤ), (g.kmax P.kMax : ℤ)) =
          ((3 * g.kmax P.kMax ^ 2 : ℕ) : ℤ) := by unfold sq; push_cast; ring
      rw [h5] at this
      exact Int.ofNat_inj.1 this
    by_contra hlen
    have hb : ¬ Reads .spax P (modP (g.mode rank c)) := fun h => hlen (by rw [← hm]; exact h rfl)
    have hdr : g.drawn P rank c = true := by
      rw [drawn_iff, ← modP_eq, hm]; push_cast; exact le_refl _
    have := h rank h1
    unfold momConf at this
    rw [show instantiated .spax = .spax from rfl, fill_none ht hdr hb s] at this
    exact absurd this (by simp)
  · intro h rank h1
    obtain ⟨t, e1, -⟩ := fill_spec (K := .spax) (P := P) (rank := rank) (draws := draws)
      (hL rank h1) hs (by
        intro c _ hd _
        refine Nat.lt_of_le_of_lt (Nat.add_le_add_right (Nat.sqrt_le_sqrt ?_) 1) h
        unfold Geo.drawn at hd
        rw [decide_eq_true_iff] at hd
        rw [pow_two]; exact hd)
    unfold momConf
    rw [show instantiated .spax = .spax from rfl, e1]
    rfl

/-- A table with one entry per mode up to the side is too short for `N = 16`: 14 are needed. -/
example : Nat.sqrt (3 * (⟨16, 16, 1, false⟩ : Geo).kmax 16 ^ 2) + 1 = 13 := by
  rw [show 3 * (⟨16, 16, 1, false⟩ : Geo).kmax 16 ^ 2 = 147 by decide]
  rw [show Nat.sqrt 147 = 12 from (Nat.eq_sqrt.2 (by decide)).symm]

/-- **C66 (table values).** The amplitude of a mode is the entry of the table at its length if
that is a whole number, and lies on the straight line between two entries otherwise. -/
theorem C66_table_value {P : Par} {Lx n : ℕ} {d d' : Draw} {o : ℂ × Option ℂ}
    (hP : P.rand = false) (h : modeOut .spax P Lx n d d' = some o) :
    ∃ c0 c1 lam : ℝ, P.tab[Nat.sqrt n]? = some c0 ∧ P.tab[Nat.sqrt n + 1]? = some c1 ∧
      0 ≤ lam ∧ lam < 1 ∧ Real.sqrt n = Nat.sqrt n + lam ∧ ‖o.1‖ = |(1 - lam) * c0 + lam * c1| ∧
      (∀ j, n = j * j → P.tab[j]? = some c0 ∧ ‖o.1‖ = |c0|) := by
  have hlo : (Nat.sqrt n : ℝ) ≤ Real.sqrt n := Real.nat_sqrt_le_real_sqrt
  have hhi : Real.sqrt n < Nat.sqrt n + 1 := by
    have h1 : n < (Nat.sqrt n + 1) * (Nat.sqrt n + 1) := Nat.lt_succ_sqrt n
    rw [Real.sqrt_lt' (by positivity), pow_two]
    exact_mod_cast h1
  unfold modeOut at h
  dsimp only at h
  cases h0 : P.tab[Nat.sqrt n]? with
  | none => rw [h0] at h; exact absurd h (by simp)
  | some c0 =>
    cases h1 : P.tab[Nat.sqrt n + 1]? with
    | none => rw [h0, h1] at h; exact absurd h (by simp)
    | some c1 =>
      rw [h0, h1] at h
      have h := Option.some.inj h
      have hn : ‖o.1‖ = |(1 - (Real.sqrt n - Nat.sqrt n)) * c0 + (Real.sqrt n - Nat.sqrt n) * c1| := by
        rw [← h, hP]
        dsimp only
        rw [norm_scaled]
        congr 1; ring
      refine ⟨c0, c1, Real.sqrt n - Nat.sqrt n, rfl, rfl, by linarith, by linarith, by ring, hn, ?_⟩
      intro j hj
      have hs : Nat.sqrt n = j := by rw [hj, Nat.sqrt_eq]
      refine ⟨by rw [← hs]; exact h0, ?_⟩
      rw [hn, hs, hj]
      push_cast
      rw [Real.sqrt_mul_self (Nat.cast_nonneg j)]
      congr 1; ring

example : modeOut .spax ⟨8, 1, 0, 1, [5, 7, 9], false⟩ 16 1 ⟨0, 1⟩ ⟨0, 1⟩ ≠ none := by
  obtain ⟨o, ho⟩ := modeOut_some (K := .spax) (P := ⟨8, 1, 0, 1, [5, 7, 9], false⟩) (n := 1)
    (by intro _; rw [show Nat.sqrt 1 = 1 from by norm_num]; simp) 16 ⟨0, 1⟩ ⟨0, 1⟩
  rw [ho]; simp

/-! ### The zero mode -/

/-- **C66 (zero mode).** With a given `mode0` the zero mode, which is in the first cell of rank
zero, is `exp(i mode0)`. -/
theorem C66_zero_mode {K : Kind} {P : Par} {g : Geo} {draws : ℕ → ℕ → Draw}
    {L : List (ℕ × Cell)} {s s' : State} {mode0 m' : ℝ} (h1 : K ≠ .spax) (h2 : K ≠ .vsincos)
    (h3 : K ≠ .vthermal) (hm : mode0 < 3.141597)
    (h : momConf K P g 0 draws mode0 L s = some (s', m')) :
    g.mode 0 ⟨0, 0, 0⟩ = (0, 0, 0) ∧ g.idx ⟨0, 0, 0⟩ = 0 ∧
      s'.fM 0 = some (Complex.exp (Complex.I * (mode0 : ℂ))) ∧ m' = mode0 := by
  refine ⟨mode_zero g, by simp [Geo.idx], ?_⟩
  unfold momConf at h
  cases hf : fill (instantiated K) P g 0 draws L s with
  | none => rw [hf] at h; exact absurd h (by simp)
  | some t =>
    rw [hf] at h
    dsimp only [Option.bind_some] at h
    unfold zeroMode at h
    have a1 : instantiated K ≠ .spax := by cases K <;> simp_all [instantiated]
    have a2 : ¬ (instantiated K).inV = true := by cases K <;> simp_all [instantiated, Kind.inV]
    rw [if_neg a1, if_pos rfl, if_pos hm] at h
    dsimp only at h
    rw [if_neg a2] at h
    unfold Heap.write at h
    split at h
    · have h := Option.some.inj h
      rw [Prod.mk.injEq] at h
      rw [← h.1]
      exact ⟨by simp, h.2.symm⟩
    · exact absurd h (by simp)

/-- **C66 (zero mode of the Tkachev and thermal types).** Here `exp(i mode0)` is stored in the
velocity, and the zero mode of the field keeps its value from the loop. -/
theorem C66_zero_mode_velocity {K : Kind} {P : Par} {g : Geo} {draws : ℕ → ℕ → Draw}
    {L : List (ℕ × Cell)} {s s' : State} {mode0 m' : ℝ} (hK : K = .vsincos ∨ K = .vthermal)
    (hm : mode0 < 3.141597) (h : momConf K P g 0 draws mode0 L s = some (s', m')) :
    s'.fV 0 = some (Complex.exp (Complex.I * (mode0 : ℂ))) ∧
      ∃ t, fill K P g 0 draws L s = some t ∧ s'.fM = t.fM := by
  have hi : instantiated K = K := by rcases hK with rfl | rfl <;> rfl
  unfold momConf at h
  rw [hi] at h
  cases hf : fill K P g 0 draws L s with
  | none => rw [hf] at h; exact absurd h (by simp)
  | some t =>
    rw [hf] at h
    dsimp only [Option.bind_some] at h
    unfold zeroMode at h
    have a1 : K ≠ .spax := by rcases hK with rfl | rfl <;> simp
    have a2 : K.inV = true := by rcases hK with rfl | rfl <;> rfl
    rw [if_neg a1, if_pos rfl, if_pos hm] at h
    dsimp only at h
    rw [if_pos a2] at h
    unfold Heap.write at h
    split at h
    · have h := Option.some.inj h
      rw [Prod.mk.injEq] at h
      rw [← h.1]
      exact ⟨by simp, t, rfl, rfl⟩
    · exact absurd h (by simp)

/-- **C66 (random zero mode).** Without a given value `mode0` becomes the angle of the zero mode. -/
theorem C66_zero_mode_random {K : Kind} {P : Par} {g : Geo} {draws : ℕ → ℕ → Draw}
    {L : List (ℕ × Cell)} {s s' : State} {mode0 m' : ℝ} (h1 : K ≠ .spax) (h2 : K ≠ .vsincos)
    (h3 : K ≠ .vthermal) (hm : ¬ mode0 < 3.141597)
    (h : momConf K P g 0 draws mode0 L s = some (s', m')) :
    ∃ z, s'.fM 0 = some z ∧ z = ‖z‖ * Complex.exp (Complex.I * (m' : ℂ)) := by
  unfold momConf at h
  cases hf : fill (instantiated K) P g 0 draws L s with
  | none => rw [hf] at h; exact absurd h (by simp)
  | some t =>
    rw [hf] at h
    dsimp only [Option.bind_some] at h
    unfold zeroMode at h
    have a1 : instantiated K ≠ .spax := by cases K <;> simp_all [instantiated]
    have a2 : ¬ (instantiated K).inV = true := by cases K <;> simp_all [instantiated, Kind.inV]
    rw [if_neg a1, if_pos rfl, if_neg hm, if_neg a2] at h
    cases hz : t.fM 0 with
    | none => rw [hz] at h; exact absurd h (by simp)
    | some z =>
      rw [hz] at h
      have h := Option.some.inj h
      rw [Prod.mk.injEq] at h
      obtain ⟨e1, e2⟩ := h
      refine ⟨z, by rw [← e1]; exact hz, ?_⟩
      rw [← e2, mul_comm Complex.I]
      exact (Complex.norm_mul_exp_arg_mul_I z).symm

example : ¬ (10 : ℝ) < 3.141597 := by norm_num

/-! ### Velocities -/

/-- **C66 (velocity).** The velocity that `MOM_MVSINCOS` stores, divided by the time `z`, is the
time derivative of the field it stores, when `kCrt = L/(2π z)`. -/
theorem C66_velocity {P : Par} {Lx n : ℕ} {d d' : Draw} {l z : ℝ} (hl : 0 < l) (hz : 0 < z)
    {a b : ℂ} (h : modeOut .vsincos { P with kCrt := l / (2 * Real.pi * z) } Lx n d d' =
      some (a, some b)) :
    HasDerivAt (fun τ : ℝ => ((modeOut .vsincos { P with kCrt := l / (2 * Real.pi * τ) }
      Lx n d d').map Prod.fst).getD 0) (b / (z : ℂ)) z := by
  have hz' : (z : ℂ) ≠ 0 := Complex.ofReal_ne_zero.2 hz.ne'
  unfold modeOut at h
  dsimp only at h
  have h := Option.some.inj h
  rw [Prod.mk.injEq] at h
  obtain ⟨-, h2⟩ := h
  have h2 := Option.some.inj h2
  rw [← h2]
  show HasDerivAt (fun τ : ℝ => marsa P.rand d *
    ((sinc n (Real.sqrt n / (l / (2 * Real.pi * τ))) : ℝ) : ℂ)) _ z
  by_cases h0 : n = 0
  · rw [if_pos h0]
    unfold sinc
    simp only [if_pos h0]
    simpa using hasDerivAt_const z (marsa P.rand d * ((1 : ℝ) : ℂ))
  rw [if_neg h0]
  unfold sinc
  simp only [if_neg h0]
  set k : ℝ := 2 * Real.pi * Real.sqrt n / l with hk
  have hkpos : 0 < k := by
    have : 0 < Real.sqrt n := Real.sqrt_pos.2 (by exact_mod_cast Nat.pos_of_ne_zero h0)
    have := Real.pi_pos
    positivity
  have hkz : ∀ τ : ℝ, Real.sqrt n / (l / (2 * Real.pi * τ)) = k * τ := by
    intro τ
    rw [hk, div_div_eq_mul_div]; ring
  simp only [hkz]
  have h3 : HasDerivAt (fun τ : ℝ => Real.sin (k * τ) / (k * τ))
      ((Real.cos (k * z) - Real.sin (k * z) / (k * z)) / z) z := by
    have a1 : HasDerivAt (fun τ : ℝ => k * τ) k z := by
      simpa using (hasDerivAt_id z).const_mul k
    have a2 := a1.sin.div a1 (by positivity : k * z ≠ 0)
    refine a2.congr_deriv ?_
    have : z ≠ 0 := hz.ne'
    have : k ≠ 0 := hkpos.ne'
    field_simp
  have h4 := (h3.ofReal_comp).const_mul (marsa P.rand d)
  refine h4.congr_deriv ?_
  push_cast
  ring

example : ∃ a b, modeOut .vsincos ⟨8, 1 / (2 * Real.pi * 2), 0, 1, [], true⟩ 16 3 ⟨0, 1⟩ ⟨0, 1⟩ =
    some (a, some b) := ⟨_, _, rfl⟩

/-- **C66 (velocity outside the ball).** Velocities outside the ball are those that were in memory
before the call. -/
theorem C66_velocity_stale {K : Kind} {P : Par} {g : Geo} {rank : ℕ} {draws : ℕ → ℕ → Draw}
    {L : List (ℕ × Cell)} {s : State} {mode0 : ℝ} (hL : g.Schedule L) (hs : g.Allocated s)
    (hg : 0 < g.LLy * g.Tz * g.maxLx) (hK : K = .vsincos ∨ K = .vthermal) :
    ∃ s' m', momConf K P g rank draws mode0 L s = some (s', m') ∧
      ∀ c, g.Valid c → c ≠ ⟨0, 0, 0⟩ → ¬ sq (g.mode rank c) ≤ 3 * (g.kmax P.kMax : ℤ) ^ 2 →
        s'.fV (g.idx c) = s.fV (g.idx c) := by
  have hi : instantiated K = K := by rcases hK with rfl | rfl <;> rfl
  have h1 : K ≠ .spax := by rcases hK with rfl | rfl <;> simp
  obtain ⟨t, e1, tk, e2, e3, -, -⟩ := C66_loop (K := K) (P := P) (rank := rank) (draws := draws)
    hL hs (fun c _ _ h => absurd h h1)
  have ha := fill_alloc e1 0
  obtain ⟨s', m', z1, z2, -⟩ := zeroMode_fM (K := K) (rank := rank) (mode0 := mode0) (s := t)
    (by rw [ha.1]; exact (hs _ hg).1) (by rw [ha.2]; exact (hs _ hg).2)
  refine ⟨s', m', by unfold momConf; rw [hi, e1]; exact z1, ?_⟩
  intro c hc h0 hd
  rw [(z2 _ fun h => h0 (idx_zero hc h)).2]
  exact (e3 c hc hd).2

/-- With `kmax = 1` the mode (2, 2, 2) is outside the ball. -/
example : ¬ sq ((⟨8, 8, 1, true⟩ : Geo).mode 0 ⟨2, 2, 2⟩) ≤
    3 * ((⟨8, 8, 1, true⟩ : Geo).kmax 1 : ℤ) ^ 2 := by decide

/-! ### Strings -/

theorem segment_none {k0N : ℝ} {p : ℤ × ℤ × ℤ} {num : ℝ → ℝ → ℝ → ℝ} {w : ℤ} {xx yy zz : List ℝ}
    {il : ℕ} (h : xx.length ≤ il + 1) : segment k0N p num w xx yy zz il = none := by
  unfold segment
  rw [List.getElem?_eq_none (l := xx) (i := il + 1) h]
  split
  · simp_all
  · rfl

theorem fold_none {f : ℕ → Option ℂ} {l : List ℕ} {i : ℕ} (hi : i ∈ l) (h : f i = none) (su : ℂ) :
    l.foldlM (addSegment f) su = none := by
  induction l generalizing su with
  | nil => exact absurd hi List.not_mem_nil
  | cons j l ih =>
    rw [List.foldlM_cons]
    rcases List.mem_cons.1 hi with rfl | hi
    · unfold addSegment; rw [h]; rfl
    · cases addSegment f su j with
      | none => rfl
      | some t => exact ih hi t

/-- **C66 (strings read too far).** For any non-empty list of points, the modes with `px = 0` other
than zero read behind the end of the list. -/
theorem C66_string_reads {k0N : ℝ} {p : ℤ × ℤ × ℤ} {xx yy zz : List ℝ} (hx : xx ≠ [])
    (h0 : p.1 = 0) (hp : p ≠ (0, 0, 0)) : stringSum k0N p xx yy zz = none := by
  have hlen : 0 < xx.length := List.length_pos_iff.2 hx
  have hm : xx.length - 1 ∈ List.range xx.length := List.mem_range.2 (by omega)
  unfold stringSum
  dsimp only
  rw [if_neg (not_not.2 h0)]
  by_cases h1 : p.2.1 ≠ 0
  · rw [if_pos h1]
    exact fold_none hm (segment_none (by omega)) 0
  · rw [if_neg h1]
    have h2 : p.2.2 ≠ 0 := by
      intro h2
      apply hp
      obtain ⟨a, b, c⟩ := p
      simp only [ne_eq, not_not] at h0 h1 h2
      simp [h0, h1, h2]
    rw [if_pos h2]
    exact fold_none hm (segment_none (by omega)) 0

/-- Such a mode exists on every lattice with two or more slices. -/
theorem C66_string_mode {g : Geo} (hz : 2 ≤ g.Tz) (hx : 0 < g.maxLx) (hy : 0 < g.LLy) :
    ∃ c, g.Valid c ∧ (g.mode 0 c).1 = 0 ∧ g.mode 0 c ≠ (0, 0, 0) := by
  refine ⟨⟨0, 1, 0⟩, ⟨hy, (by omega : 1 < g.Tz), hx⟩, by simp [Geo.mode, signed_zero], ?_⟩
  have : signed g.Tz 1 = 1 := by unfold signed; rw [if_neg (by omega)]; rfl
  simp [Geo.mode, this]

example : ([1, 2, 3] : List ℝ) ≠ [] := by simp

/-- **C66 (segments across the mode).** The factor of a segment tends to one when the segment
becomes orthogonal to the mode, but for an orthogonal segment the code uses zero. -/
theorem C66_string_factor :
    Filter.Tendsto aux (nhdsWithin 0 {0}ᶜ) (nhds 1) ∧ aux 0 = 0 := by
  refine ⟨?_, by simp [aux]⟩
  have h1 : HasDerivAt Real.sin 1 0 := by simpa using Real.hasDerivAt_sin 0
  have h2 : HasDerivAt Real.cos 0 0 := by simpa using Real.hasDerivAt_cos 0
  rw [hasDerivAt_iff_tendsto_slope] at h1 h2
  have h3 : Filter.Tendsto (fun q => ((slope Real.sin 0 q : ℝ) : ℂ) +
      ((slope Real.cos 0 q : ℝ) : ℂ) * Complex.I) (nhdsWithin 0 {0}ᶜ) (nhds (((1 : ℝ) : ℂ) +
      ((0 : ℝ) : ℂ) * Complex.I)) :=
    ((Complex.continuous_ofReal.tendsto _).comp h1).add
      (((Complex.continuous_ofReal.tendsto _).comp h2).mul_const _)
  have h4 : ((1 : ℝ) : ℂ) + ((0 : ℝ) : ℂ) * Complex.I = 1 := by simp
  rw [h4] at h3
  refine h3.congr' ?_
  filter_upwards [self_mem_nhdsWithin] with q hq
  have hq : q ≠ 0 := hq
  unfold aux
  rw [if_neg hq]
  rw [slope_def_field, slope_def_field, Real.sin_zero, Real.cos_zero, sub_zero, sub_zero]
  apply Complex.ext
  · rw [Complex.add_re, Complex.re_ofReal_mul, Complex.ofReal_re, Complex.I_re, mul_zero, add_zero]
  · rw [Complex.add_im, Complex.im_ofReal_mul, Complex.ofReal_im, Complex.I_im, mul_one, zero_add]

/-- **C66 (unsigned denominator).** For a negative mode number the denominator is not `p·modP` but
that number plus `2^64`. -/
theorem C66_string_wrap {p : ℤ} {n : ℕ} (hp : p < 0) (hn : 0 < n) (hb : -p * n < 2 ^ 64) :
    (wrapMul p n : ℤ) = p * n + 2 ^ 64 := by
  have hn' : (1 : ℤ) ≤ n := by exact_mod_cast hn
  have hpb : -p < 2 ^ 64 := lt_of_le_of_lt (le_mul_of_one_le_right (by omega) hn') hb
  have h1 : p % 2 ^ 64 = p + 2 ^ 64 := by
    rw [← Int.add_emod_right, Int.emod_eq_of_lt] <;> omega
  unfold wrapMul
  rw [h1]
  push_cast
  rw [Int.toNat_of_nonneg (by omega)]
  norm_num at hb ⊢
  rw [show (p + 18446744073709551616) * (n : ℤ) = (p * n + 18446744073709551616) +
      18446744073709551616 * (n - 1) by ring,
    Int.add_mul_emod_self_left, Int.emod_eq_of_lt] <;> nlinarith

example : (wrapMul (-1) 5 : ℤ) = 2 ^ 64 - 5 := by decide

end Jaxions.MomConf
