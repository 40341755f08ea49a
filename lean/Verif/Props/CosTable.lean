import Verif.Lemmas.CosTable
import Verif.Props.Spline

/-!
# C78: the cosmology read from a file
-/

namespace Jaxions
namespace CosTable

open Spline

/-! ## Reading the rows -/

section Read
variable {K : Type}

/-- **The rows of the file are read**, all of them and in order, if a blank or a new line follows the last
word; numbers that do not fill a row at the end are left out. -/
theorem C78_rows (rows : List (Row K)) (extra : List K) (h : extra.length < 6) :
    readRows true (words rows ++ extra.map .num) = some rows :=
  readRows_tail true _ (fun v => scan_short 6 0 v extra h) (Or.inr rfl) rows

/-- Without anything after the last number **the last row is lost**: `feof` is already true when the row has
been read (cosmos.cpp:63-67). -/
theorem C78_last_row_lost (rows : List (Row K)) (r : Row K) : readRows false (words (rows ++ [r])) = some rows := by
  have e : words (rows ++ [r]) = words rows ++ r.words := by simp [words]
  rw [e]
  exact readRows_tail false _ (fun v => by rw [scan_last]) (Or.inl (by simp [Row.words])) rows

/-- A word that is not a number, anywhere, and **the program never stops reading**. -/
theorem C78_junk (ends : Bool) (ts : List (Tok K)) (h : .junk ∈ ts) : readRows ends ts = none := by
  unfold readRows
  obtain ⟨e, m⟩ := scan_junk ends 6 0 {} ts h
  simp only [e, Bool.false_eq_true, if_false]
  exact loop_junk ends _ _ _ _ rfl m

/-- A file of numbers only is always read. -/
theorem C78_numbers (xs : List K) : ∃ (rows : List (Row K)) (extra : List K), extra.length < 6 ∧
    words rows ++ extra.map Tok.num = xs.map Tok.num ∧ readRows true (xs.map Tok.num) = some rows := by
  have key : ∀ (L : ℕ) (xs : List K), xs.length = L → ∃ (rows : List (Row K)) (extra : List K), extra.length < 6 ∧
      words rows ++ extra.map Tok.num = xs.map Tok.num := by
    intro L
    induction L using Nat.strong_induction_on with
    | _ L ih =>
      intro xs hL
      match xs, hL with
      | a :: b :: c :: d :: e :: f :: ys, hL =>
        obtain ⟨rows, extra, h1, h2⟩ := ih ys.length (by rw [← hL]; simp only [List.length_cons]; omega) ys rfl
        exact ⟨⟨a, b, c, d, e, f⟩ :: rows, extra, h1, by
          rw [show words (⟨a, b, c, d, e, f⟩ :: rows) =
            [.num a, .num b, .num c, .num d, .num e, .num f] ++ words rows from rfl, List.append_assoc, h2]
          rfl⟩
      | [], _ => exact ⟨[], [], by simp, rfl⟩
      | [a], _ => exact ⟨[], [a], by simp, rfl⟩
      | [a, b], _ => exact ⟨[], [a, b], by simp, rfl⟩
      | [a, b, c], _ => exact ⟨[], [a, b, c], by simp, rfl⟩
      | [a, b, c, d], _ => exact ⟨[], [a, b, c, d], by simp, rfl⟩
      | [a, b, c, d, e], _ => exact ⟨[], [a, b, c, d, e], by simp, rfl⟩
  obtain ⟨rows, extra, h1, h2⟩ := key xs.length xs rfl
  exact ⟨rows, extra, h1, h2, by rw [← h2]; exact C78_rows rows extra h1⟩

example : readRows true (words [⟨1, 1, 100000, 15, 5, 2⟩, ⟨2, 2, 50000, 16, 6, (5 : ℚ)⟩]) =
    some [⟨1, 1, 100000, 15, 5, 2⟩, ⟨2, 2, 50000, 16, 6, 5⟩] := by
  have := C78_rows [⟨1, 1, 100000, 15, 5, 2⟩, ⟨2, 2, 50000, 16, 6, (5 : ℚ)⟩] [] (by simp)
  simpa using this

example : readRows true (words [⟨1, 1, 100000, 15, 5, (2 : ℚ)⟩] ++ [.junk]) = none :=
  C78_junk true _ (by simp)

end Read

/-! ## The search for `eta1` -/

/-- **When the search ends** the interpolated scale agrees with the one asked for to one part in 10⁵ of the
logarithm, after any number of turns and from any start. -/
theorem C78_found {S : ℝ → ℝ} {lfA : ℝ} {fuel : ℕ} {E : Ends} {F : Found} (h : search S lfA fuel E = some F) :
    |S F.leta1 - lfA| ≤ 0.00001 * |lfA| := by
  obtain ⟨h1, h2, h3⟩ := search_some fuel h
  have e : S F.leta1 - lfA = -(1 - F.lfA1 / lfA) * lfA := by
    rw [h1]; field_simp; ring
  rw [e, abs_mul, abs_neg]
  exact mul_le_mul_of_nonneg_right h3 (abs_nonneg _)

/-- **It need not end**: if the interpolated scale comes nowhere that near, no number of turns is enough. -/
theorem C78_never {S : ℝ → ℝ} {lfA : ℝ} (h : ∀ t, 0.00001 * |lfA| < |S t - lfA|) (fuel : ℕ) (E : Ends) :
    search S lfA fuel E = none := by
  cases g : search S lfA fuel E with
  | none => rfl
  | some F => exact absurd (C78_found g) (not_le.mpr (h _))

/-- **One turn.**  The new time is where the chord reaches the scale asked for, the end whose scale is farther
from it is replaced by it, and the ends stay on the interpolation. -/
theorem C78_turn {S : ℝ → ℝ} {lfA : ℝ} {E E' : Ends} {F : Found} (h : turn S lfA E = some (F, E'))
    (h0 : E.f0 = S E.e0) (h2 : E.f2 = S E.e2) :
    (F.leta1 - E.e0) * (S E.e2 - S E.e0) = (lfA - S E.e0) * (E.e2 - E.e0) ∧ F.lfA1 = S F.leta1 ∧
      E'.f0 = S E'.e0 ∧ E'.f2 = S E'.e2 ∧
      (if |S E.e2 - lfA| < |S E.e0 - lfA| then E'.e0 = F.leta1 ∧ E'.e2 = E.e2
        else E'.e0 = E.e0 ∧ E'.e2 = F.leta1) := by
  unfold turn Cosmo.quot at h
  by_cases c1 : E.e2 - E.e0 = 0
  · simp [c1] at h
  by_cases c2 : (E.f2 - E.f0) / (E.e2 - E.e0) = 0
  · simp [c1, c2] at h
  simp only [c1, c2, if_false, Option.bind_eq_bind, Option.bind_some, pure, Option.some.injEq,
    Prod.mk.injEq] at h
  obtain ⟨rfl, rfl⟩ := h
  have c3 : E.f2 - E.f0 ≠ 0 := fun e => c2 (by rw [e, zero_div])
  rw [← h0, ← h2]
  refine ⟨?_, rfl, ?_⟩
  · rw [h0, h2] at c3
    simp only [add_sub_cancel_left, h0, h2]
    field_simp
  · rw [abs_abs]
    split <;> simp [h0, h2]

example : ∃ E' F, turn (fun t => t * t) 9 ⟨1, 4, 1, 16⟩ = some (F, E') ∧ E'.e2 = 4 := by
  refine ⟨_, _, by unfold turn Cosmo.quot; norm_num; exact ⟨rfl, rfl⟩, rfl⟩

/-- On a power law, where the scale is a straight line of the logarithm of time, one turn is enough and the
result is exact, inside the table and outside. -/
theorem C78_power_law {S : ℝ → ℝ} {p q lfA : ℝ} (hp : p ≠ 0) (hl : lfA ≠ 0) (hS : ∀ t, S t = p * t + q) (fuel : ℕ)
    {e0 e2 : ℝ} (he : e0 ≠ e2) : search S lfA (fuel + 1) ⟨e0, e2, S e0, S e2⟩ = some ⟨(lfA - q) / p, lfA⟩ := by
  have h1 : e2 - e0 ≠ 0 := sub_ne_zero.mpr he.symm
  have s1 : Cosmo.quot (S e2 - S e0) (e2 - e0) = some p := by
    unfold Cosmo.quot
    rw [if_neg h1, hS, hS]
    congr 1
    field_simp
    ring
  have s2 : Cosmo.quot (lfA - S e0) p = some ((lfA - S e0) / p) := by
    unfold Cosmo.quot
    rw [if_neg hp]
  have e : e0 + (lfA - S e0) / p = (lfA - q) / p := by
    rw [hS]; field_simp; ring
  have v : S ((lfA - q) / p) = lfA := by
    rw [hS]; field_simp; ring
  unfold search turn
  simp only [Option.bind_eq_bind, s1, s2, Option.bind_some, e, v, pure]
  unfold Cosmo.quot
  rw [if_neg hl, Option.bind_some, div_self hl, if_neg (by norm_num)]

example : search (fun t => 3 * t + 1) 12 1 ⟨0, 1, 1, 4⟩ = some ⟨(12 - 1) / 3, 12⟩ := by
  have := C78_power_law (S := fun t => 3 * t + 1) (p := 3) (q := 1) (lfA := 12) (by norm_num) (by norm_num)
    (fun _ => rfl) 0 (e0 := 0) (e2 := 1) (by norm_num)
  norm_num at this ⊢
  exact this

/-! ## The units -/

/-- **The first loop must start at zero.**  The counter of cosmos.cpp:93 has no initial value; with any other
the two columns differ in length and the assertion of `set_points` stops the program. -/
theorem C78_start {fuel s1 s2 : ℕ} {fA : ℝ} {rows : List (Row ℝ)} {t : Tab}
    (h : setup fuel s1 s2 fA rows = some t) : s1 = 0 := by
  unfold setup at h
  simp only [Option.bind_eq_bind] at h
  by_cases h0 : rows.length = 0
  · rw [if_pos h0] at h; cases h
  rw [if_neg h0] at h
  by_cases h1 : ¬(0 < fA ∧ ∀ i < rows.length - s1, 0 < col rows Row.eta (s1 + i))
  · rw [if_pos h1] at h; cases h
  rw [if_neg h1] at h
  obtain ⟨S, h2, _⟩ := Option.bind_eq_some_iff.mp h
  unfold spl at h2
  split_ifs at h2 with h3
  omega

/-- What a call that succeeds has done. -/
theorem setup_some {fuel s1 s2 : ℕ} {fA : ℝ} {rows : List (Row ℝ)} {t : Tab} (h : setup fuel s1 s2 fA rows = some t) :
    s1 = 0 ∧ 0 < fA ∧ Good rows ∧ t.n = rows.length ∧ (s2 < rows.length → t.R1 ≠ 0 ∧ t.chi1 ≠ 0) ∧ 0 < t.eta1 ∧
    (∃ S F, setPoints rows.length (fun i => Real.logb 10 (col rows Row.eta i)) (col rows Row.pf) true false (.second 0)
        (.second 0) = some S ∧ search S.eval (Real.logb 10 fA) fuel
          ⟨Real.logb 10 (col rows Row.eta 0), Real.logb 10 (col rows Row.eta (rows.length - 1)), col rows Row.pf 0,
            col rows Row.pf (rows.length - 1)⟩ = some F ∧ t.eta1 = 10 ^ F.leta1) ∧
    (∃ R, setPoints rows.length (col rows Row.eta) (col rows Row.R) true false (.second 0) (.second 0) = some R ∧
      t.R1 = R.eval t.eta1) ∧
    (∃ χ, setPoints rows.length (col rows Row.eta) (col rows Row.chi) true false (.second 0) (.second 0) = some χ ∧
      t.chi1 = χ.eval t.eta1) ∧
    setPoints rows.length (divide s2 (col rows Row.eta) t.eta1) (divide s2 (col rows Row.R) t.R1) true false (.second 0)
      (.second 0) = some t.sR ∧
    setPoints rows.length (divide s2 (col rows Row.eta) t.eta1) (col rows Row.T) true false (.second 0) (.second 0) =
      some t.sT ∧
    setPoints rows.length (divide s2 (col rows Row.eta) t.eta1) (col rows Row.Rpp) true false (.second 0) (.second 0) =
      some t.sRpp ∧
    setPoints rows.length (divide s2 (col rows Row.eta) t.eta1) (divide s2 (col rows Row.chi) t.chi1) true false
      (.second 0) (.second 0) = some t.schi := by
  obtain rfl := C78_start h
  unfold setup at h
  simp only [Option.bind_eq_bind, Nat.sub_zero, Nat.zero_add, spl, if_true] at h
  by_cases h0 : rows.length = 0
  · rw [if_pos h0] at h; cases h
  rw [if_neg h0] at h
  by_cases h1 : ¬(0 < fA ∧ ∀ i < rows.length, 0 < col rows Row.eta i)
  · rw [if_pos h1] at h; cases h
  rw [if_neg h1] at h
  obtain ⟨S, h2, h⟩ := Option.bind_eq_some_iff.mp h
  obtain ⟨F, h3, h⟩ := Option.bind_eq_some_iff.mp h
  obtain ⟨R, h4, h⟩ := Option.bind_eq_some_iff.mp h
  obtain ⟨χ, h5, h⟩ := Option.bind_eq_some_iff.mp h
  by_cases h6 : s2 < rows.length ∧ (R.eval (10 ^ F.leta1) = 0 ∨ χ.eval (10 ^ F.leta1) = 0)
  · rw [if_pos h6] at h; cases h
  rw [if_neg h6] at h
  obtain ⟨a, h7, h⟩ := Option.bind_eq_some_iff.mp h
  obtain ⟨b, h8, h⟩ := Option.bind_eq_some_iff.mp h
  obtain ⟨c, h9, h⟩ := Option.bind_eq_some_iff.mp h
  obtain ⟨d, h10, h⟩ := Option.bind_eq_some_iff.mp h
  obtain rfl := Option.some.inj h
  obtain ⟨g1, g2⟩ := not_not.mp h1
  obtain ⟨k1, k2⟩ := (C77_called _ _ _ _ _ _ _).mp ⟨R, h4⟩
  refine ⟨rfl, g1, ⟨k1, g2, k2⟩, rfl, ?_, Real.rpow_pos_of_pos (by norm_num) _, ⟨S, F, h2, h3, rfl⟩,
    ⟨R, h4, rfl⟩, ⟨χ, h5, rfl⟩, h7, h8, h9, h10⟩
  intro hs
  by_contra g
  exact h6 ⟨hs, by
    by_cases q : R.eval (10 ^ F.leta1) = 0
    · exact Or.inl q
    · by_cases q' : χ.eval (10 ^ F.leta1) = 0
      · exact Or.inr q'
      · exact absurd ⟨q, q'⟩ g⟩

theorem divide_zero (v : ℕ → ℝ) (d : ℝ) : divide 0 v d = fun i => v i / d := by
  funext i
  unfold divide
  rw [if_pos (Nat.zero_le i)]

/-- **The units.**  If both counters start at zero, scale factor and susceptibility are one at conformal time
one, and at every time all four functions are the interpolations of the table at the time in the units
of the file. -/
theorem C78_units {fuel s1 : ℕ} {fA : ℝ} {rows : List (Row ℝ)} {t : Tab} (h : setup fuel s1 0 fA rows = some t) :
    t.sR.eval 1 = 1 ∧ t.schi.eval 1 = 1 ∧ ∃ R χ T P : Spl ℝ,
      setPoints rows.length (col rows Row.eta) (col rows Row.R) true false (.second 0) (.second 0) = some R ∧
      setPoints rows.length (col rows Row.eta) (col rows Row.chi) true false (.second 0) (.second 0) = some χ ∧
      setPoints rows.length (col rows Row.eta) (col rows Row.T) true false (.second 0) (.second 0) = some T ∧
      setPoints rows.length (col rows Row.eta) (col rows Row.Rpp) true false (.second 0) (.second 0) = some P ∧
      ∀ ct, t.sR.eval ct = R.eval (t.eta1 * ct) / R.eval t.eta1 ∧
        t.schi.eval ct = χ.eval (t.eta1 * ct) / χ.eval t.eta1 ∧
        t.sT.eval ct = T.eval (t.eta1 * ct) ∧ t.sRpp.eval ct = P.eval (t.eta1 * ct) := by
  obtain ⟨_, _, hg, _, hne, h1, _, ⟨R, hR, eR⟩, ⟨χ, hχ, eχ⟩, k1, k2, k3, k4⟩ := setup_some h
  obtain ⟨hR1, hχ1⟩ := hne (by have := hg.1; omega)
  obtain ⟨T, hT⟩ := setPoints_some hg.1 hg.2.2 (col rows Row.T) true false (.second 0) (.second 0)
  obtain ⟨P, hP⟩ := setPoints_some hg.1 hg.2.2 (col rows Row.Rpp) true false (.second 0) (.second 0)
  simp only [divide_zero] at k1 k2 k3 k4
  have one : ∀ (v : ℕ → ℝ), (fun i => v i / 1) = v := fun v => funext fun i => div_one _
  have sR : ∀ ct, t.sR.eval ct = R.eval (t.eta1 * ct) / R.eval t.eta1 := by
    intro ct; rw [← eR]; exact scale h1 hR1 hR k1 ct
  have sχ : ∀ ct, t.schi.eval ct = χ.eval (t.eta1 * ct) / χ.eval t.eta1 := by
    intro ct; rw [← eχ]; exact scale h1 hχ1 hχ k4 ct
  refine ⟨?_, ?_, R, χ, T, P, hR, hχ, hT, hP, fun ct => ⟨sR ct, sχ ct, ?_, ?_⟩⟩
  · rw [sR, mul_one, div_self (by rw [← eR]; exact hR1)]
  · rw [sχ, mul_one, div_self (by rw [← eχ]; exact hχ1)]
  · have := scale h1 one_ne_zero hT (S' := t.sT) (by rw [one]; exact k2) ct
    rwa [div_one] at this
  · have := scale h1 one_ne_zero hP (S' := t.sRpp) (by rw [one]; exact k3) ct
    rwa [div_one] at this

/-- **The acceleration** `R''/R` at time `ct`: the column of the table at that time over `ct²`. -/
theorem C78_acceleration {fuel s1 : ℕ} {fA : ℝ} {rows : List (Row ℝ)} {t : Tab}
    (h : setup fuel s1 0 fA rows = some t) {ct : ℝ} (hc : ct ≠ 0) :
    ∃ P, setPoints rows.length (col rows Row.eta) (col rows Row.Rpp) true false (.second 0) (.second 0) = some P ∧
      t.Rpp ct = some (P.eval (t.eta1 * ct) / ct ^ 2) := by
  obtain ⟨_, _, _, _, _, P, _, _, _, hP, hv⟩ := C78_units h
  refine ⟨P, hP, ?_⟩
  rw [← (hv ct).2.2.2, Tab.Rpp, Cosmo.quot, if_neg (mul_ne_zero hc hc), sq]

/-- **The second loop.**  Its counter (cosmos.cpp:135) has no initial value either.  Started beyond the table,
or at a negative number, which is taken as a huge one, it does nothing: the functions stay in the units
of the file. -/
theorem C78_units_lost {fuel s1 s2 : ℕ} {fA : ℝ} {rows : List (Row ℝ)} {t : Tab} (hs : rows.length ≤ s2)
    (h : setup fuel s1 s2 fA rows = some t) : ∃ R χ : Spl ℝ,
      setPoints rows.length (col rows Row.eta) (col rows Row.R) true false (.second 0) (.second 0) = some R ∧
      setPoints rows.length (col rows Row.eta) (col rows Row.chi) true false (.second 0) (.second 0) = some χ ∧
      ∀ i < rows.length, t.sR.eval (col rows Row.eta i) = col rows Row.R i ∧
        t.schi.eval (col rows Row.eta i) = col rows Row.chi i ∧ t.sT.eval (col rows Row.eta i) = col rows Row.T i := by
  obtain ⟨_, _, hg, _, hne, h1, _, ⟨R, hR, eR⟩, ⟨χ, hχ, eχ⟩, k1, k2, k3, k4⟩ := setup_some h
  refine ⟨R, χ, hR, hχ, fun i hi => ?_⟩
  have d : ∀ (v : ℕ → ℝ) (a : ℝ), divide s2 v a i = v i := fun v a => by
    unfold divide; rw [if_neg (by omega)]
  have e1 := C77_through k1 hi
  have e2 := C77_through k4 hi
  have e3 := C77_through k2 hi
  rw [d, d] at e1 e2
  rw [d] at e3
  exact ⟨e1, e2, e3⟩

/-- **When the setup succeeds** with both counters at zero: three rows or more, positive increasing times, a
positive scale, a search that ends, and interpolations that do not vanish where they divide. -/
theorem C78_succeeds {fuel : ℕ} {fA : ℝ} {rows : List (Row ℝ)} :
    (∃ t, setup fuel 0 0 fA rows = some t) ↔ 0 < fA ∧ Good rows ∧ ∃ S F R χ,
      setPoints rows.length (fun i => Real.logb 10 (col rows Row.eta i)) (col rows Row.pf) true false (.second 0)
        (.second 0) = some S ∧ search S.eval (Real.logb 10 fA) fuel
          ⟨Real.logb 10 (col rows Row.eta 0), Real.logb 10 (col rows Row.eta (rows.length - 1)), col rows Row.pf 0,
            col rows Row.pf (rows.length - 1)⟩ = some F ∧
      setPoints rows.length (col rows Row.eta) (col rows Row.R) true false (.second 0) (.second 0) = some R ∧
      setPoints rows.length (col rows Row.eta) (col rows Row.chi) true false (.second 0) (.second 0) = some χ ∧
      R.eval (10 ^ F.leta1) ≠ 0 ∧ χ.eval (10 ^ F.leta1) ≠ 0 := by
  constructor
  · rintro ⟨t, h⟩
    obtain ⟨_, a, hg, _, hne, h1, ⟨S, F, g1, g2, g3⟩, ⟨R, hR, eR⟩, ⟨χ, hχ, eχ⟩, _⟩ := setup_some h
    obtain ⟨hR1, hχ1⟩ := hne (by have := hg.1; omega)
    refine ⟨a, hg, S, F, R, χ, g1, g2, hR, hχ, ?_, ?_⟩
    · rw [← g3, ← eR]; exact hR1
    · rw [← g3, ← eχ]; exact hχ1
  · rintro ⟨a, hg, S, F, R, χ, g1, g2, g3, g4, g5, g6⟩
    obtain ⟨hn, hpos, hinc⟩ := hg
    have hη : 0 < (10 : ℝ) ^ F.leta1 := Real.rpow_pos_of_pos (by norm_num) _
    have hinc' : Increasing rows.length (fun i => col rows Row.eta i / (10 : ℝ) ^ F.leta1) :=
      fun i hi => div_lt_div_of_pos_right (hinc i hi) hη
    obtain ⟨s1, e1⟩ := setPoints_some hn hinc' (fun i => col rows Row.R i / R.eval (10 ^ F.leta1)) true false
      (.second 0) (.second 0)
    obtain ⟨s2, e2⟩ := setPoints_some hn hinc' (col rows Row.T) true false (.second 0) (.second 0)
    obtain ⟨s3, e3⟩ := setPoints_some hn hinc' (col rows Row.Rpp) true false (.second 0) (.second 0)
    obtain ⟨s4, e4⟩ := setPoints_some hn hinc' (fun i => col rows Row.chi i / χ.eval (10 ^ F.leta1)) true false
      (.second 0) (.second 0)
    refine ⟨⟨rows.length, s1, s2, s3, s4, 10 ^ F.leta1, R.eval (10 ^ F.leta1), χ.eval (10 ^ F.leta1)⟩, ?_⟩
    · unfold setup
      simp only [Option.bind_eq_bind, Nat.sub_zero, Nat.zero_add, spl, if_true]
      rw [if_neg (by omega), if_neg (not_not.mpr ⟨a, hpos⟩), g1, Option.bind_some, g2, Option.bind_some, g3,
        Option.bind_some, g4, Option.bind_some, if_neg (by rintro ⟨_, h | h⟩ <;> contradiction), divide_zero,
        divide_zero, divide_zero, e1, Option.bind_some, e2, Option.bind_some, e3, Option.bind_some, e4,
        Option.bind_some]
      rfl

/-- **What conformal time one means**: the interpolated scale at `eta1` is the one asked for, to one part in
10⁵ of the logarithm. -/
theorem C78_time_one {fuel s1 s2 : ℕ} {fA : ℝ} {rows : List (Row ℝ)} {t : Tab}
    (h : setup fuel s1 s2 fA rows = some t) : ∃ S : Spl ℝ,
      setPoints rows.length (fun i => Real.logb 10 (col rows Row.eta i)) (col rows Row.pf) true false (.second 0)
        (.second 0) = some S ∧
      |S.eval (Real.logb 10 t.eta1) - Real.logb 10 fA| ≤ 0.00001 * |Real.logb 10 fA| := by
  obtain ⟨_, _, _, _, _, _, ⟨S, F, g1, g2, g3⟩, _⟩ := setup_some h
  refine ⟨S, g1, ?_⟩
  rw [g3, Real.logb_rpow (by norm_num) (by norm_num)]
  exact C78_found g2

/-! ## A table -/

/-- Three rows of a power law. -/
noncomputable def three : List (Row ℝ) := [⟨1, 1, 300, 0, 1, 1⟩, ⟨10, 10, 30, 0, 5, 2⟩, ⟨100, 100, 3, 0, 7, 3⟩]

theorem col_beyond (rows : List (Row ℝ)) (f : Row ℝ → ℝ) {s : ℕ} (hs : rows.length ≤ s) (d : ℝ) :
    divide s (col rows f) d = col rows f := by
  funext i
  unfold divide
  by_cases h : s ≤ i
  · rw [if_pos h]
    unfold col
    rw [List.getElem?_eq_none (by omega)]
    simp
  · rw [if_neg h]

theorem three_good : Good three := by
  refine ⟨by simp [three], ?_, ?_⟩
  · intro i hi
    have hi : i < 3 := hi
    obtain rfl | rfl | rfl : i = 0 ∨ i = 1 ∨ i = 2 := by omega
    all_goals norm_num [three, col]
  · intro i hi
    have hi : i + 1 < 3 := hi
    obtain rfl | rfl : i = 0 ∨ i = 1 := by omega
    all_goals norm_num [three, col]

/-- The search on this table, with the scale 100, finds the time 10. -/
theorem three_search : ∃ S : Spl ℝ, setPoints 3 (fun i => Real.logb 10 (col three Row.eta i)) (col three Row.pf) true
    false (.second 0) (.second 0) = some S ∧ search S.eval (Real.logb 10 100) 1
      ⟨Real.logb 10 (col three Row.eta 0), Real.logb 10 (col three Row.eta 2), col three Row.pf 0,
        col three Row.pf 2⟩ = some ⟨1, 2⟩ := by
  have l0 : Real.logb 10 (col three Row.eta 0) = 0 := by simp [three, col]
  have l1 : Real.logb 10 (col three Row.eta 1) = 1 := by simp [three, col]
  have e100 : Real.logb 10 100 = 2 := by
    rw [show (100 : ℝ) = 10 ^ (2 : ℝ) by norm_num, Real.logb_rpow (by norm_num) (by norm_num)]
  have l2 : Real.logb 10 (col three Row.eta 2) = 2 := by
    rw [show col three Row.eta 2 = 100 by norm_num [three, col], e100]
  have hinc : Increasing 3 (fun i => Real.logb 10 (col three Row.eta i)) := by
    intro i hi
    obtain rfl | rfl : i = 0 ∨ i = 1 := by omega
    · show Real.logb 10 _ < Real.logb 10 _
      rw [l0, l1]; norm_num
    · show Real.logb 10 _ < Real.logb 10 _
      rw [l1, l2]; norm_num
  obtain ⟨S, hS⟩ := setPoints_some (by omega) hinc (col three Row.pf) true false (.second 0) (.second 0)
  have hpf : ∀ i < 3, col three Row.pf i = 1 * Real.logb 10 (col three Row.eta i) + 1 := by
    intro i hi
    obtain rfl | rfl | rfl : i = 0 ∨ i = 1 ∨ i = 2 := by omega
    · rw [l0]; norm_num [three, col]
    · rw [l1]; norm_num [three, col]
    · rw [l2]; norm_num [three, col]
  have line : ∀ t, 0 ≤ t → t ≤ 2 → S.eval t = t + 1 := by
    have hc : IsCubic 3 (fun i => Real.logb 10 (col three Row.eta i)) (col three Row.pf) (.second 0) (.second 0)
        (fun _ => 0) (fun _ => 0) (fun _ => 1) := by
      refine ⟨fun i hi => ?_, fun i _ => by ring, fun i _ => by ring, by simp [End.Holds], by simp [End.Holds]⟩
      rw [hpf i (by omega), hpf (i + 1) hi]
      ring
    intro t h1 h2
    rcases le_total t 1 with g | g
    · rw [C77_unique hS hc (i := 0) (by omega) (by rw [l0]; exact h1) (by rw [l1]; exact g), hpf 0 (by omega)]
      ring
    · rw [C77_unique hS hc (i := 1) (by omega) (by rw [l1]; exact g) (by rw [l2]; exact h2), hpf 1 (by omega)]
      ring
  refine ⟨S, hS, ?_⟩
  rw [hpf 0 (by omega), hpf 2 (by omega), l0, l2, e100]
  unfold search turn
  simp only [Option.bind_eq_bind]
  have q1 : Cosmo.quot (1 * 2 + 1 - (1 * 0 + 1)) (2 - 0) = some 1 := by
    unfold Cosmo.quot; rw [if_neg (by norm_num)]; norm_num
  have q2 : Cosmo.quot (2 - (1 * 0 + 1)) 1 = some 1 := by
    unfold Cosmo.quot; rw [if_neg (by norm_num)]; norm_num
  rw [q1, Option.bind_some, q2]
  simp only [Option.bind_some, pure]
  rw [show (0 : ℝ) + 1 = 1 by norm_num, line 1 (by norm_num) (by norm_num)]
  have q3 : Cosmo.quot (1 + 1) 2 = some 1 := by
    unfold Cosmo.quot; rw [if_neg (by norm_num)]; norm_num
  rw [q3, Option.bind_some, if_neg (by norm_num)]
  norm_num

/-- **What the uninitialised counter costs.**  The same file and the same scale: with the second loop started
at zero the temperature at conformal time one is that of the row of `eta1`; with the counter beyond the
table it is that of the first row. -/
theorem C78_units_differ : ∃ t t' : Tab, setup 1 0 0 100 three = some t ∧ setup 1 0 3 100 three = some t' ∧
    t.eta1 = 10 ∧ t.sT.eval 1 = 30 ∧ t'.sT.eval 1 = 300 := by
  obtain ⟨S, hS, hF⟩ := three_search
  obtain ⟨R, hR⟩ := setPoints_some three_good.1 three_good.2.2 (col three Row.R) true false (.second 0) (.second 0)
  obtain ⟨χ, hχ⟩ := setPoints_some three_good.1 three_good.2.2 (col three Row.chi) true false (.second 0) (.second 0)
  have h10 : col three Row.eta 1 = 10 := by norm_num [three, col]
  have hp : (10 : ℝ) ^ (1 : ℝ) = col three Row.eta 1 := by rw [h10]; norm_num
  have hR1 : R.eval (10 ^ (1 : ℝ)) = 10 := by
    rw [hp, C77_through hR (show 1 < 3 by omega)]; norm_num [three, col]
  have hχ1 : χ.eval (10 ^ (1 : ℝ)) = 5 := by
    rw [hp, C77_through hχ (show 1 < 3 by omega)]; norm_num [three, col]
  obtain ⟨t, ht⟩ := (C78_succeeds (fuel := 1) (fA := 100) (rows := three)).mpr
    ⟨by norm_num, three_good, S, ⟨1, 2⟩, R, χ, hS, hF, hR, hχ, by rw [hR1]; norm_num, by rw [hχ1]; norm_num⟩
  obtain ⟨T, hT⟩ := setPoints_some three_good.1 three_good.2.2 (col three Row.T) true false (.second 0) (.second 0)
  obtain ⟨P, hP⟩ := setPoints_some three_good.1 three_good.2.2 (col three Row.Rpp) true false (.second 0) (.second 0)
  have ht' : setup 1 0 3 100 three = some ⟨3, R, T, P, χ, 10 ^ (1 : ℝ), R.eval (10 ^ (1 : ℝ)), χ.eval (10 ^ (1 : ℝ))⟩ := by
    have hlen : three.length = 3 := rfl
    unfold setup
    simp only [Option.bind_eq_bind, Nat.sub_zero, Nat.zero_add, spl, if_true, col_beyond three _ (le_refl 3)]
    rw [hlen] at hR hχ hT hP ⊢
    rw [if_neg (by omega), if_neg (not_not.mpr ⟨by norm_num, three_good.2.1⟩), hS, Option.bind_some, hF,
      Option.bind_some, hR, Option.bind_some, hχ, Option.bind_some, if_neg (by omega), Option.bind_some, hT,
      Option.bind_some, hP, Option.bind_some, Option.bind_some]
    rfl
  have e1 : t.eta1 = 10 := by
    obtain ⟨_, _, _, _, _, _, ⟨S', F', g1, g2, g3⟩, _⟩ := setup_some ht
    have : S' = S := Option.some.inj (g1.symm.trans hS)
    subst this
    have : F' = ⟨1, 2⟩ := Option.some.inj (g2.symm.trans hF)
    rw [g3, this]; norm_num
  refine ⟨t, _, ht, ht', e1, ?_, ?_⟩
  · obtain ⟨_, _, _, _, T', _, _, _, hT', _, hct⟩ := C78_units ht
    rw [(hct 1).2.2.1, e1, mul_one, ← h10, C77_through hT' (show 1 < 3 by omega)]
    norm_num [three, col]
  · have : T.eval (col three Row.eta 0) = col three Row.T 0 := C77_through hT (show 0 < 3 by omega)
    have h0 : col three Row.eta 0 = 1 := by norm_num [three, col]
    have h00 : col three Row.T 0 = 300 := by norm_num [three, col]
    rw [h0, h00] at this
    exact this

/-! ## The rate of expansion -/

/-- **The rate of expansion with a table** is a difference over `2·10⁻³` (cosmos.cpp:196).  Between two points of
the table it is the logarithmic slope of the interpolated scale factor plus `a·10⁻⁶/R`, where `a` is the
cubic coefficient of the interval; so it is the slope exactly where the cubic term vanishes. -/
theorem C78_rate {n : ℕ} {x y : ℕ → ℝ} {left right : End ℝ} {S : Spl ℝ}
    (h : setPoints n x y true false left right = some S) (c : Cosmo.Cosmos) (hu : c.ueCosm = true)
    (hR : c.sR = S.eval) {ct : ℝ} {i : ℕ} (hi : i + 1 < n) (h1 : x i ≤ ct - 1e-3) (h2 : ct + 1e-3 ≤ x (i + 1))
    (h0 : c.R ct ≠ 0) :
    ∃ p, c.Rp ct = some p ∧ p = (deriv S.eval ct + S.a i * 1e-6) / c.R ct ∧
      (p = deriv S.eval ct / c.R ct ↔ S.a i = 0) := by
  obtain ⟨hn, hx, a, b, d, hs, rfl⟩ := setPoints_cubic h
  have F := fits_cubic hn hx hs false
  have hd := (C77_slope h ct).deriv
  have hval : ∀ t, c.R t = (finish n x y false ⟨a, b, d⟩).eval t := by
    intro t; unfold Cosmo.Cosmos.R; simp only [hu, if_true, hR]
  have hp : c.Rp ct = some ((deriv (finish n x y false ⟨a, b, d⟩).eval ct +
      (finish n x y false ⟨a, b, d⟩).a i * 1e-6) / c.R ct) := by
    unfold Cosmo.Cosmos.Rp Cosmo.quot
    simp only [hu, if_true]
    rw [if_neg (mul_ne_zero (by norm_num) h0), hd, F.derivI (i := i) hi (by show x i ≤ ct; linarith)
      (by show ct ≤ x (i + 1); linarith), hval (ct + 1e-3), hval (ct - 1e-3),
      F.evalI (i := i) hi (by show x i ≤ ct + 1e-3; linarith) h2,
      F.evalI (i := i) hi h1 (by show ct - 1e-3 ≤ x (i + 1); linarith)]
    congr 1
    rw [div_eq_div_iff (mul_ne_zero (by norm_num) h0) h0]
    ring
  refine ⟨_, hp, rfl, ?_⟩
  rw [div_left_inj' h0]
  constructor
  · intro g
    have : (finish n x y false ⟨a, b, d⟩).a i * 1e-6 = 0 := by linarith
    rcases mul_eq_zero.mp this with q | q
    · exact q
    · norm_num at q
  · intro g
    rw [g]; ring

end CosTable
end Jaxions
