import Verif.Model.Nonrel
import Verif.Lemmas.MassRate
import Verif.Basic.Fold
import Verif.Basic.Writes
import Mathlib.Analysis.SpecialFunctions.Sqrt
import Mathlib.Analysis.SpecialFunctions.Pow.Deriv
/-
C64: the conversion of the axion to its nonrelativistic forms.
-/
namespace Jaxions.Nonrel

open Cosmo

/-! ### Memory -/

/-- Cells `0 .. n-1` of an array exist. -/
def Has (h : Mem) (a : Arr) (n : Nat) : Prop := ∀ i, (h (a, i)).isSome ↔ i < n

/-- What the loop of the Paxion conversion leaves. -/
theorem pax_loop {s1 s2 ad : ℝ} (h2 : s2 ≠ 0) {b V : Nat} {order : List Nat}
    (ho : order.Perm (List.range V)) {h : Mem} {x y : Nat → ℝ}
    (hx : ∀ i < V, h (.m, b + i) = some (x i)) (hy : ∀ i < V, h (.v, i) = some (y i)) :
    ∃ h', order.foldlM (paxSite s1 s2 ad b) h = some h' ∧
      (∀ i < V, h' (.m, b + i) = some (x i * s1) ∧ h' (.v, i) = some (y i / s2 + x i * s1 * ad)) ∧
      ∀ a, (∀ i < V, a ≠ (.m, b + i) ∧ a ≠ (.v, i)) → h' a = h a := by
  have hnd : order.Nodup := ho.nodup_iff.2 List.nodup_range
  have hlt : ∀ i, i ∈ order ↔ i < V := fun i => by rw [ho.mem_iff, List.mem_range]
  obtain ⟨h', e1, e2, e3⟩ := foldlM_inv (f := paxSite s1 s2 ad b) (s := h)
    (P := fun pre t => (∀ i < V,
        (i ∈ pre → t (.m, b + i) = some (x i * s1) ∧ t (.v, i) = some (y i / s2 + x i * s1 * ad)) ∧
        (i ∉ pre → t (.m, b + i) = some (x i) ∧ t (.v, i) = some (y i))) ∧
      ∀ a, (∀ i < V, a ≠ (.m, b + i) ∧ a ≠ (.v, i)) → t a = h a) order
    ⟨fun i hi => ⟨fun h0 => absurd h0 (by simp), fun _ => ⟨hx i hi, hy i hi⟩⟩, fun a _ => rfl⟩ (by
    rintro pre i post hL t ⟨t1, t2⟩
    have hi : i < V := (hlt i).1 (by rw [hL]; simp)
    have hpre : i ∉ pre := by
      rw [hL, List.nodup_append] at hnd
      intro hc
      exact hnd.2.2 i hc i (by simp) rfl
    obtain ⟨m1, m2⟩ := (t1 i hi).2 hpre
    have w1 : (t (.m, b + i)).isSome := by rw [m1]; rfl
    refine ⟨fun a => if a = (.v, i) then some (y i / s2 + x i * s1 * ad)
      else if a = (.m, b + i) then some (x i * s1) else t a, ?_, ?_, ?_⟩
    · unfold paxSite
      simp only [m1, Option.bind_eq_bind, Option.bind_some, write_eq _ _ _ w1]
      have e : ((Arr.v, i) = (Arr.m, b + i)) = False := by simp
      have e' : ((Arr.m, b + i) = (Arr.v, i)) = False := by simp
      simp only [e, if_false, m2, Option.bind_some, quot, h2]
      rw [write_eq _ _ _ (by simp only [e, if_false, m2]; rfl)]
      simp only [Option.bind_some, if_true, e', if_false]
      rw [write_eq _ _ _ (by simp only [if_true]; rfl)]
      congr 1
      funext a
      by_cases ha : a = (.v, i)
      · rw [if_pos ha, if_pos ha]
      · rw [if_neg ha, if_neg ha, if_neg ha]
    · intro j hj
      constructor
      · intro hjp
        by_cases hji : j = i
        · subst hji
          refine ⟨?_, ?_⟩
          · dsimp only; rw [if_neg (by simp), if_pos rfl]
          · dsimp only; rw [if_pos rfl]
        · have hjp' : j ∈ pre := by
            rcases List.mem_append.1 hjp with h | h
            · exact h
            · exact absurd (List.mem_singleton.1 h) hji
          obtain ⟨q1, q2⟩ := (t1 j hj).1 hjp'
          refine ⟨?_, ?_⟩
          · dsimp only; rw [if_neg (by simp), if_neg (by simp [hji]), q1]
          · dsimp only; rw [if_neg (by simp [hji]), if_neg (by simp), q2]
      · intro hjp
        have hji : j ≠ i := by
          rintro rfl; exact hjp (by simp)
        obtain ⟨q1, q2⟩ := (t1 j hj).2 (fun hc => hjp (by simp [hc]))
        refine ⟨?_, ?_⟩
        · dsimp only; rw [if_neg (by simp), if_neg (by simp [hji]), q1]
        · dsimp only; rw [if_neg (by simp [hji]), if_neg (by simp), q2]
    · intro a ha
      obtain ⟨a1, a2⟩ := ha i hi
      dsimp only
      rw [if_neg a2, if_neg a1, t2 a ha])
  exact ⟨h', e1, fun i hi => (e2 i hi).1 ((hlt i).2 hi), e3⟩

/-- **C64** The conversion to the Paxion: whatever the order of the threads, real part and imaginary
part lie behind the ghost slices, as the formula of the conversion says. -/
theorem C64_paxion_sites {n : Now} {ad : ℝ} (had : n.adiab = some ad) (hm : 0 < n.mA * n.R)
    {NG S V : Nat} {order : List Nat} (ho : order.Perm (List.range V)) {h : Mem} {x y : Nat → ℝ}
    (hx : ∀ i < V, h (.m, NG * S + i) = some (x i)) (hy : ∀ i < V, h (.v, i) = some (y i))
    (hv : ∀ i < NG * S + V, (h (.v, i)).isSome) :
    ∃ h', thPaxion n NG S V order h = some h' ∧ ∀ i < V,
      h' (.m, NG * S + i) = some (Real.sqrt (n.mA * n.R / 2) * x i) ∧
      h' (.v, NG * S + i) = some (y i / Real.sqrt (2 * (n.mA * n.R)) +
        ad * (Real.sqrt (n.mA * n.R / 2) * x i)) := by
  have e1 : n.sq1 = Real.sqrt (n.mA * n.R / 2) := by
    unfold Now.sq1; congr 1; norm_num; ring
  have e2 : n.sq2 = Real.sqrt (2 * (n.mA * n.R)) := by
    unfold Now.sq2; congr 1; norm_num; ring
  have hs2 : n.sq2 ≠ 0 := by
    rw [e2]; exact (Real.sqrt_pos.2 (by positivity)).ne'
  obtain ⟨h1, k1, k2, k3⟩ := pax_loop (s1 := n.sq1) (ad := ad) hs2 ho hx hy
  have hv1 : ∀ i < NG * S + V, (h1 (.v, i)).isSome := by
    intro i hi
    by_cases hV : i < V
    · rw [(k2 i hV).2]; rfl
    · rw [k3 (.v, i) (fun j hj => ⟨by simp, by intro e; injection e with _ e; omega⟩)]
      exact hv i hi
  obtain ⟨h2, k4, k5, k6⟩ := memmove_spec (fun i => (Arr.v, NG * S + i)) (fun i => (Arr.v, i)) V h1
    (fun i hi => hv1 i (by omega)) (fun i hi => hv1 _ (by omega))
    (fun i _ j _ e => by injection e with _ e; omega)
  refine ⟨h2, ?_, fun i hi => ⟨?_, ?_⟩⟩
  · unfold thPaxion
    simp only [had, Option.bind_eq_bind, Option.bind_some, k1, k4]
  · rw [k6 _ (fun j _ => by simp), (k2 i hi).1, e1, mul_comm]
  · rw [k5 i hi, (k2 i hi).2, e1, e2, mul_comm (x i), mul_comm _ ad]

/-- **C64** The conversion to the Paxion stays inside the velocities exactly when they have room for
`NG` more slices. -/
theorem C64_paxion_bounds {n : Now} {ad : ℝ} (had : n.adiab = some ad) (hm : 0 < n.mA * n.R)
    {NG S V E : Nat} (hV : 0 < V) {order : List Nat} (ho : order.Perm (List.range V)) {h : Mem}
    (hmE : Has h .m (2 * (NG * S) + V)) (hvE : Has h .v E) (hE : V ≤ E) :
    (thPaxion n NG S V order h).isSome ↔ NG * S + V ≤ E := by
  have gx : ∀ i, ∃ x, i < V → h (.m, NG * S + i) = some x := by
    intro i
    by_cases hi : i < V
    · obtain ⟨x, hx⟩ := Option.isSome_iff_exists.1 ((hmE (NG * S + i)).2 (by omega))
      exact ⟨x, fun _ => hx⟩
    · exact ⟨0, fun h => absurd h hi⟩
  have gy : ∀ i, ∃ y, i < V → h (.v, i) = some y := by
    intro i
    by_cases hi : i < V
    · obtain ⟨x, hx⟩ := Option.isSome_iff_exists.1 ((hvE i).2 (by omega))
      exact ⟨x, fun _ => hx⟩
    · exact ⟨0, fun h => absurd h hi⟩
  choose x hx using gx
  choose y hy using gy
  constructor
  · intro hs
    by_contra hlt
    have hs2 : n.sq2 ≠ 0 := by
      unfold Now.sq2
      refine (Real.sqrt_pos.2 ?_).ne'
      rw [mul_assoc]; positivity
    obtain ⟨h1, k1, k2, k3⟩ := pax_loop (s1 := n.sq1) (ad := ad) hs2 ho hx hy
    unfold thPaxion at hs
    simp only [had, Option.bind_eq_bind, Option.bind_some, k1] at hs
    obtain ⟨h2, k4⟩ := Option.isSome_iff_exists.1 hs
    have := memmove_dst k4 (V - 1) (by omega)
    rw [k3 _ (fun j hj => ⟨by simp, by intro e; injection e with _ e; omega⟩), hvE] at this
    omega
  · intro hle
    obtain ⟨h', e, -⟩ := C64_paxion_sites had hm ho hx hy (fun i hi => (hvE i).2 (by omega))
    rw [e]; rfl

/-- Finding: a field created as axion has `Lz + 2` slices of velocities; the conversion runs over
their end from three ghost slices on, and the ghosts of the Paxion do not fit from two on. -/
theorem C64_paxion_created_axion {n : Now} {ad : ℝ} (had : n.adiab = some ad) (hm : 0 < n.mA * n.R)
    {NG S Lz : Nat} (hS : 0 < S) (hL : 0 < Lz) {order : List Nat}
    (ho : order.Perm (List.range (Lz * S))) {h : Mem}
    (hmE : Has h .m (2 * (NG * S) + Lz * S)) (hvE : Has h .v ((Lz + 2) * S)) :
    ((thPaxion n NG S (Lz * S) order h).isSome ↔ NG ≤ 2) ∧
      ((∀ i < 2 * (NG * S) + Lz * S, (h (.v, i)).isSome) ↔ NG ≤ 1) := by
  have e : (Lz + 2) * S = Lz * S + 2 * S := Nat.add_mul _ _ _
  constructor
  · rw [C64_paxion_bounds had hm (Nat.mul_pos hL hS) ho hmE hvE (by omega), e]
    constructor
    · intro h1
      have : NG * S ≤ 2 * S := by omega
      exact Nat.le_of_mul_le_mul_right this hS
    · intro h1
      have := Nat.mul_le_mul_right S h1
      omega
  · constructor
    · intro h1
      by_contra hc
      have h2 : 2 * S ≤ NG * S := Nat.mul_le_mul_right S (by omega)
      have := (hvE _).1 (h1 (2 * (NG * S) + Lz * S - 1) (by omega))
      omega
    · intro h1 i hi
      have : NG * S ≤ 1 * S := Nat.mul_le_mul_right S h1
      exact (hvE i).2 (by omega)

/-- What the loop of the Naxion conversion leaves. -/
theorem nax_loop {s : ℝ} (hs : s ≠ 0) {b V : Nat} {order : List Nat}
    (ho : order.Perm (List.range V)) {h : Mem} {x y : Nat → ℝ}
    (hx : ∀ i < V, h (.m, b + i) = some (x i)) (hy : ∀ i < V, h (.v, i) = some (y i))
    (h2 : ∀ i < 2 * V, (h (.m2, i)).isSome) :
    ∃ h', order.foldlM (naxSite s b) h = some h' ∧
      (∀ i < V, h' (.m2, 2 * i) = some (x i * s) ∧ h' (.m2, 2 * i + 1) = some (-y i / s)) ∧
      ∀ a, (∀ i < 2 * V, a ≠ (.m2, i)) → h' a = h a := by
  have hnd : order.Nodup := ho.nodup_iff.2 List.nodup_range
  have hlt : ∀ i, i ∈ order ↔ i < V := fun i => by rw [ho.mem_iff, List.mem_range]
  obtain ⟨h', e1, e2, e3, e4⟩ := foldlM_inv (f := naxSite s b) (s := h)
    (P := fun pre t => (∀ i < V, i ∈ pre →
        t (.m2, 2 * i) = some (x i * s) ∧ t (.m2, 2 * i + 1) = some (-y i / s)) ∧
      (∀ i < 2 * V, (t (.m2, i)).isSome) ∧
      ∀ a, (∀ i < 2 * V, a ≠ (.m2, i)) → t a = h a) order
    ⟨fun i hi h0 => absurd h0 (by simp), h2, fun a _ => rfl⟩ (by
    rintro pre i post hL t ⟨t1, t2, t3⟩
    have hi : i < V := (hlt i).1 (by rw [hL]; simp)
    have m1 : t (.m, b + i) = some (x i) := by
      rw [t3 _ (fun j _ => by simp), hx i hi]
    have m2 : t (.v, i) = some (y i) := by
      rw [t3 _ (fun j _ => by simp), hy i hi]
    refine ⟨fun a => if a = (.m2, 2 * i + 1) then some (-y i / s)
      else if a = (.m2, 2 * i) then some (x i * s) else t a, ?_, ?_, ?_, ?_⟩
    · unfold naxSite
      simp only [m1, Option.bind_eq_bind, Option.bind_some, write_eq _ _ _ (t2 (2 * i) (by omega))]
      have e : ((Arr.v, i) = (Arr.m2, 2 * i)) = False := by simp
      simp only [e, if_false, m2, Option.bind_some, quot, hs]
      rw [write_eq _ _ _ (by
        rw [if_neg (by intro e; injection e with _ e; omega)]
        exact t2 _ (by omega))]
    · intro j hj hjp
      by_cases hji : j = i
      · subst hji
        refine ⟨?_, ?_⟩
        · dsimp only; rw [if_neg (by intro e; injection e with _ e; omega), if_pos rfl]
        · dsimp only; rw [if_pos rfl]
      · have hjp' : j ∈ pre := by
          rcases List.mem_append.1 hjp with h | h
          · exact h
          · exact absurd (List.mem_singleton.1 h) hji
        obtain ⟨q1, q2⟩ := t1 j hj hjp'
        refine ⟨?_, ?_⟩
        · dsimp only; rw [if_neg (by intro e; injection e with _ e; omega),
            if_neg (by intro e; injection e with _ e; omega), q1]
        · dsimp only; rw [if_neg (by intro e; injection e with _ e; omega),
            if_neg (by intro e; injection e with _ e; omega), q2]
    · intro j hj
      simp only
      split
      · rfl
      · split
        · rfl
        · exact t2 j hj
    · intro a ha
      dsimp only
      rw [if_neg (ha _ (by omega)), if_neg (ha _ (by omega)), t3 a ha])
  exact ⟨h', e1, fun i hi => e2 i hi ((hlt i).2 hi), e4⟩

/-- **C64** The conversion to the Naxion: site `i` is the complex number `√M θ - i θ' / √M` of the
array `m`, behind its ghosts. -/
theorem C64_naxion_sites {n : Now} (hm : 0 < n.mA * n.R) {NG S V : Nat} {order : List Nat}
    (ho : order.Perm (List.range V)) {h : Mem} {x y : Nat → ℝ} {w : Nat → Arr × Nat}
    (hw : ∀ i j, w i = w j → i = j) (hw2 : ∀ i, (w i).1 ≠ .m2)
    (hwE : ∀ i < 2 * (V + S * NG), (h (w i)).isSome)
    (hx : ∀ i < V, h (.m, NG * S + i) = some (x i)) (hy : ∀ i < V, h (.v, i) = some (y i))
    (h2 : ∀ i < 2 * V, (h (.m2, i)).isSome) :
    ∃ h', thNaxion n w NG S V order h = some h' ∧ ∀ i < V,
      h' (w (2 * (S * NG + i))) = some (Real.sqrt (n.mA * n.R) * x i) ∧
      h' (w (2 * (S * NG + i) + 1)) = some (-(y i / Real.sqrt (n.mA * n.R))) := by
  have hs : Real.sqrt (n.mA * n.R) ≠ 0 := (Real.sqrt_pos.2 hm).ne'
  obtain ⟨h1, k1, k2, k3⟩ := nax_loop hs ho hx hy h2
  have keep : ∀ i, h1 (w i) = h (w i) := fun i => k3 _ (fun j _ e => hw2 i (by rw [e]))
  obtain ⟨h', k4, k5, k6⟩ := memcpy_spec (fun i => w (2 * S * NG + i)) (fun i => (Arr.m2, i)) (2 * V) h1
    (fun i hi => by
      rcases Nat.even_or_odd' i with ⟨j, rfl | rfl⟩
      · rw [(k2 j (by omega)).1]; rfl
      · rw [(k2 j (by omega)).2]; rfl)
    (fun i hi => by
      rw [keep]
      refine hwE _ ?_
      rw [Nat.mul_assoc]
      omega)
    (fun i _ j _ e => by have := hw _ _ e; omega)
    (fun i _ j _ e => hw2 _ (by rw [e]))
  refine ⟨h', ?_, fun i hi => ⟨?_, ?_⟩⟩
  · unfold thNaxion
    simp only [k1, Option.bind_eq_bind, Option.bind_some, k4]
  · have := k5 (2 * i) (by omega)
    rw [show 2 * (S * NG + i) = 2 * S * NG + 2 * i by rw [Nat.mul_assoc]; omega, this,
      (k2 i hi).1, mul_comm]
  · have := k5 (2 * i + 1) (by omega)
    rw [show 2 * (S * NG + i) + 1 = 2 * S * NG + (2 * i + 1) by rw [Nat.mul_assoc]; omega, this,
      (k2 i hi).2, neg_div]

/-! ### What the converted field is -/

/-- The formula of the conversion to the Paxion. -/
noncomputable def pax (M ad θ θ' : ℝ) : ℂ :=
  ⟨Real.sqrt (M / 2) * θ, θ' / Real.sqrt (2 * M) + ad * (Real.sqrt (M / 2) * θ)⟩

/-- The formula of the conversion to the Naxion. -/
noncomputable def nax (M θ θ' : ℝ) : ℂ := ⟨Real.sqrt M * θ, -(θ' / Real.sqrt M)⟩

/-- **C64** Without the adiabatic term the number density times the mass is the energy of the
oscillator; the Naxion has twice the number. -/
theorem C64_number {M : ℝ} (hM : 0 < M) (θ θ' : ℝ) :
    M * Complex.normSq (pax M 0 θ θ') = (θ' ^ 2 + M ^ 2 * θ ^ 2) / 2 ∧
      Complex.normSq (nax M θ θ') = 2 * Complex.normSq (pax M 0 θ θ') := by
  have a1 : Real.sqrt (M / 2) * Real.sqrt (M / 2) = M / 2 := Real.mul_self_sqrt (by positivity)
  have a2 : Real.sqrt (2 * M) * Real.sqrt (2 * M) = 2 * M := Real.mul_self_sqrt (by positivity)
  have a3 : Real.sqrt M * Real.sqrt M = M := Real.mul_self_sqrt hM.le
  have e : Complex.normSq (pax M 0 θ θ') = M / 2 * θ ^ 2 + θ' ^ 2 / (2 * M) := by
    simp only [Complex.normSq_apply, pax, zero_mul, add_zero]
    rw [div_mul_div_comm, a2, show Real.sqrt (M / 2) * θ * (Real.sqrt (M / 2) * θ) =
      Real.sqrt (M / 2) * Real.sqrt (M / 2) * θ ^ 2 by ring, a1]
    ring
  have e' : Complex.normSq (nax M θ θ') = M * θ ^ 2 + θ' ^ 2 / M := by
    simp only [Complex.normSq_apply, nax, neg_mul_neg]
    rw [div_mul_div_comm, a3, show Real.sqrt M * θ * (Real.sqrt M * θ) =
      Real.sqrt M * Real.sqrt M * θ ^ 2 by ring, a3]
    ring
  rw [e, e']
  constructor
  · field_simp
    ring
  · field_simp

/-- **C64** The adiabatic term is there to make the real part change at the rate `M` times the
imaginary part while the mass changes: this holds exactly when the coefficient is `M' / (2 M²)`. -/
theorem C64_adiabatic {M θ : ℝ → ℝ} {t M' θ' ad : ℝ} (hM : 0 < M t) (hM' : HasDerivAt M M' t)
    (hθ : HasDerivAt θ θ' t) :
    HasDerivAt (fun s => Real.sqrt (M s / 2) * θ s)
      (M t * (pax (M t) ad (θ t) θ').im - (M t * ad - M' / (2 * M t)) * (pax (M t) ad (θ t) θ').re) t := by
  have hp : 0 < Real.sqrt (M t / 2) := Real.sqrt_pos.2 (by positivity)
  have a1 : Real.sqrt (M t / 2) * Real.sqrt (M t / 2) = M t / 2 := Real.mul_self_sqrt (by positivity)
  have e2 : Real.sqrt (2 * M t) = 2 * Real.sqrt (M t / 2) := by
    rw [show 2 * M t = 2 ^ 2 * (M t / 2) by ring, Real.sqrt_mul (by positivity),
      Real.sqrt_sq (by norm_num)]
  refine (((hM'.div_const 2).sqrt (by positivity)).mul hθ).congr_deriv ?_
  simp only [pax, e2]
  have hMt : M t = 2 * (Real.sqrt (M t / 2) * Real.sqrt (M t / 2)) := by rw [a1]; ring
  generalize Real.sqrt (M t / 2) = r at *
  rw [hMt]
  field_simp
  ring

/-- Finding: the coefficient in the code is `M' / (2 M²)`, for `M = m_A R` with the mass not
shrinking, only when `R = 1`. -/
theorem C64_adiab_iff {n : Now} (hm : 0 < n.mA) (hR : 0 < n.R) (ht : 0 < n.ct) (hf : 0 ≤ n.frw)
    (hd : 0 ≤ n.dm2) (hne : n.frw ≠ 0 ∨ n.dm2 ≠ 0) {mA R : ℝ → ℝ} {mA' : ℝ} (h1 : mA n.ct = n.mA)
    (h2 : R n.ct = n.R) (h3 : HasDerivAt mA mA' n.ct) (h4 : HasDerivAt R (n.frw / n.ct * n.R) n.ct)
    (h5 : n.dm2 = 2 * n.mA * mA') :
    ∃ ad M', n.adiab = some ad ∧ HasDerivAt (fun t => mA t * R t) M' n.ct ∧
      (ad = M' / (2 * (n.mA * n.R) ^ 2) ↔ n.R = 1) := by
  refine ⟨_, _, by simp only [Now.adiab, quot, ht.ne', if_false, Option.bind_eq_bind,
    Option.bind_some]; rw [if_neg (by positivity)], h3.mul h4, ?_⟩
  rw [h1, h2]
  have hsum : 0 < n.dm2 + 2 * n.frw * n.mA ^ 2 / n.ct := by
    rcases hne with h | h
    · have : 0 < n.frw := lt_of_le_of_ne hf (Ne.symm h)
      positivity
    · have : 0 < n.dm2 := lt_of_le_of_ne hd (Ne.symm h)
      positivity
  have e1 : (mA' * n.R + n.mA * (n.frw / n.ct * n.R)) / (2 * (n.mA * n.R) ^ 2) =
      (n.dm2 + 2 * n.frw * n.mA ^ 2 / n.ct) / (4 * (n.mA * n.mA) * n.mA * n.R) := by
    rw [h5]
    field_simp
    ring
  rw [e1, div_eq_div_iff (by positivity) (by positivity)]
  set a := n.dm2
  set b := 2 * n.frw * n.mA ^ 2 / n.ct with hb
  have hb0 : 0 ≤ b := by positivity
  have e2 : 2 * n.frw * (n.mA * n.mA) * (n.R * n.R) / n.ct = b * n.R ^ 2 := by
    rw [hb]; field_simp
  rw [e2]
  constructor
  · intro h
    have hk : (a + b * n.R ^ 2) * n.R = a + b := by
      have h0 : 4 * (n.mA * n.mA) * n.mA ≠ 0 := by positivity
      apply mul_left_cancel₀ h0
      linarith
    have hfac : (n.R - 1) * (a + b * (n.R ^ 2 + n.R + 1)) = 0 := by linear_combination hk
    rcases mul_eq_zero.1 hfac with h | h
    · linarith
    · exfalso
      have : a + b ≤ a + b * (n.R ^ 2 + n.R + 1) := by nlinarith
      linarith
  · intro h
    rw [h]
    ring

/-! ### The hypotheses can be met -/

/-- A lattice of `V` sites whose arrays have `a`, `b` and `c` cells. -/
def filled (a b c : Nat) : Mem := fun p =>
  match p with
  | (.m, i) => if i < a then some i else none
  | (.v, i) => if i < b then some 1 else none
  | (.m2, i) => if i < c then some 0 else none

theorem filled_has (a b c : Nat) :
    Has (filled a b c) .m a ∧ Has (filled a b c) .v b ∧ Has (filled a b c) .m2 c := by
  refine ⟨fun i => ?_, fun i => ?_, fun i => ?_⟩ <;>
  · simp only [filled]
    split <;> simp [*]

/-- Two ghost slices: the conversion of a field created as axion runs; three: it does not. -/
example : ∃ ad, Now.adiab ⟨1, 2, 1, 1, 0⟩ = some ad ∧
    ((thPaxion ⟨1, 2, 1, 1, 0⟩ 2 16 (4 * 16) (List.range (4 * 16))
      (filled (2 * (2 * 16) + 4 * 16) ((4 + 2) * 16) 0)).isSome ↔ 2 ≤ 2) ∧
    ((thPaxion ⟨1, 2, 1, 1, 0⟩ 3 16 (4 * 16) (List.range (4 * 16))
      (filled (2 * (3 * 16) + 4 * 16) ((4 + 2) * 16) 0)).isSome ↔ 3 ≤ 2) := by
  have h : Now.adiab ⟨1, 2, 1, 1, 0⟩ = some 2 := by
    simp only [Now.adiab, quot]
    norm_num
  exact ⟨2, h, (C64_paxion_created_axion h (by norm_num) (by norm_num) (by norm_num) (List.Perm.refl _)
      (filled_has _ _ _).1 (filled_has _ _ _).2.1).1,
    (C64_paxion_created_axion h (by norm_num) (by norm_num) (by norm_num) (List.Perm.refl _)
      (filled_has _ _ _).1 (filled_has _ _ _).2.1).1⟩

example : pax 2 0 1 3 = ⟨Real.sqrt (2 / 2) * 1, 3 / Real.sqrt (2 * 2) + 0 * (Real.sqrt (2 / 2) * 1)⟩ ∧
    2 * Complex.normSq (pax 2 0 1 3) = (3 ^ 2 + 2 ^ 2 * 1 ^ 2) / 2 :=
  ⟨rfl, (C64_number (by norm_num) 1 3).1⟩

end Jaxions.Nonrel
