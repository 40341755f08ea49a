import Verif.Lemmas.EnergySax
import Verif.Spec.EnergySax
import Mathlib.Algebra.BigOperators.Ring.Finset
import Mathlib.Algebra.Order.BigOperators.Group.Finset
/-
C52: energy of the complex field, reported totals, masked sums and maps.
-/
noncomputable section

namespace Jaxions.Energy

open Stencil Simd SaxKernel

/-- Arguments of the kernel (energyXeon.cpp:1344-1353): `0.25/delta²`, `Rpp = Rp R = R'`; the shift
is that of the rescaled field. -/
def saxParams (U : SaxUniverse) : SaxPar ℝ :=
  ⟨U.R, 1 / 4 / U.δ ^ 2, U.chi, U.l, U.R * U.H, U.R * U.sh⟩

/-- What the kernel uses as QCD potential. -/
def usedQcd (U : SaxUniverse) : Qcd → ℝ × ℝ → ℝ
  | .qcdV, c => Vqcd U.chi .qcdV (c.1 - U.sh) c.2
  | .qcd2, _ => U.chi / 2 * (1 - 1 / U.R ^ 2)
  | .qcd0, c => U.chi * (c.1 / (U.R * radial c c))
  | .qcdL, c => U.chi * (c.1 / (U.R * radial c c))
  | _, c => Vqcd U.chi .qcdC (c.1 - U.sh) c.2

section lane

variable {p : Prec} {i : Isa}

theorem at_re {a : Vec (W p i) ℝ} {s c} (h : at' a s = c) : re a s = c.1 := by rw [← h]; rfl
theorem at_im {a : Vec (W p i) ℝ} {s c} (h : at' a s = c) : im a s = c.2 := by rw [← h]; rfl

/-- `R` times a value. -/
def scl (R : ℝ) (a : ℝ × ℝ) : ℝ × ℝ := (R * a.1, R * a.2)

theorem grad_parts (U : SaxUniverse) (hR : 0 < U.R) (s : Fin (sites .saxion p i))
    (mel f b : Vec (W p i) ℝ) (c cf cb : ℝ × ℝ) (hc : radial c c ≠ 0)
    (h0 : at' mel s = scl U.R c) (hf : at' f s = scl U.R cf) (hb : at' b s = scl U.R cb) :
    let mTp := md2 p i (mel * mel)
    let g := mTp * set1 (saxParams U).iz2 *
      grad p i (mel / mTp) (swSg p i (mel / mTp) * pairs 1 (-1)) (f - mel) (mel - b)
    re g s * (saxParams U).o2 = meanPart radial cf c cb / U.δ ^ 2 / (2 * U.R ^ 2) ∧
    im g s * (saxParams U).o2 = meanPart angular cf c cb / U.δ ^ 2 / (2 * U.R ^ 2) := by
  have hr := hR.ne'
  intro mTp g
  have m1 := at_re h0
  have m2 := at_im h0
  have f1 := at_re hf
  have f2 := at_im hf
  have b1 := at_re hb
  have b2 := at_im hb
  simp only [scl] at m1 m2 f1 f2 b1 b2
  have hM1 : re mTp s = U.R ^ 2 * radial c c := by
    simp only [mTp, (md2_ok p i _ s).1, re_mul, im_mul, m1, m2, radial]; ring
  have hM2 : im mTp s = U.R ^ 2 * radial c c := by
    simp only [mTp, (md2_ok p i _ s).2, re_mul, im_mul, m1, m2, radial]; ring
  have hsw := swSg_ok (K := ℝ) p i s (mel / mTp)
  simp only [g, grad, re_mul, im_mul, re_add, im_add, re_set1, im_set1, (gsum_ok p i _ _ s).1,
    (gsum_ok p i _ _ s).2, re_sub, im_sub, re_div, im_div, hsw.1, hsw.2, re_pairs, im_pairs, hM1, hM2,
    m1, m2, f1, f2, b1, b2]
  simp only [SaxPar.iz2, SaxPar.iz, SaxPar.o2, saxParams, meanPart, dif]
  have hc' := hc
  constructor
  · have e : radial c (cf.1 - c.1, cf.2 - c.2) = c.1 * (cf.1 - c.1) + c.2 * (cf.2 - c.2) := rfl
    have e' : radial c (c.1 - cb.1, c.2 - cb.2) = c.1 * (c.1 - cb.1) + c.2 * (c.2 - cb.2) := rfl
    rw [e, e']
    generalize radial c c = n at hc' ⊢
    field_simp
    ring
  · have e : angular c (cf.1 - c.1, cf.2 - c.2) = c.1 * (cf.2 - c.2) - c.2 * (cf.1 - c.1) := rfl
    have e' : angular c (c.1 - cb.1, c.2 - cb.2) = c.1 * (c.2 - cb.2) - c.2 * (c.1 - cb.1) := rfl
    rw [e, e']
    generalize radial c c = n at hc' ⊢
    field_simp
    ring

theorem kin_parts (U : SaxUniverse) (hR : 0 < U.R) (s : Fin (sites .saxion p i))
    (mel vel : Vec (W p i) ℝ) (c c' : ℝ × ℝ) (hc : radial c c ≠ 0)
    (h0 : at' mel s = scl U.R c)
    (hv : at' vel s = scl U.R (U.H * c.1 + c'.1, U.H * c.2 + c'.2)) :
    let mTp := md2 p i (mel * mel)
    let mCg := mel / mTp
    let mdv := gsum p i (vel * mCg) (vel * (swSg p i mCg * pairs 1 (-1))) -
      set1 (saxParams U).Rpp * pairs (saxParams U).iz 0
    let g := mTp * set1 (saxParams U).iz2 * (mdv * mdv)
    re g s * (1 / 2 * (saxParams U).iz2) = radial c c' ^ 2 / radial c c / (2 * U.R ^ 2) ∧
    im g s * (1 / 2 * (saxParams U).iz2) = angular c c' ^ 2 / radial c c / (2 * U.R ^ 2) := by
  have hr := hR.ne'
  intro mTp mCg mdv g
  have m1 := at_re h0
  have m2 := at_im h0
  have f1 := at_re hv
  have f2 := at_im hv
  simp only [scl] at m1 m2 f1 f2
  have hM1 : re mTp s = U.R ^ 2 * radial c c := by
    simp only [mTp, (md2_ok p i _ s).1, re_mul, im_mul, m1, m2, radial]; ring
  have hM2 : im mTp s = U.R ^ 2 * radial c c := by
    simp only [mTp, (md2_ok p i _ s).2, re_mul, im_mul, m1, m2, radial]; ring
  have hsw := swSg_ok (K := ℝ) p i s mCg
  have hn : radial c c = c.1 ^ 2 + c.2 ^ 2 := by simp only [radial]; ring
  have hc2 : c.1 ^ 2 + c.2 ^ 2 ≠ 0 := hn ▸ hc
  simp only [g, mdv, re_mul, im_mul, re_set1, im_set1, (gsum_ok p i _ _ s).1,
    (gsum_ok p i _ _ s).2, re_sub, im_sub, hsw.1, hsw.2, re_pairs, im_pairs]
  simp only [mCg, re_div, im_div, hM1, hM2, m1, m2, f1, f2]
  simp only [SaxPar.iz2, SaxPar.iz, saxParams]
  constructor
  · have e : radial c c' = c.1 * c'.1 + c.2 * c'.2 := rfl
    have k : U.R * (U.H * c.1 + c'.1) * (U.R * c.1 / (U.R ^ 2 * radial c c)) +
        U.R * (U.H * c.2 + c'.2) * (U.R * c.2 / (U.R ^ 2 * radial c c)) -
        U.R * U.H * (1 / U.R) = radial c c' / radial c c := by
      rw [e, hn]
      field_simp
      ring
    rw [k]
    field_simp
  · have k : U.R * (U.H * c.1 + c'.1) * (U.R * c.2 / (U.R ^ 2 * radial c c) * 1) +
        U.R * (U.H * c.2 + c'.2) * (U.R * c.1 / (U.R ^ 2 * radial c c) * -1) -
        U.R * U.H * 0 = -(angular c c' / radial c c) := by
      have e : angular c c' = c.1 * c'.2 - c.2 * c'.1 := rfl
      rw [e, hn]
      field_simp
      ring
    rw [k]
    field_simp

theorem pot_parts (U : SaxUniverse) (hR : 0 < U.R) (s : Fin (sites .saxion p i)) (pq : Pq)
    (qcd : Qcd) (mel : Vec (W p i) ℝ) (c : ℝ × ℝ) (hc : radial c c ≠ 0)
    (hs : (c.1 - U.sh) ^ 2 + c.2 ^ 2 ≠ 0) (h0 : at' mel s = scl U.R c) :
    let P := saxParams U
    let mTp := md2 p i (mel * mel)
    let mCg := mel / mTp
    let Grx := mel - pairs P.shift 0
    let Grz := md2 p i (Grx * Grx)
    let Gry := Grz * set1 P.iz2
    let t := tVp p i (pqPot Real.sqrt pq Gry) (qcdPot Real.sqrt P p i qcd mCg Grx Gry Grz)
    re t s * P.lZ = Vpq U.l pq (c.1 - U.sh) c.2 ∧ im t s * P.zQ = usedQcd U qcd c ∧
    Real.sqrt (re Gry s) = Real.sqrt ((c.1 - U.sh) ^ 2 + c.2 ^ 2) := by
  intro P mTp mCg Grx Grz Gry t
  have hr := hR.ne'
  have m1 := at_re h0
  have m2 := at_im h0
  simp only [scl] at m1 m2
  have hM1 : re mTp s = U.R ^ 2 * radial c c := by
    simp only [mTp, (md2_ok p i _ s).1, re_mul, im_mul, m1, m2, radial]; ring
  have gx1 : re Grx s = U.R * (c.1 - U.sh) := by
    simp only [Grx, re_sub, m1, re_pairs, P, saxParams]; ring
  have gx2 : im Grx s = U.R * c.2 := by
    simp only [Grx, im_sub, m2, im_pairs]; ring
  set n := (c.1 - U.sh) ^ 2 + c.2 ^ 2 with hn
  have gz1 : re Grz s = U.R ^ 2 * n := by
    simp only [Grz, (md2_ok p i _ s).1, re_mul, im_mul, gx1, gx2, hn]; ring
  have gz2 : im Grz s = U.R ^ 2 * n := by
    simp only [Grz, (md2_ok p i _ s).2, re_mul, im_mul, gx1, gx2, hn]; ring
  have iz2 : P.iz2 = 1 / U.R ^ 2 := by
    simp only [P, SaxPar.iz2, SaxPar.iz, saxParams]; field_simp
  have gy1 : re Gry s = n := by
    simp only [Gry, re_mul, re_set1, gz1, iz2]; field_simp
  have gy2 : im Gry s = n := by
    simp only [Gry, im_mul, im_set1, gz2, iz2]; field_simp
  have hpq : im (p := p) (i := i) (pqPot Real.sqrt pq Gry) s = re (p := p) (i := i) (pqPot Real.sqrt pq Gry) s := by
    cases pq with
    | pq1 => simp only [pqPot, re_mul, im_mul, re_sub, im_sub, gy1, gy2, re_set1, im_set1]
    | pq2 => simp only [pqPot, re_mul, im_mul, re_sub, im_sub, gy1, gy2, re_set1, im_set1]
    | pq3 =>
      simp only [re, im] at gy1 gy2
      simp only [pqPot, re, im, kkk, set1, gy1, gy2, Pi.mul_apply, Pi.sub_apply]
  have ht := tVp_ok p i (pqPot Real.sqrt pq Gry) (qcdPot Real.sqrt P p i qcd mCg Grx Gry Grz) s hpq
  have lZ : P.lZ = U.l / 4 := by
    simp only [P, SaxPar.lZ, SaxPar.LL, saxParams]; field_simp
  have zQ : P.zQ = U.chi := by
    simp only [P, SaxPar.zQ, SaxPar.aMass2, saxParams]; field_simp
  have hsq : Real.sqrt (U.R ^ 2 * n) = U.R * Real.sqrt n := by
    rw [Real.sqrt_mul (by positivity), Real.sqrt_sq hR.le]
  have hnpos : 0 < n := lt_of_le_of_ne (by positivity) (Ne.symm hs)
  have hsn : Real.sqrt n ≠ 0 := (Real.sqrt_pos.2 hnpos).ne'
  refine ⟨?_, ?_, by rw [gy1]⟩
  · show re t s * P.lZ = _
    rw [show re t s = _ from ht.1, lZ]
    cases pq with
    | pq1 => simp only [pqPot, re_mul, re_sub, gy1, re_set1, Vpq, ← hn]; ring
    | pq2 => simp only [pqPot, re_mul, re_sub, gy1, re_set1, Vpq, ← hn]; ring
    | pq3 =>
      simp only [re] at gy1
      simp only [pqPot, re, kkk, set1, gy1, Pi.mul_apply, Pi.sub_apply, Vpq, ← hn]
      split_ifs <;> ring
  · show im t s * P.zQ = _
    rw [show im t s = _ from ht.2, zQ]
    have hcos : re (p := p) (i := i) (set1 1 - Grx / fun l => Real.sqrt (Grz l)) s =
        1 - (c.1 - U.sh) / Real.sqrt n := by
      rw [re_sub, re_set1, re_div, gx1]
      have : re (p := p) (i := i) (fun l => Real.sqrt (Grz l)) s = Real.sqrt (re Grz s) := rfl
      rw [this, gz1, hsq]
      field_simp
    have hun : re mCg s = c.1 / (U.R * radial c c) := by
      simp only [mCg, re_div, m1, hM1]; field_simp
    cases qcd with
    | qcd1 => simp only [qcdPot, usedQcd, Vqcd, hcos, ← hn]; ring
    | qcdC => simp only [qcdPot, usedQcd, Vqcd, hcos, ← hn]; ring
    | qcdV =>
      simp only [qcdPot, usedQcd, Vqcd, re_mul, im_mul, re_set1, im_set1, (md2_ok p i _ s).1, re_sub,
        im_sub, re_pairs, im_pairs, gx1, gx2]
      simp only [P, SaxPar.iz, saxParams]
      field_simp
      ring
    | qcd2 =>
      simp only [qcdPot, usedQcd, re_mul, re_set1, re_sub, re_div, gy1, gz1]
      field_simp
    | qcdL => simp only [qcdPot, usedQcd, hun]; ring
    | qcd0 => simp only [qcdPot, usedQcd, hun]; ring

/-- The numbers of a lane with their factors are the densities of its site. -/
theorem lane_density (U : SaxUniverse) (hR : 0 < U.R) (s : Fin (sites .saxion p i)) (pq : Pq)
    (qcd : Qcd) (L : Loaded (W p i) ℝ) (φ φ' : ℤ → ℤ → ℤ → ℝ × ℝ) (x y z : ℤ)
    (hc : radial (φ x y z) (φ x y z) ≠ 0)
    (hs : ((φ x y z).1 - U.sh) ^ 2 + (φ x y z).2 ^ 2 ≠ 0)
    (h0 : at' L.mel s = scl U.R (φ x y z))
    (hv : at' L.vel s = scl U.R
      (U.H * (φ x y z).1 + (φ' x y z).1, U.H * (φ x y z).2 + (φ' x y z).2))
    (hpx : at' L.px s = scl U.R (φ (x + 1) y z)) (hmx : at' L.mx s = scl U.R (φ (x - 1) y z))
    (hpy : at' L.py s = scl U.R (φ x (y + 1) z)) (hmy : at' L.my s = scl U.R (φ x (y - 1) z))
    (hpz : at' L.pz s = scl U.R (φ x y (z + 1))) (hmz : at' L.mz s = scl U.R (φ x y (z - 1)))
    {q : ℕ} (hq : q < 11) :
    laneTerms (regs Real.sqrt (saxParams U) p i pq qcd L) s q *
        saxFactor Nat.floor (saxParams U) .single q =
      saxDensity U pq (usedQcd U qcd) φ φ' x y z q := by
  obtain ⟨x1, x2⟩ := grad_parts U hR s L.mel L.px L.mx _ _ _ hc h0 hpx hmx
  obtain ⟨y1, y2⟩ := grad_parts U hR s L.mel L.py L.my _ _ _ hc h0 hpy hmy
  obtain ⟨z1, z2⟩ := grad_parts U hR s L.mel L.pz L.mz _ _ _ hc h0 hpz hmz
  obtain ⟨k1, k2⟩ := kin_parts U hR s L.mel L.vel _ _ hc h0 hv
  obtain ⟨p1, p2, p3⟩ := pot_parts U hR s pq qcd L.mel _ hc hs h0
  have hns : ¬ (Prec.single = Prec.double) := by decide
  match q, hq with
  | 0, _ => exact x2
  | 1, _ => exact y2
  | 2, _ => exact z2
  | 3, _ =>
    simp only [saxFactor, if_neg hns]
    exact k2
  | 4, _ => exact p2
  | 5, _ => exact x1
  | 6, _ => exact y1
  | 7, _ => exact z1
  | 8, _ =>
    simp only [saxFactor, if_neg hns]
    exact k1
  | 9, _ => exact p1
  | 10, _ => exact (mul_one _).trans p3

/-- The map registers of a lane. -/
theorem map_terms (P : SaxPar ℝ) (r : Regs (W p i) ℝ) (s : Fin (sites .saxion p i)) :
    (im (mapReg P r) s = laneTerms r s 0 * saxFactor Nat.floor P .single 0 +
      laneTerms r s 1 * saxFactor Nat.floor P .single 1 +
      laneTerms r s 2 * saxFactor Nat.floor P .single 2 +
      laneTerms r s 3 * saxFactor Nat.floor P .single 3 +
      laneTerms r s 4 * saxFactor Nat.floor P .single 4) ∧
    (re (mapReg P r) s = laneTerms r s 5 * saxFactor Nat.floor P .single 5 +
      laneTerms r s 6 * saxFactor Nat.floor P .single 6 +
      laneTerms r s 7 * saxFactor Nat.floor P .single 7 +
      laneTerms r s 8 * saxFactor Nat.floor P .single 8 +
      laneTerms r s 9 * saxFactor Nat.floor P .single 9) := by
  have hns : ¬ (Prec.single = Prec.double) := by decide
  have f3 : saxFactor Nat.floor P .single 3 = 1 / 2 * P.iz2 := by
    simp only [saxFactor, if_neg hns]
  have f8 : saxFactor Nat.floor P .single 8 = 1 / 2 * P.iz2 := by
    simp only [saxFactor, if_neg hns]
  rw [f3, f8]
  simp only [mapReg, re_add, im_add, re_mul, im_mul, re_set1, im_set1, re_pairs, im_pairs]
  have e0 : laneTerms r s 0 = im r.tGx s := rfl
  have e1 : laneTerms r s 1 = im r.tGy s := rfl
  have e2 : laneTerms r s 2 = im r.tGz s := rfl
  have e3 : laneTerms r s 3 = im r.tKp s := rfl
  have e4 : laneTerms r s 4 = im r.tVp s := rfl
  have e5 : laneTerms r s 5 = re r.tGx s := rfl
  have e6 : laneTerms r s 6 = re r.tGy s := rfl
  have e7 : laneTerms r s 7 = re r.tGz s := rfl
  have e8 : laneTerms r s 8 = re r.tKp s := rfl
  have e9 : laneTerms r s 9 = re r.tVp s := rfl
  have g0 : saxFactor Nat.floor P .single 0 = P.o2 := rfl
  have g1 : saxFactor Nat.floor P .single 1 = P.o2 := rfl
  have g2 : saxFactor Nat.floor P .single 2 = P.o2 := rfl
  have g4 : saxFactor Nat.floor P .single 4 = P.zQ := rfl
  have g5 : saxFactor Nat.floor P .single 5 = P.o2 := rfl
  have g6 : saxFactor Nat.floor P .single 6 = P.o2 := rfl
  have g7 : saxFactor Nat.floor P .single 7 = P.o2 := rfl
  have g9 : saxFactor Nat.floor P .single 9 = P.lZ := rfl
  rw [e0, e1, e2, e3, e4, e5, e6, e7, e8, e9, g0, g1, g2, g4, g5, g6, g7, g9]
  constructor <;> ring

end lane

/-! ### The loop -/

variable {Y NN Lz : ℕ}

theorem hasEne_iff (req : Req) : req.hasEne = true ↔ wantsTotal req := by
  cases req <;> simp only [wantsTotal, iff_true, iff_false] <;> decide
theorem hasMask_iff (req : Req) : req.hasMask = true ↔ wantsMask req := by
  cases req <;> simp only [wantsMask, iff_true, iff_false] <;> decide
theorem hasMap_iff (req : Req) : req.hasMap = true ↔ req ≠ .mask := by
  cases req <;> decide

/-- What site `n` writes. -/
def siteOut (req : Req) (msk : Bool) (Vt n : ℕ) (dt dr : ℝ) : List (ℕ × ℝ) :=
  if req = .mask then []
  else if req = .mapmask ∧ msk = false then [(n, 0), (n + Vt, 0)] else [(n, dt), (n + Vt, dr)]

theorem saxLane_eq (U : SaxUniverse) (hR : 0 < U.R) (p : Prec) (i : Isa) (pot : Pq × Qcd)
    (req : Req) (mk : ℕ → Bool) (Vt : ℕ) (m v : Heap ℕ (ℝ × ℝ)) (φ φ' : ℤ → ℤ → ℤ → ℝ × ℝ)
    (hN : 1 ≤ NN) (h2 : 2 ≤ Y) (hper : Periodic (Y * sites .saxion p i) φ)
    (hm : Holds (Y * sites .saxion p i) (sites .saxion p i) (Lz + 2 * NN) m
      fun x y z => scl U.R (φ x y z))
    (hv : Holds (Y * sites .saxion p i) (sites .saxion p i) Lz v
      fun x y z => scl U.R (U.H * (φ x y (z + NN)).1 + (φ' x y (z + NN)).1,
        U.H * (φ x y (z + NN)).2 + (φ' x y (z + NN)).2))
    {x y z : ℕ} (hx : x < Y * sites .saxion p i) (hy : y < Y * sites .saxion p i) (hz : z < Lz)
    (hc : radial (φ x y (z + NN)) (φ x y (z + NN)) ≠ 0)
    (hs : ((φ x y (z + NN)).1 - U.sh) ^ 2 + (φ x y (z + NN)).2 ^ 2 ≠ 0) :
    let s := shape Y (sites .saxion p i) NN
    let c := laneOf Y (sites .saxion p i) NN x y z
    let n := siteOf s c
    let ε := saxDensity U pot.1 (usedQcd U pot.2) φ φ' x y (z + NN)
    (p = .double → i = .avx ∨ i = .avx2 → wantsMask req → ∀ n, mk n = false) →
    ∃ t : Terms ℝ, (∀ q, q < 11 → t q * saxFactor Nat.floor (saxParams U) .single q = ε q) ∧
      saxLane Real.sqrt (saxParams U) p i pot req mk Vt s m v c =
        some (allTerms req t (mk n), siteOut req (mk n) Vt n (ε 0 + ε 1 + ε 2 + ε 3 + ε 4)
          (ε 5 + ε 6 + ε 7 + ε 8 + ε 9)) := by
  intro s c n ε hub
  have hS := sites_pos p i
  have hYp : 0 < Y := by omega
  have hper' : Periodic (Y * sites .saxion p i) fun x y z => scl U.R (φ x y z) := by
    intro x y z
    show scl U.R (φ x y z) = _
    rw [hper x y z]
  have hl : y / Y < sites .saxion p i := Nat.div_lt_of_lt_mul hy
  have hyy : y / Y * Y + y % Y = y := Nat.div_add_mod' y Y
  obtain ⟨L, e1, e2⟩ := loadAll_eq p i m v _ _ hN h2 hper' hm hv hx (Nat.mod_lt y hYp) hz
  have e2 := e2 ⟨y / Y, hl⟩
  simp only [hyy] at e2
  obtain ⟨a0, av, apx, amx, apy, amy, apz, amz⟩ := e2
  have hw : ((z + NN : ℕ) : ℤ) = (z : ℤ) + NN := by push_cast; rfl
  rw [hw] at a0 apx amx apy amy apz amz
  have hD : ∀ q, q < 11 → _ := fun q hq => lane_density U hR ⟨y / Y, hl⟩ pot.1 pot.2 L φ φ' x y
    (z + NN) hc hs a0 av apx amx apy amy apz amz (q := q) hq
  refine ⟨_, hD, ?_⟩
  have hmap := map_terms (saxParams U) (regs Real.sqrt (saxParams U) p i pot.1 pot.2 L)
    ⟨y / Y, hl⟩
  simp only [hD 0 (by omega), hD 1 (by omega), hD 2 (by omega), hD 3 (by omega), hD 4 (by omega),
    hD 5 (by omega), hD 6 (by omega), hD 7 (by omega), hD 8 (by omega), hD 9 (by omega)] at hmap
  obtain ⟨mt, mr⟩ := hmap
  -- the mask of the vector
  have hu0 : ups mk s c.1 = 0 → mk n = false := by
    intro h
    unfold ups at h
    have h := List.length_eq_zero_iff.1 h
    rw [List.filter_eq_nil_iff] at h
    have h := h (y / Y) (List.mem_range.2 hl)
    exact Bool.eq_false_iff.2 h
  have hu1 : (∀ n, mk n = false) → ups mk s c.1 = 0 := by
    intro h
    simp [ups, h]
  have hc2 : c.2 < sites .saxion p i := hl
  have hcL : loadAll p i s m v c.1 = some L := e1
  by_cases c1 : req = .mask ∧ ups mk s c.1 = 0
  · obtain ⟨rfl, hu⟩ := c1
    have hk := hu0 hu
    simp only [saxLane, show Req.mask.hasMask = true from rfl, if_true, hu, and_self]
    have : allTerms Req.mask (laneTerms (regs Real.sqrt (saxParams U) p i pot.1 pot.2 L)
        ⟨y / Y, hl⟩) (mk n) = fun _ => (0 : ℝ) := by
      funext q
      rw [hk]
      simp [allTerms, show Req.mask.hasEne = false from rfl]
    rw [this]
    rfl
  · by_cases c2 : req = .mapmask ∧ ups mk s c.1 = 0
    · obtain ⟨rfl, hu⟩ := c2
      have hk := hu0 hu
      simp only [saxLane, show Req.mapmask.hasMask = true from rfl, if_true, hu, and_self,
        show ¬ (Req.mapmask = Req.mask) by decide, false_and, if_false]
      have : allTerms Req.mapmask (laneTerms (regs Real.sqrt (saxParams U) p i pot.1 pot.2 L)
          ⟨y / Y, hl⟩) (mk n) = fun _ => (0 : ℝ) := by
        funext q
        rw [hk]
        simp [allTerms, show Req.mapmask.hasEne = false from rfl]
      rw [this, hk]
      simp [siteOut, n]
    · have c1' : ¬ (req = .mask ∧ (if req.hasMask = true then ups mk s c.1 else 0) = 0) := by
        rintro ⟨rfl, h⟩
        rw [show Req.mask.hasMask = true from rfl, if_pos rfl] at h
        exact c1 ⟨rfl, h⟩
      have c2' : ¬ (req = .mapmask ∧ (if req.hasMask = true then ups mk s c.1 else 0) = 0) := by
        rintro ⟨rfl, h⟩
        rw [show Req.mapmask.hasMask = true from rfl, if_pos rfl] at h
        exact c2 ⟨rfl, h⟩
      have c3' : ¬ ((if req.hasMask = true then ups mk s c.1 else 0) ≠ 0 ∧ p = .double ∧
          (i = .avx ∨ i = .avx2)) := by
        rintro ⟨h, hp, hi⟩
        by_cases hmk : req.hasMask = true
        · rw [if_pos hmk] at h
          exact h (hu1 (hub hp hi ((hasMask_iff req).1 hmk)))
        · rw [if_neg hmk] at h
          exact h rfl
      simp only [saxLane, if_neg c1', if_neg c2', if_neg c3', dif_pos hc2, hcL, Option.bind_eq_bind,
        Option.bind_some, Option.pure_def]
      congr 2
      have mt' : mapReg (saxParams U) (regs Real.sqrt (saxParams U) p i pot.1 pot.2 L)
          ⟨2 * c.2 + 1, by unfold W; omega⟩ = ε 0 + ε 1 + ε 2 + ε 3 + ε 4 := mt
      have mr' : mapReg (saxParams U) (regs Real.sqrt (saxParams U) p i pot.1 pot.2 L)
          ⟨2 * c.2, by unfold W; omega⟩ = ε 5 + ε 6 + ε 7 + ε 8 + ε 9 := mr
      rw [mt', mr']
      by_cases hrm : req = .mask
      · subst hrm
        rfl
      · rw [(hasMap_iff req).2 hrm, if_pos rfl]
        simp only [siteOut, if_neg hrm]
        by_cases hmm : req = .mapmask
        · subst hmm
          cases hk : mk n <;> simp [n] at hk ⊢
        · simp [hmm, n]

theorem nodup_two {Vt V : ℕ} (hV : V ≤ Vt) (ns : List ℕ) (hn : ns.Nodup) (hb : ∀ n ∈ ns, n < V) :
    (ns.flatMap fun n => [n, n + Vt]).Nodup := by
  induction ns with
  | nil => simp
  | cons n ns ih =>
    rw [List.nodup_cons] at hn
    have hb0 := hb n (by simp)
    have hb' : ∀ k ∈ ns, k < V := fun k hk => hb k (by simp [hk])
    rw [List.flatMap_cons]
    refine List.nodup_append.2 ⟨?_, ih hn.2 hb', ?_⟩
    · simp; omega
    · intro a ha b hb2 hab
      subst hab
      simp only [List.mem_flatMap, List.mem_cons, List.not_mem_nil, or_false] at ha hb2
      obtain ⟨k, hk, hk'⟩ := hb2
      have := hb' k hk
      have hne : k ≠ n := by rintro rfl; exact hn.1 hk
      omega

/-- Result of the kernel for any nonzero field, any request and any mask, in terms of the sums with
the factors of the single precision version. -/
theorem energySax_eq {Lx : ℕ} (p : Prec) (i : Isa) (hd : sites .saxion p i ∣ Lx)
    (hrow : 2 ≤ Lx / sites .saxion p i) (hN : 1 ≤ NN) (U : SaxUniverse) (hR : 0 < U.R)
    (pot : Pq × Qcd) (req : Req) (mk : ℕ → Bool) (Vt threads : ℕ) (hVt : Lz * (Lx * Lx) ≤ Vt)
    (φ φ' : ℤ → ℤ → ℤ → ℝ × ℝ) (hper : Periodic Lx φ)
    (hc : ∀ x y z : ℕ, x < Lx → y < Lx → z < Lz →
      radial (φ x y (z + NN)) (φ x y (z + NN)) ≠ 0)
    (hs : ∀ x y z : ℕ, x < Lx → y < Lx → z < Lz →
      ((φ x y (z + NN)).1 - U.sh) ^ 2 + (φ x y (z + NN)).2 ^ 2 ≠ 0)
    (m v : Heap ℕ (ℝ × ℝ)) (m2 : Heap ℕ ℝ)
    (hm : Holds Lx (sites .saxion p i) (Lz + 2 * NN) m fun x y z => scl U.R (φ x y z))
    (hv : Holds Lx (sites .saxion p i) Lz v
      fun x y z => scl U.R (U.H * (φ x y (z + NN)).1 + (φ' x y (z + NN)).1,
        U.H * (φ x y (z + NN)).2 + (φ' x y (z + NN)).2))
    (hm2 : ∀ n, n < Lz * (Lx * Lx) → (m2 n).isSome ∧ (m2 (n + Vt)).isSome)
    (hub : p = .double → i = .avx ∨ i = .avx2 → wantsMask req → ∀ n, mk n = false)
    (order : List ℕ) (ho : order.Perm (visits ⟨Lx, sites .saxion p i, NN⟩ Lz)) :
    let pot' := dispatch pot
    let ε := fun n => saxDensity U pot'.1 (usedQcd U pot'.2) φ φ'
      (xOf Lx n) (yOf Lx n) (zOf Lx n + NN)
    ∃ (T : Terms ℝ) (m2' : Heap ℕ ℝ),
      energySax Real.sqrt Nat.floor (saxParams U) p i threads pot req mk Vt
        ⟨Lx, sites .saxion p i, NN⟩ m v order m2 =
        some (saxResult Nat.floor (saxParams U) p threads T, m2') ∧
      (∀ q, q < 11 → T q * saxFactor Nat.floor (saxParams U) .single q =
        if wantsTotal req then ∑ n ∈ Finset.range (Lz * (Lx * Lx)), ε n q else 0) ∧
      (∀ q, q < 11 → T (11 + q) * saxFactor Nat.floor (saxParams U) .single q =
        if wantsMask req then ∑ n ∈ Finset.range (Lz * (Lx * Lx)),
          (if mk n then ε n q else 0) else 0) ∧
      (T 22 = if wantsMask req then ∑ n ∈ Finset.range (Lz * (Lx * Lx)), (if mk n then (1 : ℝ) else 0)
        else 0) ∧
      (req = .mask → m2' = m2) ∧
      (req ≠ .mask → ∀ n, n < Lz * (Lx * Lx) →
        m2' n = some (if req = .mapmask ∧ mk n = false then 0
          else ε n 0 + ε n 1 + ε n 2 + ε n 3 + ε n 4) ∧
        m2' (n + Vt) = some (if req = .mapmask ∧ mk n = false then 0
          else ε n 5 + ε n 6 + ε n 7 + ε n 8 + ε n 9)) ∧
      (∀ a, (∀ n, n < Lz * (Lx * Lx) → a ≠ n ∧ a ≠ n + Vt) → m2' a = m2 a) := by
  obtain ⟨Y, rfl⟩ : ∃ Y, Lx = Y * sites .saxion p i := by
    obtain ⟨Y, h⟩ := hd; exact ⟨Y, by rw [h, Nat.mul_comm]⟩
  have hS := sites_pos p i
  rw [Nat.mul_div_cancel _ hS] at hrow
  intro pot' ε
  have hY : 0 < Y := by omega
  have hYS : 0 < Y * sites .saxion p i := Nat.mul_pos hY hS
  have hco : ∀ x y z : ℕ, x < Y * sites .saxion p i → y < Y * sites .saxion p i →
      xOf (Y * sites .saxion p i) (z * (Y * sites .saxion p i * (Y * sites .saxion p i)) +
        y * (Y * sites .saxion p i) + x) = x ∧
      yOf (Y * sites .saxion p i) (z * (Y * sites .saxion p i * (Y * sites .saxion p i)) +
        y * (Y * sites .saxion p i) + x) = y ∧
      zOf (Y * sites .saxion p i) (z * (Y * sites .saxion p i * (Y * sites .saxion p i)) +
        y * (Y * sites .saxion p i) + x) = z := by
    intro x y z hx hy
    have e : z * (Y * sites .saxion p i * (Y * sites .saxion p i)) +
        y * (Y * sites .saxion p i) + x = (z * (Y * sites .saxion p i) + y) *
          (Y * sites .saxion p i) + x := by ring
    rw [e]
    refine ⟨mod_of hx, ?_, ?_⟩
    · rw [yOf, div_of hx, mod_of hy]
    · rw [zOf, div_of hx, div_of hy]
  -- the terms of each site
  have hsite : ∀ n, n ∈ (lanes (shape Y (sites .saxion p i) NN) order).map
      (siteOf (shape Y (sites .saxion p i) NN)) → ∃ t : Terms ℝ,
      (∀ q, q < 11 → t q * saxFactor Nat.floor (saxParams U) .single q = ε n q) ∧
      ∀ c ∈ lanes (shape Y (sites .saxion p i) NN) order,
        siteOf (shape Y (sites .saxion p i) NN) c = n →
        saxLane Real.sqrt (saxParams U) p i pot' req mk Vt (shape Y (sites .saxion p i) NN) m v c =
          some (allTerms req t (mk n), siteOut req (mk n) Vt n
            (ε n 0 + ε n 1 + ε n 2 + ε n 3 + ε n 4) (ε n 5 + ε n 6 + ε n 7 + ε n 8 + ε n 9)) := by
    intro n hn
    obtain ⟨c0, hc0, rfl⟩ := List.mem_map.1 hn
    obtain ⟨x, y, z, hx, hy, hz, rfl⟩ := (mem_lanes hS hY ho c0).1 hc0
    obtain ⟨t, h1, h2⟩ := saxLane_eq (Lz := Lz) U hR p i pot' req mk Vt m v φ φ' hN hrow hper hm hv
      hx hy hz (hc x y z hx hy hz) (hs x y z hx hy hz) hub
    obtain ⟨e1, e2, e3⟩ := hco x y z hx hy
    have hε : ε (siteOf (shape Y (sites .saxion p i) NN) (laneOf Y (sites .saxion p i) NN x y z)) =
        saxDensity U pot'.1 (usedQcd U pot'.2) φ φ' x y (z + NN) := by
      rw [siteOf_laneOf hS hx hy]
      simp only [ε, e1, e2, e3]
    refine ⟨t, by rw [hε]; exact h1, ?_⟩
    intro c hcc hcn
    obtain ⟨x', y', z', hx', hy', hz', rfl⟩ := (mem_lanes hS hY ho c).1 hcc
    rw [siteOf_laneOf hS hx hy, siteOf_laneOf hS hx' hy'] at hcn
    obtain ⟨f1, f2, f3⟩ := hco x' y' z' hx' hy'
    rw [hcn] at f1 f2 f3
    rw [e1] at f1
    rw [e2] at f2
    rw [e3] at f3
    subst f1 f2 f3
    rw [hε]
    exact h2
  choose! t ht1 ht2 using hsite
  have hperm := sites_perm (NN := NN) hS hY ho
  set cs := lanes (shape Y (sites .saxion p i) NN) order with hcs
  set st := siteOf (shape Y (sites .saxion p i) NN) with hst
  let out : ℕ → List (ℕ × ℝ) := fun n => siteOut req (mk n) Vt n
    (ε n 0 + ε n 1 + ε n 2 + ε n 3 + ε n 4) (ε n 5 + ε n 6 + ε n 7 + ε n 8 + ε n 9)
  have hfold := fold_eq
    (saxLane Real.sqrt (saxParams U) p i pot' req mk Vt (shape Y (sites .saxion p i) NN) m v)
    (fun c => (allTerms req (t (st c)) (mk (st c)), out (st c))) cs
    (fun c hcc => ht2 (st c) (List.mem_map_of_mem hcc) c hcc rfl) (fun _ => 0) m2
  have hsum : ∀ q, (cs.map fun c => allTerms req (t (st c)) (mk (st c)) q).sum =
      ∑ n ∈ Finset.range (Lz * (Y * sites .saxion p i * (Y * sites .saxion p i))),
        allTerms req (t n) (mk n) q := fun q =>
    sum_lanes hS hY ho _ (fun n => allTerms req (t n) (mk n) q) (fun _ _ => rfl)
  have hin : ∀ n, n < Lz * (Y * sites .saxion p i * (Y * sites .saxion p i)) → n ∈ cs.map st :=
    fun n hn => hperm.mem_iff.2 (List.mem_range.2 hn)
  have hin' : ∀ n ∈ cs.map st, n < Lz * (Y * sites .saxion p i * (Y * sites .saxion p i)) :=
    fun n hn => List.mem_range.1 (hperm.mem_iff.1 hn)
  -- the writes
  have hflat : (cs.flatMap fun c => out (st c)) = (cs.map st).flatMap out := by
    rw [List.flatMap_map]
  have hw : ∃ m2', writeAll ((cs.map st).flatMap out) m2 = some m2' ∧ (req = .mask → m2' = m2) ∧
      (req ≠ .mask → ∀ n, n < Lz * (Y * sites .saxion p i * (Y * sites .saxion p i)) →
        m2' n = some (if req = .mapmask ∧ mk n = false then 0
          else ε n 0 + ε n 1 + ε n 2 + ε n 3 + ε n 4) ∧
        m2' (n + Vt) = some (if req = .mapmask ∧ mk n = false then 0
          else ε n 5 + ε n 6 + ε n 7 + ε n 8 + ε n 9)) ∧
      (∀ a, (∀ n, n < Lz * (Y * sites .saxion p i * (Y * sites .saxion p i)) →
        a ≠ n ∧ a ≠ n + Vt) → m2' a = m2 a) := by
    by_cases hrm : req = .mask
    · refine ⟨m2, ?_, fun _ => rfl, fun h => absurd hrm h, fun _ _ => rfl⟩
      have : (cs.map st).flatMap out = [] := by
        rw [List.flatMap_eq_nil_iff]
        intro n _
        simp [out, siteOut, hrm]
      rw [this]
      rfl
    · have hout : ∀ n, out n = [(n, if req = .mapmask ∧ mk n = false then 0
          else ε n 0 + ε n 1 + ε n 2 + ε n 3 + ε n 4), (n + Vt, if req = .mapmask ∧ mk n = false then 0
          else ε n 5 + ε n 6 + ε n 7 + ε n 8 + ε n 9)] := by
        intro n
        simp only [out, siteOut, if_neg hrm]
        split_ifs <;> rfl
      have hfst : ((cs.map st).flatMap out).map Prod.fst =
          (cs.map st).flatMap fun n => [n, n + Vt] := by
        rw [List.map_flatMap]
        congr 1
        funext n
        rw [hout]
        rfl
      obtain ⟨m2', w1, w2, w3⟩ := writeAll_spec ((cs.map st).flatMap out) m2
        (by
          intro a ha
          have ha := List.mem_map_of_mem (f := Prod.fst) ha
          rw [hfst] at ha
          simp only [List.mem_flatMap, List.mem_cons, List.not_mem_nil, or_false] at ha
          obtain ⟨n, hn, h | h⟩ := ha
          · rw [h]; exact (hm2 n (hin' n hn)).1
          · rw [h]; exact (hm2 n (hin' n hn)).2)
        (by
          rw [hfst]
          exact nodup_two hVt _ (hperm.nodup_iff.2 List.nodup_range) hin')
      refine ⟨m2', w1, fun h => absurd h hrm, fun _ n hn => ⟨?_, ?_⟩, ?_⟩
      · have hw2 : ∀ e ∈ out n, m2' e.1 = some e.2 := fun e he =>
          w2 e (List.mem_flatMap.2 ⟨n, hin n hn, he⟩)
        rw [hout] at hw2
        exact hw2 _ List.mem_cons_self
      · have hw2 : ∀ e ∈ out n, m2' e.1 = some e.2 := fun e he =>
          w2 e (List.mem_flatMap.2 ⟨n, hin n hn, he⟩)
        rw [hout] at hw2
        exact hw2 _ (List.mem_cons_of_mem _ List.mem_cons_self)
      · intro a ha
        refine w3 a ?_
        rw [hfst]
        simp only [List.mem_flatMap, List.mem_cons, List.not_mem_nil, or_false, not_exists, not_and]
        intro n hn h
        have := ha n (hin' n hn)
        omega
  obtain ⟨m2', hw1, hw2⟩ := hw
  rw [hflat, hw1] at hfold
  refine ⟨fun q => ∑ n ∈ Finset.range (Lz * (Y * sites .saxion p i * (Y * sites .saxion p i))),
    allTerms req (t n) (mk n) q, m2', ?_, ?_, ?_, ?_, hw2⟩
  · have hrun : run (shape Y (sites .saxion p i) NN) (saxLane Real.sqrt (saxParams U) p i pot' req mk
        Vt (shape Y (sites .saxion p i) NN) m v) order m2 = some ((fun q => ∑ n ∈ Finset.range
        (Lz * (Y * sites .saxion p i * (Y * sites .saxion p i))),
          allTerms req (t n) (mk n) q), m2') := by
      unfold run
      rw [hfold]
      simp only [Option.map_some, hsum, zero_add]
    show (do
      let r ← run (shape Y (sites .saxion p i) NN) (saxLane Real.sqrt (saxParams U) p i pot' req mk
        Vt (shape Y (sites .saxion p i) NN) m v) order m2
      return (saxResult Nat.floor (saxParams U) p threads r.1, r.2)) = _
    rw [hrun]
    rfl
  · intro q hq
    by_cases h : wantsTotal req
    · rw [if_pos h, Finset.sum_mul]
      refine Finset.sum_congr rfl fun n hn => ?_
      simp only [allTerms, if_pos hq, (hasEne_iff req).2 h, if_true]
      exact ht1 n (hin n (Finset.mem_range.1 hn)) q hq
    · rw [if_neg h, Finset.sum_mul]
      refine Finset.sum_eq_zero fun n hn => ?_
      have h' : req.hasEne = false := Bool.eq_false_iff.2 (fun e => h ((hasEne_iff req).1 e))
      simp [allTerms, hq, h']
  · intro q hq
    by_cases h : wantsMask req
    · rw [if_pos h, Finset.sum_mul]
      refine Finset.sum_congr rfl fun n hn => ?_
      simp only [allTerms, if_neg (show ¬ (11 + q < 11) by omega), if_pos (show 11 + q < 22 by omega),
        (hasMask_iff req).2 h, Bool.true_and, Nat.add_sub_cancel_left]
      cases mk n with
      | false => simp
      | true =>
        simp only [if_true]
        exact ht1 n (hin n (Finset.mem_range.1 hn)) q hq
    · rw [if_neg h, Finset.sum_mul]
      refine Finset.sum_eq_zero fun n hn => ?_
      have h' : req.hasMask = false := Bool.eq_false_iff.2 (fun e => h ((hasMask_iff req).1 e))
      simp [allTerms, h']
  · by_cases h : wantsMask req
    · rw [if_pos h]
      refine Finset.sum_congr rfl fun n hn => ?_
      simp only [allTerms, (hasMask_iff req).2 h, Bool.true_and]
      rfl
    · rw [if_neg h]
      refine Finset.sum_eq_zero fun n hn => ?_
      have h' : req.hasMask = false := Bool.eq_false_iff.2 (fun e => h ((hasMask_iff req).1 e))
      simp [allTerms, h']

/-! ### C52 -/

/-- The hypotheses about one call of the kernel, shared by the theorems below: `Lx` a multiple of the
vector length with at least two rows per block, at least one ghost slice, a field that is nowhere
zero and nowhere at the shifted centre on the physical slices, field and velocity in memory as
`R φ` and `R (H φ + φ')`, the map array allocated, any order of the iterations. -/
structure Call (p : Prec) (i : Isa) (Lx Lz NN Vt : ℕ) (U : SaxUniverse)
    (φ φ' : ℤ → ℤ → ℤ → ℝ × ℝ) (m v : Heap ℕ (ℝ × ℝ)) (m2 : Heap ℕ ℝ) (order : List ℕ) :
    Prop where
  dvd : sites .saxion p i ∣ Lx
  rows : 2 ≤ Lx / sites .saxion p i
  ghosts : 1 ≤ NN
  pos : 0 < U.R
  ext : Lz * (Lx * Lx) ≤ Vt
  periodic : Periodic Lx φ
  nonzero : ∀ x y z : ℕ, x < Lx → y < Lx → z < Lz →
    radial (φ x y (z + NN)) (φ x y (z + NN)) ≠ 0
  centre : ∀ x y z : ℕ, x < Lx → y < Lx → z < Lz →
    ((φ x y (z + NN)).1 - U.sh) ^ 2 + (φ x y (z + NN)).2 ^ 2 ≠ 0
  field : Holds Lx (sites .saxion p i) (Lz + 2 * NN) m
    fun x y z => (U.R * (φ x y z).1, U.R * (φ x y z).2)
  velocity : Holds Lx (sites .saxion p i) Lz v
    fun x y z => (U.R * (U.H * (φ x y (z + NN)).1 + (φ' x y (z + NN)).1),
      U.R * (U.H * (φ x y (z + NN)).2 + (φ' x y (z + NN)).2))
  map : ∀ n, n < Lz * (Lx * Lx) → (m2 n).isSome ∧ (m2 (n + Vt)).isSome
  order : order.Perm (visits ⟨Lx, sites .saxion p i, NN⟩ Lz)

/-- **C52** For the cosine and the variant QCD potential (and no QCD potential if the axion mass
vanishes) the potential of the density is the one the option names. -/
theorem C52_potential (U : SaxUniverse) (pq : Pq) (qcd : Qcd)
    (h : qcd = .qcdC ∨ qcd = .qcdV ∨ (qcd = .qcd0 ∧ U.chi = 0)) :
    (dispatch (pq, qcd)).1 = pq ∧ usedQcd U (dispatch (pq, qcd)).2 = named U qcd := by
  rcases h with rfl | rfl | ⟨rfl, h⟩
  · exact ⟨rfl, rfl⟩
  · exact ⟨rfl, rfl⟩
  · refine ⟨rfl, ?_⟩
    funext c
    simp [dispatch, usedQcd, named, Vqcd, h]

/-- **C52** Single precision, every instruction set, request, mask, lattice, ghost width, field, time
and order of the iterations: the first eleven entries are the sums over all sites of the densities if
the request contains the total, the next eleven the sums over the masked sites if it contains the
mask, entry 22 the number of masked sites; entries not asked for are zero.  A map request stores at
every site the angular density, and `Vt` further the radial one; a masked map holds zero at the other
sites.  Nothing else is written. -/
theorem C52_single {Lx Vt : ℕ} (i : Isa) (U : SaxUniverse) (pq : Pq) (qcd : Qcd)
    (hq : qcd = .qcdC ∨ qcd = .qcdV ∨ (qcd = .qcd0 ∧ U.chi = 0))
    (req : Req) (mk : ℕ → Bool) (threads : ℕ) (φ φ' : ℤ → ℤ → ℤ → ℝ × ℝ)
    (m v : Heap ℕ (ℝ × ℝ)) (m2 : Heap ℕ ℝ) (order : List ℕ)
    (h : Call .single i Lx Lz NN Vt U φ φ' m v m2 order) :
    let ε := fun n => saxDensity U pq (named U qcd) φ φ' (xOf Lx n) (yOf Lx n) (zOf Lx n + NN)
    let V := Lz * (Lx * Lx)
    ∃ r, energySax Real.sqrt Nat.floor (saxParams U) .single i threads (pq, qcd) req mk Vt
        ⟨Lx, sites .saxion .single i, NN⟩ m v order m2 = some r ∧
      (∀ q, q < 11 → r.1 q = some (if wantsTotal req then ∑ n ∈ Finset.range V, ε n q else 0)) ∧
      (∀ q, q < 11 → r.1 (11 + q) = some (if wantsMask req then
        ∑ n ∈ Finset.range V, (if mk n then ε n q else 0) else 0)) ∧
      (r.1 22 = some (if wantsMask req then ∑ n ∈ Finset.range V, (if mk n then 1 else 0) else 0)) ∧
      (req = .mask → r.2 = m2) ∧
      (req ≠ .mask → ∀ n, n < V →
        r.2 n = some (if req = .mapmask ∧ mk n = false then 0
          else ε n 0 + ε n 1 + ε n 2 + ε n 3 + ε n 4) ∧
        r.2 (n + Vt) = some (if req = .mapmask ∧ mk n = false then 0
          else ε n 5 + ε n 6 + ε n 7 + ε n 8 + ε n 9)) ∧
      (∀ a, (∀ n, n < V → a ≠ n ∧ a ≠ n + Vt) → r.2 a = m2 a) := by
  intro ε V
  obtain ⟨e1, e2⟩ := C52_potential U pq qcd hq
  obtain ⟨T, m2', h0, h1, h2, h3, h4⟩ := energySax_eq .single i h.dvd h.rows h.ghosts U h.pos (pq, qcd)
    req mk Vt threads h.ext φ φ' h.periodic h.nonzero h.centre m v m2 h.field h.velocity h.map
    (fun e => absurd e (by decide)) order h.order
  rw [e1, e2] at h1 h2 h4
  have hns : ¬ (Prec.single = Prec.double) := by decide
  refine ⟨_, h0, ?_, ?_, ?_, h4⟩
  · intro q hq
    rw [← h1 q hq]
    simp only [saxResult, hns, false_and, if_false, if_neg (show ¬ (q = 22) by omega)]
  · intro q hq
    rw [← h2 q hq]
    simp only [saxResult, hns, false_and, if_false, if_neg (show ¬ (11 + q = 22) by omega)]
    have : saxFactor Nat.floor (saxParams U) .single (11 + q) =
        saxFactor Nat.floor (saxParams U) .single q := by
      unfold saxFactor
      rw [Nat.add_mod_left]
    rw [this]
  · rw [← h3]
    simp only [saxResult, hns, false_and, if_false, if_true]

/-- **C52** (exact, double precision) With doubles gradients, potentials and maps are as in single
precision; the kinetic entries carry `⌊1/R²⌋ R²` as an extra factor; the mean radius is never
written; with more than one thread the masked radius and the number of masked sites are not
determined.  Excluded is a mask with a site on builds for AVX or AVX2, see the next but one. -/
theorem C52_double {Lx Vt : ℕ} (i : Isa) (U : SaxUniverse) (pq : Pq) (qcd : Qcd)
    (hq : qcd = .qcdC ∨ qcd = .qcdV ∨ (qcd = .qcd0 ∧ U.chi = 0))
    (req : Req) (mk : ℕ → Bool) (threads : ℕ) (φ φ' : ℤ → ℤ → ℤ → ℝ × ℝ)
    (m v : Heap ℕ (ℝ × ℝ)) (m2 : Heap ℕ ℝ) (order : List ℕ)
    (h : Call .double i Lx Lz NN Vt U φ φ' m v m2 order)
    (hub : i = .avx ∨ i = .avx2 → wantsMask req → ∀ n, mk n = false) :
    let ε := fun n => saxDensity U pq (named U qcd) φ φ' (xOf Lx n) (yOf Lx n) (zOf Lx n + NN)
    let V := Lz * (Lx * Lx)
    let f := fun q : ℕ => if q = 3 ∨ q = 8 then (⌊1 / U.R / U.R⌋₊ : ℝ) * U.R ^ 2 else 1
    ∃ r, energySax Real.sqrt Nat.floor (saxParams U) .double i threads (pq, qcd) req mk Vt
        ⟨Lx, sites .saxion .double i, NN⟩ m v order m2 = some r ∧
      (∀ q, q < 10 → r.1 q = some (f q *
        if wantsTotal req then ∑ n ∈ Finset.range V, ε n q else 0)) ∧
      r.1 10 = none ∧
      (∀ q, q < 10 → r.1 (11 + q) = some (f q * if wantsMask req then
        ∑ n ∈ Finset.range V, (if mk n then ε n q else 0) else 0)) ∧
      (threads ≤ 1 →
        r.1 21 = some (if wantsMask req then ∑ n ∈ Finset.range V, (if mk n then ε n 10 else 0)
          else 0) ∧
        r.1 22 = some (if wantsMask req then ∑ n ∈ Finset.range V, (if mk n then 1 else 0) else 0)) ∧
      (1 < threads → r.1 21 = none ∧ r.1 22 = none) ∧
      (req = .mask → r.2 = m2) ∧
      (req ≠ .mask → ∀ n, n < V →
        r.2 n = some (if req = .mapmask ∧ mk n = false then 0
          else ε n 0 + ε n 1 + ε n 2 + ε n 3 + ε n 4) ∧
        r.2 (n + Vt) = some (if req = .mapmask ∧ mk n = false then 0
          else ε n 5 + ε n 6 + ε n 7 + ε n 8 + ε n 9)) := by
  intro ε V f
  obtain ⟨e1, e2⟩ := C52_potential U pq qcd hq
  obtain ⟨T, m2', h0, h1, h2, h3, h4, h5, -⟩ := energySax_eq .double i h.dvd h.rows h.ghosts U h.pos
    (pq, qcd) req mk Vt threads h.ext φ φ' h.periodic h.nonzero h.centre m v m2 h.field h.velocity
    h.map (fun _ => hub) order h.order
  rw [e1, e2] at h1 h2 h5
  have hr := h.pos.ne'
  have hns : ¬ (Prec.single = Prec.double) := by decide
  have hfac : ∀ q, q < 11 → saxFactor Nat.floor (saxParams U) .double q =
      f q * saxFactor Nat.floor (saxParams U) .single q := by
    intro q hq
    have hk : (1 : ℝ) / 2 * (⌊1 / U.R / U.R⌋₊ : ℝ) =
        (⌊1 / U.R / U.R⌋₊ : ℝ) * U.R ^ 2 * (1 / 2 * (saxParams U).iz2) := by
      simp only [SaxPar.iz2, SaxPar.iz, saxParams]
      field_simp
    match q, hq with
    | 0, _ => exact (one_mul _).symm
    | 1, _ => exact (one_mul _).symm
    | 2, _ => exact (one_mul _).symm
    | 3, _ =>
      simp only [saxFactor, if_neg hns, if_true, f, true_or]
      exact hk
    | 4, _ => exact (by simp [f, saxFactor])
    | 5, _ => exact (by simp [f, saxFactor])
    | 6, _ => exact (by simp [f, saxFactor])
    | 7, _ => exact (by simp [f, saxFactor])
    | 8, _ =>
      simp only [saxFactor, if_neg hns, if_true, f, or_true]
      exact hk
    | 9, _ => exact (by simp [f, saxFactor])
    | 10, _ => exact (by simp [f, saxFactor])
  have hper : ∀ q, saxFactor Nat.floor (saxParams U) .double (11 + q) =
      saxFactor Nat.floor (saxParams U) .double q := by
    intro q
    unfold saxFactor
    rw [Nat.add_mod_left]
  refine ⟨_, h0, ?_, rfl, ?_, ?_, ?_, h4, h5⟩
  · intro q hq
    rw [← h1 q (by omega)]
    simp only [saxResult, true_and, if_neg (show ¬ (q = 10) by omega),
      if_neg (show ¬ (1 < threads ∧ (q = 21 ∨ q = 22)) by omega), if_neg (show ¬ (q = 22) by omega),
      hfac q (by omega)]
    congr 1
    ring
  · intro q hq
    rw [← h2 q (by omega)]
    simp only [saxResult, true_and, if_neg (show ¬ (11 + q = 10) by omega),
      if_neg (show ¬ (1 < threads ∧ (11 + q = 21 ∨ 11 + q = 22)) by omega),
      if_neg (show ¬ (11 + q = 22) by omega), hper, hfac q (by omega)]
    congr 1
    ring
  · intro ht
    constructor
    · rw [← h2 10 (by omega)]
      have e : saxFactor Nat.floor (saxParams U) .double 21 =
          saxFactor Nat.floor (saxParams U) .single 10 := by
        rw [show (21 : ℕ) = 11 + 10 from rfl, hper, hfac 10 (by omega)]
        simp [f]
      simp [saxResult, Nat.not_lt.2 ht, e]
    · rw [← h3]
      simp [saxResult, Nat.not_lt.2 ht]
  · intro ht
    constructor
    · simp [saxResult, ht]
    · simp [saxResult, ht]

/-- **C52** (violated in double precision) As soon as the scale factor is larger than one the
kinetic energies reported with doubles vanish, whatever the field does. -/
theorem C52_double_no_kinetic {Lx Vt : ℕ} (i : Isa) (U : SaxUniverse) (pq : Pq) (qcd : Qcd)
    (hq : qcd = .qcdC ∨ qcd = .qcdV ∨ (qcd = .qcd0 ∧ U.chi = 0)) (hR : 1 < U.R)
    (req : Req) (mk : ℕ → Bool) (threads : ℕ) (φ φ' : ℤ → ℤ → ℤ → ℝ × ℝ)
    (m v : Heap ℕ (ℝ × ℝ)) (m2 : Heap ℕ ℝ) (order : List ℕ)
    (h : Call .double i Lx Lz NN Vt U φ φ' m v m2 order)
    (hub : i = .avx ∨ i = .avx2 → wantsMask req → ∀ n, mk n = false) :
    ∃ r, energySax Real.sqrt Nat.floor (saxParams U) .double i threads (pq, qcd) req mk Vt
        ⟨Lx, sites .saxion .double i, NN⟩ m v order m2 = some r ∧ r.1 3 = some 0 ∧ r.1 8 = some 0 := by
  obtain ⟨r, h0, h1, -⟩ := C52_double i U pq qcd hq req mk threads φ φ' m v m2 order h hub
  have hf : ⌊1 / U.R / U.R⌋₊ = 0 := by
    rw [Nat.floor_eq_zero, div_div, div_lt_one (by positivity)]
    nlinarith
  refine ⟨r, h0, ?_, ?_⟩
  · rw [h1 3 (by omega), hf]
    simp
  · rw [h1 8 (by omega), hf]
    simp

/-- **C52** (violated) On builds with AVX or AVX2 and doubles a request containing the mask reads
beyond the end of a local array as soon as one site is masked. -/
theorem C52_double_masked_undefined {Lx Vt : ℕ} (i : Isa) (hi : i = .avx ∨ i = .avx2)
    (U : SaxUniverse) (pot : Pq × Qcd) (req : Req) (hreq : wantsMask req) (mk : ℕ → Bool)
    (threads : ℕ) (hd : sites .saxion .double i ∣ Lx) (hrow : 2 ≤ Lx / sites .saxion .double i)
    (n : ℕ) (hn : n < Lz * (Lx * Lx)) (hk : mk n = true)
    (m v : Heap ℕ (ℝ × ℝ)) (m2 : Heap ℕ ℝ) (order : List ℕ)
    (ho : order.Perm (visits ⟨Lx, sites .saxion .double i, NN⟩ Lz)) :
    energySax Real.sqrt Nat.floor (saxParams U) .double i threads pot req mk Vt
      ⟨Lx, sites .saxion .double i, NN⟩ m v order m2 = none := by
  obtain ⟨Y, rfl⟩ : ∃ Y, Lx = Y * sites .saxion .double i := by
    obtain ⟨Y, h⟩ := hd; exact ⟨Y, by rw [h, Nat.mul_comm]⟩
  have hS := sites_pos .double i
  rw [Nat.mul_div_cancel _ hS] at hrow
  have hY : 0 < Y := by omega
  have hmem : n ∈ (lanes (shape Y (sites .saxion .double i) NN) order).map
      (siteOf (shape Y (sites .saxion .double i) NN)) :=
    (sites_perm hS hY ho).mem_iff.2 (List.mem_range.2 hn)
  obtain ⟨c, hc, hcn⟩ := List.mem_map.1 hmem
  have hbad : saxLane Real.sqrt (saxParams U) .double i (dispatch pot) req mk Vt
      (shape Y (sites .saxion .double i) NN) m v c = none := by
    obtain ⟨x, y, z, hx, hy, hz, hc'⟩ := (mem_lanes hS hY ho c).1 hc
    have hl : y / Y < sites .saxion .double i := Nat.div_lt_of_lt_mul hy
    have hu : ups mk (shape Y (sites .saxion .double i) NN) c.1 ≠ 0 := by
      unfold ups
      intro h
      have h := List.length_eq_zero_iff.1 h
      rw [List.filter_eq_nil_iff] at h
      have h := h c.2 (List.mem_range.2 (by rw [hc']; exact hl))
      apply h
      rw [show (c.1, c.2) = c from rfl, hcn, hk]
    have hm := (hasMask_iff req).2 hreq
    simp only [saxLane, hm, if_true, hu, and_false, if_false, ne_eq, not_false_eq_true, true_and, hi]
  have hrun : ∀ (cs : List (ℕ × ℕ)), c ∈ cs → ∀ st, cs.foldlM (step (saxLane Real.sqrt (saxParams U)
      .double i (dispatch pot) req mk Vt (shape Y (sites .saxion .double i) NN) m v)) st = none := by
    intro cs
    induction cs with
    | nil => simp
    | cons d cs ih =>
      intro hcd st
      rw [List.foldlM_cons]
      rcases List.mem_cons.1 hcd with h | h
      · subst h
        simp [step, hbad]
      · cases step (saxLane Real.sqrt (saxParams U) .double i (dispatch pot) req mk Vt
          (shape Y (sites .saxion .double i) NN) m v) st d with
        | none => rfl
        | some st' => exact ih h st'
  have := hrun _ hc (fun _ => 0, m2)
  show (do
    let r ← run (shape Y (sites .saxion .double i) NN) (saxLane Real.sqrt (saxParams U) .double i
      (dispatch pot) req mk Vt (shape Y (sites .saxion .double i) NN) m v) order m2
    return (saxResult Nat.floor (saxParams U) .double threads r.1, r.2)) = _
  unfold run
  rw [this]
  rfl

/-- **C52** Radial and angular parts add up to the full gradient and kinetic energy: the two entries
of each kind sum to `|∂φ|²/(2R²)` (mean of forward and backward difference) and `|φ'|²/(2R²)`. -/
theorem C52_parts (U : SaxUniverse) (pq : Pq) (V : ℝ × ℝ → ℝ) (φ φ' : ℤ → ℤ → ℤ → ℝ × ℝ) (x y z : ℤ)
    (h : radial (φ x y z) (φ x y z) ≠ 0) :
    let ε := saxDensity U pq V φ φ' x y z
    let n2 := fun a b : ℝ × ℝ => (a.1 - b.1) ^ 2 + (a.2 - b.2) ^ 2
    let c := φ x y z
    ε 0 + ε 5 = (n2 (φ (x + 1) y z) c + n2 c (φ (x - 1) y z)) / 2 / U.δ ^ 2 / (2 * U.R ^ 2) ∧
    ε 1 + ε 6 = (n2 (φ x (y + 1) z) c + n2 c (φ x (y - 1) z)) / 2 / U.δ ^ 2 / (2 * U.R ^ 2) ∧
    ε 2 + ε 7 = (n2 (φ x y (z + 1)) c + n2 c (φ x y (z - 1))) / 2 / U.δ ^ 2 / (2 * U.R ^ 2) ∧
    ε 3 + ε 8 = ((φ' x y z).1 ^ 2 + (φ' x y z).2 ^ 2) / (2 * U.R ^ 2) := by
  intro ε n2 c
  have key : ∀ d : ℝ × ℝ, angular c d ^ 2 + radial c d ^ 2 = radial c c * (d.1 ^ 2 + d.2 ^ 2) := by
    intro d; simp only [angular, radial]; ring
  have g : ∀ f b : ℝ × ℝ, meanPart angular f c b + meanPart radial f c b =
      (n2 f c + n2 c b) / 2 := by
    intro f b
    have k1 := key (dif f c)
    have k2 := key (dif c b)
    simp only [meanPart, n2]
    rw [← add_div, ← add_div]
    have : angular c (dif f c) ^ 2 + angular c (dif c b) ^ 2 +
        (radial c (dif f c) ^ 2 + radial c (dif c b) ^ 2) =
        radial c c * ((f.1 - c.1) ^ 2 + (f.2 - c.2) ^ 2 + ((c.1 - b.1) ^ 2 + (c.2 - b.2) ^ 2)) := by
      simp only [dif] at k1 k2 ⊢
      linear_combination k1 + k2
    rw [this, mul_div_cancel_left₀ _ h]
  refine ⟨?_, ?_, ?_, ?_⟩
  · rw [← g]; simp only [ε, saxDensity, c]; ring
  · rw [← g]; simp only [ε, saxDensity, c]; ring
  · rw [← g]; simp only [ε, saxDensity, c]; ring
  · have k := key (φ' x y z)
    simp only [ε, saxDensity]
    rw [← add_div, ← add_div, k, mul_div_cancel_left₀ _ h]

/-- **C52** (violated) With `V_QCD2` the potential energy reported for the axion is the same for
every field: it depends on time only. -/
theorem C52_two_minima_constant {Lx Vt : ℕ} (i : Isa) (U : SaxUniverse) (pq : Pq)
    (mk : ℕ → Bool) (threads : ℕ) (φ φ' : ℤ → ℤ → ℤ → ℝ × ℝ)
    (m v : Heap ℕ (ℝ × ℝ)) (m2 : Heap ℕ ℝ) (order : List ℕ)
    (h : Call .single i Lx Lz NN Vt U φ φ' m v m2 order) :
    ∃ r, energySax Real.sqrt Nat.floor (saxParams U) .single i threads (pq, .qcd2) .ene mk Vt
        ⟨Lx, sites .saxion .single i, NN⟩ m v order m2 = some r ∧
      r.1 4 = some ((Lz * (Lx * Lx) : ℕ) * (U.chi / 2 * (1 - 1 / U.R ^ 2))) := by
  obtain ⟨T, m2', h0, h1, -⟩ := energySax_eq .single i h.dvd h.rows h.ghosts U h.pos (pq, .qcd2)
    .ene mk Vt threads h.ext φ φ' h.periodic h.nonzero h.centre m v m2 h.field h.velocity h.map
    (fun e => absurd e (by decide)) order h.order
  refine ⟨_, h0, ?_⟩
  have h1 := h1 4 (by omega)
  simp only [wantsTotal, if_true, saxDensity, dispatch, usedQcd, Finset.sum_const, Finset.card_range,
    nsmul_eq_mul] at h1
  rw [← h1]
  rfl

/-- A call meeting the hypotheses of the theorems: a `4 × 4 × 1` lattice with two sites per vector, a
field that varies along x, a velocity, and an order of the iterations other than the usual one. -/
theorem call_exists (p : Prec) (i : Isa) (hs : sites .saxion p i = 2) :
    ∃ (φ φ' : ℤ → ℤ → ℤ → ℝ × ℝ) (m v : Heap ℕ (ℝ × ℝ)) (m2 : Heap ℕ ℝ) (order : List ℕ),
      φ 1 0 0 ≠ φ 0 0 0 ∧ φ' 0 0 0 ≠ 0 ∧
      Call p i 4 1 1 16 ⟨2, 3, 1, 1, 1, 0⟩ φ φ' m v m2 order := by
  have e : ∀ x y z : ℕ, x < 4 → y < 4 → cell 4 2 x y z / 2 % 4 = x := by
    intro x y z hx hy
    have h1 : y % 2 = 0 ∨ y % 2 = 1 := by omega
    simp only [cell]
    rcases h1 with h | h <;> norm_num [h] <;> omega
  refine ⟨fun x _ _ => (1 + ((x % 4 : ℤ) : ℝ), 1), fun _ _ _ => (1, 2),
    fun a => some (2 * (1 + (((a / 2 % 4 : ℕ) : ℤ) : ℝ)), 2 * 1),
    fun a => some (2 * (3 * (1 + (((a / 2 % 4 : ℕ) : ℤ) : ℝ)) + 1), 2 * (3 * 1 + 2)), fun _ => some 0,
    (visits ⟨4, sites .saxion p i, 1⟩ 1).reverse, by norm_num, by simp, ?_⟩
  constructor
  · rw [hs]; decide
  · rw [hs]
  · exact le_refl _
  · norm_num
  · norm_num
  · intro x y z
    simp
  · intro x y z _ _ _
    have := sq_nonneg (1 + ((((x : ℤ) % 4 : ℤ)) : ℝ))
    simp only [radial]
    nlinarith
  · intro x y z _ _ _
    have := sq_nonneg (1 + ((((x : ℤ) % 4 : ℤ)) : ℝ) - 0)
    simp only
    nlinarith
  · rw [hs]
    intro x y z hx hy hz
    have e' : ((x : ℤ) % 4) = (x : ℤ) := by omega
    simp only [e x y z hx hy, e']
  · rw [hs]
    intro x y z hx hy hz
    have e' : ((x : ℤ) % 4) = (x : ℤ) := by omega
    simp only [e x y z hx hy, e']
  · intro n _
    exact ⟨rfl, rfl⟩
  · exact List.reverse_perm _

example : sites .saxion .single .sse = 2 ∧ sites .saxion .double .avx = 2 := ⟨rfl, rfl⟩

end Jaxions.Energy
