import Verif.Lemmas.MendLine

namespace Jaxions
namespace Mend

variable {K : Type} [Field K] [LinearOrder K] [IsStrictOrderedRing K] [FloorRing K]

/-! ## Addresses of a line along y -/

/-- Place `a` vectors after site `(0, y)` of a folded slice. -/
def slot (Y S a y : Nat) : Nat := (y % Y) * (Y * S * S) + (a * S + y / Y)

section
variable {Y S : Nat}

theorem slot_inj (h4 : 4 ≤ Y * S) {a b y z : Nat} (ha : a < 4) (hb : b < 4)
    (hy : y < Y * S) (hz : z < Y * S) : slot Y S a y = slot Y S b z ↔ a = b ∧ y = z := by
  constructor
  · intro h
    have ya : y / Y < S := Nat.div_lt_of_lt_mul hy
    have za : z / Y < S := Nat.div_lt_of_lt_mul hz
    have l1 : a * S + y / Y < Y * S * S := lt_of_lt_of_le (pair_lt ha ya) (Nat.mul_le_mul_right S h4)
    have l2 : b * S + z / Y < Y * S * S := lt_of_lt_of_le (pair_lt hb za) (Nat.mul_le_mul_right S h4)
    obtain ⟨e1, e2⟩ := pair_inj l1 l2 h
    obtain ⟨e3, e4⟩ := pair_inj ya za e2
    refine ⟨e3, ?_⟩
    rw [← Nat.div_add_mod y Y, ← Nat.div_add_mod z Y, e1, e4]
  · rintro ⟨rfl, rfl⟩; rfl

theorem slot_lt (hY : 0 < Y) (h4 : 4 ≤ Y * S) {a y : Nat} (ha : a < 4) (hy : y < Y * S) :
    slot Y S a y < Y * S * (Y * S) := by
  have ya : y / Y < S := Nat.div_lt_of_lt_mul hy
  have l1 : a * S + y / Y < Y * S * S := lt_of_lt_of_le (pair_lt ha ya) (Nat.mul_le_mul_right S h4)
  have := pair_lt (Nat.mod_lt y hY) l1
  rw [slot]
  calc _ < Y * (Y * S * S) := this
    _ = _ := by ring

theorem slot_add (a b y : Nat) : slot Y S a y + b * S = slot Y S (a + b) y := by
  simp only [slot]; ring

theorem slot_zero : slot Y S 0 0 = 0 := by simp [slot]

theorem slot_ne (h4 : 4 ≤ Y * S) {y : Nat} (hy : y < Y * S) (h0 : y ≠ 0) :
    slot Y S 0 y ≠ 0 := by
  intro h
  have := (slot_inj (S := S) h4 (a := 0) (b := 0) (by omega) (by omega) hy (by omega : 0 < Y * S)).mp
    (h.trans (slot_zero).symm)
  exact h0 this.2

theorem geo_XC : (⟨Y * S, S⟩ : Geo).XC = Y * S * S := rfl
theorem geo_YC (hS : 0 < S) : (⟨Y * S, S⟩ : Geo).YC = Y := Nat.mul_div_cancel Y hS
theorem geo_Sf : (⟨Y * S, S⟩ : Geo).Sf = Y * S * (Y * S) := rfl

theorem sliceIdx_eq (hS : 0 < S) (hY : 0 < Y) {j : Nat} (hj : j < Y * S) :
    sliceIdx ⟨Y * S, S⟩ (j / Y) (j % Y) = (slot Y S 0 j, slot Y S 0 ((j + 1) % (Y * S))) := by
  have hq : j / Y < S := Nat.div_lt_of_lt_mul hj
  have hr : j % Y < Y := Nat.mod_lt _ hY
  have hd := div_mul_add_mod j Y
  simp only [sliceIdx, geo_YC hS, geo_XC, geo_Sf]
  by_cases hl : j % Y = Y - 1
  · rw [if_pos hl]
    congr 1
    · simp only [slot, hl]
      obtain ⟨Y', rfl⟩ : ∃ Y', Y = Y' + 1 := ⟨Y - 1, by omega⟩
      rw [Nat.add_sub_cancel, Nat.zero_mul, Nat.zero_add]
      congr 1
      rw [show (Y' + 1) * S * ((Y' + 1) * S) = Y' * ((Y' + 1) * S * S) + (Y' + 1) * S * S by ring,
        Nat.add_sub_cancel]
    · have e : j + 1 = (j / Y + 1) * Y := by rw [Nat.add_mul]; omega
      by_cases hlast : j / Y + 1 = S
      · rw [hlast, Nat.mod_self, e, hlast, Nat.mul_comm S Y, Nat.mod_self, slot_zero]
      · have h1 : (j / Y + 1) * Y < Y * S := by
          rw [Nat.mul_comm Y S]; exact Nat.mul_lt_mul_of_pos_right (by omega) hY
        rw [Nat.mod_eq_of_lt (show j / Y + 1 < S by omega), e, Nat.mod_eq_of_lt h1, slot,
          Nat.mul_mod_left, Nat.mul_div_cancel _ hY]
        omega
  · rw [if_neg hl]
    have h2 : j + 1 < Y * S := by
      have := pair_lt (a := S) (b := Y) hq (show j % Y + 1 < Y by omega)
      rw [Nat.mul_comm S Y] at this; omega
    have e : j + 1 = j / Y * Y + (j % Y + 1) := by omega
    rw [Nat.mod_eq_of_lt h2]
    congr 1
    · simp [slot]
    · have d1 : (j + 1) / Y = j / Y := by rw [e, div_of (by omega)]
      have d2 : (j + 1) % Y = j % Y + 1 := by rw [e, mod_of (by omega)]
      simp only [slot, d1, d2]; ring

theorem sliceIdx_back (hS : 0 < S) (hY : 0 < Y) {j : Nat} (hj : j < Y * S) :
    sliceIdx ⟨Y * S, S⟩ (S - 1 - j / Y) (Y - 1 - j % Y) =
      (slot Y S 0 (Y * S - (j + 1)), slot Y S 0 ((Y * S - j) % (Y * S))) := by
  have hq : j / Y < S := Nat.div_lt_of_lt_mul hj
  have hr : j % Y < Y := Nat.mod_lt _ hY
  have hd := div_mul_add_mod j Y
  have e : Y * S - (j + 1) = (S - 1 - j / Y) * Y + (Y - 1 - j % Y) := by
    obtain ⟨a, ha⟩ : ∃ a, S = j / Y + 1 + a := ⟨S - (j / Y + 1), by omega⟩
    obtain ⟨b, hb⟩ : ∃ b, Y = j % Y + 1 + b := ⟨Y - (j % Y + 1), by omega⟩
    rw [show S - 1 - j / Y = a by omega, show Y - 1 - j % Y = b by omega]
    have : Y * S = j / Y * Y + Y + a * Y := by
      rw [Nat.mul_comm Y S]; nth_rw 1 [ha]; ring
    omega
  have := sliceIdx_eq (j := Y * S - (j + 1)) hS hY (by omega)
  rw [show (Y * S - (j + 1)) / Y = S - 1 - j / Y by rw [e, div_of (by omega)],
    show (Y * S - (j + 1)) % Y = Y - 1 - j % Y by rw [e, mod_of (by omega)],
    show Y * S - (j + 1) + 1 = Y * S - j by omega] at this
  exact this

theorem sliceOrder_eq (hS : 0 < S) :
    sliceOrder ⟨Y * S, S⟩ = (List.range (Y * S)).map fun j => (j / Y, j % Y) := by
  have key : ∀ n, ((List.range n).flatMap fun v => (List.range Y).map fun y => (v, y)) =
      (List.range (Y * n)).map fun j => (j / Y, j % Y) := by
    intro n
    induction n with
    | zero => rfl
    | succ n ih =>
      rw [List.range_succ, List.flatMap_append, ih, Nat.mul_add, Nat.mul_one, List.range_add,
        List.map_append, List.map_map]
      congr 1
      simp only [List.flatMap_cons, List.flatMap_nil, List.append_nil]
      refine List.map_congr_left fun y hy => ?_
      have hy := List.mem_range.mp hy
      simp only [Function.comp]
      rw [Nat.mul_comm Y n, div_of hy, mod_of hy]
  have := key S
  simp only [sliceOrder, geo_YC hS]
  exact this

end

/-! ## The scans -/

theorem sliceScan_eq {zP : K} (h : 0 < zP) (w : K) {Y S NN t0 z fuel : Nat} (hS : 0 < S)
    (hY : 0 < Y) (h4 : 4 ≤ Y * S) {m v : Heap Nat K} {γ υ : Nat → K}
    (hm : ∀ y, y < Y * S → m ((z + NN) * (Y * S * (Y * S)) + slot Y S 0 y) = some (γ y))
    (hv : ∀ y, y < Y * S → v (z * (Y * S * (Y * S)) + slot Y S 0 y) = some (υ y))
    {kF kB : Nat → Int} (hkF : kF = scan (turnsS zP) (2 * zP) 0 fun j => γ (j % (Y * S)))
    (hkB : kB = scan (turnsS zP) (2 * zP) 0 (back (Y * S) γ))
    (hf : ∀ j, j ≤ Y * S → (kF j).natAbs ≤ fuel ∧ (kB j).natAbs ≤ fuel)
    {m2 : Heap Nat K} (ha : ∀ a y, a < 4 → y < Y * S → (m2 (t0 + slot Y S a y)).isSome)
    (h0 : m2 (t0 + slot Y S 0 0) = some (γ 0)) (h2 : m2 (t0 + slot Y S 2 0) = some (γ 0)) :
    ∃ m2', (sliceOrder ⟨Y * S, S⟩).foldlM (sliceScan fuel zP w ⟨Y * S, S⟩ NN t0 z m v) m2 =
        some m2' ∧
      (∀ y, y < Y * S → m2' (t0 + slot Y S 0 y) = some (γ y + kF y * (2 * zP))) ∧
      (∀ y, 0 < y → y < Y * S → m2' (t0 + slot Y S 1 y) = some (υ y + kF y * w)) ∧
      (∀ y, 0 < y → y < Y * S →
        m2' (t0 + slot Y S 2 y) = some (γ y + kB (Y * S - y) * (2 * zP))) ∧
      (∀ a, (m2' a).isSome = (m2 a).isSome) ∧
      ∀ a, (∀ b y, b < 4 → y < Y * S → a ≠ t0 + slot Y S b y) → m2' a = m2 a := by
  have kF0 : kF 0 = 0 := by rw [hkF]; rfl
  have kB0 : kB 0 = 0 := by rw [hkB]; rfl
  have sne : ∀ {a b y y' : Nat}, a < 4 → b < 4 → y < Y * S → y' < Y * S → (a ≠ b ∨ y ≠ y') →
      t0 + slot Y S a y ≠ t0 + slot Y S b y' := by
    intro a b y y' ha hb hy hy' hne hc
    have := (slot_inj h4 ha hb hy hy').mp (by omega)
    omega
  rw [sliceOrder_eq hS, List.foldlM_map]
  obtain ⟨m2', e, p1, p2, p3, p4, p5⟩ := range_inv (s := m2)
    (f := fun t j => sliceScan fuel zP w ⟨Y * S, S⟩ NN t0 z m v t (j / Y, j % Y))
    (P := fun j t => (∀ y, y ≤ j → y < Y * S → t (t0 + slot Y S 0 y) = some (γ y + kF y * (2 * zP))) ∧
      (∀ y, 0 < y → y ≤ j → y < Y * S → t (t0 + slot Y S 1 y) = some (υ y + kF y * w)) ∧
      (∀ i, i ≤ j → i < Y * S → t (t0 + slot Y S 2 ((Y * S - i) % (Y * S))) =
        some (back (Y * S) γ i + kB i * (2 * zP))) ∧
      (∀ a, (t a).isSome = (m2 a).isSome) ∧
      ∀ a, (∀ b y, b < 4 → y < Y * S → a ≠ t0 + slot Y S b y) → t a = m2 a) (Y * S)
    ⟨by
      intro y hy _
      obtain rfl : y = 0 := by omega
      rw [h0, kF0]; simp,
     by intros; omega, by
      intro i hi _
      obtain rfl : i = 0 := by omega
      rw [Nat.sub_zero, Nat.mod_self, h2, kB0]; simp [back], fun _ => rfl, fun _ _ => rfl⟩ (by
      rintro j hj t ⟨q1, q2, q3, q4, q5⟩
      have hj1 : (j + 1) % (Y * S) < Y * S := Nat.mod_lt _ (by omega)
      have hjB : Y * S - (j + 1) < Y * S := by omega
      have hjB2 : (Y * S - j) % (Y * S) < Y * S := Nat.mod_lt _ (by omega)
      have r1 := q1 j le_rfl hj
      have r2 := hm _ hj1
      have r3 := hv _ hj1
      have r4 := hm _ hjB
      have r5 := q3 j le_rfl hj
      have r6 := hv _ hjB
      have ekF : turnsS zP (γ ((j + 1) % (Y * S)) - (γ j + kF j * (2 * zP))) = kF (j + 1) := by
        conv_rhs => rw [hkF]
        show _ = turnsS zP _
        rw [← hkF]; dsimp only; rw [Nat.mod_eq_of_lt hj]
      have bs : back (Y * S) γ (j + 1) = γ (Y * S - (j + 1)) := by
        simp only [back]; rw [Nat.mod_eq_of_lt hjB]
      have ekB : turnsS zP (γ (Y * S - (j + 1)) - (back (Y * S) γ j + kB j * (2 * zP))) = kB (j + 1) := by
        conv_rhs => rw [hkB]
        show _ = turnsS zP _
        rw [← hkB, bs]
      have l1 := whileS_eq h w (γ j + kF j * (2 * zP)) fuel (γ ((j + 1) % (Y * S)), υ ((j + 1) % (Y * S)))
        (by rw [ekF]; exact (hf (j + 1) (by omega)).1)
      have l2 := whileS_eq h w (back (Y * S) γ j + kB j * (2 * zP)) fuel
        (γ (Y * S - (j + 1)), υ (Y * S - (j + 1))) (by rw [ekB]; exact (hf (j + 1) (by omega)).2)
      rw [ekF] at l1
      rw [ekB] at l2
      have x2 : t0 + 2 * S + slot Y S 0 ((Y * S - j) % (Y * S)) =
          t0 + slot Y S 2 ((Y * S - j) % (Y * S)) := by
        rw [← slot_add 0 2]; omega
      by_cases hlast : j + 1 = Y * S
      · -- the last iteration writes nothing
        have z1 : slot Y S 0 ((j + 1) % (Y * S)) = 0 := by
          rw [hlast, Nat.mod_self, slot_zero]
        have z2 : slot Y S 0 (Y * S - (j + 1)) = 0 := by
          rw [hlast, Nat.sub_self, slot_zero]
        refine ⟨t, ?_, ?_, ?_, ?_, q4, q5⟩
        · simp only [sliceScan, sliceIdx_eq hS hY hj, sliceIdx_back hS hY hj, geo_YC hS, geo_Sf, x2,
            r1, r2, r3, r4, r5, r6, Option.bind_eq_bind, Option.bind_some, l1, l2]
          rw [z1, z2]
          simp
        · intro y hy hy'; exact q1 y (by omega) hy'
        · intro y h0 hy hy'; exact q2 y h0 (by omega) hy'
        · intro y hy hy'; exact q3 y (by omega) hy'
      · have hm1 : (j + 1) % (Y * S) = j + 1 := Nat.mod_eq_of_lt (by omega)
        have n1 : slot Y S 0 ((j + 1) % (Y * S)) ≠ 0 := slot_ne h4 hj1 (by omega)
        have n2 : slot Y S 0 (Y * S - (j + 1)) ≠ 0 := slot_ne h4 hjB (by omega)
        have x1 : t0 + slot Y S 0 (j + 1) + S = t0 + slot Y S 1 (j + 1) := by
          have := slot_add (Y := Y) (S := S) 0 1 (j + 1); rw [Nat.zero_add] at this; omega
        have x3 : t0 + slot Y S 0 (Y * S - (j + 1)) + 2 * S = t0 + slot Y S 2 (Y * S - (j + 1)) := by
          have := slot_add (Y := Y) (S := S) 0 2 (Y * S - (j + 1)); rw [Nat.zero_add] at this; omega
        have x4 : t0 + slot Y S 0 (Y * S - (j + 1)) + 3 * S = t0 + slot Y S 3 (Y * S - (j + 1)) := by
          have := slot_add (Y := Y) (S := S) 0 3 (Y * S - (j + 1)); rw [Nat.zero_add] at this; omega
        have al : ∀ a y, a < 4 → y < Y * S → (t (t0 + slot Y S a y)).isSome := by
          intro a y h1 h2; rw [q4]; exact ha a y h1 h2
        set A1 := t0 + slot Y S 0 (j + 1) with hA1
        set A2 := t0 + slot Y S 1 (j + 1) with hA2
        set A3 := t0 + slot Y S 2 (Y * S - (j + 1)) with hA3
        set A4 := t0 + slot Y S 3 (Y * S - (j + 1)) with hA4
        have s1 : (t A1).isSome := al 0 _ (by omega) (by omega)
        have s2 : (t A2).isSome := al 1 _ (by omega) (by omega)
        have s3 : (t A3).isSome := al 2 _ (by omega) (by omega)
        have s4 : (t A4).isSome := al 3 _ (by omega) (by omega)
        set a1 := γ (j + 1) + kF (j + 1) * (2 * zP)
        set a2 := υ (j + 1) + kF (j + 1) * w
        set b1 := γ (Y * S - (j + 1)) + kB (j + 1) * (2 * zP) with hb1
        set b2 := υ (Y * S - (j + 1)) + kB (j + 1) * w
        let t1 : Heap Nat K := fun b => if b = A1 then some a1 else t b
        let t2 : Heap Nat K := fun b => if b = A2 then some a2 else t1 b
        let t3 : Heap Nat K := fun b => if b = A3 then some b1 else t2 b
        let t4 : Heap Nat K := fun b => if b = A4 then some b2 else t3 b
        have w1 : t.write A1 a1 = some t1 := write_eq _ _ _ s1
        have w2 : t1.write A2 a2 = some t2 := write_eq _ _ _ (by simp only [t1]; split <;> simp [s2])
        have w3 : t2.write A3 b1 = some t3 := write_eq _ _ _ (by
          simp only [t1, t2]; split <;> (try split) <;> simp [s3])
        have w4 : t3.write A4 b2 = some t4 := write_eq _ _ _ (by
          simp only [t1, t2, t3]; split <;> (try split) <;> (try split) <;> simp [s4])
        have t4eq : ∀ b, t4 b = if b = A4 then some b2 else if b = A3 then some b1 else
            if b = A2 then some a2 else if b = A1 then some a1 else t b := fun b => rfl
        refine ⟨t4, ?_, ?_, ?_, ?_, ?_, ?_⟩
        · simp only [sliceScan, sliceIdx_eq hS hY hj, sliceIdx_back hS hY hj, geo_YC hS, geo_Sf, x2,
            r1, r2, r3, r4, r5, r6, Option.bind_eq_bind, Option.bind_some, l1, l2]
          rw [if_pos n1]
          simp only [if_pos n2, hm1, x3, x4]
          rw [← hA1, w1, Option.bind_some, x1, w2, Option.bind_some, w3, Option.bind_some, w4]
        · intro y hy hy'
          rw [t4eq, if_neg (sne (by omega) (by omega) hy' hjB (by omega)),
            if_neg (sne (by omega) (by omega) hy' hjB (by omega)),
            if_neg (sne (by omega) (by omega) hy' (by omega) (by omega))]
          by_cases hyj : y = j + 1
          · rw [hyj, if_pos rfl]
          · rw [if_neg (sne (by omega) (by omega) hy' (by omega) (by omega)), q1 y (by omega) hy']
        · intro y hy0 hy hy'
          rw [t4eq, if_neg (sne (by omega) (by omega) hy' hjB (by omega)),
            if_neg (sne (by omega) (by omega) hy' hjB (by omega))]
          by_cases hyj : y = j + 1
          · rw [hyj, if_pos rfl]
          · rw [if_neg (sne (by omega) (by omega) hy' (by omega) (by omega)),
              if_neg (sne (by omega) (by omega) hy' (by omega) (by omega)), q2 y hy0 (by omega) hy']
        · intro i hi hi'
          have him : (Y * S - i) % (Y * S) < Y * S := Nat.mod_lt _ (by omega)
          rw [t4eq, if_neg (sne (by omega) (by omega) him hjB (by omega))]
          by_cases hij : i = j + 1
          · rw [hij, Nat.mod_eq_of_lt hjB, if_pos rfl, bs]
          · have hne : (Y * S - i) % (Y * S) ≠ Y * S - (j + 1) := by
              rcases Nat.eq_zero_or_pos i with rfl | hpos
              · rw [Nat.sub_zero, Nat.mod_self]; omega
              · rw [Nat.mod_eq_of_lt (by omega)]; omega
            rw [if_neg (sne (by omega) (by omega) him hjB (by omega)),
              if_neg (sne (by omega) (by omega) him (by omega) (by omega)),
              if_neg (sne (by omega) (by omega) him (by omega) (by omega)), q3 i (by omega) hi']
        · intro a
          rw [t4eq, ← q4]
          split_ifs with c1 c2 c3 c4
          · rw [c1, s4]; rfl
          · rw [c2, s3]; rfl
          · rw [c3, s2]; rfl
          · rw [c4, s1]; rfl
          · rfl
        · intro a hna
          rw [t4eq, if_neg (hna _ _ (by omega) hjB), if_neg (hna _ _ (by omega) hjB),
            if_neg (hna _ _ (by omega) (by omega)), if_neg (hna _ _ (by omega) (by omega)), q5 a hna])
  refine ⟨m2', e, fun y hy => p1 y (by omega) hy, fun y h0 hy => p2 y h0 (by omega) hy, ?_, p4, p5⟩
  intro y h0 hy
  have := p3 (Y * S - y) (by omega) (by omega)
  rw [show back (Y * S) γ (Y * S - y) = γ y from back_succ hy γ] at this
  rw [show (Y * S - (Y * S - y)) % (Y * S) = y by
    rw [show Y * S - (Y * S - y) = y by omega, Nat.mod_eq_of_lt hy]] at this
  exact this

/-! ## Writing the result -/

theorem sliceWrite_eq {zP : K} (h : 0 < zP) (w : K) {Y S NN t0 z : Nat} (hS : 0 < S)
    (hY : 0 < Y) (h4 : 4 ≤ Y * S) {m v : Heap Nat K} {γ υ : Nat → K}
    (hm : ∀ y, y < Y * S → m ((z + NN) * (Y * S * (Y * S)) + slot Y S 0 y) = some (γ y))
    (hv : ∀ y, y < Y * S → v (z * (Y * S * (Y * S)) + slot Y S 0 y) = some (υ y))
    {kF kB : Nat → Int} {m2 : Heap Nat K}
    (e0 : (m2 (t0 + slot Y S 0 0)).isSome) (e2 : (m2 (t0 + slot Y S 2 0)).isSome)
    (hF : ∀ y, 0 < y → y < Y * S → m2 (t0 + slot Y S 0 y) = some (γ y + kF y * (2 * zP)))
    (hV : ∀ y, 0 < y → y < Y * S → m2 (t0 + slot Y S 1 y) = some (υ y + kF y * w))
    (hB : ∀ y, 0 < y → y < Y * S →
      m2 (t0 + slot Y S 2 y) = some (γ y + kB (Y * S - y) * (2 * zP)))
    {k : Nat → Int} (k0 : k 0 = 0)
    (hk : ∀ y, 0 < y → y < Y * S → k y = if kF y = kB (Y * S - y) then kF y else 0) :
    ∃ m' v', (sliceOrder ⟨Y * S, S⟩).foldlM (sliceWrite ⟨Y * S, S⟩ NN t0 z m2) (m, v) =
        some (m', v') ∧
      (∀ y, y < Y * S → m' ((z + NN) * (Y * S * (Y * S)) + slot Y S 0 y) =
        some (γ y + k y * (2 * zP))) ∧
      (∀ y, y < Y * S → v' (z * (Y * S * (Y * S)) + slot Y S 0 y) = some (υ y + k y * w)) ∧
      (∀ a, (∀ y, y < Y * S → a ≠ (z + NN) * (Y * S * (Y * S)) + slot Y S 0 y) → m' a = m a) ∧
      (∀ a, (∀ y, y < Y * S → a ≠ z * (Y * S * (Y * S)) + slot Y S 0 y) → v' a = v a) := by
  have c0 : (2 * zP : K) ≠ 0 := by positivity
  have sne : ∀ {o y y' : Nat}, y < Y * S → y' < Y * S → y ≠ y' →
      o + slot Y S 0 y ≠ o + slot Y S 0 y' := by
    intro o y y' hy hy' hne hc
    have := (slot_inj (a := 0) (b := 0) h4 (by omega) (by omega) hy hy').mp (by omega)
    omega
  rw [sliceOrder_eq hS, List.foldlM_map]
  obtain ⟨⟨m', v'⟩, e, p1, p2, p3, p4, p5, p6⟩ := range_inv (s := (m, v))
    (f := fun t j => sliceWrite ⟨Y * S, S⟩ NN t0 z m2 t (j / Y, j % Y))
    (P := fun j t =>
      (∀ y, y ≤ j → y < Y * S → t.1 ((z + NN) * (Y * S * (Y * S)) + slot Y S 0 y) =
        some (γ y + k y * (2 * zP))) ∧
      (∀ y, y ≤ j → y < Y * S → t.2 (z * (Y * S * (Y * S)) + slot Y S 0 y) =
        some (υ y + k y * w)) ∧
      (∀ y, j < y → y < Y * S → t.1 ((z + NN) * (Y * S * (Y * S)) + slot Y S 0 y) = some (γ y)) ∧
      (∀ y, j < y → y < Y * S → t.2 (z * (Y * S * (Y * S)) + slot Y S 0 y) = some (υ y)) ∧
      (∀ a, (∀ y, y < Y * S → a ≠ (z + NN) * (Y * S * (Y * S)) + slot Y S 0 y) → t.1 a = m a) ∧
      (∀ a, (∀ y, y < Y * S → a ≠ z * (Y * S * (Y * S)) + slot Y S 0 y) → t.2 a = v a)) (Y * S)
    ⟨by
      intro y hy hy'
      obtain rfl : y = 0 := by omega
      dsimp only; rw [hm 0 hy', k0]; simp, by
      intro y hy hy'
      obtain rfl : y = 0 := by omega
      dsimp only; rw [hv 0 hy', k0]; simp, fun y _ hy => hm y hy, fun y _ hy => hv y hy,
      fun _ _ => rfl, fun _ _ => rfl⟩ (by
      rintro j hj ⟨tm, tv⟩ ⟨q1, q2, q3, q4, q5, q6⟩
      dsimp only at q1 q2 q3 q4 q5 q6
      have x2 : ∀ y, t0 + slot Y S 0 y + 2 * S = t0 + slot Y S 2 y := by
        intro y
        have := slot_add (Y := Y) (S := S) 0 2 y; rw [Nat.zero_add] at this; omega
      have x1 : ∀ y, t0 + slot Y S 0 y + S = t0 + slot Y S 1 y := by
        intro y
        have := slot_add (Y := Y) (S := S) 0 1 y; rw [Nat.zero_add] at this; omega
      by_cases hlast : j + 1 = Y * S
      · obtain ⟨f0, hf0⟩ := Option.isSome_iff_exists.mp e0
        obtain ⟨f2, hf2⟩ := Option.isSome_iff_exists.mp e2
        refine ⟨(tm, tv), ?_, ?_, ?_, ?_, ?_, q5, q6⟩
        · simp only [sliceWrite, sliceIdx_eq hS hY hj, x2, hlast, Nat.mod_self, hf0, hf2,
            Option.bind_eq_bind, Option.bind_some]
          simp only [slot_zero, ne_eq, not_true, and_false, if_false]
          rfl
        · intro y _ hy'; exact q1 y (by omega) hy'
        · intro y _ hy'; exact q2 y (by omega) hy'
        · intro y hy hy'; omega
        · intro y hy hy'; omega
      · have hj1 : j + 1 < Y * S := by omega
        have hm1 : (j + 1) % (Y * S) = j + 1 := Nat.mod_eq_of_lt hj1
        have n1 : slot Y S 0 (j + 1) ≠ 0 := slot_ne h4 hj1 (by omega)
        by_cases hfb : kF (j + 1) = kB (Y * S - (j + 1))
        · have hkj : k (j + 1) = kF (j + 1) := by rw [hk _ (by omega) hj1, if_pos hfb]
          refine ⟨(fun b => if b = (z + NN) * (Y * S * (Y * S)) + slot Y S 0 (j + 1) then
              some (γ (j + 1) + kF (j + 1) * (2 * zP)) else tm b,
            fun b => if b = z * (Y * S * (Y * S)) + slot Y S 0 (j + 1) then
              some (υ (j + 1) + kF (j + 1) * w) else tv b), ?_, ?_, ?_, ?_, ?_, ?_, ?_⟩
          · have w1 := write_eq tm ((z + NN) * (Y * S * (Y * S)) + slot Y S 0 (j + 1))
              (γ (j + 1) + kF (j + 1) * (2 * zP)) (by rw [q3 _ (by omega) hj1]; rfl)
            have w2 := write_eq tv (z * (Y * S * (Y * S)) + slot Y S 0 (j + 1))
              (υ (j + 1) + kF (j + 1) * w) (by rw [q4 _ (by omega) hj1]; rfl)
            simp only [sliceWrite, sliceIdx_eq hS hY hj, x2, x1, hm1, hF _ (Nat.succ_pos j) hj1,
              hB _ (Nat.succ_pos j) hj1, hV _ (Nat.succ_pos j) hj1, geo_Sf, hfb.symm,
              Option.bind_eq_bind, Option.bind_some, n1, ne_eq, not_false_eq_true, and_self,
              if_true, w1, w2]
            rfl
          · intro y hy hy'
            by_cases hyj : y = j + 1
            · rw [hyj, hkj]; simp
            · dsimp only; rw [if_neg (sne hy' hj1 hyj)]; exact q1 y (by omega) hy'
          · intro y hy hy'
            by_cases hyj : y = j + 1
            · rw [hyj, hkj]; simp
            · dsimp only; rw [if_neg (sne hy' hj1 hyj)]; exact q2 y (by omega) hy'
          · intro y hy hy'
            dsimp only; rw [if_neg (sne hy' hj1 (by omega))]; exact q3 y (by omega) hy'
          · intro y hy hy'
            dsimp only; rw [if_neg (sne hy' hj1 (by omega))]; exact q4 y (by omega) hy'
          · intro a hna
            dsimp only; rw [if_neg (hna _ hj1)]; exact q5 a hna
          · intro a hna
            dsimp only; rw [if_neg (hna _ hj1)]; exact q6 a hna
        · have hkj : k (j + 1) = 0 := by rw [hk _ (by omega) hj1, if_neg hfb]
          have hne : ¬ (γ (j + 1) + kF (j + 1) * (2 * zP) =
              γ (j + 1) + kB (Y * S - (j + 1)) * (2 * zP)) := by
            intro hc
            exact hfb (Int.cast_injective (α := K) (mul_right_cancel₀ c0 (add_left_cancel hc)))
          refine ⟨(tm, tv), ?_, ?_, ?_, ?_, ?_, q5, q6⟩
          · simp only [sliceWrite, sliceIdx_eq hS hY hj, x2, hm1, hF _ (Nat.succ_pos j) hj1,
              hB _ (Nat.succ_pos j) hj1, Option.bind_eq_bind, Option.bind_some, hne, false_and,
              if_false]
            rfl
          · intro y hy hy'
            by_cases hyj : y = j + 1
            · dsimp only; rw [hyj, hkj, q3 _ (by omega) hj1]; simp
            · exact q1 y (by omega) hy'
          · intro y hy hy'
            by_cases hyj : y = j + 1
            · dsimp only; rw [hyj, hkj, q4 _ (by omega) hj1]; simp
            · exact q2 y (by omega) hy'
          · intro y hy hy'; exact q3 y (by omega) hy'
          · intro y hy hy'; exact q4 y (by omega) hy')
  exact ⟨m', v', e, fun y hy => p1 y (by omega) hy, fun y hy => p2 y (by omega) hy, p5, p6⟩

/-! ## One slice -/

/-- Fuel that is enough for both scans of a closed line. -/
def LineFuel (σ : K → Int) (c : K) (L fuel : Nat) (g : Nat → K) : Prop :=
  ∀ j, j ≤ L → (scan σ c 0 (fun j => g (j % L)) j).natAbs ≤ fuel ∧
    (scan σ c 0 (back L g) j).natAbs ≤ fuel

omit [LinearOrder K] [IsStrictOrderedRing K] [FloorRing K] in
theorem mended_zero (σ : K → Int) (c : K) (L : Nat) (g : Nat → K) : mended σ c L g 0 = 0 := by
  unfold mended; split <;> simp [scan]

theorem sliceZ_eq {zP : K} (h : 0 < zP) (w : K) {Y S NN t0 z fuel : Nat} (hS : 0 < S)
    (hY : 0 < Y) (h4 : 4 ≤ Y * S) {s : St K} {γ υ : Nat → K}
    (hm : ∀ y, y < Y * S → s.m ((z + NN) * (Y * S * (Y * S)) + slot Y S 0 y) = some (γ y))
    (hv : ∀ y, y < Y * S → s.v (z * (Y * S * (Y * S)) + slot Y S 0 y) = some (υ y))
    (hf : LineFuel (turnsS zP) (2 * zP) (Y * S) fuel γ)
    (ha : ∀ a, a < Y * S * (Y * S) → (s.m2 (t0 + a)).isSome) :
    ∃ s', sliceZ fuel zP w ⟨Y * S, S⟩ NN t0 s z = some s' ∧
      (∀ y, y < Y * S → s'.m ((z + NN) * (Y * S * (Y * S)) + slot Y S 0 y) =
        some (γ y + mended (turnsS zP) (2 * zP) (Y * S) γ y * (2 * zP))) ∧
      (∀ y, y < Y * S → s'.v (z * (Y * S * (Y * S)) + slot Y S 0 y) =
        some (υ y + mended (turnsS zP) (2 * zP) (Y * S) γ y * w)) ∧
      (∀ a, (∀ y, y < Y * S → a ≠ (z + NN) * (Y * S * (Y * S)) + slot Y S 0 y) →
        s'.m a = s.m a) ∧
      (∀ a, (∀ y, y < Y * S → a ≠ z * (Y * S * (Y * S)) + slot Y S 0 y) → s'.v a = s.v a) ∧
      (∀ a, (s'.m2 a).isSome = (s.m2 a).isSome) ∧ s'.str = s.str := by
  have al : ∀ a y, a < 4 → y < Y * S → (s.m2 (t0 + slot Y S a y)).isSome :=
    fun a y h1 h2 => ha _ (slot_lt hY h4 h1 h2)
  have a0 := al 0 0 (by omega) (by omega)
  have a2 := al 2 0 (by omega) (by omega)
  have m0 := hm 0 (by omega)
  rw [slot_zero, Nat.add_zero] at m0 a0
  have x2 : t0 + 2 * S = t0 + slot Y S 2 0 := by
    have := slot_add (Y := Y) (S := S) 0 2 0; rw [Nat.zero_add, slot_zero] at this; omega
  have hne : t0 + slot Y S 2 0 ≠ t0 := by rw [← x2]; omega
  let n1 : Heap Nat K := fun b => if b = t0 then some (γ 0) else s.m2 b
  let n2 : Heap Nat K := fun b => if b = t0 + slot Y S 2 0 then some (γ 0) else n1 b
  have w1 : s.m2.write t0 (γ 0) = some n1 := write_eq _ _ _ a0
  have w2 : n1.write (t0 + 2 * S) (γ 0) = some n2 := by
    rw [x2]; exact write_eq _ _ _ (by simp only [n1]; split <;> simp [a2])
  have n2s : ∀ a, (n2 a).isSome = (s.m2 a).isSome := by
    intro a
    simp only [n2, n1]
    split_ifs with c1 c2
    · rw [c1, a2]; rfl
    · rw [c2, a0]; rfl
    · rfl
  obtain ⟨m2', e1, p1, p2, p3, p4, p5⟩ := sliceScan_eq h w (NN := NN) (t0 := t0) hS hY h4 hm hv rfl rfl hf
    (m2 := n2) (fun a y h1 h2 => by rw [n2s]; exact al a y h1 h2)
    (by rw [slot_zero, Nat.add_zero]; simp only [n2, n1]; rw [if_neg (fun hc => hne hc.symm), if_pos trivial])
    (by simp only [n2]; rw [if_pos trivial])
  obtain ⟨m', v', e2, r1, r2, r3, r4⟩ := sliceWrite_eq h w (NN := NN) (t0 := t0) hS hY h4 hm hv
    (m2 := m2') (by rw [p4, n2s]; exact al _ _ (by omega) (by omega))
    (by rw [p4, n2s]; exact al _ _ (by omega) (by omega)) (fun y _ hy => p1 y hy) p2 p3
    (k := mended (turnsS zP) (2 * zP) (Y * S) γ) (mended_zero _ _ _ _) (by
      intro y _ hy
      rw [mended, ← scan_congr (turnsS zP) (2 * zP) 0 (g := fun j => γ (j % (Y * S))) (n := Y * S)
        (fun i hi => by rw [Nat.mod_eq_of_lt hi]) y hy])
  refine ⟨⟨m', v', m2', s.str⟩, ?_, r1, r2, r3, r4, fun a => by rw [p4, n2s], rfl⟩
  simp only [sliceZ, geo_Sf, m0, Option.bind_eq_bind, Option.bind_some, w1, w2, e1, e2]
  rfl

/-! ## All slices of a rank -/

theorem mendSlice_eq {zP : K} (h : 0 < zP) (w : K) {Y S NN Lz T fuel : Nat} (hS : 0 < S)
    (hY : 0 < Y) (h4 : 4 ≤ Y * S) {s : St K} {γ υ : Nat → Nat → K}
    (hm : ∀ z y, z < Lz → y < Y * S →
      s.m ((z + NN) * (Y * S * (Y * S)) + slot Y S 0 y) = some (γ z y))
    (hv : ∀ z y, z < Lz → y < Y * S → s.v (z * (Y * S * (Y * S)) + slot Y S 0 y) = some (υ z y))
    (hf : ∀ z, z < Lz → LineFuel (turnsS zP) (2 * zP) (Y * S) fuel (γ z))
    (ha : ∀ a, a < T * (Y * S * (Y * S)) → (s.m2 a).isSome)
    {order : List (Nat × Nat)} (ho : SliceOrder Lz T order) :
    ∃ s', mendSlice fuel zP w ⟨Y * S, S⟩ NN order s = some s' ∧
      (∀ z y, z < Lz → y < Y * S → s'.m ((z + NN) * (Y * S * (Y * S)) + slot Y S 0 y) =
        some (γ z y + mended (turnsS zP) (2 * zP) (Y * S) (γ z) y * (2 * zP))) ∧
      (∀ z y, z < Lz → y < Y * S → s'.v (z * (Y * S * (Y * S)) + slot Y S 0 y) =
        some (υ z y + mended (turnsS zP) (2 * zP) (Y * S) (γ z) y * w)) ∧
      (∀ a, (∀ z y, z < Lz → y < Y * S → a ≠ (z + NN) * (Y * S * (Y * S)) + slot Y S 0 y) →
        s'.m a = s.m a) ∧
      (∀ a, (∀ z y, z < Lz → y < Y * S → a ≠ z * (Y * S * (Y * S)) + slot Y S 0 y) →
        s'.v a = s.v a) ∧
      (∀ a, (s'.m2 a).isSome = (s.m2 a).isSome) ∧ s'.str = s.str := by
  have sne : ∀ {o z z' y y' : Nat}, y < Y * S → y' < Y * S → z ≠ z' →
      (z + o) * (Y * S * (Y * S)) + slot Y S 0 y ≠ (z' + o) * (Y * S * (Y * S)) + slot Y S 0 y' := by
    intro o z z' y y' hy hy' hne hc
    have := (pair_inj (slot_lt hY h4 (by omega) hy) (slot_lt hY h4 (by omega) hy') hc).1
    omega
  obtain ⟨s', e, p1, p2, p3, p4, p5, p6, p7, p8⟩ := foldlM_inv (s := s)
    (f := fun s c => sliceZ fuel zP w ⟨Y * S, S⟩ NN (c.2 * (⟨Y * S, S⟩ : Geo).Sf) s c.1)
    (P := fun pre t =>
      (∀ z y, z < Lz → y < Y * S → z ∈ pre.map Prod.fst →
        t.m ((z + NN) * (Y * S * (Y * S)) + slot Y S 0 y) =
        some (γ z y + mended (turnsS zP) (2 * zP) (Y * S) (γ z) y * (2 * zP))) ∧
      (∀ z y, z < Lz → y < Y * S → z ∈ pre.map Prod.fst →
        t.v (z * (Y * S * (Y * S)) + slot Y S 0 y) =
        some (υ z y + mended (turnsS zP) (2 * zP) (Y * S) (γ z) y * w)) ∧
      (∀ z y, z < Lz → y < Y * S → z ∉ pre.map Prod.fst →
        t.m ((z + NN) * (Y * S * (Y * S)) + slot Y S 0 y) = some (γ z y)) ∧
      (∀ z y, z < Lz → y < Y * S → z ∉ pre.map Prod.fst →
        t.v (z * (Y * S * (Y * S)) + slot Y S 0 y) = some (υ z y)) ∧
      (∀ a, (∀ z y, z < Lz → y < Y * S → a ≠ (z + NN) * (Y * S * (Y * S)) + slot Y S 0 y) →
        t.m a = s.m a) ∧
      (∀ a, (∀ z y, z < Lz → y < Y * S → a ≠ z * (Y * S * (Y * S)) + slot Y S 0 y) →
        t.v a = s.v a) ∧
      (∀ a, (t.m2 a).isSome = (s.m2 a).isSome) ∧ t.str = s.str) order
    ⟨by simp, by simp, fun z y hz hy _ => hm z y hz hy, fun z y hz hy _ => hv z y hz hy,
      fun _ _ => rfl, fun _ _ => rfl, fun _ => rfl, rfl⟩ (by
      rintro pre ⟨z, th⟩ post hL t ⟨q1, q2, q3, q4, q5, q6, q7, q8⟩
      have hnd : (order.map Prod.fst).Nodup := ho.1.symm.nodup List.nodup_range
      have hz : z < Lz := by
        have : z ∈ order.map Prod.fst := by rw [hL]; simp
        exact List.mem_range.mp (ho.1.subset this)
      have hth : th < T := ho.2 (z, th) (by rw [hL]; simp)
      have hnew : z ∉ pre.map Prod.fst := by
        rw [hL, List.map_append, List.map_cons] at hnd
        have := List.nodup_append.mp hnd
        intro hc
        exact this.2.2 z hc z (by simp) rfl
      obtain ⟨t', e, r1, r2, r3, r4, r5, r6⟩ := sliceZ_eq h w (NN := NN)
        (t0 := th * (Y * S * (Y * S))) (z := z) hS hY h4 (s := t) (γ := γ z) (υ := υ z)
        (fun y hy => q3 z y hz hy hnew) (fun y hy => q4 z y hz hy hnew) (hf z hz) (by
          intro a haa
          rw [q7]
          exact ha _ (pair_lt hth haa))
      refine ⟨t', e, ?_, ?_, ?_, ?_, ?_, ?_, ?_, r6.trans q8⟩
      · intro z' y hz' hy hmem
        by_cases hzz : z' = z
        · rw [hzz]; exact r1 y hy
        · rw [r3 _ (fun y' hy' => sne hy hy' hzz)]
          refine q1 z' y hz' hy ?_
          simp only [List.map_append, List.mem_append, List.map_cons, List.map_nil,
            List.mem_singleton] at hmem
          exact hmem.resolve_right hzz
      · intro z' y hz' hy hmem
        by_cases hzz : z' = z
        · rw [hzz]; exact r2 y hy
        · rw [r4 _ (fun y' hy' => by have := sne (o := 0) hy hy' hzz; simpa using this)]
          refine q2 z' y hz' hy ?_
          simp only [List.map_append, List.mem_append, List.map_cons, List.map_nil,
            List.mem_singleton] at hmem
          exact hmem.resolve_right hzz
      · intro z' y hz' hy hmem
        simp only [List.map_append, List.mem_append, List.map_cons, List.map_nil,
            List.mem_singleton, not_or] at hmem
        rw [r3 _ (fun y' hy' => sne hy hy' hmem.2)]
        exact q3 z' y hz' hy hmem.1
      · intro z' y hz' hy hmem
        simp only [List.map_append, List.mem_append, List.map_cons, List.map_nil,
            List.mem_singleton, not_or] at hmem
        rw [r4 _ (fun y' hy' => by have := sne (o := 0) hy hy' hmem.2; simpa using this)]
        exact q4 z' y hz' hy hmem.1
      · intro a hna
        rw [r3 a (fun y hy => hna z y hz hy), q5 a hna]
      · intro a hna
        rw [r4 a (fun y hy => hna z y hz hy), q6 a hna]
      · intro a; rw [r5, q7])
  have hall : ∀ z, z < Lz → z ∈ order.map Prod.fst := fun z hz =>
    ho.1.symm.subset (List.mem_range.mpr hz)
  exact ⟨s', e, fun z y hz hy => p1 z y hz hy (hall z hz), fun z y hz hy => p2 z y hz hy (hall z hz),
    p5, p6, p7, p8⟩

end Mend
end Jaxions
