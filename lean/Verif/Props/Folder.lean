import Verif.Lemmas.Folder
/-
C01: folding and unfolding lose nothing.
-/
namespace Jaxions

variable {α : Type _}

/-- **C01** Folding an allocated, unfolded field never leaves the allocated memory, keeps the
value and velocity of every lattice site, sets the flag, and leaves the scratch area `m2` and the
allocation alone; for every size, every number of lanes dividing the length, every thread schedule. -/
theorem C01_fold_keeps_field (g : Geo) (hNg : 1 ≤ g.Ng) (hdvd : g.shift ∣ g.n1) (sched : Sched)
    (hsch : sched.Ok) (f : Fld α) (ha : Alloc g f.heap) (hf : f.folded = false) :
    ∃ f', foldField g sched f = some f' ∧ f'.folded = true ∧ SameContent g f f' ∧
      Alloc g f'.heap ∧ ∀ i, f'.heap ⟨.m2, i⟩ = f.heap ⟨.m2, i⟩ := by
  obtain ⟨h', he, M⟩ := moveAll_spec g hNg sched hsch (gather_fold g) f.heap ha
  refine ⟨{ f with heap := h', folded := true }, ?_, rfl, ?_, ?_, M.m2same⟩
  · simp [foldField, hf, he]
  · intro x y z hx hy hz
    have hb := site_box g hdvd hx hy
    have h1 := M.mval z hz _ hb
    have h2 := M.vval z hz _ hb
    simp only [Fld.mAt, Fld.vAt, hf]
    rw [sitePos_folded, sitePos_plain]
    exact ⟨h1, h2⟩
  · intro a; rw [M.alloc]; exact ha a

/-- **C01** Unfolding keeps every value. -/
theorem C01_unfold_keeps_field (g : Geo) (hNg : 1 ≤ g.Ng) (hdvd : g.shift ∣ g.n1) (sched : Sched)
    (hsch : sched.Ok) (f : Fld α) (ha : Alloc g f.heap) (hf : f.folded = true) :
    ∃ f', unfoldField g sched f = some f' ∧ f'.folded = false ∧ SameContent g f f' ∧
      Alloc g f'.heap ∧ ∀ i, f'.heap ⟨.m2, i⟩ = f.heap ⟨.m2, i⟩ := by
  obtain ⟨h', he, M⟩ := moveAll_spec g hNg sched hsch (gather_unfold g) f.heap ha
  refine ⟨{ f with heap := h', folded := false }, ?_, rfl, ?_, ?_, M.m2same⟩
  · simp [unfoldField, hf, he]
  · intro x y z hx hy hz
    have hb := site_box g hdvd hx hy
    have h1 := M.mval z hz _ hb
    have h2 := M.vval z hz _ hb
    simp only [Fld.mAt, Fld.vAt, hf]
    rw [sitePos_folded, sitePos_plain]
    exact ⟨h1, h2⟩
  · intro a; rw [M.alloc]; exact ha a

/-- **C01** Any history of fold and unfold requests, with any thread schedules, runs without
undefined behaviour and ends with the same physical content; the layout flag says what the last
request asked for. -/
theorem C01_history (g : Geo) (hNg : 1 ≤ g.Ng) (hdvd : g.shift ∣ g.n1)
    (rs : List (FoldReq × Sched)) (hsch : ∀ r ∈ rs, r.2.Ok) (f : Fld α) (ha : Alloc g f.heap) :
    ∃ f', folderRun g rs f = some f' ∧ SameContent g f f' ∧ Alloc g f'.heap ∧
      f'.folded = (match rs.getLast? with
        | none => f.folded
        | some (.fold, _) => true
        | some (.unfold, _) => false) := by
  induction rs generalizing f with
  | nil => exact ⟨f, rfl, fun _ _ _ _ _ _ => ⟨rfl, rfl⟩, ha, rfl⟩
  | cons r rs ih =>
    obtain ⟨req, sched⟩ := r
    have hs := hsch (req, sched) (by simp)
    have hstep : ∃ f1, folderCall g sched f req = some f1 ∧ SameContent g f f1 ∧ Alloc g f1.heap ∧
        f1.folded = (match req with | .fold => true | .unfold => false) := by
      cases req with
      | fold =>
        cases hf : f.folded with
        | true => exact ⟨f, by simp [folderCall, foldField, hf], fun _ _ _ _ _ _ => ⟨rfl, rfl⟩, ha, hf⟩
        | false =>
          obtain ⟨f1, h1, h2, h3, h4, _⟩ := C01_fold_keeps_field g hNg hdvd sched hs f ha hf
          exact ⟨f1, h1, h3, h4, h2⟩
      | unfold =>
        cases hf : f.folded with
        | false => exact ⟨f, by simp [folderCall, unfoldField, hf], fun _ _ _ _ _ _ => ⟨rfl, rfl⟩, ha, hf⟩
        | true =>
          obtain ⟨f1, h1, h2, h3, h4, _⟩ := C01_unfold_keeps_field g hNg hdvd sched hs f ha hf
          exact ⟨f1, h1, h3, h4, h2⟩
    obtain ⟨f1, e1, c1, a1, l1⟩ := hstep
    obtain ⟨f', e', c', a', l'⟩ := ih (fun r hr => hsch r (by simp [hr])) f1 a1
    refine ⟨f', by simp [folderRun, e1, e'], ?_, a', ?_⟩
    · intro x y z hx hy hz
      rw [(c' x y z hx hy hz).1, (c' x y z hx hy hz).2]
      exact c1 x y z hx hy hz
    · rw [l']
      cases rs with
      | nil => rw [l1]; cases req <;> rfl
      | cons r' rs' =>
        rw [List.getLast?_cons_cons]
        cases hl : (r' :: rs').getLast? with
        | none => simp at hl
        | some x => obtain ⟨r, _⟩ := x; cases r <;> rfl

/-- **C01** The round trip restores every physical memory cell even when the lane count does not
divide the length (the constructor accepts such sizes, see `C01_accepts_nondividing`). -/
theorem C01_roundtrip_cells (g : Geo) (hNg : 1 ≤ g.Ng) (s₁ s₂ : Sched) (h₁ : s₁.Ok) (h₂ : s₂.Ok)
    (f : Fld α) (ha : Alloc g f.heap) (hf : f.folded = false) :
    ∃ f₁ f₂, foldField g s₁ f = some f₁ ∧ unfoldField g s₂ f₁ = some f₂ ∧ f₂.folded = false ∧
      (∀ i, i < g.n3 → f₂.heap (g.mStart i) = f.heap (g.mStart i)) ∧
      (∀ i, i < g.n3 → f₂.heap (g.vStart i) = f.heap (g.vStart i)) := by
  obtain ⟨h1, e1, M1⟩ := moveAll_spec g hNg s₁ h₁ (gather_fold g) f.heap ha
  have ha1 : Alloc g h1 := fun a => by rw [M1.alloc]; exact ha a
  obtain ⟨h2, e2, M2⟩ := moveAll_spec g hNg s₂ h₂ (gather_unfold g) h1 ha1
  refine ⟨{ f with heap := h1, folded := true }, { f with heap := h2, folded := false },
    by simp [foldField, hf, e1], by simp [unfoldField, e2], rfl, ?_, ?_⟩
  all_goals
    intro i hi
    have hn2 : 0 < g.n2 := by
      rcases Nat.eq_zero_or_pos g.n2 with h | h
      · simp [Geo.n3, h] at hi
      · exact h
    have hz : i / g.n2 < g.Lz := lt_of_mul_div hi
    have hj : i % g.n2 < g.n2 := Nat.mod_lt _ hn2
    have hi' : i = i / g.n2 * g.n2 + i % g.n2 := (div_mul_add_mod i g.n2).symm
    rw [hi']
    by_cases hin : i % g.n2 < g.n1 / g.shift * g.n1 * g.shift
    · obtain ⟨t, ht, htj⟩ := (image_plain g _).2 hin
      rw [htj]
      first
        | exact (M2.mval _ hz t ht).trans (M1.mval _ hz t ht)
        | exact (M2.vval _ hz t ht).trans (M1.vval _ hz t ht)
    · have hp : ∀ t, InBox g t → i % g.n2 ≠ plainIx g t.1 t.2.1 t.2.2 :=
        fun t ht hc => hin ((image_plain g _).1 ⟨t, ht, hc⟩)
      have hq : ∀ t, InBox g t → i % g.n2 ≠ foldedIx g t.1 t.2.1 t.2.2 :=
        fun t ht hc => hin ((image_folded g _).1 ⟨t, ht, hc⟩)
      first
        | exact (M2.mkeep _ hz _ hj hp).trans (M1.mkeep _ hz _ hj hq)
        | exact (M2.vkeep _ hz _ hj hp).trans (M1.vkeep _ hz _ hj hq)

/-- **C01** Both layouts are one to one: every physical cell holds exactly one lattice site. -/
theorem C01_layout_bijective (g : Geo) (hdvd : g.shift ∣ g.n1) (folded : Bool) (i : Nat)
    (hi : i < g.n3) :
    ∃ x y z, (x < g.n1 ∧ y < g.n1 ∧ z < g.Lz ∧ sitePos g folded x y z = i) ∧
      ∀ x' y' z', x' < g.n1 → y' < g.n1 → z' < g.Lz → sitePos g folded x' y' z' = i →
        x' = x ∧ y' = y ∧ z' = z := by
  have hn2 : 0 < g.n2 := by
    rcases Nat.eq_zero_or_pos g.n2 with h | h
    · simp [Geo.n3, h] at hi
    · exact h
  have hn1 : 0 < g.n1 := by
    rcases Nat.eq_zero_or_pos g.n1 with h | h
    · simp [Geo.n2, h] at hn2
    · exact h
  have hz : i / g.n2 < g.Lz := lt_of_mul_div hi
  have hj : i % g.n2 < g.n2 := Nat.mod_lt _ hn2
  have hi' : i / g.n2 * g.n2 + i % g.n2 = i := div_mul_add_mod i g.n2
  have hfull : g.n1 / g.shift * g.n1 * g.shift = g.n2 := by
    rw [Nat.mul_right_comm, Nat.div_mul_cancel hdvd]; rfl
  cases folded with
  | false =>
    have hy : i % g.n2 / g.n1 < g.n1 := lt_of_mul_div hj
    have hx : i % g.n2 % g.n1 < g.n1 := Nat.mod_lt _ hn1
    refine ⟨i % g.n2 % g.n1, i % g.n2 / g.n1, i / g.n2, ⟨hx, hy, hz, ?_⟩, ?_⟩
    · have := div_mul_add_mod (i % g.n2) g.n1
      simp only [sitePos, Bool.false_eq_true, if_false]
      omega
    · intro x' y' z' hx' hy' hz' he
      simp only [sitePos, Bool.false_eq_true, if_false, Nat.add_assoc] at he
      have hlt : y' * g.n1 + x' < g.n2 := pair_lt hy' hx'
      obtain ⟨h1, h2⟩ := pair_inj hlt hj (he.trans hi'.symm)
      have h3 := div_mul_add_mod (i % g.n2) g.n1
      obtain ⟨h4, h5⟩ := pair_inj hx' hx (h2.trans h3.symm)
      exact ⟨h5, h4, h1⟩
  | true =>
    obtain ⟨⟨iy, ix, sy⟩, ht, htj⟩ := (image_folded g (i % g.n2)).2 (by rw [hfull]; exact hj)
    have hq := ht.1
    simp only at hq htj
    have hrow := row_lt g ht.1 ht.2.2
    simp only at hrow
    have hcomm : iy + sy * (g.n1 / g.shift) = sy * (g.n1 / g.shift) + iy := Nat.add_comm _ _
    have hd : (iy + sy * (g.n1 / g.shift)) / (g.n1 / g.shift) = sy := by rw [hcomm]; exact div_of hq
    have hm : (iy + sy * (g.n1 / g.shift)) % (g.n1 / g.shift) = iy := by rw [hcomm]; exact mod_of hq
    refine ⟨ix, iy + sy * (g.n1 / g.shift), i / g.n2, ⟨ht.2.1, hrow, hz, ?_⟩, ?_⟩
    · rw [sitePos_folded, hd, hm, ← htj, hi']
    · intro x' y' z' hx' hy' hz' he
      rw [sitePos_folded] at he
      have hb := site_box g hdvd hx' hy'
      have hlt := foldedIx_lt g hb.1 hb.2.1 hb.2.2
      obtain ⟨h1, h2⟩ := pair_inj hlt hj (he.trans hi'.symm)
      rw [htj] at h2
      obtain ⟨h3, h4, h5⟩ := foldedIx_inj g hb.2.1 hb.2.2 ht.2.1 ht.2.2 h2
      simp only at h3 h4 h5
      refine ⟨h4, ?_, h1⟩
      have := div_mul_add_mod y' (g.n1 / g.shift)
      rw [h3, h5] at this
      omega

/-- The only size check of the constructor, scalarField.cpp:199-203: `n2*fSize % mAlign == 0`. -/
def ctorAccepts (n1 fSize mAlign : Nat) : Bool := n1 * n1 * fSize % mAlign == 0

/-- Finding: the constructor accepts lengths that the lane count does not divide (12 sites,
8 lanes of 4 bytes); then site (0, 8, 0) is not where the folded layout puts it. -/
theorem C01_accepts_nondividing :
    ctorAccepts 12 4 32 = true ∧ ¬ (32 / 4 ∣ 12) ∧
    sitePos ⟨12, 1, 1, 8, false⟩ true 0 8 0 = sitePos ⟨12, 1, 1, 8, false⟩ true 1 0 0 := by
  decide

/-! Non-vacuity: a 4 x 4 x 2 field with one ghost slice and 2 lanes. -/

def exGeo : Geo := ⟨4, 2, 1, 2, false⟩
def exFld : Fld Nat :=
  { heap := fun a => if a.idx < exGeo.size a.reg then some (a.idx * 7 + 3) else none, folded := false }

example : Alloc exGeo exFld.heap := by
  intro a
  show (if a.idx < exGeo.size a.reg then some (a.idx * 7 + 3) else none).isSome = true ↔ _
  split <;> simp_all

example : 1 ≤ exGeo.Ng ∧ exGeo.shift ∣ exGeo.n1 ∧ Sched.Ok (fun _ l => l.reverse) :=
  ⟨by decide, by decide, fun _ l => List.reverse_perm l⟩

-- folding moves site (1, 2, 0): it sits at offset 9 before and at offset 3 after
example : sitePos exGeo false 1 2 0 = 9 ∧ sitePos exGeo true 1 2 0 = 3 := by decide

end Jaxions
