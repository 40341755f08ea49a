import Verif.Props.AxionTable

namespace Jaxions.AxSpec

variable {g : Grid}

/-- A sweep that writes the padded cell of each site. -/
theorem one_write (hg : g.Ok) {order : List Site} (ho : g.Order order) {t : M2} (hr : g.Room t)
    {step : M2 → Site → Option M2} (val : Site → Val)
    (hstep : ∀ p, g.In p → ∀ t' : M2, t' (g.v3 + g.bare p) = t (g.v3 + g.bare p) →
      step t' p = t'.write (g.pad p) (val p)) :
    ∃ t', sweep step order t = some t' ∧ (∀ p, g.In p → t' (g.pad p) = some (val p)) ∧
      ∀ a, (∀ p, g.In p → a ≠ g.pad p) → t' a = t a := by
  obtain ⟨t', e1, e2, e3⟩ := sweep_spec (step := step) (order := order) (t0 := t)
    (fun p a => a = g.pad p) (fun p a => a = g.pad p ∨ a = g.v3 + g.bare p) (fun p _ => val p) ho.nodup
    (by
      rintro p hp q hq hpq a rfl (h | h)
      · exact hpq (pad_inj p q ((ho.mem p).1 hp) ((ho.mem q).1 hq) h)
      · have := pad_lt hg p ((ho.mem p).1 hp)
        omega)
    (fun p a h => Or.inl h)
    (by
      intro p hp t1 h1
      have hp' := (ho.mem p).1 hp
      rw [hstep p hp' t1 (h1 _ (Or.inr rfl))]
      obtain ⟨t2, f1, f2, f3⟩ := write_some t1 (g.pad p) (val p)
        (by rw [h1 _ (Or.inl rfl)]; exact room_pad hg hr hp')
      exact ⟨t2, f1, by rintro a rfl; exact f2, f3⟩)
  exact ⟨t', e1, fun p hp => e2 p ((ho.mem p).2 hp) _ rfl, fun a ha =>
    e3 a fun p hp => ha p ((ho.mem p).1 hp)⟩

/-- A sweep that writes the padded cell of each site and a cell of the second half. -/
theorem two_writes (hg : g.Ok) {order : List Site} (ho : g.Order order) {t : M2} (hr : g.Room t)
    {step : M2 → Site → Option M2} (f : Site → ℕ) (v1 v2 : Site → Val)
    (hf : ∀ p, g.In p → g.v3 ≤ f p ∧ f p < 2 * g.v3)
    (hinj : ∀ p q, g.In p → g.In q → f p = f q → p = q)
    (hstep : ∀ p, g.In p → ∀ t' : M2, t' (f p) = t (f p) →
      step t' p = (t'.write (g.pad p) (v1 p)).bind fun t' => t'.write (f p) (v2 p)) :
    ∃ t', sweep step order t = some t' ∧
      (∀ p, g.In p → t' (g.pad p) = some (v1 p) ∧ t' (f p) = some (v2 p)) ∧
      ∀ a, (∀ p, g.In p → a ≠ g.pad p ∧ a ≠ f p) → t' a = t a := by
  classical
  obtain ⟨t', e1, e2, e3⟩ := sweep_spec (step := step) (order := order) (t0 := t)
    (fun p a => a = g.pad p ∨ a = f p) (fun p a => a = g.pad p ∨ a = f p)
    (fun p a => if a = f p then v2 p else v1 p) ho.nodup
    (by
      rintro p hp q hq hpq a (rfl | rfl) (h | h)
      · exact hpq (pad_inj p q ((ho.mem p).1 hp) ((ho.mem q).1 hq) h)
      · have := pad_lt hg p ((ho.mem p).1 hp)
        have := (hf q ((ho.mem q).1 hq)).1
        omega
      · have := pad_lt hg q ((ho.mem q).1 hq)
        have := (hf p ((ho.mem p).1 hp)).1
        omega
      · exact hpq (hinj p q ((ho.mem p).1 hp) ((ho.mem q).1 hq) h))
    (fun p a h => h)
    (by
      intro p hp t1 h1
      have hp' := (ho.mem p).1 hp
      have hne : g.pad p ≠ f p := by
        have := pad_lt hg p hp'
        have := (hf p hp').1
        omega
      rw [hstep p hp' t1 (h1 _ (Or.inr rfl))]
      obtain ⟨t2, f1, f2, f3⟩ := write_some t1 (g.pad p) (v1 p)
        (by rw [h1 _ (Or.inl rfl)]; exact room_pad hg hr hp')
      obtain ⟨t3, g1, g2, g3⟩ := write_some t2 (f p) (v2 p)
        (by rw [f3 _ hne.symm, h1 _ (Or.inr rfl)]; exact hr _ (hf p hp').2)
      refine ⟨t3, by rw [f1]; exact g1, ?_, ?_⟩
      · rintro a (rfl | rfl)
        · rw [g3 _ hne, f2, if_neg hne]
        · rw [g2, if_pos rfl]
      · intro a ha
        rw [g3 a fun h => ha (Or.inr h), f3 a fun h => ha (Or.inl h)])
  refine ⟨t', e1, fun p hp => ⟨?_, ?_⟩, fun a ha => e3 a fun p hp => ?_⟩
  · have := e2 p ((ho.mem p).2 hp) _ (Or.inl rfl)
    rw [this, if_neg]
    have := pad_lt hg p hp
    have := (hf p hp).1
    omega
  · have := e2 p ((ho.mem p).2 hp) _ (Or.inr rfl)
    rw [this, if_pos rfl]
  · have := ha p ((ho.mem p).1 hp)
    rintro (h | h)
    · exact this.1 h
    · exact this.2 h

theorem weigh_congr {t t' : M2} {p : Site} (h : t' (g.v3 + g.bare p) = t (g.v3 + g.bare p))
    (k : Mask) (R f : ℝ) (w : ℂ) (M : Mem) (r : Val) :
    weigh g k R f w M t' p r = weigh g k R f w M t p r := by
  cases k <;> simp only [weigh, h]

theorem weigh_some {t : M2} {p : Site} {M : Mem} {h : Bool} (hs : M.sd (g.bare p) = some h)
    (ht : (t (g.v3 + g.bare p)).isSome) (k : Mask) (R f : ℝ) (w : ℂ) (r : Val) :
    ∃ x, weigh g k R f w M t p r = some x := by
  obtain ⟨q, hq⟩ := Option.isSome_iff_exists.1 ht
  cases k <;> simp only [weigh, hs, hq, Option.bind_eq_bind, Option.bind_some] <;> exact ⟨_, rfl⟩

/-- No table is used at the site. -/
def Plain (P : Par) (n : Near) : Prop :=
  ∀ T, P.lut = some T → skipLUT (n.c - P.shift) (gradRe P.pre n) (gradIm P.pre n)

/-- The tables of the run are complete. -/
def Par.Full (P : Par) : Prop := ∀ T, P.lut = some T → T.Full

theorem rate_plain {P : Par} {n : Near} (h : Plain P n) (u : ℂ) :
    rate P.lut P.pre (n.c - P.shift) n u = some (ratio (n.c - P.shift) u) := by
  unfold rate
  cases hl : P.lut with
  | none => rfl
  | some T => exact if_pos (h T hl)

theorem rate_some {P : Par} (hP : P.Full) (n : Near) (u : ℂ) :
    ∃ r, rate P.lut P.pre (n.c - P.shift) n u = some r := by
  unfold rate
  cases hl : P.lut with
  | none => exact ⟨_, rfl⟩
  | some T =>
    by_cases hs : skipLUT (n.c - P.shift) (gradRe P.pre n) (gradIm P.pre n)
    · exact ⟨_, if_pos hs⟩
    · obtain ⟨r, hr⟩ := C72_table_inside (hP T hl) _ _ _ hs u
      exact ⟨r, by simp only [if_neg hs]; exact hr⟩

/-- The site is taken out by a mask of sites. -/
def Out (k : Mask) (hit : Bool) : Prop := (k = .redo ∨ k = .ball) ∧ hit = true

/-- What a site gets. -/
theorem site_val {P : Par} {n : Near} {u : ℂ} {r : Val} {k : Mask} {M : Mem} {t : M2} {p : Site}
    {hit : Bool} {q : ℝ} (f : ℝ) (hr : rate P.lut P.pre (n.c - P.shift) n u = some r)
    (hs : M.sd (g.bare p) = some hit)
    (hq : k = .gaus ∨ k = .diff → t (g.v3 + g.bare p) = some (some q))
    (h : Plain P n ∧ n.c - P.shift ≠ 0 ∨ Out k hit) :
    weigh g k.built P.R f (n.c - P.shift) M t p r =
      some (some (f * maskedRate k P.R (n.c - P.shift) hit q (phaseRate (n.c - P.shift) u))) := by
  rcases h with ⟨h1, h2⟩ | ⟨hk, rfl⟩
  · rw [rate_plain h1, ratio_eq h2] at hr
    rw [← Option.some.inj hr]
    exact weigh_spec k P.R f _ M t p hit q _ hs hq
  · rw [weigh_hit k P.R f _ M t p r hk hs]
    rcases hk with rfl | rfl <;> simp [maskedRate, maskFactor]

end Jaxions.AxSpec
