import Verif.Spec.MomConf
import Verif.Basic.Fold
import Verif.Basic.DivMod
import Mathlib.Data.List.Perm.Basic
import Mathlib.Data.List.Nodup
import Mathlib.Tactic.Ring
import Mathlib.Tactic.Linarith
/-
Lemmas on the momentum loop.
-/
noncomputable section

namespace Jaxions.MomConf

theorem mem_cells {g : Geo} {c : Cell} : c ∈ g.cells ↔ g.Valid c := by
  unfold Geo.cells Geo.Valid
  simp only [List.mem_flatMap, List.mem_map, List.mem_range]
  constructor
  · rintro ⟨y, hy, z, hz, x, hx, rfl⟩; exact ⟨hy, hz, hx⟩
  · rintro ⟨hy, hz, hx⟩; exact ⟨c.y, hy, c.z, hz, c.x, hx, rfl⟩

theorem idx_eq (g : Geo) (c : Cell) : g.idx c = (c.y * g.Tz + c.z) * g.maxLx + c.x := by
  unfold Geo.idx; ring

theorem idx_lt {g : Geo} {c : Cell} (h : g.Valid c) : g.idx c < g.LLy * g.Tz * g.maxLx := by
  rw [idx_eq]
  exact pair_lt (pair_lt h.1 h.2.1) h.2.2

theorem idx_inj {g : Geo} {c c' : Cell} (h : g.Valid c) (h' : g.Valid c')
    (e : g.idx c = g.idx c') : c = c' := by
  rw [idx_eq, idx_eq] at e
  obtain ⟨e1, e2⟩ := pair_inj h.2.2 h'.2.2 e
  obtain ⟨e3, e4⟩ := pair_inj h.2.1 h'.2.1 e1
  cases c; cases c'; simp_all

theorem idx_surj {g : Geo} {a : ℕ} (h : a < g.LLy * g.Tz * g.maxLx) :
    ∃ c, g.Valid c ∧ g.idx c = a := by
  have hm : 0 < g.maxLx := by
    rcases Nat.eq_zero_or_pos g.maxLx with h0 | h0
    · rw [h0] at h; simp at h
    · exact h0
  have h1 := lt_of_mul_div h
  have hT : 0 < g.Tz := by
    rcases Nat.eq_zero_or_pos g.Tz with h0 | h0
    · rw [h0] at h; simp at h
    · exact h0
  refine ⟨⟨a / g.maxLx / g.Tz, a / g.maxLx % g.Tz, a % g.maxLx⟩,
    ⟨lt_of_mul_div h1, Nat.mod_lt _ hT, Nat.mod_lt _ hm⟩, ?_⟩
  rw [idx_eq]
  dsimp only
  rw [div_mul_add_mod, div_mul_add_mod]

theorem cells_nodup (g : Geo) : g.cells.Nodup := by
  unfold Geo.cells
  rw [List.nodup_flatMap]
  constructor
  · intro y _
    rw [List.nodup_flatMap]
    constructor
    · intro z _
      exact List.nodup_range.map fun a b h => by injection h
    · refine List.nodup_range.pairwise_of_forall_ne ?_
      intro z _ z' _ hne c h1 h2
      obtain ⟨x, _, rfl⟩ := List.mem_map.1 h1
      obtain ⟨x', _, h3⟩ := List.mem_map.1 h2
      injection h3 with _ h4 _
      exact hne h4.symm
  · refine List.nodup_range.pairwise_of_forall_ne ?_
    intro y _ y' _ hne c h1 h2
    obtain ⟨z, _, h3⟩ := List.mem_flatMap.1 h1
    obtain ⟨x, _, rfl⟩ := List.mem_map.1 h3
    obtain ⟨z', _, h4⟩ := List.mem_flatMap.1 h2
    obtain ⟨x', _, h5⟩ := List.mem_map.1 h4
    injection h5 with h6 _ _
    exact hne h6.symm

theorem Geo.Schedule.nodup {g : Geo} {L : List (ℕ × Cell)} (h : g.Schedule L) :
    (L.map Prod.snd).Nodup := h.nodup_iff.2 (cells_nodup g)

theorem Geo.Schedule.valid {g : Geo} {L : List (ℕ × Cell)} (h : g.Schedule L) {e : ℕ × Cell}
    (he : e ∈ L) : g.Valid e.2 :=
  mem_cells.1 (h.mem_iff.1 (List.mem_map_of_mem he))

theorem Geo.Schedule.exists {g : Geo} {L : List (ℕ × Cell)} (h : g.Schedule L) {c : Cell}
    (hc : g.Valid c) : ∃ t, (t, c) ∈ L := by
  obtain ⟨e, he, rfl⟩ := List.mem_map.1 (h.mem_iff.2 (mem_cells.2 hc))
  exact ⟨e.1, he⟩

/-- Drawn iterations of thread `t` in a list. -/
def turns (g : Geo) (P : Par) (rank : ℕ) (a : List (ℕ × Cell)) (t : ℕ) : ℕ :=
  (a.filter fun e => decide (e.1 = t) && g.drawn P rank e.2).length

theorem turns_append (g : Geo) (P : Par) (rank : ℕ) (a b : List (ℕ × Cell)) (t : ℕ) :
    turns g P rank (a ++ b) t = turns g P rank a t + turns g P rank b t := by
  unfold turns; rw [List.filter_append, List.length_append]

/-- The table is long enough for a mode. -/
def Reads (K : Kind) (P : Par) (n : ℕ) : Prop := K = .spax → Nat.sqrt n + 1 < P.tab.length

theorem modeOut_some {K : Kind} {P : Par} {n : ℕ} (h : Reads K P n) (Lx : ℕ) (d d' : Draw) :
    ∃ o, modeOut K P Lx n d d' = some o := by
  unfold modeOut
  cases K <;> try exact ⟨_, rfl⟩
  have h1 := h rfl
  dsimp only
  rw [List.getElem?_eq_getElem (by omega : Nat.sqrt n < P.tab.length),
    List.getElem?_eq_getElem h1]
  exact ⟨_, rfl⟩

theorem modeOut_none {K : Kind} {P : Par} {n : ℕ} (h : ¬ Reads K P n) (Lx : ℕ) (d d' : Draw) :
    modeOut K P Lx n d d' = none := by
  unfold Reads at h
  push Not at h
  obtain ⟨rfl, h1⟩ := h
  unfold modeOut
  dsimp only
  rw [List.getElem?_eq_none (l := P.tab) (i := Nat.sqrt n + 1) h1]
  cases P.tab[Nat.sqrt n]? <;> rfl

/-- The type writes a velocity. -/
def setsV : Kind → Bool
  | .vsincos => true
  | .vthermal => true
  | _ => false

theorem modeOut_v {K : Kind} {P : Par} {Lx n : ℕ} {d d' : Draw} {o : ℂ × Option ℂ}
    (h : modeOut K P Lx n d d' = some o) : o.2.isSome = setsV K := by
  unfold modeOut at h
  cases K <;> dsimp only at h
  case spax =>
    split at h
    · rw [Option.some.injEq] at h; subst h; rfl
    · exact absurd h (by simp)
  all_goals rw [Option.some.injEq] at h; subst h; rfl

/-- Content after the iteration at the end of `a`. -/
def Filled (K : Kind) (P : Par) (g : Geo) (rank : ℕ) (draws : ℕ → ℕ → Draw) (s t : State)
    (a : List (ℕ × Cell)) (e : ℕ × Cell) : Prop :=
  if g.drawn P rank e.2 then
    ∃ o, modeOut K P g.Lx (modP (g.mode rank e.2))
        (draws e.1 (s.used e.1 + pairs K * turns g P rank a e.1))
        (draws e.1 (s.used e.1 + pairs K * turns g P rank a e.1 + 1)) = some o ∧
      t.fM (g.idx e.2) = some o.1 ∧ t.fV (g.idx e.2) = (o.2.map some).getD (s.fV (g.idx e.2))
  else t.fM (g.idx e.2) = some 0 ∧ t.fV (g.idx e.2) = s.fV (g.idx e.2)

theorem split_snoc {ι : Type} {p a b : List ι} {e i : ι} (h : p ++ [i] = a ++ e :: b) :
    (p = a ∧ i = e ∧ b = []) ∨ ∃ b', b = b' ++ [i] ∧ p = a ++ e :: b' := by
  rcases List.eq_nil_or_concat b with rfl | ⟨b', j, rfl⟩
  · left
    obtain ⟨h1, h2⟩ := List.append_inj' h rfl
    exact ⟨h1, by injection h2, rfl⟩
  · right
    rw [List.concat_eq_append] at h ⊢
    rw [show a ++ e :: (b' ++ [j]) = (a ++ e :: b') ++ [j] by simp] at h
    obtain ⟨h1, h2⟩ := List.append_inj' h rfl
    injection h2 with h3 _
    exact ⟨b', by rw [h3], h1⟩

theorem Filled.congr {K : Kind} {P : Par} {g : Geo} {rank : ℕ} {draws : ℕ → ℕ → Draw}
    {s t t' : State} {a : List (ℕ × Cell)} {e : ℕ × Cell} (h : Filled K P g rank draws s t a e)
    (h1 : t'.fM (g.idx e.2) = t.fM (g.idx e.2)) (h2 : t'.fV (g.idx e.2) = t.fV (g.idx e.2)) :
    Filled K P g rank draws s t' a e := by
  unfold Filled at h ⊢
  rw [h1, h2]; exact h

theorem fill_spec {K : Kind} {P : Par} {g : Geo} {rank : ℕ} {draws : ℕ → ℕ → Draw}
    {L : List (ℕ × Cell)} {s : State} (hL : g.Schedule L) (hs : g.Allocated s)
    (hr : ∀ c, g.Valid c → g.drawn P rank c = true → Reads K P (modP (g.mode rank c))) :
    ∃ s', fill K P g rank draws L s = some s' ∧
      (∀ a e b, L = a ++ e :: b → Filled K P g rank draws s s' a e) ∧
      (∀ a, g.LLy * g.Tz * g.maxLx ≤ a → s'.fM a = s.fM a ∧ s'.fV a = s.fV a) := by
  obtain ⟨s', e1, e2⟩ := foldlM_inv (f := step K P g rank draws) (s := s)
    (P := fun pre t =>
      (∀ a, (t.fM a).isSome = (s.fM a).isSome ∧ (t.fV a).isSome = (s.fV a).isSome) ∧
      (∀ i, t.used i = s.used i + pairs K * turns g P rank pre i) ∧
      (∀ a e b, pre = a ++ e :: b → Filled K P g rank draws s t a e) ∧
      (∀ a, (∀ e ∈ pre, g.idx e.2 ≠ a) → t.fM a = s.fM a ∧ t.fV a = s.fV a)) L
    ⟨fun _ => ⟨rfl, rfl⟩, fun i => by simp [turns], fun a e b h => by simp at h,
      fun _ _ => ⟨rfl, rfl⟩⟩
    (by
      rintro pre e post hL' t ⟨t1, t2, t3, t4⟩
      have hmem : e ∈ L := by rw [hL']; simp
      have hv := hL.valid hmem
      have hlt := idx_lt hv
      have hnd := hL.nodup
      have hfresh : ∀ e' ∈ pre, g.idx e'.2 ≠ g.idx e.2 := by
        intro e' he' hc
        have h1 := idx_inj (hL.valid (by rw [hL']; simp [he'])) hv hc
        rw [hL', List.map_append, List.map_cons] at hnd
        have h2 := (List.nodup_append.1 hnd).2.2
        exact h2 e'.2 (List.mem_map_of_mem he') e.2 (by simp) h1
      have hM : (t.fM (g.idx e.2)).isSome := by rw [(t1 _).1]; exact (hs _ hlt).1
      have hV : (t.fV (g.idx e.2)).isSome := by rw [(t1 _).2]; exact (hs _ hlt).2
      have hM0 := (hs _ hlt).1
      have hV0 := (hs _ hlt).2
      obtain ⟨-, hold⟩ := t4 _ hfresh
      by_cases hd : g.drawn P rank e.2 = true
      · obtain ⟨o, ho⟩ := modeOut_some (hr _ hv hd) g.Lx
          (draws e.1 (t.used e.1)) (draws e.1 (t.used e.1 + 1))
        have hp : ∃ V, putV t.fV (g.idx e.2) o.2 = some V ∧
            V (g.idx e.2) = (o.2.map some).getD (s.fV (g.idx e.2)) ∧
            (∀ a, a ≠ g.idx e.2 → V a = t.fV a) ∧ ∀ a, (V a).isSome = (t.fV a).isSome := by
          cases h2 : o.2 with
          | none => exact ⟨t.fV, rfl, hold, fun _ _ => rfl, fun _ => rfl⟩
          | some b =>
            refine ⟨_, write_eq _ _ _ hV, ?_, ?_, ?_⟩
            · simp
            · intro a ha; simp [ha]
            · intro a
              by_cases ha : a = g.idx e.2
              · subst ha; simp [hV]
              · simp [ha]
        obtain ⟨V, p1, p2, p3, p4⟩ := hp
        refine ⟨⟨fun b => if b = g.idx e.2 then some o.1 else t.fM b, V,
          Function.update t.used e.1 (t.used e.1 + pairs K)⟩, ?_, ?_, ?_, ?_, ?_⟩
        · unfold step
          rw [if_pos hd, ho]
          dsimp only [Option.bind_some]
          rw [write_eq _ _ _ hM]
          dsimp only [Option.bind_some]
          rw [p1]; rfl
        · intro a
          refine ⟨?_, by rw [p4]; exact (t1 a).2⟩
          dsimp only
          by_cases ha : a = g.idx e.2
          · rw [if_pos ha, ha, hM0]; rfl
          · rw [if_neg ha]; exact (t1 a).1
        · intro i
          dsimp only
          rw [turns_append]
          by_cases hi : i = e.1
          · subst hi
            rw [Function.update_self, t2]
            have : turns g P rank [e] e.1 = 1 := by simp [turns, hd]
            rw [this]; ring
          · rw [Function.update_of_ne hi, t2]
            have : turns g P rank [e] i = 0 := by simp [turns, Ne.symm hi]
            rw [this]; ring
        · intro a e' b hab
          rcases split_snoc hab with ⟨rfl, rfl, rfl⟩ | ⟨b', rfl, hb⟩
          · unfold Filled
            rw [if_pos hd]
            refine ⟨o, ?_, ?_, ?_⟩
            · rw [← t2]; exact ho
            · exact if_pos rfl
            · exact p2
          · have hm : e' ∈ pre := by rw [hb]; simp
            have hne := hfresh e' hm
            refine (t3 a e' b' hb).congr ?_ (p3 _ hne)
            exact if_neg hne
        · intro a ha
          have h1 : g.idx e.2 ≠ a := ha e (by simp)
          obtain ⟨h2, h3⟩ := t4 a fun e' he' => ha e' (by simp [he'])
          refine ⟨?_, (p3 _ h1.symm).trans h3⟩
          rw [← h2]; exact if_neg h1.symm
      · refine ⟨⟨fun b => if b = g.idx e.2 then some 0 else t.fM b, t.fV, t.used⟩, ?_, ?_, ?_, ?_, ?_⟩
        · unfold step
          rw [if_neg hd, write_eq _ _ _ hM]; rfl
        · intro a
          refine ⟨?_, (t1 a).2⟩
          dsimp only
          by_cases ha : a = g.idx e.2
          · rw [if_pos ha, ha, hM0]; rfl
          · rw [if_neg ha]; exact (t1 a).1
        · intro i
          dsimp only
          rw [turns_append, t2]
          have : turns g P rank [e] i = 0 := by simp [turns, hd]
          rw [this]; ring
        · intro a e' b hab
          rcases split_snoc hab with ⟨rfl, rfl, rfl⟩ | ⟨b', rfl, hb⟩
          · unfold Filled
            rw [if_neg hd]
            exact ⟨if_pos rfl, hold⟩
          · have hm : e' ∈ pre := by rw [hb]; simp
            refine (t3 a e' b' hb).congr ?_ rfl
            exact if_neg (hfresh e' hm)
        · intro a ha
          have h1 : g.idx e.2 ≠ a := ha e (by simp)
          obtain ⟨h2, h3⟩ := t4 a fun e' he' => ha e' (by simp [he'])
          refine ⟨?_, h3⟩
          rw [← h2]; exact if_neg h1.symm)
  refine ⟨s', e1, e2.2.2.1, ?_⟩
  intro a ha
  refine e2.2.2.2 a ?_
  intro e he hc
  have := idx_lt (hL.valid he)
  omega

/-- One iteration that reads behind the table makes the whole loop undefined. -/
theorem fill_none {K : Kind} {P : Par} {g : Geo} {rank : ℕ} {draws : ℕ → ℕ → Draw}
    {L : List (ℕ × Cell)} {e : ℕ × Cell} (he : e ∈ L) (hd : g.drawn P rank e.2 = true)
    (hb : ¬ Reads K P (modP (g.mode rank e.2))) (s : State) :
    fill K P g rank draws L s = none := by
  unfold fill
  induction L generalizing s with
  | nil => exact absurd he List.not_mem_nil
  | cons i L ih =>
    rw [List.foldlM_cons]
    rcases List.mem_cons.1 he with rfl | he
    · have : step K P g rank draws s e = none := by
        unfold step
        rw [if_pos hd, modeOut_none hb]; rfl
      rw [this]; rfl
    · cases step K P g rank draws s i with
      | none => rfl
      | some t => exact ih he t

/-! ### Mode numbers -/

theorem signed_range {n o : ℕ} (h : o < n) : InRange n (signed n o) := by
  unfold InRange signed
  split_ifs with h1
  · constructor <;> omega
  · constructor <;> omega

theorem signed_inj {n o o' : ℕ} (h : o < n) (h' : o' < n) (e : signed n o = signed n o') :
    o = o' := by
  unfold signed at e
  split_ifs at e <;> omega

theorem signed_surj {n : ℕ} {p : ℤ} (h : InRange n p) : ∃ o < n, signed n o = p := by
  obtain ⟨h1, h2⟩ := h
  by_cases hp : 0 ≤ p
  · refine ⟨p.toNat, by omega, ?_⟩
    unfold signed
    rw [if_neg (by omega)]; omega
  · refine ⟨(p + n).toNat, by omega, ?_⟩
    unfold signed
    rw [if_pos (by omega)]; omega

theorem signed_zero (n : ℕ) : signed n 0 = 0 := by simp [signed]

theorem modP_eq (p : ℤ × ℤ × ℤ) : (modP p : ℤ) = sq p := by
  unfold modP sq
  have h1 := mul_self_nonneg p.1
  have h2 := mul_self_nonneg p.2.1
  have h3 := mul_self_nonneg p.2.2
  rw [Int.toNat_of_nonneg (by omega)]
  ring

theorem drawn_iff {g : Geo} {P : Par} {rank : ℕ} {c : Cell} :
    g.drawn P rank c = true ↔ sq (g.mode rank c) ≤ 3 * (g.kmax P.kMax : ℤ) ^ 2 := by
  unfold Geo.drawn
  rw [decide_eq_true_iff, ← modP_eq]
  constructor
  · intro h
    have : ((modP (g.mode rank c) : ℕ) : ℤ) ≤ ((3 * (g.kmax P.kMax * g.kmax P.kMax) : ℕ) : ℤ) :=
      Int.ofNat_le.2 h
    push_cast at this
    nlinarith
  · intro h
    have : ((modP (g.mode rank c) : ℕ) : ℤ) ≤ ((3 * (g.kmax P.kMax * g.kmax P.kMax) : ℕ) : ℤ) := by
      push_cast; nlinarith
    exact Int.ofNat_le.1 this

end Jaxions.MomConf
