import Verif.Spec.Tracker
import Verif.Basic.Fold
import Verif.Basic.DivMod
import Mathlib.Tactic.Ring
import Mathlib.Data.List.Nodup
import Mathlib.Data.List.Perm.Basic

namespace Jaxions.Tracker

variable {K : Type} {g : Geo}

/-! Site numbers. -/

theorem shift_pos (hd : g.shift ∣ g.n1) (hn : 0 < g.n1) : 0 < g.shift := Nat.pos_of_dvd_of_pos hd hn

theorem idx2Vec_plain {n x y : ℕ} (z : ℕ) (hx : x < n) (hy : y < n) :
    idx2Vec (z * (n * n) + y * n + x) n = (x, y, z) := by
  have e : z * (n * n) + y * n + x = (z * n + y) * n + x := by ring
  have h1 : (z * (n * n) + y * n + x) / n = z * n + y := by rw [e]; exact div_of hx
  have h2 : (z * n + y) / n = z := div_of hy
  unfold idx2Vec
  simp only [h1, h2]
  rw [e]
  congr 1
  · omega
  · congr 1; omega

theorem foldidx_site (hd : g.shift ∣ g.n1) {x y : ℕ} (z : ℕ) (hx : x < g.n1) (hy : y < g.n1) :
    foldidx g (sitePos g false x y z) = sitePos g true x y z := by
  have e : sitePos g false x y z = z * (g.n1 * g.n1) + y * g.n1 + x := rfl
  unfold foldidx
  rw [e, idx2Vec_plain z hx hy]
  dsimp only
  rw [Nat.mul_div_assoc _ hd]
  have hm : y - y / (g.n1 / g.shift) * (g.n1 / g.shift) = y % (g.n1 / g.shift) := by
    have := div_mul_add_mod y (g.n1 / g.shift)
    omega
  rw [hm]
  show z * g.n2 + _ + _ = z * g.n2 + _ * g.shift + _
  rw [Nat.mul_comm g.shift]

/-- Numbers of a folded site. -/
structure Parts (g : Geo) (x y z q : ℕ) : Prop where
  n1 : g.n1 = g.shift * q
  q0 : 0 < q
  ha : y % q < q
  hb : y / q < g.shift
  hy : y / q * q + y % q = y
  t : (y % q) * g.n1 + x < q * g.n1
  r : ((y % q) * g.n1 + x) * g.shift + y / q < g.n2
  n2 : g.n2 = q * g.n1 * g.shift
  pos : sitePos g true x y z = z * g.n2 + (((y % q) * g.n1 + x) * g.shift + y / q)

theorem parts (hd : g.shift ∣ g.n1) {x y : ℕ} (z : ℕ) (hx : x < g.n1) (hy : y < g.n1) :
    Parts g x y z (g.n1 / g.shift) := by
  have hs := shift_pos hd (by omega)
  have e1 : g.n1 = g.shift * (g.n1 / g.shift) := (Nat.mul_div_cancel' hd).symm
  have hq : 0 < g.n1 / g.shift := Nat.div_pos (Nat.le_of_dvd (by omega) hd) hs
  have ha := Nat.mod_lt y hq
  have hb : y / (g.n1 / g.shift) < g.shift := lt_of_mul_div (by rw [← e1]; exact hy)
  have ht : (y % (g.n1 / g.shift)) * g.n1 + x < (g.n1 / g.shift) * g.n1 := pair_lt ha hx
  have hn2 : g.n2 = (g.n1 / g.shift) * g.n1 * g.shift := by
    unfold Geo.n2
    calc g.n1 * g.n1 = (g.shift * (g.n1 / g.shift)) * g.n1 := by rw [← e1]
      _ = _ := by ring
  exact ⟨e1, hq, ha, hb, div_mul_add_mod _ _, ht, by rw [hn2]; exact pair_lt ht hb, hn2,
    Nat.add_assoc _ _ _⟩

theorem unfoldidx_site (hd : g.shift ∣ g.n1) {x y : ℕ} (z : ℕ) (hx : x < g.n1) (hy : y < g.n1) :
    unfoldidx g (sitePos g true x y z) = sitePos g false x y z := by
  have p := parts hd z hx hy
  have h1 : sitePos g true x y z / g.n2 = z := by rw [p.pos]; exact div_of p.r
  have h2 : sitePos g true x y z % g.shift = y / (g.n1 / g.shift) := by
    rw [p.pos, p.n2, ← Nat.mul_assoc, ← Nat.add_assoc, ← Nat.add_mul]
    exact mod_of p.hb
  unfold unfoldidx
  simp only [h1, h2]
  rw [show sitePos g true x y z - z * g.n2 - y / (g.n1 / g.shift) =
    ((y % (g.n1 / g.shift)) * g.n1 + x) * g.shift by rw [p.pos]; omega]
  rw [Nat.mul_div_cancel _ (shift_pos hd (by omega)), div_of hx, mod_of hx, Nat.mul_div_assoc _ hd,
    Nat.add_comm (y % _), p.hy]
  rfl

theorem printed_site (hd : g.shift ∣ g.n1) {x y : ℕ} (z rank : ℕ) (hx : x < g.n1) (hy : y < g.n1) :
    printed g rank (sitePos g true x y z) = (x, y, z + rank * g.Lz) := by
  have p := parts hd z hx hy
  have hs := shift_pos hd (by omega)
  have h1 : sitePos g true x y z / g.n2 = z := by rw [p.pos]; exact div_of p.r
  have hxs : x * g.shift + y / (g.n1 / g.shift) < g.n1 * g.shift := pair_lt hx p.hb
  have e2 : sitePos g true x y z - z * g.n2 =
      (y % (g.n1 / g.shift)) * (g.n1 * g.shift) + (x * g.shift + y / (g.n1 / g.shift)) := by
    rw [p.pos, Nat.add_sub_cancel_left]; ring
  unfold printed
  simp only [h1, e2, div_of hxs, Nat.add_sub_cancel_left, div_of p.hb]
  rw [Nat.add_comm (y % _), p.hy]

/-- Every array element is a site, in both layouts. -/
theorem site_of (hd : g.shift ∣ g.n1) (folded : Bool) {i : ℕ} (hi : i < g.n3) :
    ∃ x y z, x < g.n1 ∧ y < g.n1 ∧ z < g.Lz ∧ sitePos g folded x y z = i := by
  have hn2 : 0 < g.n2 := by
    rcases Nat.eq_zero_or_pos g.n2 with h | h
    · unfold Geo.n3 at hi; rw [h] at hi; simp at hi
    · exact h
  have hn1 : 0 < g.n1 := by
    rcases Nat.eq_zero_or_pos g.n1 with h | h
    · unfold Geo.n2 at hn2; rw [h] at hn2; simp at hn2
    · exact h
  have hz : i / g.n2 < g.Lz := lt_of_mul_div hi
  have hr : i % g.n2 < g.n2 := Nat.mod_lt _ hn2
  cases folded with
  | false =>
    refine ⟨i % g.n2 % g.n1, i % g.n2 / g.n1, i / g.n2, Nat.mod_lt _ hn1, lt_of_mul_div hr, hz, ?_⟩
    show i / g.n2 * g.n2 + i % g.n2 / g.n1 * g.n1 + i % g.n2 % g.n1 = i
    rw [Nat.add_assoc, div_mul_add_mod, div_mul_add_mod]
  | true =>
    have hs := shift_pos hd hn1
    have e1 : g.n1 = g.shift * (g.n1 / g.shift) := (Nat.mul_div_cancel' hd).symm
    have hq : 0 < g.n1 / g.shift := Nat.div_pos (Nat.le_of_dvd hn1 hd) hs
    have hn2' : g.n2 = (g.n1 / g.shift) * g.n1 * g.shift := by
      unfold Geo.n2
      calc g.n1 * g.n1 = (g.shift * (g.n1 / g.shift)) * g.n1 := by rw [← e1]
        _ = _ := by ring
    have hb : i % g.n2 % g.shift < g.shift := Nat.mod_lt _ hs
    have ht : i % g.n2 / g.shift < (g.n1 / g.shift) * g.n1 := lt_of_mul_div (by rw [← hn2']; exact hr)
    have ha : i % g.n2 / g.shift / g.n1 < g.n1 / g.shift := lt_of_mul_div ht
    refine ⟨i % g.n2 / g.shift % g.n1,
      i % g.n2 % g.shift * (g.n1 / g.shift) + i % g.n2 / g.shift / g.n1, i / g.n2,
      Nat.mod_lt _ hn1, ?_, hz, ?_⟩
    · conv_rhs => rw [e1]
      exact pair_lt hb ha
    · show i / g.n2 * g.n2 + (_ % (g.n1 / g.shift) * g.n1 + _) * g.shift + _ / (g.n1 / g.shift) = i
      rw [div_of ha, mod_of ha, div_mul_add_mod, Nat.add_assoc, div_mul_add_mod, div_mul_add_mod]

theorem sitePos_lt (hd : g.shift ∣ g.n1) (folded : Bool) {x y z : ℕ} (hx : x < g.n1) (hy : y < g.n1)
    (hz : z < g.Lz) : sitePos g folded x y z < g.n3 := by
  cases folded with
  | false =>
    show z * g.n2 + y * g.n1 + x < g.Lz * g.n2
    rw [Nat.add_assoc]
    exact pair_lt hz (pair_lt hy hx)
  | true =>
    have p := parts hd z hx hy
    rw [p.pos]
    exact pair_lt hz p.r

theorem foldidx_lt (hd : g.shift ∣ g.n1) {i : ℕ} (hi : i < g.n3) : foldidx g i < g.n3 := by
  obtain ⟨x, y, z, hx, hy, hz, rfl⟩ := site_of hd false hi
  rw [foldidx_site hd z hx hy]
  exact sitePos_lt hd true hx hy hz

theorem sitePos_inj (hd : g.shift ∣ g.n1) (folded : Bool) {x y z x' y' z' : ℕ} (hx : x < g.n1)
    (hy : y < g.n1) (hx' : x' < g.n1) (hy' : y' < g.n1)
    (h : sitePos g folded x y z = sitePos g folded x' y' z') : x = x' ∧ y = y' ∧ z = z' := by
  have h2 : sitePos g true x y z = sitePos g true x' y' z' := by
    cases folded with
    | true => exact h
    | false => rw [← foldidx_site hd z hx hy, h, foldidx_site hd z' hx' hy']
  have e1 := printed_site hd z 0 hx hy
  rw [h2, printed_site hd z' 0 hx' hy', Prod.mk.injEq, Prod.mk.injEq] at e1
  omega

/-! The lists. -/

/-- The limit as it is compared. -/
def limU (t : St K) : ℕ := (t.limit % 2 ^ 64).toNat

structure Good (t : St K) : Prop where
  ids : t.idxlist = t.axilist.map Axiton.idx
  nodup : t.idxlist.Nodup
  len : t.idxlist.length ≤ limU t

theorem add_spec (t : St K) (ht : Good t) (id : ℕ) :
    let s := (addAxiton t id).1
    Good s ∧ s.ct = t.ct ∧ s.limit = t.limit ∧ s.index = t.index ∧
      (s.axilist = t.axilist ∧ (full t = true ∨ id ∈ t.idxlist) ∨
        s.axilist = t.axilist ++ [⟨id, t.index, [], []⟩]) ∧
      (full s = false → id ∈ s.idxlist) ∧ (∀ j ∈ t.idxlist, j ∈ s.idxlist) ∧
      (full t = true → full s = true) := by
  dsimp only
  unfold addAxiton
  by_cases hf : full t
  · rw [if_pos hf]
    exact ⟨ht, rfl, rfl, rfl, .inl ⟨rfl, .inl hf⟩, fun h => absurd hf (by simp [h]),
      fun _ h => h, fun h => h⟩
  · rw [if_neg hf]
    by_cases hm : id ∈ t.idxlist
    · rw [if_pos hm]
      exact ⟨ht, rfl, rfl, rfl, .inl ⟨rfl, .inr hm⟩, fun _ => hm, fun _ h => h, fun h => h⟩
    · rw [if_neg hm]
      have hlt : t.idxlist.length < limU t := by
        unfold full at hf
        simp only [decide_eq_true_eq] at hf
        unfold limU
        omega
      refine ⟨⟨?_, ?_, ?_⟩, rfl, rfl, rfl, .inr rfl, ?_, ?_, fun h => absurd h hf⟩
      · dsimp only; rw [List.map_append, ht.ids]; rfl
      · dsimp only
        rw [List.nodup_append]
        refine ⟨ht.nodup, by simp, ?_⟩
        intro a ha b hb
        rw [List.mem_singleton] at hb
        rintro rfl
        exact hm (hb ▸ ha)
      · dsimp only; rw [List.length_append]; exact hlt
      · intro _; exact List.mem_append_right _ (List.mem_singleton.2 rfl)
      · intro j hj; exact List.mem_append_left _ hj

theorem shows_some {L : Lat K} {f : Arr K} (hd : g.shift ∣ g.n1) (hs : Shows g L f) {i : ℕ}
    (hi : i < g.n3) : ∃ x y z, x < g.n1 ∧ y < g.n1 ∧ z < g.Lz ∧ sitePos g f.folded x y z = i ∧
      f.m i = some (L x y z).1 ∧ f.v i = some (L x y z).2 := by
  obtain ⟨x, y, z, hx, hy, hz, rfl⟩ := site_of hd f.folded hi
  exact ⟨x, y, z, hx, hy, hz, rfl, hs.1 x y z hx hy hz⟩

/-- The number given to a site found. -/
def idOf (g : Geo) (f : Arr K) (i : ℕ) : ℕ := if f.folded then i else foldidx g i

theorem idOf_site (hd : g.shift ∣ g.n1) (f : Arr K) {x y : ℕ} (z : ℕ) (hx : x < g.n1) (hy : y < g.n1) :
    idOf g f (sitePos g f.folded x y z) = sitePos g true x y z := by
  unfold idOf
  cases hf : f.folded with
  | true => rfl
  | false => rw [if_neg (by decide)]; exact foldidx_site hd z hx hy

theorem hit_iff (c : Crit K) (a b : K) : c.hit a b = true ↔ Meets c a b := by
  unfold Crit.hit Meets
  rw [Bool.or_eq_true, Bool.and_eq_true, Bool.and_eq_true]
  constructor <;> rintro (⟨h1, h2⟩ | ⟨h1, h2⟩)
  · exact Or.inl ⟨h2, h1⟩
  · exact Or.inr ⟨h2, h1⟩
  · exact Or.inl ⟨h2, h1⟩
  · exact Or.inr ⟨h2, h1⟩

theorem search_spec (hd : g.shift ∣ g.n1) (c : Crit K) (L : Lat K) (f : Arr K) (hs : Shows g L f)
    (order : List ℕ) (ho : ∀ i ∈ order, i < g.n3) (t : St K) (ht : Good t) :
    ∃ s, order.foldlM (searchSite g c f) t = some s ∧ Good s ∧ s.ct = t.ct ∧ s.limit = t.limit ∧
      s.index = t.index ∧ (∀ j ∈ t.idxlist, j ∈ s.idxlist) ∧
      (∃ new, s.axilist = t.axilist ++ new ∧ ∀ a ∈ new, a.i0 = t.index ∧ a.m = [] ∧ a.v = [] ∧
        ∃ x y z, x < g.n1 ∧ y < g.n1 ∧ z < g.Lz ∧ c.hit (L x y z).1 (L x y z).2 = true ∧
          a.idx = sitePos g true x y z) ∧
      (full s = false → ∀ x y z, x < g.n1 → y < g.n1 → z < g.Lz →
        sitePos g f.folded x y z ∈ order → c.hit (L x y z).1 (L x y z).2 = true →
        sitePos g true x y z ∈ s.idxlist) := by
  refine foldlM_inv (f := searchSite g c f) (s := t)
    (P := fun pre s => Good s ∧ s.ct = t.ct ∧ s.limit = t.limit ∧
      s.index = t.index ∧ (∀ j ∈ t.idxlist, j ∈ s.idxlist) ∧
      (∃ new, s.axilist = t.axilist ++ new ∧ ∀ a ∈ new, a.i0 = t.index ∧ a.m = [] ∧ a.v = [] ∧
        ∃ x y z, x < g.n1 ∧ y < g.n1 ∧ z < g.Lz ∧ c.hit (L x y z).1 (L x y z).2 = true ∧
          a.idx = sitePos g true x y z) ∧
      (full s = false → ∀ x y z, x < g.n1 → y < g.n1 → z < g.Lz →
        sitePos g f.folded x y z ∈ pre → c.hit (L x y z).1 (L x y z).2 = true →
        sitePos g true x y z ∈ s.idxlist)) order
    ⟨ht, rfl, rfl, rfl, fun _ h => h, ⟨[], (List.append_nil _).symm, fun _ h => absurd h (by simp)⟩,
      fun _ _ _ _ _ _ _ h => absurd h (by simp)⟩ ?_
  intro pre i post hL s ⟨h1, h2, h3, h4, h5, ⟨new, h6, h7⟩, h8⟩
  have hi : i < g.n3 := ho i (by rw [hL]; simp)
  obtain ⟨x, y, z, hx, hy, hz, hpos, em, ev⟩ := shows_some hd hs hi
  by_cases hh : c.hit (L x y z).1 (L x y z).2 = true
  · have hid : (if f.folded then i else foldidx g i) = sitePos g true x y z := by
      rw [← hpos]; exact idOf_site hd f z hx hy
    obtain ⟨a1, a2, a3, a4, a5, a6, a7, a8⟩ := add_spec s h1 (sitePos g true x y z)
    refine ⟨(addAxiton s (sitePos g true x y z)).1, ?_, a1, a2.trans h2, a3.trans h3, a4.trans h4,
      fun j hj => a7 j (h5 j hj), ?_, ?_⟩
    · unfold searchSite
      rw [em, ev, hid]
      show some (if c.hit (L x y z).1 (L x y z).2 = true then _ else _) = _
      rw [if_pos hh]
    · rcases a5 with ⟨a5, -⟩ | a5
      · exact ⟨new, by rw [a5, h6], h7⟩
      · refine ⟨new ++ [⟨sitePos g true x y z, s.index, [], []⟩], by rw [a5, h6, List.append_assoc], ?_⟩
        intro a ha
        rcases List.mem_append.1 ha with ha | ha
        · exact h7 a ha
        · rw [List.mem_singleton.1 ha]
          exact ⟨h4, rfl, rfl, x, y, z, hx, hy, hz, hh, rfl⟩
    · intro hf x' y' z' hx' hy' hz' hm hh'
      rcases List.mem_append.1 hm with hm | hm
      · refine a7 _ (h8 ?_ x' y' z' hx' hy' hz' hm hh')
        cases hfs : full s with
        | false => rfl
        | true => rw [a8 hfs] at hf; exact absurd hf (by decide)
      · have := List.mem_singleton.1 hm
        rw [← hpos] at this
        obtain ⟨rfl, rfl, rfl⟩ := sitePos_inj hd f.folded hx' hy' hx hy this
        exact a6 hf
  · refine ⟨s, ?_, h1, h2, h3, h4, h5, ⟨new, h6, h7⟩, ?_⟩
    · unfold searchSite
      rw [em, ev]
      show some (if c.hit (L x y z).1 (L x y z).2 = true then _ else _) = _
      rw [if_neg hh]
    · intro hf x' y' z' hx' hy' hz' hm hh'
      rcases List.mem_append.1 hm with hm | hm
      · exact h8 hf x' y' z' hx' hy' hz' hm hh'
      · have := List.mem_singleton.1 hm
        rw [← hpos] at this
        obtain ⟨rfl, rfl, rfl⟩ := sitePos_inj hd f.folded hx' hy' hx hy this
        exact absurd hh' hh

theorem mapM_map {α β : Type} (F : α → Option β) (G : α → β) (l : List α)
    (h : ∀ a ∈ l, F a = some (G a)) : l.mapM F = some (l.map G) := by
  induction l with
  | nil => rfl
  | cons a l ih =>
    rw [List.mapM_cons, h a (by simp), ih (fun b hb => h b (by simp [hb]))]
    rfl

/-- The arrays at the readings. -/
def arrs : List (Ev K × Lat K) → List (Arr K)
  | [] => []
  | (.read f _, _) :: es => f :: arrs es
  | (.search _ _ _ _, _) :: es => arrs es

theorem arrs_append (a b : List (Ev K × Lat K)) : arrs (a ++ b) = arrs a ++ arrs b := by
  induction a with
  | nil => rfl
  | cons e a ih =>
    obtain ⟨e, L⟩ := e
    cases e with
    | read f z => show f :: arrs (a ++ b) = f :: (arrs a ++ arrs b); rw [ih]
    | search => exact ih

theorem times_append (a b : List (Ev K)) : times (a ++ b) = times a ++ times b := by
  induction a with
  | nil => rfl
  | cons e a ih =>
    cases e with
    | read f z => show z :: times (a ++ b) = z :: (times a ++ times b); rw [ih]
    | search => exact ih

theorem readings_append (a b : List (Ev K × Lat K)) : readings (a ++ b) = readings a ++ readings b := by
  induction a with
  | nil => rfl
  | cons e a ih =>
    obtain ⟨e, L⟩ := e
    cases e with
    | read f z => show L :: readings (a ++ b) = L :: (readings a ++ readings b); rw [ih]
    | search => exact ih

theorem arrs_length (es : List (Ev K × Lat K)) : (arrs es).length = (readings es).length := by
  induction es with
  | nil => rfl
  | cons e es ih =>
    obtain ⟨e, L⟩ := e
    cases e with
    | read f z => exact congrArg Nat.succ ih
    | search => exact ih

theorem times_length (es : List (Ev K × Lat K)) : (times (es.map Prod.fst)).length = (readings es).length := by
  induction es with
  | nil => rfl
  | cons e es ih =>
    obtain ⟨e, L⟩ := e
    cases e with
    | read f z => exact congrArg Nat.succ ih
    | search => exact ih

/-- What holds after a history. -/
structure Inv (g : Geo) (lim : ℤ) (es : List (Ev K × Lat K)) (t : St K) : Prop where
  good : Good t
  limit : t.limit = lim
  index : t.index = (readings es).length
  ct : t.ct = times (es.map Prod.fst)
  ax : ∀ a ∈ t.axilist, a.i0 ≤ t.index ∧
    (∃ x y z, x < g.n1 ∧ y < g.n1 ∧ z < g.Lz ∧ a.idx = sitePos g true x y z ∧ Found es x y z) ∧
    a.m.map some = ((arrs es).drop a.i0).map (fun f => f.m (readIx g f a.idx)) ∧
    a.v.map some = ((arrs es).drop a.i0).map (fun f => f.v (readIx g f a.idx))

theorem found_mono {es : List (Ev K × Lat K)} {e : Ev K × Lat K} {x y z : ℕ} (h : Found es x y z) :
    Found (es ++ [e]) x y z := by
  obtain ⟨e', he, r⟩ := h
  exact ⟨e', List.mem_append_left _ he, r⟩

theorem inv_step (hd : g.shift ∣ g.n1) {lim : ℤ} {es : List (Ev K × Lat K)} {e : Ev K × Lat K}
    {t : St K} (he : e.1.Of g e.2) (ht : Inv g lim es t) :
    ∃ s, step g t e.1 = some s ∧ Inv g lim (es ++ [e]) s := by
  obtain ⟨e, L⟩ := e
  cases e with
  | read f z =>
    have hsh : Shows g L f := he
    have hix : ∀ a ∈ t.axilist, readIx g f a.idx < g.n3 := by
      intro a ha
      obtain ⟨-, ⟨x, y, z, hx, hy, hz, e1, -⟩, -⟩ := ht.ax a ha
      have h := sitePos_lt hd true hx hy hz
      rw [← e1] at h
      unfold readIx
      cases f.folded with
      | true => exact h
      | false => exact foldidx_lt hd h
    have hmem : ∀ a ∈ t.axilist, ∃ X : K × K, f.m (readIx g f a.idx) = some X.1 ∧
        f.v (readIx g f a.idx) = some X.2 := by
      intro a ha
      obtain ⟨x, y, z, -, -, -, -, e1, e2⟩ := shows_some hd hsh (hix a ha)
      exact ⟨_, e1, e2⟩
    rcases t.axilist.eq_nil_or_concat with hnil | _
    · refine ⟨{ t with axilist := [], ct := t.ct ++ [z], index := t.index + 1 }, ?_, ?_⟩
      · unfold step Tracker.read
        rw [hnil]; rfl
      · refine ⟨⟨?_, ht.good.nodup, ht.good.len⟩, ht.limit, ?_, ?_, fun a ha => absurd ha (by simp)⟩
        · have := ht.good.ids
          rw [hnil] at this
          exact this
        · dsimp only
          rw [readings_append, List.length_append, ht.index]; rfl
        · dsimp only
          rw [List.map_append, times_append, ht.ct]; rfl
    · have hex : ∃ G : Axiton K → Axiton K, ∀ a ∈ t.axilist, addPoint g f a = some (G a) ∧
          (G a).idx = a.idx ∧ (G a).i0 = a.i0 ∧
          (G a).m.map some = a.m.map some ++ [f.m (readIx g f a.idx)] ∧
          (G a).v.map some = a.v.map some ++ [f.v (readIx g f a.idx)] := by
        refine ⟨fun a => match f.m (readIx g f a.idx), f.v (readIx g f a.idx) with
          | some x, some y => { a with m := a.m ++ [x], v := a.v ++ [y] }
          | _, _ => a, ?_⟩
        intro a ha
        obtain ⟨X, e1, e2⟩ := hmem a ha
        simp only [e1, e2]
        refine ⟨?_, trivial, trivial, ?_, ?_⟩
        · unfold addPoint
          rw [e1, e2]; rfl
        · rw [List.map_append]; rfl
        · rw [List.map_append]; rfl
      obtain ⟨G, hG⟩ := hex
      refine ⟨{ t with axilist := t.axilist.map G, ct := t.ct ++ [z], index := t.index + 1 }, ?_, ?_⟩
      · unfold step Tracker.read
        dsimp only
        rw [mapM_map _ G _ (fun a ha => (hG a ha).1)]; rfl
      · refine ⟨⟨?_, ht.good.nodup, ht.good.len⟩, ht.limit, ?_, ?_, ?_⟩
        · dsimp only
          rw [ht.good.ids, List.map_map]
          refine List.map_congr_left ?_
          intro a ha
          exact (hG a ha).2.1.symm
        · dsimp only
          rw [readings_append, List.length_append, ht.index]; rfl
        · dsimp only
          rw [List.map_append, times_append, ht.ct]; rfl
        · intro b hb
          dsimp only at hb
          obtain ⟨a, ha, rfl⟩ := List.mem_map.1 hb
          obtain ⟨-, g1, g2, g3, g4⟩ := hG a ha
          obtain ⟨i1, ⟨x, y, z', hx, hy, hz, e1, e2⟩, i3, i4⟩ := ht.ax a ha
          have hdrop : (arrs (es ++ [(Ev.read f z, L)])).drop a.i0 = (arrs es).drop a.i0 ++ [f] := by
            rw [arrs_append, List.drop_append_of_le_length (by
              rw [arrs_length, ← ht.index]; exact i1)]
            rfl
          refine ⟨by dsimp only; omega, ⟨x, y, z', hx, hy, hz, by rw [g1, e1], found_mono e2⟩, ?_, ?_⟩
          · rw [g2, g1, g3, hdrop, List.map_append, i3]; rfl
          · rw [g2, g1, g4, hdrop, List.map_append, i4]; rfl
  | search c late f order =>
    obtain ⟨hsh, hp⟩ : Shows g L f ∧ order.Perm (List.range g.n3) := he
    have hread : readings (es ++ [(Ev.search c late f order, L)]) = readings es := by
      rw [readings_append]; exact List.append_nil _
    have harr : arrs (es ++ [(Ev.search c late f order, L)]) = arrs es := by
      rw [arrs_append]; exact List.append_nil _
    have htim : times ((es ++ [(Ev.search c late f order, L)]).map Prod.fst) =
        times (es.map Prod.fst) := by
      rw [List.map_append, times_append]; exact List.append_nil _
    cases late with
    | false =>
      refine ⟨t, rfl, ht.good, ht.limit, by rw [hread, ht.index], by rw [htim, ht.ct], ?_⟩
      intro a ha
      obtain ⟨i1, ⟨x, y, z', hx, hy, hz, e1, e2⟩, i3, i4⟩ := ht.ax a ha
      exact ⟨i1, ⟨x, y, z', hx, hy, hz, e1, found_mono e2⟩, by rw [harr, i3], by rw [harr, i4]⟩
    | true =>
      obtain ⟨s, s1, s2, s3, s4, s5, s6, ⟨new, s7, s8⟩, -⟩ := search_spec hd c L f hsh order
        (fun i hi => List.mem_range.1 (hp.mem_iff.1 hi)) t ht.good
      refine ⟨s, s1, s2, by rw [s4, ht.limit], by rw [hread, s5, ht.index], by rw [htim, s3, ht.ct], ?_⟩
      intro a ha
      rw [s7] at ha
      rcases List.mem_append.1 ha with ha | ha
      · obtain ⟨i1, ⟨x, y, z', hx, hy, hz, e1, e2⟩, i3, i4⟩ := ht.ax a ha
        exact ⟨by omega, ⟨x, y, z', hx, hy, hz, e1, found_mono e2⟩, by rw [harr, i3], by rw [harr, i4]⟩
      · obtain ⟨j1, j2, j3, x, y, z, hx, hy, hz, hh, e1⟩ := s8 a ha
        have hd0 : (arrs es).drop a.i0 = [] := by
          rw [List.drop_eq_nil_iff, arrs_length, ← ht.index, j1]
        refine ⟨by omega, ⟨x, y, z, hx, hy, hz, e1, ?_⟩, by rw [harr, hd0, j2]; rfl,
          by rw [harr, hd0, j3]; rfl⟩
        exact ⟨_, List.mem_append_right _ (List.mem_singleton.2 rfl), c, f, order, rfl, (hit_iff _ _ _).1 hh⟩

theorem run_spec (hd : g.shift ∣ g.n1) (nMax : ℤ) (P : ℕ) (es : List (Ev K × Lat K))
    (he : ∀ e ∈ es, e.1.Of g e.2) :
    ∃ t, run g (init K nMax P) (es.map Prod.fst) = some t ∧ Inv g (init K nMax P).limit es t := by
  have key := foldlM_inv (f := fun t e => step g t e.1) (s := init K nMax P)
    (P := fun pre s => Inv g (init K nMax P).limit pre s) es
    ⟨⟨rfl, List.nodup_nil, Nat.zero_le _⟩, rfl, rfl, rfl, fun a ha => absurd ha (by simp [init])⟩
    (by
      intro pre e post hL t ht
      exact inv_step hd (he e (by rw [hL]; simp)) ht)
  obtain ⟨t, k1, k2⟩ := key
  refine ⟨t, ?_, k2⟩
  unfold run
  rw [List.foldlM_map]
  exact k1

/-! The printing loop. -/

theorem printSteps_add (nAx : List ℕ) (a b : ℕ) (s : (ℕ × ℕ) × List (ℕ × ℕ)) :
    printSteps nAx (a + b) s = (printSteps nAx a s).bind (printSteps nAx b) := by
  induction a generalizing s with
  | zero => rw [Nat.zero_add]; rfl
  | succ a ih =>
    rw [Nat.succ_add]
    show (printStep nAx s).bind (printSteps nAx (a + b)) =
      ((printStep nAx s).bind (printSteps nAx a)).bind (printSteps nAx b)
    rw [Option.bind_assoc]
    congr 1
    funext t
    exact ih t

theorem get_mid (pre : List ℕ) (n : ℕ) (ns : List ℕ) : (pre ++ n :: ns)[pre.length]? = some n := by
  rw [List.getElem?_append_right (Nat.le_refl _), Nat.sub_self]; rfl

theorem get_next (pre : List ℕ) (n m : ℕ) (ns : List ℕ) :
    (pre ++ n :: m :: ns)[pre.length + 1]? = some m := by
  rw [List.getElem?_append_right (by omega), Nat.add_sub_cancel_left]; rfl

theorem print_one (pre : List ℕ) (n : ℕ) (ns : List ℕ) {l : ℕ} (hl : l < n) (out : List (ℕ × ℕ)) :
    printStep (pre ++ n :: ns) ((pre.length, l), out) =
      some ((pre.length, l + 1), out ++ [(pre.length, l)]) := by
  unfold printStep
  dsimp only
  rw [get_mid, Option.bind_some, if_neg (by omega), get_mid, Option.bind_some, if_pos hl]

theorem print_rank (pre : List ℕ) (n : ℕ) (ns : List ℕ) (k : ℕ) {l : ℕ} (hl : l + k = n)
    (out : List (ℕ × ℕ)) :
    printSteps (pre ++ n :: ns) k ((pre.length, l), out) =
      some ((pre.length, n), out ++ (List.range' l k).map (fun l => (pre.length, l))) := by
  induction k generalizing l out with
  | zero =>
    have : l = n := by omega
    subst this
    show some _ = _
    simp
  | succ k ih =>
    show (printStep _ _).bind _ = _
    rw [print_one pre n ns (by omega) out]
    show printSteps _ k _ = _
    rw [ih (by omega), List.range'_succ]
    simp

/-- No empty rank before one with axitons. -/
def tailOk : List ℕ → Prop
  | [] => True
  | 0 :: ns => ns.sum = 0
  | (_ + 1) :: ns => tailOk ns

theorem sum_zero (ns : List ℕ) : ns.sum = 0 ↔ ∀ n ∈ ns, n = 0 := by
  induction ns with
  | nil => exact ⟨fun _ n h => absurd h (by simp), fun _ => rfl⟩
  | cons m ns ih =>
    rw [List.sum_cons, List.forall_mem_cons, ← ih]
    omega

theorem allPairs_zero (r : ℕ) (ns : List ℕ) (h : ns.sum = 0) : allPairs r ns = [] := by
  induction ns generalizing r with
  | nil => rfl
  | cons n ns ih =>
    rw [List.sum_cons] at h
    have h1 : n = 0 := by omega
    subst h1
    show [] ++ allPairs (r + 1) ns = []
    rw [ih (r + 1) (by omega)]; rfl

theorem print_move (pre : List ℕ) (n m : ℕ) (ns : List ℕ) (hm : 0 < m) (k : ℕ) (out : List (ℕ × ℕ)) :
    printSteps (pre ++ n :: m :: ns) (k + 1) ((pre.length, n), out) =
      printSteps (pre ++ n :: m :: ns) (k + 1) ((pre.length + 1, 0), out) := by
  show (printStep _ _).bind _ = (printStep _ _).bind _
  congr 1
  unfold printStep
  dsimp only
  rw [get_mid, get_next, Option.bind_some, Option.bind_some, if_pos (Nat.le_refl n),
    if_neg (by omega)]

theorem print_tail (ns : List ℕ) : ∀ (pre : List ℕ) (n l : ℕ) (_ : l ≤ n) (out : List (ℕ × ℕ)),
    (tailOk ns → (printSteps (pre ++ n :: ns) (n - l + ns.sum) ((pre.length, l), out)).map Prod.snd =
      some (out ++ (List.range' l (n - l)).map (fun l => (pre.length, l)) ++
        allPairs (pre.length + 1) ns)) ∧
    (¬ tailOk ns → printSteps (pre ++ n :: ns) (n - l + ns.sum) ((pre.length, l), out) = none) := by
  induction ns with
  | nil =>
    intro pre n l hl out
    refine ⟨fun _ => ?_, fun h => absurd trivial h⟩
    rw [List.sum_nil, Nat.add_zero, print_rank pre n [] (n - l) (by omega)]
    simp [allPairs]
  | cons m ns ih =>
    intro pre n l hl out
    rw [printSteps_add, print_rank pre n (m :: ns) (n - l) (by omega)]
    cases m with
    | zero =>
      constructor
      · intro h
        have h : ns.sum = 0 := h
        rw [List.sum_cons, h, allPairs_zero _ _ (by rw [List.sum_cons, h])]
        simp [printSteps]
      · intro h
        have h : ns.sum ≠ 0 := h
        obtain ⟨k, hk⟩ : ∃ k, ns.sum = k + 1 := ⟨ns.sum - 1, by omega⟩
        rw [List.sum_cons, Nat.zero_add, hk]
        show (printStep _ _).bind _ = none
        have : printStep (pre ++ n :: 0 :: ns) ((pre.length, n),
            out ++ (List.range' l (n - l)).map (fun l => (pre.length, l))) = none := by
          unfold printStep
          dsimp only
          rw [get_mid, Option.bind_some, if_pos (Nat.le_refl n), get_next, Option.bind_some,
            if_neg (by omega)]
        rw [this]; rfl
    | succ m =>
      rw [List.sum_cons, show m + 1 + ns.sum = (m + ns.sum) + 1 by omega]
      show (_ → Option.map Prod.snd (printSteps _ (m + ns.sum + 1) _) = _) ∧
        (_ → printSteps _ (m + ns.sum + 1) _ = none)
      rw [print_move pre n (m + 1) ns (by omega)]
      have e : pre ++ n :: (m + 1) :: ns = (pre ++ [n]) ++ (m + 1) :: ns := by simp
      have el : pre.length + 1 = (pre ++ [n]).length := by simp
      obtain ⟨i1, i2⟩ := ih (pre ++ [n]) (m + 1) 0 (by omega)
        (out ++ (List.range' l (n - l)).map (fun l => (pre.length, l)))
      rw [e, el, show m + ns.sum + 1 = m + 1 - 0 + ns.sum by omega]
      refine ⟨fun h => ?_, fun h => i2 h⟩
      rw [i1 h]
      congr 1
      rw [List.append_assoc, List.append_assoc, List.append_assoc]
      congr 2
      show _ = (List.range (m + 1)).map _ ++ _
      rw [Nat.sub_zero, List.range_eq_range']

theorem tailOk_iff (ns : List ℕ) :
    tailOk ns ↔ ∀ r s : ℕ, r < s → ns[r]? = some 0 → ∀ n, ns[s]? = some n → n = 0 := by
  induction ns with
  | nil => exact ⟨fun _ r s _ h => absurd h (by simp), fun _ => trivial⟩
  | cons m ns ih =>
    cases m with
    | zero =>
      constructor
      · intro h r s hrs _ n hn
        have h : ns.sum = 0 := h
        obtain ⟨s, rfl⟩ : ∃ k, s = k + 1 := ⟨s - 1, by omega⟩
        rw [List.getElem?_cons_succ] at hn
        have hm := List.mem_of_getElem? hn
        exact (sum_zero ns).1 h n hm
      · intro h
        show ns.sum = 0
        refine (sum_zero ns).2 ?_
        intro n hn
        obtain ⟨s, hs⟩ := List.mem_iff_getElem?.1 hn
        exact h 0 (s + 1) (by omega) rfl n (by rw [List.getElem?_cons_succ]; exact hs)
    | succ m =>
      show tailOk ns ↔ _
      rw [ih]
      constructor
      · intro h r s hrs hr n hn
        cases r with
        | zero => exact absurd hr (by simp)
        | succ r =>
          obtain ⟨s, rfl⟩ : ∃ k, s = k + 1 := ⟨s - 1, by omega⟩
          exact h r s (by omega) hr n hn
      · intro h r s hrs hr n hn
        exact h (r + 1) (s + 1) (by omega) hr n hn

end Jaxions.Tracker
