import Verif.Lemmas.StringFile
import Verif.Props.StringMap

/-!
# Strings in the measurement file

What `strings2`, `writeStringCo` and `writeString` leave in the file, on any number of ranks.
-/

namespace Jaxions
namespace StrFile

open StringMap Winding Stencil

/-! ## The buffer -/

theorem charmax_eq (low : Bool) (V ds : ℕ) : charmax low V ds = space low V ds := by cases low <;> rfl

theorem copied_eq {low : Bool} {V ds carde : ℕ} (h : 6 * carde ≤ space low V ds) :
    copied low V ds carde = 6 * carde := by
  unfold copied
  rw [charmax_eq, min_eq_left (by omega)]
  ring

theorem copied_le (low : Bool) (V ds carde : ℕ) : copied low V ds carde ≤ 6 * carde := by
  unfold copied
  exact le_trans (min_le_left _ _) (by omega)

/-- **C79** The end of `strings2`: if there is room, all the positions are in the buffer, in `m2` or with
little memory in the place of the string map; nothing else changes. -/
theorem C79_kept {low : Bool} {V ds carde : ℕ} {P : PosList} {f : Fld} {T : ℕ → ℕ × ℕ × ℕ}
    (hP : ∀ a, a < carde → P.pos a = some (T a)) (hfit : 6 * carde ≤ space low V ds)
    (hroom : Room (f.buf low) (space low V ds)) :
    ∃ f', keep low V ds carde P f = some f' ∧ f'.ready low = true ∧
      (∀ k, k < 6 * carde → f'.buf low k = some (byte (T (k / 6)) (k % 6))) ∧
      (∀ k, 6 * carde ≤ k → f'.buf low k = f.buf low k) ∧
      (low = false → f'.sd = f.sd) ∧ (low = true → f'.m2 = f.m2) := by
  have hs : ∀ k, k < copied low V ds carde → posByte P k = some (byte (T (k / 6)) (k % 6)) := by
    intro k hk
    have := copied_le low V ds carde
    unfold posByte
    rw [hP _ (by omega)]
    rfl
  have hr : ∀ k, k < copied low V ds carde → ((f.buf low) (0 + k)).isSome := by
    intro k hk
    rw [copied_eq hfit] at hk
    exact hroom _ (by omega)
  obtain ⟨h', e, hh⟩ := put_spec hs hr
  rw [copied_eq hfit] at hh
  have r1 : ∀ k, k < 6 * carde → h' k = some (byte (T (k / 6)) (k % 6)) := by
    intro k hk
    rw [hh, if_pos (by omega), Nat.sub_zero]
  have r2 : ∀ k, 6 * carde ≤ k → h' k = f.buf low k := by
    intro k hk
    rw [hh, if_neg (by omega)]
  cases low with
  | true =>
    refine ⟨{ f with sd := h', sdStat := .coord }, ?_, rfl, r1, r2, by simp, fun _ => rfl⟩
    show (put (posByte P) 0 (copied true V ds carde) f.sd).map _ = _
    have e' : put (posByte P) 0 (copied true V ds carde) f.sd = some h' := e
    rw [e']; rfl
  | false =>
    refine ⟨{ f with m2 := h', m2Stat := .coord }, ?_, rfl, r1, r2, fun _ => rfl, by simp⟩
    show (put (posByte P) 0 (copied false V ds carde) f.m2).map _ = _
    have e' : put (posByte P) 0 (copied false V ds carde) f.m2 = some h' := e
    rw [e']; rfl

/-- **C79** (negative) If there is no room the copy is cut, without notice: the buffer is filled up to
the last multiple of three bytes and marked as ready, what is beyond stays as it was. -/
theorem C79_cut {low : Bool} {V ds carde : ℕ} {P : PosList} {f : Fld} {T : ℕ → ℕ × ℕ × ℕ}
    (hP : ∀ a, a < carde → P.pos a = some (T a)) (hfit : space low V ds < 6 * carde)
    (hroom : Room (f.buf low) (space low V ds)) :
    ∃ f', keep low V ds carde P f = some f' ∧ f'.ready low = true ∧
      (∀ k, k < space low V ds / 3 * 3 → f'.buf low k = some (byte (T (k / 6)) (k % 6))) ∧
      ∀ k, space low V ds / 3 * 3 ≤ k → f'.buf low k = f.buf low k := by
  have hc : copied low V ds carde = space low V ds / 3 * 3 := by
    unfold copied
    rw [charmax_eq]
    omega
  have hle := Nat.div_mul_le_self (space low V ds) 3
  have hs : ∀ k, k < copied low V ds carde → posByte P k = some (byte (T (k / 6)) (k % 6)) := by
    intro k hk
    unfold posByte
    rw [hP _ (by omega)]
    rfl
  have hr : ∀ k, k < copied low V ds carde → ((f.buf low) (0 + k)).isSome := fun k hk =>
    hroom _ (by omega)
  obtain ⟨h', e, hh⟩ := put_spec hs hr
  rw [hc] at hh
  have r1 : ∀ k, k < space low V ds / 3 * 3 → h' k = some (byte (T (k / 6)) (k % 6)) := by
    intro k hk
    rw [hh, if_pos (by omega), Nat.sub_zero]
  have r2 : ∀ k, space low V ds / 3 * 3 ≤ k → h' k = f.buf low k := by
    intro k hk
    rw [hh, if_neg (by omega)]
  cases low with
  | true =>
    refine ⟨{ f with sd := h', sdStat := .coord }, ?_, rfl, r1, r2⟩
    show (put (posByte P) 0 (copied true V ds carde) f.sd).map _ = _
    have e' : put (posByte P) 0 (copied true V ds carde) f.sd = some h' := e
    rw [e']; rfl
  | false =>
    refine ⟨{ f with m2 := h', m2Stat := .coord }, ?_, rfl, r1, r2⟩
    show (put (posByte P) 0 (copied false V ds carde) f.m2).map _ = _
    have e' : put (posByte P) 0 (copied false V ds carde) f.m2 = some h' := e
    rw [e']; rfl

/-! ## The data set of the positions -/

/-- **C79** The positions of all ranks are in the file, rank after rank: entry `toti r + a` is entry `a` of
rank `r`, and there are no others.  The buffer of rank 0 must have room for those of any rank, and a
message must be shorter than 2 GiB.  Afterwards rank 0 has the positions of the last rank. -/
theorem C79_file {low : Bool} {n : ℕ} {f : ℕ → Fld} {N : ℕ → ℕ} {T : ℕ → ℕ → ℕ × ℕ × ℕ}
    (hready : ∀ r, r < n → (f r).ready low = true)
    (hT : ∀ r, r < n → ∀ a, a < N r → Short (T r a))
    (hbuf : ∀ r, r < n → ∀ k, k < 6 * N r → (f r).buf low k = some (byte (T r (k / 6)) (k % 6)))
    (hroom : ∀ r, r < n → Room ((f 0).buf low) (6 * N r))
    (hint : ∀ r, r < n → r ≠ 0 → 6 * N r < 2 ^ 31) :
    ∃ w, writeStringCo low n f N = some (some w) ∧
      (∀ r, r < n → ∀ a, a < N r → triple w.file (toti N r + a) = some (T r a)) ∧
      (∀ j, 6 * toti N n ≤ j → w.file j = none) ∧
      (∀ r, n = r + 1 → ∀ a, a < N r → triple w.buf a = some (T r a)) := by
  obtain ⟨w, e, h1, h2, h3⟩ := loop_spec (fun r => (f r).buf low) N
    (fun r k => byte (T r (k / 6)) (k % 6)) n hbuf hroom hint
  refine ⟨w, ?_, ?_, h2, ?_⟩
  · unfold writeStringCo
    rw [if_pos hready, e]
    rfl
  · intro r hr a ha
    refine triple_eq (hT r hr a ha) fun k hk => ?_
    have := h1 r hr (6 * a + k) (by omega)
    rw [show 6 * (toti N r + a) + k = 6 * toti N r + (6 * a + k) by ring, this,
      show (6 * a + k) / 6 = a by omega, show (6 * a + k) % 6 = k by omega]
  · intro r hr a ha
    refine triple_eq (hT r (by omega) a ha) fun k hk => ?_
    rw [h3 r hr (6 * a + k) (by omega), show (6 * a + k) / 6 = a by omega,
      show (6 * a + k) % 6 = k by omega]

/-- **C79** The length of the data set is the sum of the numbers of the ranks. -/
theorem C79_length (N : ℕ → ℕ) (n : ℕ) : toti N n = ∑ r ∈ Finset.range n, N r := by
  induction n with
  | zero => rfl
  | succ n ih => rw [toti_succ, ih, Finset.sum_range_succ]

theorem turn_some {buf : ℕ → Heap ℕ ℕ} {N : ℕ → ℕ} {w w' : W} {r : ℕ} (e : turn buf N w r = some w') :
    r = 0 ∨ (6 * N r < 2 ^ 31 ∧ Room (buf r) (6 * N r) ∧ Room w.buf (6 * N r)) := by
  by_cases h0 : r = 0
  · exact Or.inl h0
  · right
    unfold turn arrive at e
    dsimp only at e
    rw [if_neg h0] at e
    by_cases h1 : 3 * N r * 2 < 2 ^ 31
    · rw [if_pos h1] at e
      cases e1 : put (buf r) 0 (3 * N r * 2) w.buf with
      | none => rw [e1] at e; cases e
      | some b =>
        have := put_some e1
        refine ⟨by omega, fun a ha => (this a (by omega)).1, fun a ha => ?_⟩
        have := (this a (by omega)).2
        rwa [Nat.zero_add] at this
    · rw [if_neg h1] at e; cases e

theorem foldlM_some {σ : Type} {g : σ → ℕ → Option σ} (n : ℕ) {s s' : σ}
    (e : (List.range n).foldlM g s = some s') (r : ℕ) (hr : r < n) : ∃ t t', g t r = some t' := by
  induction n generalizing s' with
  | zero => omega
  | succ n ih =>
    rw [List.range_succ, foldlM_append'] at e
    cases e1 : (List.range n).foldlM g s with
    | none => rw [e1] at e; cases e
    | some t =>
      rw [e1] at e
      rcases Nat.lt_succ_iff_lt_or_eq.1 hr with h | rfl
      · exact ih e1 h
      · simp only [Option.bind_some, List.foldlM_cons, List.foldlM_nil] at e
        cases e2 : g t r with
        | none => rw [e2] at e; cases e
        | some t' => exact ⟨t, t', e2⟩

/-- **C79** (negative) With 2 GiB of positions on a rank but the first the length of the message does not fit
in an `int`; and a rank whose buffer is shorter than its positions sends what is behind it. -/
theorem C79_overrun {low : Bool} {n r : ℕ} {f : ℕ → Fld} {N : ℕ → ℕ} (hn : r < n) (h0 : r ≠ 0)
    (hready : ∀ r, r < n → (f r).ready low = true)
    (h : 2 ^ 31 ≤ 6 * N r ∨ ¬ Room ((f r).buf low) (6 * N r)) : writeStringCo low n f N = none := by
  unfold writeStringCo
  rw [if_pos hready]
  cases e : (List.range n).foldlM (turn (fun r => (f r).buf low) N)
      ⟨(f 0).buf low, fresh (3 * toti N n * 2)⟩ with
  | none => rfl
  | some w =>
    obtain ⟨t, t', e1⟩ := foldlM_some n e r hn
    rcases turn_some e1 with h1 | ⟨h1, h2, h3⟩
    · exact absurd h1 h0
    · rcases h with h | h
      · omega
      · exact absurd h2 h

/-- **C79** If the arrays hold something else, nothing is written. -/
theorem C79_not_ready {low : Bool} {n : ℕ} (hn : 0 < n) {f : ℕ → Fld} {N : ℕ → ℕ}
    (h : ∀ r, r < n → (f r).ready low = false) : writeStringCo low n f N = some none := by
  unfold writeStringCo
  rw [if_neg (fun hc => by have := hc 0 hn; rw [h 0 hn] at this; cases this), if_pos h]

/-! ## From the field to the file -/

theorem centre_short {p : Plq} {x y z Lx Lt : ℕ} (hx : x < Lx) (hy : y < Lx) (hz : z < Lt)
    (h1 : 2 * Lx ≤ 65536) (h2 : 2 * Lt ≤ 65536) :
    Short (centre p x y z) ∧ (centre p x y z).1 < 2 * Lx ∧ (centre p x y z).2.1 < 2 * Lx ∧
      (centre p x y z).2.2 < 2 * Lt := by
  cases p <;> simp only [centre, Short] <;> omega

theorem centre_inj {p q : Plq} {x y z x' y' z' : ℕ} (h : centre p x y z = centre q x' y' z') :
    p = q ∧ x = x' ∧ y = y' ∧ z = z' := by
  cases p <;> cases q <;> simp only [centre, Prod.mk.injEq] at h <;>
    first
      | (obtain ⟨a, b, c⟩ := h; exact ⟨rfl, by omega, by omega, by omega⟩)
      | (exfalso; omega)

variable {K : Type} [Field K] [LinearOrder K]

/-- **C79** From the field to the file, on any number of ranks, with one ghost slice and room in the buffers:
each entry of the list is the centre of a plaquette a string goes through, each such plaquette of the
whole lattice has exactly one entry, and the coordinates are below twice the lengths of the lattice. -/
theorem C79_strings {low : Bool} {Lx S Lz n NN ds : ℕ} (isa : Isa) (hS : 0 < S) (hdvd : S ∣ Lx)
    (hL : 0 < Lx) (hLz : 0 < Lz) {m : ℕ → Heap ℕ (Cx K)} {φ : Lat K} (hper : Periodic Lx φ)
    (hm : ∀ r, r < n → RankHolds Lx S Lz 1 r (m r) φ) {order : ℕ → List ℕ}
    (ho : ∀ r, r < n → (order r).Perm (cpuVisits ⟨Lx, S, NN⟩ Lz)) {d : ℕ → SD}
    (hd : ∀ r, r < n →
      kernel isa ⟨Lx, S, NN⟩ Lz Lx Lz (m r) (order r) (blank (Lx * Lx * Lz)) = some (d r))
    {order2 : ℕ → List (ℕ × Plq)} (ht : ∀ r, r < n → (order2 r).Perm (tests (Lx * Lx * Lz)))
    (hx : 2 * Lx ≤ 65536) (hz : 2 * (n * Lz) ≤ 65536) (f : ℕ → Fld)
    (hfit : ∀ r, r < n → 6 * (d r).nStr ≤ space low (Lx * Lx * Lz) ds)
    (hint : ∀ r, r < n → 6 * (d r).nStr < 2 ^ 31)
    (hroom : ∀ r, r < n → Room ((f r).buf low) (space low (Lx * Lx * Lz) ds)) :
    ∃ (P : ℕ → PosList) (f' : ℕ → Fld) (w : W),
      (∀ r, r < n → positions Lx Lz r (d r).nStr (d r).map (order2 r) = some (P r)) ∧
      (∀ r, r < n → keep low (Lx * Lx * Lz) ds (d r).nStr (P r) (f r) = some (f' r)) ∧
      writeStringCo low n f' (fun r => (d r).nStr) = some (some w) ∧
      (∀ a, a < ∑ r ∈ Finset.range n, (d r).nStr → ∃ x y z p, x < Lx ∧ y < Lx ∧ z < n * Lz ∧
        p ∈ strs isa φ x y z ∧ triple w.file a = some (centre p x y z) ∧
        (centre p x y z).1 < 2 * Lx ∧ (centre p x y z).2.1 < 2 * Lx ∧ (centre p x y z).2.2 < 2 * (n * Lz)) ∧
      ∀ x y z p, x < Lx → y < Lx → z < n * Lz → p ∈ strs isa φ x y z →
        ∃! a, a < ∑ r ∈ Finset.range n, (d r).nStr ∧ triple w.file a = some (centre p x y z) := by
  have hP : ∀ r, ∃ P, r < n → (positions Lx Lz r (d r).nStr (d r).map (order2 r) = some P ∧
      (∀ a, a < (d r).nStr → ∃ x y z p, x < Lx ∧ y < Lx ∧ z < Lz ∧ p ∈ strs isa φ x y (r * Lz + z) ∧
        P.pos a = some (centre p x y (r * Lz + z))) ∧
      ∀ x y z p, x < Lx → y < Lx → z < Lz → p ∈ strs isa φ x y (r * Lz + z) →
        ∃! a, a < (d r).nStr ∧ P.pos a = some (centre p x y (r * Lz + z))) := by
    intro r
    by_cases hr : r < n
    · obtain ⟨P, e, -, h1, h2⟩ := C24_positions isa hS hdvd hL hLz hper (hm r hr) (ho r hr) (hd r hr)
        (ht r hr) hx (le_trans (by
          have : (r + 1) * Lz ≤ n * Lz := Nat.mul_le_mul_right _ hr
          omega) hz)
      exact ⟨P, fun _ => ⟨e, h1, h2⟩⟩
    · exact ⟨⟨fun _ => none, 0⟩, fun h => absurd h hr⟩
  choose P hP using hP
  have hlt : ∀ r z, r < n → z < Lz → r * Lz + z < n * Lz := fun r z hr hz => pair_lt hr hz
  -- the positions as a function
  let T : ℕ → ℕ → ℕ × ℕ × ℕ := fun r a => ((P r).pos a).getD (0, 0, 0)
  have hT : ∀ r, r < n → ∀ a, a < (d r).nStr → (P r).pos a = some (T r a) := by
    intro r hr a ha
    obtain ⟨x, y, z, p, -, -, -, -, e⟩ := (hP r hr).2.1 a ha
    simp only [T, e]; rfl
  have hsh : ∀ r, r < n → ∀ a, a < (d r).nStr → Short (T r a) := by
    intro r hr a ha
    obtain ⟨x, y, z, p, hx', hy', hz', -, e⟩ := (hP r hr).2.1 a ha
    rw [hT r hr a ha] at e
    rw [Option.some.inj e]
    exact (centre_short hx' hy' (hlt r z hr hz') hx hz).1
  have hk : ∀ r, ∃ f', r < n → (keep low (Lx * Lx * Lz) ds (d r).nStr (P r) (f r) = some f' ∧
      f'.ready low = true ∧
      (∀ k, k < 6 * (d r).nStr → f'.buf low k = some (byte (T r (k / 6)) (k % 6))) ∧
      ∀ k, 6 * (d r).nStr ≤ k → f'.buf low k = (f r).buf low k) := by
    intro r
    by_cases hr : r < n
    · obtain ⟨f', e1, e2, e3, e4, -⟩ := C79_kept (hT r hr) (hfit r hr) (hroom r hr)
      exact ⟨f', fun _ => ⟨e1, e2, e3, e4⟩⟩
    · exact ⟨f r, fun h => absurd h hr⟩
  choose f' hk using hk
  obtain ⟨w, e, h1, h2, -⟩ := C79_file (low := low) (n := n) (f := f') (N := fun r => (d r).nStr) (T := T)
    (fun r hr => (hk r hr).2.1) hsh (fun r hr => (hk r hr).2.2.1)
    (by
      intro r hr a ha
      have h0 : 0 < n := by omega
      by_cases h : a < 6 * (d 0).nStr
      · rw [(hk 0 h0).2.2.1 a h]; rfl
      · rw [(hk 0 h0).2.2.2 a (by omega)]
        exact hroom 0 h0 a (lt_of_lt_of_le ha (hfit r hr)))
    (fun r hr _ => hint r hr)
  refine ⟨P, f', w, fun r hr => (hP r hr).1, fun r hr => (hk r hr).1, e, ?_, ?_⟩
  · intro a ha
    rw [← C79_length] at ha
    obtain ⟨r, k, hr, hk', rfl⟩ := toti_find _ n a ha
    obtain ⟨x, y, z, p, hx', hy', hz', hp, e'⟩ := (hP r hr).2.1 k hk'
    have hc := (centre_short (p := p) hx' hy' (hlt r z hr hz') hx hz).2
    refine ⟨x, y, r * Lz + z, p, hx', hy', hlt r z hr hz', by push_cast; exact hp, ?_, hc⟩
    rw [h1 r hr k hk', ← hT r hr k hk', e']
  · intro x y z p hx' hy' hz' hp
    have hr : z / Lz < n := Nat.div_lt_of_lt_mul (by rw [Nat.mul_comm]; exact hz')
    have hm' : z % Lz < Lz := Nat.mod_lt _ hLz
    have ez : z / Lz * Lz + z % Lz = z := Nat.div_add_mod' z Lz
    have hp' : p ∈ strs isa φ x y (((z / Lz : ℕ) : ℤ) * Lz + ((z % Lz : ℕ) : ℤ)) := by
      rw [show (((z / Lz : ℕ) : ℤ) * Lz + ((z % Lz : ℕ) : ℤ)) = ((z / Lz * Lz + z % Lz : ℕ) : ℤ) by push_cast; rfl,
        ez]
      exact hp
    obtain ⟨a, ⟨ha, e1⟩, hu⟩ := (hP _ hr).2.2 x y (z % Lz) p hx' hy' hm' hp'
    rw [ez] at e1
    refine ⟨toti (fun r => (d r).nStr) (z / Lz) + a, ⟨?_, ?_⟩, ?_⟩
    · rw [← C79_length]
      have := toti_le (fun r => (d r).nStr) (show z / Lz + 1 ≤ n by omega)
      rw [toti_succ] at this
      omega
    · rw [h1 _ hr a ha, ← hT _ hr a ha, e1]
    · rintro b ⟨hb, e2⟩
      rw [← C79_length] at hb
      obtain ⟨r, k, hr', hk', rfl⟩ := toti_find _ n b hb
      rw [h1 r hr' k hk', ← hT r hr' k hk'] at e2
      obtain ⟨x2, y2, z2, p2, -, -, hz2, -, e3⟩ := (hP r hr').2.1 k hk'
      have := centre_inj (Option.some.inj (e3.symm.trans e2))
      have hrz : r = z / Lz := by
        rw [← this.2.2.2, div_of hz2]
      subst hrz
      congr 1
      refine hu k ⟨hk', ?_⟩
      rw [ez]
      exact e2

/-! ## The data set of the map -/

theorem mem_slabs {n rLz : ℕ} (p : ℕ × ℕ) : p ∈ slabs n rLz ↔ p.1 < n ∧ p.2 < rLz := by
  obtain ⟨r, z⟩ := p
  simp [slabs]

/-- **C79** The map in the file is that of the ranks one after the other, whatever the order in which the
slabs are written. -/
theorem C79_map_file {n rLx rLz : ℕ} {sd : ℕ → Heap ℕ ℕ} {X : ℕ → ℕ → ℕ}
    (h : ∀ r, r < n → ∀ a, a < rLx * rLx * rLz → sd r a = some (X r a)) {order : List (ℕ × ℕ)}
    (ho : order.Perm (slabs n rLz)) :
    ∃ file, writeMap n rLx rLz sd order = some file ∧
      (∀ r, r < n → ∀ a, a < rLx * rLx * rLz → file (r * (rLx * rLx * rLz) + a) = some (X r a)) ∧
      ∀ a, rLx * rLx * (n * rLz) ≤ a → file a = none := by
  set s := rLx * rLx with hs
  have hmem : ∀ p, p ∈ order ↔ p.1 < n ∧ p.2 < rLz := fun p => (ho.mem_iff).trans (mem_slabs p)
  have hin : ∀ {z k : ℕ}, z < rLz → k < s → s * z + k < s * rLz := by
    intro z k hz hk
    have := pair_lt hz hk
    rw [Nat.mul_comm s z, Nat.mul_comm s rLz]; exact this
  have hout : ∀ {r z k : ℕ}, r < n → z < rLz → k < s → (r * rLz + z) * s + k < s * (n * rLz) := by
    intro r z k hr hz hk
    have := pair_lt (pair_lt hr hz) hk
    rw [Nat.mul_comm s]; exact this
  obtain ⟨file, e, h1, h2, h3⟩ := foldlM_inv (f := mapSlab rLx rLz sd) (s := fresh (s * (n * rLz)))
    (P := fun pre (t : Heap ℕ ℕ) =>
      (∀ p ∈ pre, ∀ k, k < s → t ((p.1 * rLz + p.2) * s + k) = some (X p.1 (s * p.2 + k))) ∧
      (∀ a, s * (n * rLz) ≤ a → t a = none) ∧ ∀ a, a < s * (n * rLz) → (t a).isSome) order
    ⟨by simp, fun a ha => by rw [fresh, if_neg (by omega)], fun a ha => by rw [fresh, if_pos ha]; rfl⟩ (by
    rintro pre ⟨r, z⟩ post hL t ⟨p1, p2, p3⟩
    have hp : (r, z) ∈ order := by rw [hL]; simp
    obtain ⟨hr, hz⟩ := (hmem _).1 hp
    dsimp only at hr hz
    obtain ⟨t', e1, e2⟩ := put_spec (src := fun k => sd r (s * z + k)) (o := (r * rLz + z) * s) (n := s)
      (h := t) (X := fun k => X r (s * z + k)) (fun k hk => h r hr _ (hin hz hk))
      (fun k hk => p3 _ (hout hr hz hk))
    refine ⟨t', e1, ?_, ?_, ?_⟩
    · intro p hpm k hk
      rw [e2]
      by_cases heq : p = (r, z)
      · subst heq
        rw [if_pos (by dsimp only; omega)]
        dsimp only
        rw [Nat.add_sub_cancel_left]
      · have hpre : p ∈ pre := by
          rcases List.mem_append.1 hpm with hh | hh
          · exact hh
          · exact absurd (List.mem_singleton.1 hh) heq
        obtain ⟨hp1, hp2⟩ := (hmem p).1 (by rw [hL]; simp [hpre])
        rw [if_neg]
        · exact p1 p hpre k hk
        · rintro ⟨a1, a2⟩
          refine heq ?_
          have e3 := pair_inj (b := s) (q := p.1 * rLz + p.2) (q' := r * rLz + z) hk
            (r' := (p.1 * rLz + p.2) * s + k - (r * rLz + z) * s) (by omega) (by omega)
          have e4 := pair_inj (b := rLz) hp2 hz e3.1
          exact Prod.ext e4.1 e4.2
    · intro a ha
      rw [e2, if_neg]
      · exact p2 a ha
      · rintro ⟨a1, a2⟩
        by_cases h0 : 0 < s
        · have := hout hr hz (show a - (r * rLz + z) * s < s by omega)
          omega
        · omega
    · intro a ha
      rw [e2]
      split
      · rfl
      · exact p3 a ha)
  refine ⟨file, e, ?_, h2⟩
  intro r hr a ha
  have h0 : 0 < s := Nat.pos_of_ne_zero (by rintro h0; rw [h0] at ha; omega)
  have hz : a / s < rLz := Nat.div_lt_of_lt_mul ha
  have := h1 (r, a / s) ((hmem _).2 ⟨hr, hz⟩) (a % s) (Nat.mod_lt _ h0)
  dsimp only at this
  rw [show (r * rLz + a / s) * s + a % s = r * (s * rLz) + a by
    have := Nat.div_add_mod' a s
    rw [Nat.add_mul, Nat.add_assoc, this]; ring,
    show s * (a / s) + a % s = a from Nat.div_add_mod a s] at this
  exact this

/-- **C79** From the field to the map in the file, on any number of ranks, with one ghost slice: byte
`x + y L + z L²` tells which plaquettes of site (x, y, z) of the whole lattice have a string and of which
sign, and whether a wall begins there. -/
theorem C79_map {Lx S Lz n NN : ℕ} (isa : Isa) (hS : 0 < S) (hdvd : S ∣ Lx) (hL : 0 < Lx) (hLz : 0 < Lz)
    {m : ℕ → Heap ℕ (Cx K)} {φ : Lat K} (hper : Periodic Lx φ)
    (hm : ∀ r, r < n → RankHolds Lx S Lz 1 r (m r) φ) {order : ℕ → List ℕ}
    (ho : ∀ r, r < n → (order r).Perm (cpuVisits ⟨Lx, S, NN⟩ Lz)) {d : ℕ → SD}
    (hd : ∀ r, r < n →
      kernel isa ⟨Lx, S, NN⟩ Lz Lx Lz (m r) (order r) (blank (Lx * Lx * Lz)) = some (d r))
    {order2 : List (ℕ × ℕ)} (h2 : order2.Perm (slabs n Lz)) :
    ∃ file, writeMap n Lx Lz (fun r => (d r).map) order2 = some file ∧
      ∀ x y z, x < Lx → y < Lx → z < n * Lz → ∃ b, file (x + y * Lx + z * (Lx * Lx)) = some b ∧
        ∀ k, b.testBit k = true ↔ Bit isa φ k x y z := by
  have hmap : ∀ r, r < n → ∀ x y z, x < Lx → y < Lx → z < Lz →
      ∃ b, (d r).map (x + y * Lx + z * (Lx * Lx)) = some b ∧
        ∀ k, b.testBit k = true ↔ Bit isa φ k x y (r * Lz + z) := by
    intro r hr
    obtain ⟨d', e, hh⟩ := C24_map isa hS hdvd hL hLz hper (hm r hr) (ho r hr)
    obtain rfl : d' = d r := Option.some.inj (e.symm.trans (hd r hr))
    exact hh
  have hall : ∀ r, r < n → ∀ a, a < Lx * Lx * Lz → ((d r).map a).isSome := by
    intro r hr a ha
    obtain ⟨b, hb, -⟩ := hmap r hr (a % Lx) (a / Lx % Lx) (a / Lx / Lx) (Nat.mod_lt _ hL)
      (Nat.mod_lt _ hL) (by
        rw [Nat.div_div_eq_div_mul]
        exact Nat.div_lt_of_lt_mul ha)
    have : a % Lx + a / Lx % Lx * Lx + a / Lx / Lx * (Lx * Lx) = a := by
      have h1 := Nat.div_add_mod' a Lx
      have h2 := Nat.div_add_mod' (a / Lx) Lx
      calc a % Lx + a / Lx % Lx * Lx + a / Lx / Lx * (Lx * Lx)
          = (a / Lx / Lx * Lx + a / Lx % Lx) * Lx + a % Lx := by ring
        _ = a := by rw [h2, h1]
    rw [this] at hb
    rw [hb]; rfl
  obtain ⟨file, e, h3, -⟩ := C79_map_file (n := n) (rLx := Lx) (rLz := Lz) (sd := fun r => (d r).map)
    (X := fun r a => ((d r).map a).getD 0) (by
      intro r hr a ha
      obtain ⟨y, hy⟩ := Option.isSome_iff_exists.1 (hall r hr a ha)
      simp [hy]) h2
  refine ⟨file, e, ?_⟩
  intro x y z hx hy hz
  have hr : z / Lz < n := Nat.div_lt_of_lt_mul (by rw [Nat.mul_comm]; exact hz)
  have hm' : z % Lz < Lz := Nat.mod_lt _ hLz
  have ez : z / Lz * Lz + z % Lz = z := Nat.div_add_mod' z Lz
  obtain ⟨b, hb, hk⟩ := hmap _ hr x y (z % Lz) hx hy hm'
  have hin : x + y * Lx + z % Lz * (Lx * Lx) < Lx * Lx * Lz := by
    have e1 : (y + 1) * Lx ≤ Lx * Lx := Nat.mul_le_mul_right _ hy
    have e2 : (z % Lz + 1) * (Lx * Lx) ≤ Lz * (Lx * Lx) := Nat.mul_le_mul_right _ hm'
    rw [Nat.add_mul, Nat.one_mul] at e1 e2
    rw [Nat.mul_comm (Lx * Lx) Lz]; omega
  have := h3 _ hr _ hin
  rw [hb] at this
  refine ⟨b, ?_, fun k => ?_⟩
  · rw [show x + y * Lx + z * (Lx * Lx) = z / Lz * (Lx * Lx * Lz) + (x + y * Lx + z % Lz * (Lx * Lx)) by
      conv_lhs => rw [← ez]
      ring]
    exact this
  · rw [hk k, show (((z / Lz : ℕ) : ℤ) * Lz + ((z % Lz : ℕ) : ℤ)) = ((z / Lz * Lz + z % Lz : ℕ) : ℤ) by
      push_cast; rfl, ez]

/-! ## Little memory -/

/-- A map with one string, through the XY plaquette of the first site. -/
def oneString : Heap ℕ ℕ := fun a => if a < 64 then some (if a = 0 then 1 else 0) else none

/-- **C79** (negative) With little memory the positions take the place of the map, and the length and the map
in the file are then taken from there (`measa.cpp:452-458`): a lattice with one string at the first site
gets another one at the third. -/
theorem C79_low_memory :
    ((positions 4 4 0 1 oneString (tests 64)).bind fun P =>
      (keep true 64 8 1 P ⟨oneString, fun _ => none, .other, .other⟩).map fun f => f.sd 2) =
        some (some XY_POSITIVE) ∧ oneString 2 = some 0 := by
  constructor
  · decide +kernel
  · rfl

/-! ## Examples -/

/-- Four bytes for two positions: the first three bytes are copied. -/
example : ∃ f', keep true 4 8 2 ⟨fun a => some (a, 7, 300), 2⟩
      ⟨fun k => if k < 4 then some 9 else none, fun _ => none, .other, .other⟩ = some f' ∧
    f'.sd 2 = some 7 ∧ f'.sd 3 = some 9 := by
  obtain ⟨f', e, -, h1, h2⟩ := C79_cut (low := true) (V := 4) (ds := 8) (carde := 2)
    (P := ⟨fun a => some (a, 7, 300), 2⟩)
    (f := ⟨fun k => if k < 4 then some 9 else none, fun _ => none, .other, .other⟩)
    (T := fun a => (a, 7, 300)) (fun _ _ => rfl) (by decide)
    (fun a ha => by
      have ha : a < 4 := ha
      simp [Fld.buf, ha])
  exact ⟨f', e, h1 2 (by decide), (h2 3 (by decide)).trans (by simp [Fld.buf])⟩

/-- Two ranks with one and two positions. -/
example : ∃ w, writeStringCo false 2
    (fun r => ⟨fun _ => none, fun k => some (byte (r, k / 6, 300) (k % 6)), .other, .coord⟩)
    (fun r => r + 1) = some (some w) ∧ triple w.file 2 = some (1, 1, 300) := by
  obtain ⟨w, e, h, -⟩ := C79_file (low := false) (n := 2)
    (f := fun r => ⟨fun _ => none, fun k => some (byte (r, k / 6, 300) (k % 6)), .other, .coord⟩)
    (N := fun r => r + 1) (T := fun r a => (r, a, 300)) (fun _ _ => rfl)
    (fun r hr a ha => by simp only [Short]; omega) (fun _ _ _ _ => rfl)
    (fun _ _ _ _ => rfl) (fun r hr _ => by omega)
  exact ⟨w, e, h 1 (by omega) 1 (by omega)⟩

/-- A lattice with strings in one layer, on two ranks. -/
example : ∃ (d : ℕ → SD) (w : W) (f : ℕ → Fld),
    writeStringCo false 2 f (fun r => (d r).nStr) = some (some w) ∧
    ∃ a, triple w.file a = some (1, 1, 0) := by
  have hper : Periodic 2 layer := by intro x y z; simp [layer, checker]
  have hm : ∀ r, r < 2 → RankHolds 2 1 2 1 r
      (store 2 1 fun x y k => layer x y ((r : ℕ) * (2 : ℕ) + k - (1 : ℕ))) layer :=
    fun r _ => rankHolds_store (by omega) (by omega) (by omega) 2 1 r layer
  have hd : ∀ r, ∃ d, r < 2 → kernel .sse ⟨2, 1, 1⟩ 2 2 2
      (store 2 1 fun x y k => layer x y ((r : ℕ) * (2 : ℕ) + k - (1 : ℕ))) (cpuVisits ⟨2, 1, 1⟩ 2)
      (blank (2 * 2 * 2)) = some d := by
    intro r
    obtain ⟨d, h, -⟩ := C24_rank (K := ℚ) (Lx := 2) (S := 1) (Lz := 2) (Ng := 1) (r := r) (NN := 1)
      .sse (by omega) (by omega) (by omega) (by omega) le_rfl hper
      (rankHolds_store (by omega) (by omega) (by omega) 2 1 r layer) (List.Perm.refl _)
    exact ⟨d, fun _ => h⟩
  choose d hd using hd
  have hn : ∀ r, r < 2 → (d r).nStr ≤ 16 := by
    intro r hr
    obtain ⟨d', h, -, h2, -⟩ := C24_rank (K := ℚ) (Lx := 2) (S := 1) (Lz := 2) (Ng := 1) (r := r) (NN := 1)
      .sse (by omega) (by omega) (by omega) (by omega) le_rfl hper
      (rankHolds_store (by omega) (by omega) (by omega) 2 1 r layer) (List.Perm.refl _)
    obtain rfl : d' = d r := Option.some.inj (h.symm.trans (hd r hr))
    rw [h2]
    have : ∀ r : Fin 2, ∑ p ∈ box 2 2, (strs .sse layer p.1 p.2.1 ((r : ℕ) * (2 : ℕ) + p.2.2 + 1 - (1 : ℕ))).length ≤ 16 := by
      decide +kernel
    exact this ⟨r, hr⟩
  obtain ⟨P, f', w, -, -, e, -, h⟩ := C79_strings (K := ℚ) (low := false) (Lx := 2) (S := 1) (Lz := 2)
    (n := 2) (NN := 1) (ds := 16) .sse (by omega) (by omega) (by omega) (by omega) hper hm
    (order := fun _ => cpuVisits ⟨2, 1, 1⟩ 2) (fun _ _ => List.Perm.refl _) hd
    (order2 := fun _ => tests (2 * 2 * 2)) (fun _ _ => List.Perm.refl _) (by omega) (by omega)
    (fun _ => ⟨fun _ => none, fun _ => some 0, .other, .other⟩)
    (fun r hr => by
      have := hn r hr
      show _ ≤ 2 * 2 * 2 * 16
      omega)
    (fun r hr => by have := hn r hr; omega) (fun _ _ _ _ => rfl)
  obtain ⟨a, ⟨-, ha⟩, -⟩ := h 0 0 0 .xy (by omega) (by omega) (by omega) (by decide +kernel)
  exact ⟨d, w, f', e, a, ha⟩

end StrFile
end Jaxions
