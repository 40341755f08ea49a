import Verif.Spec.FieldSpectrum
import Mathlib.Tactic.Ring
import Mathlib.Tactic.FieldSimp
/-
Lemmas for C84.
-/
namespace Jaxions.FieldSpec

open Finset Gravity WKB Spectrum

theorem wants_eq {n bits : ℕ} (hb : bits < 2 ^ 8) :
    wants n bits = (List.range 8).any fun i => n.testBit i && bits.testBit i := by
  unfold wants
  rw [Bool.eq_iff_iff]
  simp only [bne_iff_ne, ne_eq, List.any_eq_true, List.mem_range]
  constructor
  · intro h
    obtain ⟨i, hi⟩ := Nat.exists_testBit_of_ne_zero h
    rw [Nat.testBit_and] at hi
    refine ⟨i, ?_, hi⟩
    by_contra hc
    have h2 : bits.testBit i = false := Nat.testBit_lt_two_pow (hb.trans_le (Nat.pow_le_pow_right (by decide) (by omega)))
    rw [h2] at hi
    simp at hi
  · rintro ⟨i, _, h⟩ h0
    rw [← Nat.testBit_and, h0] at h
    simp at h

theorem wants_K (n : ℕ) : wants n bitsK = askedK n := by
  rw [wants_eq (by decide)]
  simp [List.range_succ, bitsK, askedK, Nat.testBit, Nat.shiftRight_eq_div_pow]

theorem wants_GV (n : ℕ) : wants n bitsGV = askedGV n := by
  rw [wants_eq (by decide)]
  simp [List.range_succ, bitsGV, askedGV, Nat.testBit, Nat.shiftRight_eq_div_pow, Bool.or_assoc]

theorem wants_S (n : ℕ) : wants n bitsS = askedS n := by
  rw [wants_eq (by decide)]
  simp [List.range_succ, bitsS, askedS, Nat.testBit, Nat.shiftRight_eq_div_pow]

theorem padded_row {L : ℕ} {s : ℕ × ℕ × ℕ} (h : s.1 < L) : padded L s = rowIx L (bare L s) := by
  obtain ⟨x, y, z⟩ := s
  have hL : 0 < L := by dsimp only at h; omega
  have e : bare L (x, y, z) = (y + L * z) * L + x := by unfold bare; dsimp only; ring
  unfold rowIx
  rw [e, Nat.add_comm ((y + L * z) * L) x, Nat.add_mul_div_right _ _ hL, Nat.add_mul_mod_self_right,
    Nat.div_eq_of_lt h, Nat.mod_eq_of_lt h]
  unfold padded
  dsimp only
  ring

theorem rowIx_lt {L ss i : ℕ} (hL : 0 < L) (hi : i < ss * L) : rowIx L i < ss * (L + 2) := by
  have h1 : i / L < ss := (Nat.div_lt_iff_lt_mul hL).2 hi
  have h2 := Nat.mod_lt i hL
  unfold rowIx
  calc i / L * (L + 2) + i % L < i / L * (L + 2) + (L + 2) := by omega
    _ = (i / L + 1) * (L + 2) := by ring
    _ ≤ ss * (L + 2) := Nat.mul_le_mul_right _ h1

theorem rowIx_inj {L i j : ℕ} (hL : 0 < L) (h : rowIx L i = rowIx L j) : i = j := by
  unfold rowIx at h
  have h1 := Nat.mod_lt i hL
  have h2 := Nat.mod_lt j hL
  have hd : i / L = j / L := by
    have e : ∀ q t, t < L → (q * (L + 2) + t) / (L + 2) = q := by
      intro q t ht
      rw [Nat.mul_comm, Nat.mul_add_div (by omega), Nat.div_eq_of_lt (by omega), Nat.add_zero]
    rw [← e (i / L) _ h1, h, e _ _ h2]
  have hm : i % L = j % L := by rw [hd] at h; omega
  rw [← Nat.div_add_mod i L, hd, hm, Nat.div_add_mod]

/-- A loop over the sites that stores in every padded place a number that does not depend on `m2`. -/
theorem sites_spec {L ss : ℕ} (hL : 0 < L) {order : List (ℕ × ℕ × ℕ)}
    (ho : (order.map (bare L)).Perm (List.range (ss * L))) (hin : ∀ s ∈ order, s.1 < L ∧ s.2.1 < L)
    {body : Heap ℕ ℝ → ℕ × ℕ × ℕ → Option (Heap ℕ ℝ)} {val : ℕ → ℝ}
    (hb : ∀ t s, s ∈ order → body t s = t.write (padded L s) (val (bare L s)))
    {h : Heap ℕ ℝ} (ha : WKB.Alloc (ss * (L + 2)) h) :
    ∃ d, order.foldlM body h = some d ∧ WKB.Alloc (ss * (L + 2)) d ∧
      ∀ i < ss * L, d (rowIx L i) = some (val i) := by
  obtain ⟨d, e, p1, p2⟩ := foldlM_inv (f := body) (s := h) order
    (P := fun pre t => WKB.Alloc (ss * (L + 2)) t ∧ ∀ s ∈ pre, t (padded L s) = some (val (bare L s)))
    ⟨ha, by simp⟩
    (by
      rintro pre s post hsplit t ⟨t1, t2⟩
      have hs : s ∈ order := by rw [hsplit]; simp
      have hlt : bare L s < ss * L := List.mem_range.1 (ho.mem_iff.1 (List.mem_map_of_mem hs))
      have hp := padded_row (hin s hs).1
      have hsome : (t (padded L s)).isSome := t1 _ (by rw [hp]; exact rowIx_lt hL hlt)
      refine ⟨_, by rw [hb t s hs]; exact write_eq t _ _ hsome, ?_, ?_⟩
      · intro a ha'
        dsimp only
        split
        · rfl
        · exact t1 a ha'
      · intro q hq
        by_cases hc : padded L q = padded L s
        · rw [if_pos hc]
          have hq' : q ∈ order := by
            rw [hsplit]
            rcases List.mem_append.1 hq with hq | hq
            · exact List.mem_append_left _ hq
            · rw [List.mem_singleton.1 hq]; simp
          rw [padded_row (hin q hq').1, hp] at hc
          rw [rowIx_inj hL hc]
        · rw [if_neg hc]
          rcases List.mem_append.1 hq with hq | hq
          · exact t2 q hq
          · exact absurd (by rw [List.mem_singleton.1 hq]) hc)
  refine ⟨d, e, p1, fun i hi => ?_⟩
  obtain ⟨s, hs, rfl⟩ := List.mem_map.1 (ho.mem_iff.2 (List.mem_range.2 hi))
  rw [← padded_row (hin s hs).1]
  exact p2 s hs

section
variable {u : Setup}

/-- The array of a rank is the given field, in padded lines. -/
def Padded (u : Setup) (f : Torus u.g.Lx u.g.Tz → ℝ) (r : ℕ) (d : Heap ℕ ℝ) : Prop :=
  WKB.Alloc (u.g.lines * (u.g.Lx + 2)) d ∧
    ∀ i < u.g.vol, d (rowIx u.g.Lx i) = some (f (siteOf u.g (r * u.g.vol + i)))

variable {mem : ℕ → Mem} {ψ π : Torus u.g.Lx u.g.Tz → ℝ} {mark : Torus u.g.Lx u.g.Tz → Bool}

theorem bare_lt {d : Orders} (hd : d.Ok u) {s : ℕ × ℕ × ℕ} (hs : s ∈ d.sites) : bare u.g.Lx s < u.g.vol :=
  List.mem_range.1 (hd.sites.mem_iff.1 (List.mem_map_of_mem hs))

theorem loop_padded (ok : u.Ok) {d : Orders} (hd : d.Ok u) (f : Torus u.g.Lx u.g.Tz → ℝ) (r : ℕ)
    {body : Heap ℕ ℝ → ℕ × ℕ × ℕ → Option (Heap ℕ ℝ)}
    (hb : ∀ t s, s ∈ d.sites → body t s =
      t.write (padded u.g.Lx s) (f (siteOf u.g (r * u.g.vol + bare u.g.Lx s))))
    {h : Heap ℕ ℝ} (ha : WKB.Alloc (u.g.lines * (u.g.Lx + 2)) h) :
    ∃ x, d.sites.foldlM body h = some x ∧ Padded u f r x := by
  obtain ⟨x, e, p1, p2⟩ := sites_spec (L := u.g.Lx) (ss := u.g.lines) ok.geo.side
    (by rw [← vol_eq]; exact hd.sites) hd.inside (val := fun i => f (siteOf u.g (r * u.g.vol + i))) hb ha
  exact ⟨x, e, p1, fun i hi => p2 i (by rw [← vol_eq]; exact hi)⟩

theorem lines_padded (ok : u.Ok) {d : Orders} (hd : d.Ok u) (f : Torus u.g.Lx u.g.Tz → ℝ) (r : ℕ) {o : ℕ}
    {src : Heap ℕ ℝ} (hsrc : ∀ i < u.g.vol, src (o + i) = some (f (siteOf u.g (r * u.g.vol + i))))
    {h : Heap ℕ ℝ} (ha : WKB.Alloc (u.g.lines * (u.g.Lx + 2)) h) :
    ∃ x, copyLines u.g.Lx d.lines src o h = some x ∧ Padded u f r x := by
  obtain ⟨x, e, p1, p2, -⟩ := copyLines_spec (N := u.g.lines * (u.g.Lx + 2)) ok.geo.side hd.lines (src := src)
    (o := o) (fun i hi => by rw [hsrc i (by rw [vol_eq]; exact hi)]; rfl) ha (le_refl _)
  exact ⟨x, e, p2, fun i hi => by rw [p1 i (by rw [← vol_eq]; exact hi), hsrc i hi]⟩

theorem gArray_spec (ok : u.Ok) {mk : Mask} (hm : mk ≠ .axit) (hs : Holds u mem ψ π mark) {d : Orders}
    (hd : d.Ok u) {r : ℕ} (hr : r < u.g.n) {h : Heap ℕ ℝ}
    (ha : WKB.Alloc (u.g.lines * (u.g.Lx + 2)) h) :
    ∃ x, gArray u.g u.Ng mk (mem r) d h = some x ∧ Padded u (seen (mk != .flat) mark ψ) r x := by
  unfold gArray
  by_cases hf : mk = .flat
  · rw [if_pos hf]
    subst hf
    exact lines_padded ok hd _ r (hs.m r hr) ha
  · rw [if_neg hf]
    refine loop_padded ok hd _ r (fun t s hs' => ?_) ha
    have hb := bare_lt hd hs'
    have e : (mk != Mask.flat) = true := by simpa using hf
    unfold gSite
    rw [e]
    cases mk <;> first | exact absurd rfl hm | exact absurd rfl hf | skip
    all_goals
      dsimp only
      rw [hs.str r hr _ hb, hs.m r hr _ hb]
      simp only [Option.bind_eq_bind, Option.bind_some, seen, cut, if_true]
      cases mark (siteOf u.g (r * u.g.vol + bare u.g.Lx s)) <;> rfl

theorem kArray_spec (ok : u.Ok) {mk : Mask} (hm : mk ≠ .axit) (hs : Holds u mem ψ π mark) {d : Orders}
    (hd : d.Ok u) {r : ℕ} (hr : r < u.g.n) {h : Heap ℕ ℝ}
    (ha : WKB.Alloc (u.g.lines * (u.g.Lx + 2)) h) :
    ∃ x, kArray u.g u.Ng mk (mem r) d h = some x ∧ Padded u (seen (mk != .flat) mark π) r x := by
  unfold kArray
  by_cases hf : mk = .flat
  · rw [if_pos hf]
    subst hf
    exact lines_padded ok hd _ r (fun i hi => by rw [Nat.zero_add]; exact hs.v r hr i hi) ha
  · rw [if_neg hf]
    refine loop_padded ok hd _ r (fun t s hs' => ?_) ha
    have hb := bare_lt hd hs'
    have e : (mk != Mask.flat) = true := by simpa using hf
    unfold kSite
    rw [e]
    cases mk <;> first | exact absurd rfl hm | exact absurd rfl hf | skip
    all_goals
      dsimp only
      rw [hs.str r hr _ hb, hs.v r hr _ hb]
      simp only [Option.bind_eq_bind, Option.bind_some, seen, cut, if_true]
      cases mark (siteOf u.g (r * u.g.vol + bare u.g.Lx s)) <;> rfl

theorem sArray_spec (ok : u.Ok) {mk : Mask} (hm : mk ≠ .axit) (hs : Holds u mem ψ π mark) {d : Orders}
    (hd : d.Ok u) {r : ℕ} (hr : r < u.g.n) {h : Heap ℕ ℝ}
    (ha : WKB.Alloc (u.g.lines * (u.g.Lx + 2)) h) :
    ∃ x, sArray u.g u.Ng u.R mk (mem r) d h = some x ∧
      Padded u (seen (mk == .axit2) mark fun x => chord u.R (ψ x)) r x := by
  unfold sArray
  refine loop_padded ok hd _ r (fun t s hs' => ?_) ha
  have hb := bare_lt hd hs'
  unfold sSite
  cases mk <;> first | exact absurd rfl hm | skip
  all_goals
    dsimp only
    first | rw [hs.str r hr _ hb, hs.m r hr _ hb] | rw [hs.m r hr _ hb]
    simp only [Option.bind_eq_bind, Option.bind_some, seen]
    first | rfl | (cases hk : mark (siteOf u.g (r * u.g.vol + bare u.g.Lx s)) <;> simp [cut, hk])

end

/-! ### Bins -/

section
variable {u : Setup} [NeZero u.g.Lx] [NeZero u.g.Tz]

instance : NeZero u.cfg.Ly := inferInstanceAs (NeZero u.g.Lx)
instance : NeZero u.cfg.Tz := inferInstanceAs (NeZero u.g.Tz)

omit [NeZero u.g.Lx] [NeZero u.g.Tz] in
theorem cfg_ok (ok : u.Ok) : u.cfg.Ok where
  even := ok.even
  len := ok.geo.side
  depth := Nat.mul_pos ok.geo.ranks ok.geo.depth
  ranks := ok.geo.ranks
  divY := ok.geo.dvd
  divZ := Dvd.intro _ rfl
  threads := ok.threads
  bins := ok.bins

omit [NeZero u.g.Lx] [NeZero u.g.Tz] in
theorem cfg_modes (ok : u.Ok) : u.cfg.modes = u.g.modes := by
  have h : u.cfg.Lz = u.g.Lz := by
    show u.g.n * u.g.Lz / u.g.n = u.g.Lz
    exact Nat.mul_div_cancel_left _ ok.geo.ranks
  unfold Cfg.modes Geo.modes
  rw [h]
  show (u.g.Lx / 2 + 1) * u.g.Lx * u.g.Lz = u.g.Lx * (u.g.Lx / 2 + 1) * u.g.Lz
  ring

omit [NeZero u.g.Lx] [NeZero u.g.Tz] in
theorem place_mode (r i : ℕ) : placeOf u.cfg r i = modeOf u.g r i := by
  show (((i % (u.g.Lx / 2 + 1) : ℕ), ((i / (u.g.Lx / 2 + 1) / u.g.Tz + u.g.Lx / u.g.n * r : ℕ) : ZMod u.g.Lx),
    (i / (u.g.Lx / 2 + 1) % u.g.Tz : ℕ)) : Torus u.g.Lx u.g.Tz) = _
  unfold modeOf
  rw [Nat.add_comm (i / (u.g.Lx / 2 + 1) / u.g.Tz), Nat.mul_comm (u.g.Lx / u.g.n)]
  rfl

omit [NeZero u.g.Lx] [NeZero u.g.Tz] in
theorem modes_room (ok : u.Ok) : 2 * u.g.modes = u.g.lines * (u.g.Lx + 2) := by
  obtain ⟨h, e⟩ := ok.even
  unfold Geo.modes Geo.lines Geo.hLx
  rw [e, Nat.mul_div_cancel_left _ (by omega)]
  ring

omit [NeZero u.g.Lx] [NeZero u.g.Tz] in
theorem flip_norm (c : Cfg) [NeZero c.Ly] [NeZero c.Tz] (f : Torus c.Ly c.Tz → ℝ) {q : ℕ × ℕ × ℕ}
    (hq : q ∈ lattice c) : ‖dft (fun x => (f x : ℂ)) (asMode c (opposite c q))‖ ^ 2 =
      ‖dft (fun x => (f x : ℂ)) (asMode c q)‖ ^ 2 := by
  rw [asMode_opposite c hq, dft_real, RCLike.norm_conj]

/-- What a block puts in the vectors. -/
theorem block_spec (ok : u.Ok) (hP : u.plan.Exact u.g) {t : SType} (ht1 : t ≠ .GaSadd) (ht2 : t ≠ .NN)
    (ht3 : t ≠ .AK) {p : Phys ℝ}
    {array : Mem → Orders → Heap ℕ ℝ → Option (Heap ℕ ℝ)} {d : ℕ → Orders}
    (hd : ∀ r < u.g.n, (d r).Ok u) {s : State} {f : Torus u.g.Lx u.g.Tz → ℝ}
    (harr : ∀ r < u.g.n, ∃ x, array (s.mem r) (d r) (s.mem r).m2 = some x ∧ Padded u f r x) :
    ∃ s', block u.g u.plan u.cfg p t array d s = some s' ∧
      (∀ r, (s'.mem r).m = (s.mem r).m ∧ (s'.mem r).v = (s.mem r).v ∧ (s'.mem r).str = (s.mem r).str) ∧
      (∀ r < u.g.n, WKB.Alloc (u.g.lines * (u.g.Lx + 2)) (s'.mem r).m2) ∧
      ∀ r a j, r < u.g.n → j < u.cfg.nbins →
        (used t a = true → s'.bins r a j = ∑ q ∈ range u.g.n, s.bins q a j +
          spectrum u.cfg p t a (fun q => ‖dft (fun x => (f x : ℂ)) (asMode u.cfg q)‖ ^ 2) j) ∧
        (used t a = false → s'.bins r a j = s.bins r a j) := by
  obtain ⟨w1, e1, h1⟩ := ranks_spec (n := u.g.n) (f := fun r h => array (s.mem r) (d r) h)
    (w := fun r => (s.mem r).m2) (Q := fun r x => Padded u f r x) harr
  obtain ⟨w2, e2, h2⟩ := forward_spec ok.geo hP (N := u.g.lines * (u.g.Lx + 2)) (modes_room ok).le f
    (fun r hr => (h1 r hr).1) (fun r i hr hi => (h1 r hr).2 i hi)
  have e3 : moduli u.g w2 = some fun r i => match load (w2 r) 0 i with
      | some c => ‖c‖
      | none => 0 := by
    exact if_pos fun r hr i hi => by rw [(h2 r hr).1 i hi]; rfl
  obtain ⟨b, e4, h4⟩ := C26_fill (cfg_ok ok) p t (order := fun r => (d r).modes)
    (holds_of (c := u.cfg) (f := f) (amp := fun r i => match load (w2 r) 0 i with
      | some c => ‖c‖
      | none => 0) (cfg_ok ok) (by
        intro r i hr hi
        rw [cfg_modes ok] at hi
        dsimp only
        rw [(h2 r hr).1 i hi, place_mode]
        rfl))
    (fun q hq => flip_norm u.cfg f hq)
    (fun r hr => (hd r hr).modes) s.bins
  refine ⟨⟨fun r => { s.mem r with m2 := w2 r }, b⟩, ?_, fun r => ⟨rfl, rfl, rfl⟩, fun r hr => (h2 r hr).2.1, ?_⟩
  · unfold block
    rw [e1]
    simp only [Option.bind_eq_bind, Option.bind_some]
    rw [e2]
    simp only [Option.bind_some]
    rw [e3]
    simp only [Option.bind_some]
    rw [e4]
    rfl
  · intro r a j hr hj
    have := h4 r a j hr hj
    exact ⟨fun hu => this.1 hu ht1 ht2 ht3, this.2.2.2⟩

/-- A sum over the lattice of modes in a bin as a sum over waves. -/
theorem lattice_shell (F : Torus u.g.Lx u.g.Tz → ℝ) (j : ℕ) :
    ∑ q ∈ lattice u.cfg with InBin u.cfg (sq (freqs u.cfg q)) j, F (asMode u.cfg q) =
      ∑ k : Torus u.g.Lx u.g.Tz with InBin u.cfg (ksq k).toNat j, F k := by
  rw [sum_filter, sum_filter]
  have := sum_lattice u.cfg fun k => if InBin u.cfg (ksq k).toNat j then F k else 0
  refine Eq.trans (sum_congr rfl fun q hq => ?_) this
  rw [← sq_asMode u.cfg hq, Int.toNat_natCast]

theorem spectrum_plain {p : Phys ℝ} {t : SType} {a : Arr} {w : ℝ} (hw : plain p t a = some w)
    (hp : p.norm = u.ℓ ^ 3 / (2 * u.N ^ 2)) (f : Torus u.g.Lx u.g.Tz → ℝ) (j : ℕ) :
    spectrum u.cfg p t a (fun q => ‖dft (fun x => (f x : ℂ)) (asMode u.cfg q)‖ ^ 2) j =
      shell u (fun _ => w) f j := by
  unfold Spectrum.spectrum shell
  rw [← lattice_shell (fun k => u.ℓ ^ 3 * (w * ‖dft (fun x => (f x : ℂ)) k‖ ^ 2 / (2 * u.N ^ 2)))]
  refine sum_congr rfl fun q _ => ?_
  have hs : ∀ k m, share p t a k m = p.norm * w * m := by
    intro k m
    cases t <;> cases a <;> simp [plain] at hw <;> subst hw <;> simp only [share] <;> ring
  rw [hs, hp]
  show _ * ‖dft (L := u.g.Lx) (T := u.g.Tz) (fun x => (f x : ℂ)) (asMode u.cfg q)‖ ^ 2 = _
  ring

theorem spectrum_graded {p : Phys ℝ} {t : SType} {a : Arr} (hg : graded t a)
    (hp : p.norm = u.ℓ ^ 3 / (2 * u.N ^ 2)) (hu : p.unit = (2 * Real.pi / u.ℓ) ^ 2)
    (f : Torus u.g.Lx u.g.Tz → ℝ) (j : ℕ) :
    spectrum u.cfg p t a (fun q => ‖dft (fun x => (f x : ℂ)) (asMode u.cfg q)‖ ^ 2) j =
      shell u (k2 u) f j := by
  unfold Spectrum.spectrum shell
  rw [← lattice_shell (fun k => u.ℓ ^ 3 * (k2 u k * ‖dft (fun x => (f x : ℂ)) k‖ ^ 2 / (2 * u.N ^ 2)))]
  refine sum_congr rfl fun q hq => ?_
  have e : ((sq (freqs u.cfg q) : ℕ) : ℝ) = ((ksq (asMode u.cfg q) : ℤ) : ℝ) := by
    rw [← sq_asMode u.cfg (mem_filter.1 hq).1, Int.cast_natCast]
  have hs : ∀ m, share p t a (freqs u.cfg q) m =
      p.norm * (m * (((ksq (asMode u.cfg q) : ℤ) : ℝ) * p.unit)) := by
    intro m
    cases t <;> cases a <;> simp [graded] at hg <;> simp only [share, e]
  rw [hs, hp, hu]
  unfold k2
  show _ * (‖dft (L := u.g.Lx) (T := u.g.Tz) (fun x => (f x : ℂ)) (asMode u.cfg q)‖ ^ 2 *
    (((ksq (L := u.g.Lx) (T := u.g.Tz) (asMode u.cfg q) : ℤ) : ℝ) * _)) = _
  ring

/-! ### Sums of all bins -/

theorem shell_sum (ok : u.Ok) (W : Torus u.g.Lx u.g.Tz → ℝ) (f : Torus u.g.Lx u.g.Tz → ℝ) :
    ∑ j ∈ range u.cfg.nbins, shell u W f j =
      u.ℓ ^ 3 / (2 * u.N ^ 2) * ∑ k, W k * ‖dft (fun x => (f x : ℂ)) k‖ ^ 2 := by
  unfold shell
  simp only [← lattice_shell (fun k => u.ℓ ^ 3 * (W k * ‖dft (fun x => (f x : ℂ)) k‖ ^ 2 / (2 * u.N ^ 2)))]
  rw [sum_bins (cfg_ok ok), mul_sum]
  refine Eq.trans (sum_lattice u.cfg
    (fun k => u.ℓ ^ 3 * (W k * ‖dft (L := u.g.Lx) (T := u.g.Tz) (fun x => (f x : ℂ)) k‖ ^ 2 / (2 * u.N ^ 2)))) ?_
  exact sum_congr rfl fun k _ => by ring

omit [NeZero u.g.Tz] [NeZero u.g.Lx] in
theorem N_pos (ok : u.Ok) : 0 < u.N := by
  have h1 : (0 : ℝ) < u.g.Lx := Nat.cast_pos.2 ok.geo.side
  have h2 : (0 : ℝ) < u.g.Tz := Nat.cast_pos.2 (Nat.mul_pos ok.geo.ranks ok.geo.depth)
  unfold Setup.N
  positivity

theorem shell_total (ok : u.Ok) (w : ℝ) (f : Torus u.g.Lx u.g.Tz → ℝ) :
    ∑ j ∈ range u.cfg.nbins, shell u (fun _ => w) f j = u.ℓ ^ 3 * mean u fun x => w * f x ^ 2 / 2 := by
  have hN := (N_pos ok).ne'
  rw [shell_sum ok, ← mul_sum, parseval]
  have e : (u.g.Lx * u.g.Lx * u.g.Tz : ℝ) = u.N := rfl
  unfold mean
  rw [e, show (∑ x, w * f x ^ 2 / 2) = w / 2 * ∑ x, f x ^ 2 by
    rw [mul_sum]; exact sum_congr rfl fun x _ => by ring]
  field_simp

theorem shell_gradient (ok : u.Ok) (f : Torus u.g.Lx u.g.Tz → ℝ) :
    ∑ j ∈ range u.cfg.nbins, shell u (k2 u) f j = gradient u f := by
  have hN := (N_pos ok).ne'
  rw [shell_sum ok]
  have h := parseval_grad (2 * Real.pi / u.ℓ) f
  have h2 := congrArg Complex.re h
  rw [Complex.ofReal_re, show (u.g.Lx * u.g.Lx * u.g.Tz : ℂ) = ((u.N : ℝ) : ℂ) by
    unfold Setup.N; push_cast; rfl, Complex.re_ofReal_mul, Complex.re_sum] at h2
  simp only [Complex.re_ofReal_mul, Complex.neg_re] at h2
  rw [show (∑ k, k2 u k * ‖dft (fun x => (f x : ℂ)) k‖ ^ 2) =
      ∑ k, (ksq k : ℝ) * (2 * Real.pi / u.ℓ) ^ 2 * ‖dft (fun x => (f x : ℂ)) k‖ ^ 2 from
    sum_congr rfl fun k _ => by unfold k2; ring, h2]
  unfold gradient mean
  rw [show (∑ x, f x * -(lapS (2 * Real.pi / u.ℓ) (fun y => (f y : ℂ)) x).re / 2) =
      1 / 2 * ∑ x, f x * -(lapS (2 * Real.pi / u.ℓ) (fun y => (f y : ℂ)) x).re by
    rw [mul_sum]; exact sum_congr rfl fun x _ => by ring]
  field_simp

end

end Jaxions.FieldSpec
