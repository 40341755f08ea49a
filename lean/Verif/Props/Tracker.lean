import Verif.Lemmas.Tracker

/-
C43: the axiton tracker.

For every history of searches and readings, any order of the threads and any content, a
site is followed at most once, the limit is kept, every series has one entry for each
reading since it began, and holds the values of its site (C43_lists, C43_found,
C43_series_partial).  The series are wrong when the field is not folded at a reading
(C43_unfolded_misread).  The numbers of sites convert without loss (C43_convert).  The
printing loop writes each series once exactly if no rank in between is empty (C43_print).
-/

namespace Jaxions.Tracker

variable {K : Type} {g : Geo}

theorem limit_eq (nMax P : ℕ) (h : nMax < 2 ^ 64) :
    ((init K nMax P).limit % 2 ^ 64).toNat = nMax / P := by
  have h1 : ((nMax : ℤ) = -2) = False := by simp only [eq_iff_iff, iff_false]; omega
  show ((if (nMax : ℤ) = -2 then (100 : ℤ) else nMax).tdiv P % 2 ^ 64).toNat = nMax / P
  rw [if_neg (by simp [h1])]
  rw [Int.tdiv_eq_ediv_of_nonneg (by omega), ← Int.natCast_ediv]
  have h2 : nMax / P < 2 ^ 64 := Nat.lt_of_le_of_lt (Nat.div_le_self _ _) h
  rw [Int.emod_eq_of_lt (Int.natCast_nonneg _) (by exact_mod_cast h2), Int.toNat_natCast]

/-- C43: lists, limit and lengths, for every history. -/
theorem C43_lists (hd : g.shift ∣ g.n1) (nMax P : ℕ) (hM : nMax < 2 ^ 64)
    (es : List (Ev K × Lat K)) (he : ∀ e ∈ es, e.1.Of g e.2) :
    ∃ t, run g (init K nMax P) (es.map Prod.fst) = some t ∧
      (t.axilist.map Axiton.idx).Nodup ∧ t.axilist.length ≤ nMax / P ∧
      t.idxlist = t.axilist.map Axiton.idx ∧
      t.ct = times (es.map Prod.fst) ∧
      ∀ a ∈ t.axilist, a.i0 + a.m.length = t.ct.length ∧ a.i0 + a.v.length = t.ct.length := by
  obtain ⟨t, h1, h2⟩ := run_spec (K := K) hd nMax P es he
  refine ⟨t, h1, ?_, ?_, h2.good.ids, h2.ct, ?_⟩
  · rw [← h2.good.ids]; exact h2.good.nodup
  · have := h2.good.len
    unfold limU at this
    rw [h2.limit, limit_eq nMax P hM, h2.good.ids, List.length_map] at this
    exact this
  · intro a ha
    obtain ⟨i1, -, i3, i4⟩ := h2.ax a ha
    have e1 := congrArg List.length i3
    have e2 := congrArg List.length i4
    rw [List.length_map, List.length_map, List.length_drop, arrs_length, ← h2.index] at e1 e2
    rw [h2.ct, times_length, ← h2.index]
    omega

/-- C43: what is followed was found: each entry is the folded number of a site of the rank
that a search found. -/
theorem C43_found (hd : g.shift ∣ g.n1) (nMax : ℤ) (P : ℕ)
    (es : List (Ev K × Lat K)) (he : ∀ e ∈ es, e.1.Of g e.2) {t : St K}
    (ht : run g (init K nMax P) (es.map Prod.fst) = some t) :
    ∀ a ∈ t.axilist, ∃ x y z, x < g.n1 ∧ y < g.n1 ∧ z < g.Lz ∧
      a.idx = sitePos g true x y z ∧ Found es x y z := by
  obtain ⟨t', h1, h2⟩ := run_spec (K := K) hd nMax P es he
  rw [h1, Option.some.injEq] at ht
  subst ht
  exact fun a ha => (h2.ax a ha).2.1

/-- C43: what is found is followed, as long as there is room.  Also the order of the
threads is irrelevant then. -/
theorem C43_complete (hd : g.shift ∣ g.n1) (nMax P : ℕ) (hM : nMax < 2 ^ 64)
    (es : List (Ev K × Lat K)) (he : ∀ e ∈ es, e.1.Of g e.2) (c : Crit K) (f : Arr K) (L : Lat K)
    (order : List ℕ) (hs : Shows g L f) (ho : order.Perm (List.range g.n3)) {t : St K}
    (ht : run g (init K nMax P) (es.map Prod.fst ++ [.search c true f order]) = some t)
    (hroom : t.axilist.length < nMax / P) :
    ∀ x y z, x < g.n1 → y < g.n1 → z < g.Lz → Meets c (L x y z).1 (L x y z).2 →
      ∃ a ∈ t.axilist, a.idx = sitePos g true x y z := by
  obtain ⟨t', h1, h2⟩ := run_spec (K := K) hd nMax P es he
  obtain ⟨s, s1, s2, s3, s4, s5, s6, s7, s8⟩ := search_spec hd c L f hs order
    (fun i hi => List.mem_range.1 (ho.mem_iff.1 hi)) t' h2.good
  have hts : t = s := by
    unfold run at ht h1
    rw [List.foldlM_append, h1] at ht
    have : (([Ev.search c true f order] : List (Ev K)).foldlM (step g) t') = some s := by
      rw [List.foldlM_cons]
      show (search g c true f order t').bind _ = _
      unfold search
      rw [if_pos rfl, s1]; rfl
    rw [show (some t' >>= fun init => ([Ev.search c true f order] : List (Ev K)).foldlM (step g) init) =
      ([Ev.search c true f order] : List (Ev K)).foldlM (step g) t' from rfl, this] at ht
    exact (Option.some.inj ht).symm
  subst hts
  intro x y z hx hy hz hh
  have hfull : full t = false := by
    unfold full
    rw [s4, h2.limit, limit_eq nMax P hM, s2.ids, List.length_map]
    simpa using hroom
  have := s8 hfull x y z hx hy hz (ho.mem_iff.2 (List.mem_range.2 (sitePos_lt hd _ hx hy hz)))
    ((hit_iff _ _ _).2 hh)
  rw [s2.ids] at this
  obtain ⟨a, ha, e⟩ := List.mem_map.1 this
  exact ⟨a, ha, e⟩

theorem series_eq {es : List (Ev K × Lat K)} (he : ∀ e ∈ es, e.1.Of g e.2)
    (hf : ReadFolded (es.map Prod.fst)) {x y z : ℕ} (hx : x < g.n1) (hy : y < g.n1) (hz : z < g.Lz) :
    (arrs es).map (fun f => f.m (readIx g f (sitePos g true x y z))) =
      ((readings es).map fun L => (L x y z).1).map some ∧
    (arrs es).map (fun f => f.v (readIx g f (sitePos g true x y z))) =
      ((readings es).map fun L => (L x y z).2).map some := by
  induction es with
  | nil => exact ⟨rfl, rfl⟩
  | cons e es ih =>
    have hi := ih (fun e' h => he e' (by simp [h])) (fun e' h => hf e' (by
      rw [List.map_cons]; exact List.mem_cons_of_mem _ h))
    obtain ⟨e, L⟩ := e
    cases e with
    | search => exact hi
    | read f z' =>
      have hs : Shows g L f := he (.read f z', L) (by simp)
      have hfo : f.folded = true := hf (.read f z') (by simp) f z' rfl
      obtain ⟨e1, e2⟩ := hs.1 x y z hx hy hz
      have hix : readIx g f (sitePos g true x y z) = sitePos g f.folded x y z := by
        unfold readIx; rw [hfo, if_pos rfl]
      constructor
      · show f.m _ :: _ = some _ :: _
        rw [hix, e1, hi.1]
      · show f.v _ :: _ = some _ :: _
        rw [hix, e2, hi.2]

/-- C43: each series holds the field and the velocity of its site at every reading since
it began, if the field is folded at the readings. -/
theorem C43_series_partial (hd : g.shift ∣ g.n1) (nMax : ℤ) (P : ℕ)
    (es : List (Ev K × Lat K)) (he : ∀ e ∈ es, e.1.Of g e.2) (hf : ReadFolded (es.map Prod.fst))
    {t : St K} (ht : run g (init K nMax P) (es.map Prod.fst) = some t) :
    ∀ a ∈ t.axilist, ∃ x y z, x < g.n1 ∧ y < g.n1 ∧ z < g.Lz ∧ a.idx = sitePos g true x y z ∧
      a.m = ((readings es).drop a.i0).map (fun L => (L x y z).1) ∧
      a.v = ((readings es).drop a.i0).map (fun L => (L x y z).2) := by
  obtain ⟨t', h1, h2⟩ := run_spec (K := K) hd nMax P es he
  rw [h1, Option.some.injEq] at ht
  subst ht
  intro a ha
  obtain ⟨-, ⟨x, y, z, hx, hy, hz, e1, -⟩, i3, i4⟩ := h2.ax a ha
  obtain ⟨q1, q2⟩ := series_eq he hf hx hy hz
  have inj : ∀ l l' : List K, l.map some = l'.map some → l = l' := fun l l' h =>
    List.map_injective_iff.mpr (fun _ _ h => Option.some.inj h) h
  refine ⟨x, y, z, hx, hy, hz, e1, inj _ _ ?_, inj _ _ ?_⟩
  · rw [i3, e1, List.map_drop, q1, ← List.map_drop, ← List.map_drop]
  · rw [i4, e1, List.map_drop, q2, ← List.map_drop, ← List.map_drop]

/-- C43 is false when the field is not folded at a reading: the number of the site is
folded a second time instead of unfolded.  The series of site (1, 0, 0) gets the value at
another site, for every grid with at least two lanes and more than one row per lane. -/
theorem C43_unfolded_misread (hd : g.shift ∣ g.n1) (h2 : 2 ≤ g.shift) (hlt : g.shift < g.n1)
    (hz : 0 < g.Lz) (L : Lat K) (f : Arr K) (hs : Shows g L f) (hf : f.folded = false) (i0 : ℕ) :
    ∃ x y, x < g.n1 ∧ y < g.n1 ∧ (x, y) ≠ (1, 0) ∧
      addPoint g f ⟨sitePos g true 1 0 0, i0, [], []⟩ =
        some ⟨sitePos g true 1 0 0, i0, [(L x y 0).1], [(L x y 0).2]⟩ := by
  have hpos : sitePos g true 1 0 0 = g.shift := by
    show 0 * g.n2 + (0 % (g.n1 / g.shift) * g.n1 + 1) * g.shift + 0 / (g.n1 / g.shift) = g.shift
    simp
  have hpl : sitePos g false g.shift 0 0 = g.shift := by
    show 0 * g.n2 + 0 * g.n1 + g.shift = g.shift
    simp
  have hq : 0 < g.n1 / g.shift := Nat.div_pos (by omega) (by omega)
  have hfold : foldidx g g.shift = g.shift * g.shift := by
    have := foldidx_site hd 0 hlt (show 0 < g.n1 by omega)
    rw [hpl] at this
    rw [this]
    show 0 * g.n2 + (0 % (g.n1 / g.shift) * g.n1 + g.shift) * g.shift + 0 / (g.n1 / g.shift) = _
    simp
  have hss : g.shift * g.shift < g.n1 * g.n1 := Nat.mul_self_lt_mul_self hlt
  have hx : g.shift * g.shift % g.n1 < g.n1 := Nat.mod_lt _ (by omega)
  have hy : g.shift * g.shift / g.n1 < g.n1 := lt_of_mul_div hss
  refine ⟨g.shift * g.shift % g.n1, g.shift * g.shift / g.n1, hx, hy, ?_, ?_⟩
  · intro h
    rw [Prod.mk.injEq] at h
    have e := div_mul_add_mod (g.shift * g.shift) g.n1
    rw [h.1, h.2, Nat.zero_mul, Nat.zero_add] at e
    have : 2 * 2 ≤ g.shift * g.shift := Nat.mul_le_mul h2 h2
    omega
  · obtain ⟨e1, e2⟩ := hs.1 _ _ 0 hx hy hz
    have hp : sitePos g f.folded (g.shift * g.shift % g.n1) (g.shift * g.shift / g.n1) 0 =
        g.shift * g.shift := by
      rw [hf]
      show 0 * g.n2 + g.shift * g.shift / g.n1 * g.n1 + g.shift * g.shift % g.n1 = _
      rw [Nat.zero_mul, Nat.zero_add, div_mul_add_mod]
    rw [hp] at e1 e2
    unfold addPoint readIx
    rw [hf, if_neg (by decide), hpos]
    dsimp only
    rw [hfold, e1, e2]
    rfl

/-- C43: the conversions between folded and unfolded numbers are inverse to each other on
the sites of a rank, agree with the layouts, and the printed coordinates are those of the
site in the whole grid. -/
theorem C43_convert (hd : g.shift ∣ g.n1) {x y z : ℕ} (hx : x < g.n1) (hy : y < g.n1) (hz : z < g.Lz)
    (rank : ℕ) :
    foldidx g (sitePos g false x y z) = sitePos g true x y z ∧
    unfoldidx g (sitePos g true x y z) = sitePos g false x y z ∧
    printed g rank (sitePos g true x y z) = (x, y, rank * g.Lz + z) ∧
    (∀ i < g.n3, foldidx g i < g.n3 ∧ unfoldidx g (foldidx g i) = i) ∧
    (∀ i < g.n3, unfoldidx g i < g.n3 ∧ foldidx g (unfoldidx g i) = i) := by
  have _ := hz
  refine ⟨foldidx_site hd z hx hy, unfoldidx_site hd z hx hy, ?_, ?_, ?_⟩
  · rw [printed_site hd z rank hx hy, Nat.add_comm]
  · intro i hi
    refine ⟨foldidx_lt hd hi, ?_⟩
    obtain ⟨x, y, z, hx, hy, -, rfl⟩ := site_of hd false hi
    rw [foldidx_site hd z hx hy, unfoldidx_site hd z hx hy]
  · intro i hi
    obtain ⟨x, y, z, hx, hy, hz, rfl⟩ := site_of hd true hi
    rw [unfoldidx_site hd z hx hy, foldidx_site hd z hx hy]
    exact ⟨sitePos_lt hd false hx hy hz, rfl⟩

/-- C43: the printing loop writes every series of every rank exactly once, in order, if and
only if no rank after the first is empty while a later one is not.  Otherwise a rank reads
a series it does not have. -/
theorem C43_print (nAx : List ℕ) :
    (NoGap nAx → printAll nAx = some (allPairs 0 nAx)) ∧ (¬ NoGap nAx → printAll nAx = none) := by
  cases nAx with
  | nil => exact ⟨fun _ => rfl, fun h => absurd (fun r s _ _ h => by simp at h) h⟩
  | cons n ns =>
    obtain ⟨p1, p2⟩ := print_tail ns [] n 0 (Nat.zero_le _) []
    have hg : NoGap (n :: ns) ↔ tailOk ns := by
      rw [tailOk_iff]
      constructor
      · intro h r s hrs hr m hm
        exact h (r + 1) (s + 1) (by omega) (by omega) hr m hm
      · intro h r s h0 hrs hr m hm
        obtain ⟨r, rfl⟩ : ∃ k, r = k + 1 := ⟨r - 1, by omega⟩
        obtain ⟨s, rfl⟩ : ∃ k, s = k + 1 := ⟨s - 1, by omega⟩
        exact h r s (by omega) hr m hm
    have es : n - 0 + ns.sum = (n :: ns).sum := by rw [List.sum_cons]; omega
    rw [es] at p1 p2
    refine ⟨fun h => ?_, fun h => ?_⟩
    · unfold printAll
      have := p1 (hg.1 h)
      rw [show ([] : List ℕ) ++ n :: ns = n :: ns from rfl] at this
      rw [show (([] : List ℕ).length, 0) = (0, 0) from rfl] at this
      rw [this, Nat.sub_zero]
      show some _ = some ((List.range n).map _ ++ allPairs (0 + 1) ns)
      rw [List.range_eq_range', List.nil_append]
      rfl
    · unfold printAll
      have := p2 (fun h' => h (hg.2 h'))
      rw [show ([] : List ℕ) ++ n :: ns = n :: ns from rfl,
        show (([] : List ℕ).length, 0) = (0, 0) from rfl] at this
      rw [this]; rfl

/-- Each rank is written completely, or the loop is undefined: three ranks of which the
second one has no axiton. -/
example : printAll [2, 0, 1] = none ∧ printAll [0, 2, 1] = some [(1, 0), (1, 1), (2, 0)] := by
  decide

/-- A history that meets the hypotheses: on a grid of 4 x 4 x 1 sites with two lanes the
site (1, 0, 0) is found and read twice, once more than nothing. -/
def exGeo : Geo := ⟨4, 1, 1, 2, false⟩

def exLat (k : ℕ) : Lat ℕ := fun x y _ => (if x = 1 ∧ y = 0 then k else 0, x + y)

def exArr (k : ℕ) : Arr ℕ where
  m := fun i => if i < 16 then some (if i = 2 then k else 0) else none
  v := fun i => if i < 16 then some (i / 2 % 4 + (i / 2 / 4 + i % 2 * 2)) else none
  folded := true

theorem exShows (k : ℕ) : Shows exGeo (exLat k) (exArr k) := by
  refine ⟨?_, ?_⟩
  · intro x y z hx hy hz
    have hx : x < 4 := hx
    have hy : y < 4 := hy
    have hz : z < 1 := hz
    obtain rfl : z = 0 := by omega
    have e : sitePos exGeo (exArr k).folded x y 0 = (y % 2 * 4 + x) * 2 + y / 2 := by
      show 0 * 16 + (y % 2 * 4 + x) * 2 + y / 2 = _
      omega
    rw [e]
    have hlt : (y % 2 * 4 + x) * 2 + y / 2 < 16 := by omega
    constructor
    · show (if (y % 2 * 4 + x) * 2 + y / 2 < 16 then
        some (if (y % 2 * 4 + x) * 2 + y / 2 = 2 then k else 0) else none) = _
      rw [if_pos hlt]
      show some _ = some (if x = 1 ∧ y = 0 then k else 0)
      congr 2
      simp only [eq_iff_iff]
      omega
    · show (if (y % 2 * 4 + x) * 2 + y / 2 < 16 then some _ else none) = _
      rw [if_pos hlt]
      show some _ = some (x + y)
      congr 1
      have h1 : ((y % 2 * 4 + x) * 2 + y / 2) / 2 = y % 2 * 4 + x := by omega
      rw [h1]
      omega
  · intro i hi
    have hi : 16 ≤ i := hi
    exact ⟨if_neg (by omega), if_neg (by omega)⟩

def exHistory : List (Ev ℕ × Lat ℕ) :=
  [(.search ⟨fun a => decide (3 < a), fun _ => false, true, false⟩ true (exArr 5) (List.range 16),
      exLat 5),
   (.read (exArr 6) 10, exLat 6), (.read (exArr 7) 11, exLat 7)]

example : (∀ e ∈ exHistory, e.1.Of exGeo e.2) ∧ ReadFolded (exHistory.map Prod.fst) ∧
    (run exGeo (init ℕ 10 2) (exHistory.map Prod.fst)).map St.axilist =
      some [⟨2, 0, [6, 7], [1, 1]⟩] := by
  refine ⟨?_, ?_, by decide⟩
  · intro e he
    simp only [exHistory, List.mem_cons, List.not_mem_nil, or_false] at he
    rcases he with rfl | rfl | rfl
    · exact ⟨exShows 5, List.Perm.refl _⟩
    · exact exShows 6
    · exact exShows 7
  · intro e he f z h
    subst h
    simp only [exHistory, List.map_cons, List.map_nil, List.mem_cons, List.not_mem_nil, or_false] at he
    rcases he with h | h | h
    · exact absurd h (by simp)
    · rw [(Ev.read.inj h).1]; rfl
    · rw [(Ev.read.inj h).1]; rfl

end Jaxions.Tracker
