import Verif.Spec.Lattice
import Verif.Lemmas.Comms
import Verif.Basic.DivMod
/-
Invariant of the cluster executions (used for C10).
-/
namespace Jaxions.Cluster

variable {P Q : Type}

namespace Rank

@[simp] theorem src_setSrc (R : Rank P Q) (b a) : (R.setSrc b a).src b = a := by
  cases b <;> rfl
@[simp] theorem dst_setSrc (R : Rank P Q) (b a) : (R.setSrc b a).dst b = R.dst b := by
  cases b <;> rfl
@[simp] theorem src_setDst (R : Rank P Q) (b a) : (R.setDst b a).src b = R.src b := by
  cases b <;> rfl
@[simp] theorem dst_setDst (R : Rank P Q) (b a) : (R.setDst b a).dst b = a := by
  cases b <;> rfl
@[simp] theorem v_setSrc (R : Rank P Q) (b a) : (R.setSrc b a).v = R.v := by cases b <;> rfl
@[simp] theorem v_setDst (R : Rank P Q) (b a) : (R.setDst b a).v = R.v := by cases b <;> rfl
@[simp] theorem pc_setSrc (R : Rank P Q) (b a) : (R.setSrc b a).pc = R.pc := by cases b <;> rfl
@[simp] theorem pc_setDst (R : Rank P Q) (b a) : (R.setDst b a).pc = R.pc := by cases b <;> rfl
@[simp] theorem phase_setSrc (R : Rank P Q) (b a) : (R.setSrc b a).phase = R.phase := by cases b <;> rfl
@[simp] theorem phase_setDst (R : Rank P Q) (b a) : (R.setDst b a).phase = R.phase := by cases b <;> rfl
@[simp] theorem todo_setSrc (R : Rank P Q) (b a) : (R.setSrc b a).todo = R.todo := by cases b <;> rfl
@[simp] theorem sent_setSrc (R : Rank P Q) (b a) : (R.setSrc b a).sent = R.sent := by cases b <;> rfl
@[simp] theorem sent_setDst (R : Rank P Q) (b a) : (R.setDst b a).sent = R.sent := by cases b <;> rfl
@[simp] theorem got_setDst (R : Rank P Q) (b a) : (R.setDst b a).got = R.got := by cases b <;> rfl

end Rank

/-- Depths for which the passes of a substep touch each slice once (C06) and the send buffers do
not reach into the ghosts. -/
def Grid.Ok (g : Grid) : Prop := 0 < g.n ∧ 0 < g.Lz ∧ (2 * g.Ng ≤ g.Lz ∨ g.Lz = g.Ng)

theorem Grid.Ok.le {g : Grid} (h : g.Ok) : g.Ng ≤ g.Lz := by
  obtain ⟨_, _, h | h⟩ := h <;> omega

theorem mem_bulk (g : Grid) (k : Nat) : k ∈ bulk g ↔ 2 * g.Ng ≤ k ∧ k < g.Lz := by
  simp only [bulk, List.mem_range'_1]
  omega

theorem mem_boundary {g : Grid} (h : g.Ok) (k : Nat) :
    k ∈ boundary g ↔ (g.Ng ≤ k ∧ k < 2 * g.Ng) ∨ (g.Lz ≤ k ∧ k < g.Lz + g.Ng) := by
  have := h.le
  simp only [boundary, List.mem_append, List.mem_range'_1]
  split
  · rw [List.mem_range'_1]; omega
  · simp only [List.not_mem_nil, or_false]; omega

theorem nodup_all {g : Grid} (h : g.Ok) : (bulk g ++ boundary g).Nodup := by
  have hle := h.le
  rw [List.nodup_append]
  refine ⟨List.nodup_range', ?_, ?_⟩
  · simp only [boundary]
    split
    · rw [List.nodup_append]
      refine ⟨List.nodup_range', List.nodup_range', ?_⟩
      intro a ha b hb
      rw [List.mem_range'_1] at ha hb
      obtain ⟨_, _, h | h⟩ := h <;> omega
    · simp [List.nodup_range']
  · intro a ha b hb
    rw [mem_bulk] at ha
    rw [mem_boundary h] at hb
    obtain ⟨_, _, h | h⟩ := h <;> omega

theorem mem_all {g : Grid} (h : g.Ok) (k : Nat) :
    k ∈ bulk g ++ boundary g ↔ g.Ng ≤ k ∧ k < g.Ng + g.Lz := by
  rw [List.mem_append, mem_bulk, mem_boundary h]
  obtain ⟨_, _, h | h⟩ := h <;> omega

section
variable (g : Grid) (prog : List (Op P Q)) (G0 : Lattice P Q)

/-- Total depth. -/
def Grid.N (g : Grid) : Nat := g.n * g.Lz

/-- Lattice after the first `i` substeps. -/
def lat (i : Nat) : Lattice P Q := Lattice.run g.Ng g.N G0 (prog.take i)

/-- Source field of substep `i`. -/
def dr (i z : Nat) : P :=
  match prog[i]? with
  | some op => (lat g prog G0 i).drifted op z
  | none => (lat g prog G0 i).m z

/-- What message number `i` of rank `s` should contain. -/
def msgOf (s : Nat) (d : Dir) (i : Nat) : List P :=
  match d with
  | .bck => (List.range g.Ng).map fun j => dr g prog G0 i (s * g.Lz + j)
  | .fwd => (List.range g.Ng).map fun j => dr g prog G0 i (s * g.Lz + (g.Lz - g.Ng + j))

end

theorem lat_succ (g : Grid) {prog : List (Op P Q)} {G0 : Lattice P Q} {i : Nat} {op : Op P Q}
    (h : prog[i]? = some op) :
    lat g prog G0 (i + 1) = (lat g prog G0 i).step g.Ng g.N op := by
  simp only [lat, Lattice.run, List.take_add_one, h, Option.toList_some, List.foldl_append,
    List.foldl_cons, List.foldl_nil]

theorem dr_eq (g : Grid) {prog : List (Op P Q)} {G0 : Lattice P Q} {i : Nat} {op : Op P Q}
    (h : prog[i]? = some op) : dr g prog G0 i = (lat g prog G0 i).drifted op := by
  funext z; simp only [dr, h]

/-- Slices a rank has still to update in the current substep. -/
def remaining (g : Grid) (R : Rank P Q) : List Nat :=
  if R.phase = .edge then R.todo else R.todo ++ boundary g

/-- Messages sent so far. -/
def sentCount (R : Rank P Q) (d : Dir) : Nat :=
  R.pc + if R.phase ≠ .idle ∧ R.sent d = true then 1 else 0
/-- Messages received so far. -/
def gotCount (R : Rank P Q) (d : Dir) : Nat :=
  R.pc + if R.phase ≠ .idle ∧ R.got d = true then 1 else 0

/-- Invariant of a rank inside a substep. -/
structure Mid (g : Grid) (prog : List (Op P Q)) (G0 : Lattice P Q) (r : Nat) (op : Op P Q)
    (R : Rank P Q) : Prop where
  hop : prog[R.pc]? = some op
  phys : ∀ z, z < g.Lz → R.src op.toM2 (g.Ng + z) = dr g prog G0 R.pc (r * g.Lz + z)
  done : ∀ z, z < g.Lz → g.Ng + z ∉ remaining g R →
    R.dst op.toM2 (g.Ng + z) = ((lat g prog G0 R.pc).kicked g.Ng g.N op (r * g.Lz + z)).1 ∧
    R.v z = ((lat g prog G0 R.pc).kicked g.Ng g.N op (r * g.Lz + z)).2
  rest : ∀ z, z < g.Lz → g.Ng + z ∈ remaining g R → R.v z = (lat g prog G0 R.pc).v (r * g.Lz + z)
  back : R.got .bck = true → ∀ j, j < g.Ng →
    R.src op.toM2 (g.Ng + g.Lz + j) = dr g prog G0 R.pc ((r * g.Lz + g.Lz + j) % g.N)
  front : R.got .fwd = true → ∀ j, j < g.Ng →
    R.src op.toM2 j = dr g prog G0 R.pc ((r * g.Lz + j + g.N - g.Ng) % g.N)
  nodup : (remaining g R).Nodup
  inside : ∀ k ∈ remaining g R, g.Ng ≤ k ∧ k < g.Ng + g.Lz
  flight : R.phase = .flight → ∀ k ∈ R.todo, 2 * g.Ng ≤ k ∧ k < g.Lz
  edge : R.phase = .edge → ∀ d, R.sent d = true ∧ R.got d = true

/-- Invariant of a rank. -/
structure RankInv (g : Grid) (prog : List (Op P Q)) (G0 : Lattice P Q) (r : Nat) (R : Rank P Q) :
    Prop where
  pcle : R.pc ≤ prog.length
  idle : R.phase = .idle → ∀ z, z < g.Lz →
    R.m (g.Ng + z) = (lat g prog G0 R.pc).m (r * g.Lz + z) ∧
    R.m2 (g.Ng + z) = (lat g prog G0 R.pc).m2 (r * g.Lz + z) ∧
    R.v z = (lat g prog G0 R.pc).v (r * g.Lz + z)
  mid : R.phase ≠ .idle → ∃ op, Mid g prog G0 r op R

/-- Invariant of the whole. -/
structure Inv (g : Grid) (prog : List (Op P Q)) (G0 : Lattice P Q) (w : World P Q) : Prop where
  ranks : ∀ r, r < g.n → RankInv g prog G0 r (w.rank r)
  order : ∀ r, r < g.n → ∀ d, gotCount (w.rank r) d ≤ sentCount (w.rank (source g r d)) d
  chans : ∀ r, r < g.n → ∀ d, w.chan (source g r d) d =
    (List.range' (gotCount (w.rank r) d)
      (sentCount (w.rank (source g r d)) d - gotCount (w.rank r) d)).map
      (msgOf g prog G0 (source g r d) d)

theorem rank_bound {g : Grid} {r : Nat} (hr : r < g.n) : r * g.Lz + g.Lz ≤ g.N := by
  have := Nat.mul_le_mul_right g.Lz (Nat.succ_le_of_lt hr)
  rw [Nat.succ_mul] at this
  exact this

/-- All slices of the local source array, ghosts included, show the periodic lattice. -/
theorem window {g : Grid} {prog : List (Op P Q)} {G0 : Lattice P Q} {r : Nat}
    (hr : r < g.n) {op : Op P Q} {R : Rank P Q} (h : Mid g prog G0 r op R)
    (hf : R.got .fwd = true) (hb : R.got .bck = true) (x : Nat) (hx : x < g.Lz + 2 * g.Ng) :
    R.src op.toM2 x = dr g prog G0 R.pc ((r * g.Lz + x + g.N - g.Ng) % g.N) := by
  have hrb := rank_bound hr
  rcases Nat.lt_or_ge x g.Ng with h1 | h1
  · exact h.front hf x h1
  · rcases Nat.lt_or_ge x (g.Ng + g.Lz) with h2 | h2
    · have := h.phys (x - g.Ng) (by omega)
      have e : g.Ng + (x - g.Ng) = x := by omega
      rw [e] at this
      rw [this]
      congr 1
      have e2 : r * g.Lz + x + g.N - g.Ng = (r * g.Lz + (x - g.Ng)) + g.N := by omega
      rw [e2, Nat.add_mod_right, Nat.mod_eq_of_lt]
      omega
    · have := h.back hb (x - g.Ng - g.Lz) (by omega)
      have e : g.Ng + g.Lz + (x - g.Ng - g.Lz) = x := by omega
      rw [e] at this
      rw [this]
      congr 1
      have e2 : r * g.Lz + x + g.N - g.Ng = (r * g.Lz + g.Lz + (x - g.Ng - g.Lz)) + g.N := by omega
      rw [e2, Nat.add_mod_right]

/-- The kernel applied to a slice that is due gives the slice of the whole lattice. -/
theorem kernel_correct {g : Grid} {prog : List (Op P Q)} (hloc : Local g.Ng prog)
    {G0 : Lattice P Q} {r : Nat} (hr : r < g.n) {op : Op P Q} {R : Rank P Q}
    (h : Mid g prog G0 r op R) (hph : R.phase ≠ .idle) {k : Nat} (hk : k ∈ R.todo) :
    op.law (fun o => R.src op.toM2 (k + o - g.Ng)) (R.v (k - g.Ng)) =
      (lat g prog G0 R.pc).kicked g.Ng g.N op (r * g.Lz + (k - g.Ng)) := by
  have hrem : k ∈ remaining g R := by
    simp only [remaining]; split
    · exact hk
    · exact List.mem_append_left _ hk
  have hin := h.inside k hrem
  have hv := h.rest (k - g.Ng) (by omega) (by
    have e : g.Ng + (k - g.Ng) = k := by omega
    rw [e]; exact hrem)
  rw [hv, Lattice.kicked]
  have hmem : op ∈ prog := List.mem_of_getElem? h.hop
  apply hloc op hmem
  intro o ho
  rw [← dr_eq g h.hop]
  have hrb := rank_bound hr
  by_cases hp : R.phase = .edge
  · have hfl := h.edge hp
    rw [window hr h (hfl .fwd).2 (hfl .bck).2 _ (by omega)]
    have e2 : r * g.Lz + (k + o - g.Ng) + g.N - g.Ng = r * g.Lz + (k - g.Ng) + o + g.N - g.Ng := by omega
    rw [e2]
  · have hp2 : R.phase = .flight := by
      cases hq : R.phase with
      | idle => exact absurd hq hph
      | flight => rfl
      | edge => exact absurd hq hp
    have hb := h.flight hp2 k hk
    have := h.phys (k + o - g.Ng - g.Ng) (by omega)
    have e : g.Ng + (k + o - g.Ng - g.Ng) = k + o - g.Ng := by omega
    rw [e] at this
    rw [this]
    have e2 : r * g.Lz + (k - g.Ng) + o + g.N - g.Ng = (r * g.Lz + (k + o - g.Ng - g.Ng)) + g.N := by omega
    rw [e2, Nat.add_mod_right, Nat.mod_eq_of_lt]
    omega

theorem setRank_rank (w : World P Q) (r : Nat) (R : Rank P Q) (r' : Nat) :
    (w.setRank r R).rank r' = if r' = r then R else w.rank r' := rfl

/-- Changing one rank without sending or receiving. -/
theorem Inv.setRank {g : Grid} {prog : List (Op P Q)} {G0 : Lattice P Q} {w : World P Q}
    (h : Inv g prog G0 w) {r : Nat} {R : Rank P Q} (hR : RankInv g prog G0 r R)
    (hs : ∀ d, sentCount R d = sentCount (w.rank r) d)
    (hq : ∀ d, gotCount R d = gotCount (w.rank r) d) : Inv g prog G0 (w.setRank r R) := by
  have hs' : ∀ r' d, sentCount ((w.setRank r R).rank r') d = sentCount (w.rank r') d := by
    intro r' d
    rw [setRank_rank]
    by_cases e : r' = r
    · rw [if_pos e, hs, e]
    · rw [if_neg e]
  have hq' : ∀ r' d, gotCount ((w.setRank r R).rank r') d = gotCount (w.rank r') d := by
    intro r' d
    rw [setRank_rank]
    by_cases e : r' = r
    · rw [if_pos e, hq, e]
    · rw [if_neg e]
  refine ⟨?_, ?_, ?_⟩
  · intro r' hr'
    rw [setRank_rank]
    by_cases e : r' = r
    · rw [if_pos e, e]; exact hR
    · rw [if_neg e]; exact h.ranks r' hr'
  · intro r' hr' d
    rw [hs', hq']
    exact h.order r' hr' d
  · intro r' hr' d
    rw [hs', hq']
    exact h.chans r' hr' d

theorem source_lt {g : Grid} (hn : 0 < g.n) (r : Nat) (d : Dir) : source g r d < g.n := by
  cases d
  · exact fwdNeig_lt hn r
  · exact bckNeig_lt hn r

theorem source_inj {g : Grid} (hn : 0 < g.n) {r r' : Nat} (hr : r < g.n) (hr' : r' < g.n) (d : Dir)
    (h : source g r d = source g r' d) : r = r' := by
  cases d
  · simp only [source] at h
    have hlt := fwdNeig_lt hn r'
    have h1 := (neig_iff hlt hr).2 h
    have h2 := (neig_iff hlt hr').2 rfl
    omega
  · simp only [source] at h
    have hlt := bckNeig_lt hn r'
    have h1 := (neig_iff' hlt hr).2 h
    have h2 := (neig_iff' hlt hr').2 rfl
    omega

theorem step_start {g : Grid} (hg : g.Ok) {prog : List (Op P Q)} {G0 : Lattice P Q}
    {w w' : World P Q} (h : Inv g prog G0 w) {r : Nat}
    (hs : step g prog w (.start r) = some w') : Inv g prog G0 w' := by
  simp only [step] at hs
  cases hop : prog[(w.rank r).pc]? with
  | none => simp [hop] at hs
  | some op =>
    simp only [hop] at hs
    by_cases hc : r < g.n ∧ (w.rank r).phase = .idle
    swap
    · rw [if_neg hc] at hs; simp at hs
    rw [if_pos hc] at hs
    obtain ⟨hr, hid⟩ := hc
    have hR := h.ranks r hr
    have hI := hR.idle hid
    injection hs with hs
    subst hs
    apply h.setRank
    · refine ⟨by simpa using hR.pcle, by intro hx; simp at hx, fun _ => ⟨op, ?_⟩⟩
      have hrem : ∀ x : Rank P Q, x.phase = .flight → x.todo = bulk g →
          remaining g x = bulk g ++ boundary g := by
        intro x h1 h2; simp [remaining, h1, h2]
      refine ⟨by simpa using hop, ?_, ?_, ?_, ?_, ?_, ?_, ?_, ?_, ?_⟩
      · intro z hz
        have e0 : g.Ng ≤ g.Ng + z ∧ g.Ng + z < g.Ng + g.Lz := by omega
        have e1 : g.Ng + z - g.Ng = z := by omega
        show ((w.rank r).setSrc op.toM2 _).src op.toM2 (g.Ng + z) = dr g prog G0 ((w.rank r).setSrc op.toM2 _).pc _
        rw [Rank.src_setSrc, Rank.pc_setSrc, dr_eq g hop]
        simp only [e0, and_self, if_true, e1, Lattice.drifted, Rank.src]
        rw [(hI z hz).2.2]
        cases op.toM2
        · simp only [Bool.false_eq_true, if_false, (hI z hz).2.1]
        · simp only [if_true, (hI z hz).1]
      · intro z hz hx
        rw [hrem _ rfl rfl, mem_all hg] at hx
        omega
      · intro z hz _
        show ((w.rank r).setSrc op.toM2 _).v z = (lat g prog G0 ((w.rank r).setSrc op.toM2 _).pc).v _
        rw [Rank.v_setSrc, Rank.pc_setSrc]
        exact (hI z hz).2.2
      · intro hx; simp at hx
      · intro hx; simp at hx
      · rw [hrem _ rfl rfl]; exact nodup_all hg
      · rw [hrem _ rfl rfl]; exact fun k hk => (mem_all hg k).1 hk
      · intro _ k hk; exact (mem_bulk g k).1 hk
      · intro hx; simp at hx
    · intro d; simp [sentCount, hid]
    · intro d; simp [gotCount, hid]

theorem step_wait {g : Grid} {prog : List (Op P Q)} {G0 : Lattice P Q}
    {w w' : World P Q} (h : Inv g prog G0 w) {r : Nat}
    (hs : step g prog w (.wait r) = some w') : Inv g prog G0 w' := by
  simp only [step] at hs
  split at hs
  swap
  · simp at hs
  next hc =>
  obtain ⟨hr, hfl, htodo, s1, s2, g1, g2⟩ := hc
  injection hs with hs
  subst hs
  have hR := h.ranks r hr
  obtain ⟨op, hM⟩ := hR.mid (by rw [hfl]; decide)
  apply h.setRank
  · refine ⟨hR.pcle, by intro hx; simp at hx, fun _ => ⟨op, ?_⟩⟩
    have hrem : remaining g { w.rank r with phase := Phase.edge, todo := boundary g } =
        remaining g (w.rank r) := by
      simp [remaining, hfl, htodo]
    refine ⟨hM.hop, hM.phys, ?_, ?_, hM.back, hM.front, ?_, ?_, by intro hx; simp at hx, ?_⟩
    · rw [hrem]; exact hM.done
    · rw [hrem]; exact hM.rest
    · rw [hrem]; exact hM.nodup
    · rw [hrem]; exact hM.inside
    · intro _ d
      cases d
      · exact ⟨s1, g1⟩
      · exact ⟨s2, g2⟩
  · intro d; simp [sentCount, hfl]
  · intro d; simp [gotCount, hfl]

theorem step_finish {g : Grid} {prog : List (Op P Q)} {G0 : Lattice P Q}
    {w w' : World P Q} (h : Inv g prog G0 w) {r : Nat}
    (hs : step g prog w (.finish r) = some w') : Inv g prog G0 w' := by
  simp only [step] at hs
  split at hs
  swap
  · simp at hs
  next hc =>
  obtain ⟨hr, hed, htodo⟩ := hc
  injection hs with hs
  subst hs
  have hR := h.ranks r hr
  obtain ⟨op, hM⟩ := hR.mid (by rw [hed]; decide)
  have hlen : (w.rank r).pc < prog.length := (List.getElem?_eq_some_iff.1 hM.hop).1
  have hrem : remaining g (w.rank r) = [] := by simp [remaining, hed, htodo]
  apply h.setRank
  · refine ⟨hlen, ?_, by intro hx; simp at hx⟩
    intro _ z hz
    have hd := hM.done z hz (by rw [hrem]; exact List.not_mem_nil)
    have hp := hM.phys z hz
    show (w.rank r).m (g.Ng + z) = (lat g prog G0 ((w.rank r).pc + 1)).m _ ∧
      (w.rank r).m2 (g.Ng + z) = (lat g prog G0 ((w.rank r).pc + 1)).m2 _ ∧
      (w.rank r).v z = (lat g prog G0 ((w.rank r).pc + 1)).v _
    rw [lat_succ g hM.hop]
    rw [dr_eq g hM.hop] at hp
    simp only [Rank.src, Rank.dst] at hd hp
    simp only [Lattice.step]
    cases hb : op.toM2
    · simp only [hb, Bool.false_eq_true, if_false] at hd hp ⊢
      exact ⟨hd.1, hp, hd.2⟩
    · simp only [hb, if_true] at hd hp ⊢
      exact ⟨hp, hd.1, hd.2⟩
  · intro d
    have := hM.edge hed d
    simp [sentCount, hed, this.1]
  · intro d
    have := hM.edge hed d
    simp [gotCount, hed, this.2]

theorem step_compute {g : Grid} {prog : List (Op P Q)} (hloc : Local g.Ng prog)
    {G0 : Lattice P Q} {w w' : World P Q} (h : Inv g prog G0 w) {r k : Nat}
    (hs : step g prog w (.compute r k) = some w') : Inv g prog G0 w' := by
  simp only [step] at hs
  cases hop : prog[(w.rank r).pc]? with
  | none => simp [hop] at hs
  | some op =>
    simp only [hop] at hs
    by_cases hc : r < g.n ∧ (w.rank r).phase ≠ .idle ∧ k ∈ (w.rank r).todo
    swap
    · rw [if_neg hc] at hs; simp at hs
    rw [if_pos hc] at hs
    obtain ⟨hr, hph, hk⟩ := hc
    injection hs with hs
    subst hs
    have hR := h.ranks r hr
    obtain ⟨op', hM⟩ := hR.mid hph
    obtain rfl : op' = op := by
      have := hM.hop
      rw [hop] at this
      exact (Option.some.inj this).symm
    have hker := kernel_correct hloc hr hM hph hk
    have hkrem : k ∈ remaining g (w.rank r) := by
      simp only [remaining]; split
      · exact hk
      · exact List.mem_append_left _ hk
    have hin := hM.inside k hkrem
    generalize hy : op'.law (fun o => (w.rank r).src op'.toM2 (k + o - g.Ng)) ((w.rank r).v (k - g.Ng)) = y at *
    generalize hR1 : { (w.rank r).setDst op'.toM2 (update ((w.rank r).dst op'.toM2) k y.1) with
        v := update (w.rank r).v (k - g.Ng) y.2, todo := (w.rank r).todo.erase k } = R1
    have eph : R1.phase = (w.rank r).phase := by subst hR1; simp
    have epc : R1.pc = (w.rank r).pc := by subst hR1; simp
    have esrc : R1.src op'.toM2 = (w.rank r).src op'.toM2 := by
      subst hR1; exact Rank.src_setDst _ _ _
    have edst : R1.dst op'.toM2 = update ((w.rank r).dst op'.toM2) k y.1 := by
      subst hR1; exact Rank.dst_setDst _ _ _
    have ev : R1.v = update (w.rank r).v (k - g.Ng) y.2 := by subst hR1; rfl
    have etodo : R1.todo = (w.rank r).todo.erase k := by subst hR1; rfl
    have esent : R1.sent = (w.rank r).sent := by subst hR1; simp
    have egot : R1.got = (w.rank r).got := by subst hR1; simp
    have hrem : remaining g R1 = (remaining g (w.rank r)).erase k := by
      simp only [remaining, eph, etodo]
      split
      · rfl
      · rw [List.erase_append_left _ hk]
    have hmem : ∀ a, a ∈ remaining g R1 ↔ a ≠ k ∧ a ∈ remaining g (w.rank r) := by
      intro a; rw [hrem, hM.nodup.mem_erase_iff]
    apply h.setRank
    · refine ⟨by rw [epc]; exact hR.pcle, by rw [eph]; exact fun hx => absurd hx hph,
        fun _ => ⟨op', ?_⟩⟩
      refine ⟨by rw [epc]; exact hop, by rw [esrc, epc]; exact hM.phys, ?_, ?_,
        by rw [esrc, epc, egot]; exact hM.back, by rw [esrc, epc, egot]; exact hM.front, ?_, ?_, ?_,
        by rw [eph, esent, egot]; exact hM.edge⟩
      · intro z hz hnot
        rw [hmem] at hnot
        rw [edst, ev, epc]
        by_cases hzk : g.Ng + z = k
        · have e1 : k - g.Ng = z := by omega
          rw [e1] at hker
          simp only [update, hzk, if_true, e1, hker, and_self]
        · have e1 : ¬ z = k - g.Ng := by omega
          simp only [update, hzk, e1, if_false]
          exact hM.done z hz (fun hx => hnot ⟨hzk, hx⟩)
      · intro z hz hx
        rw [hmem] at hx
        have e1 : ¬ z = k - g.Ng := by omega
        rw [ev, epc]
        simp only [update, e1, if_false]
        exact hM.rest z hz hx.2
      · rw [hrem]; exact hM.nodup.erase _
      · intro a ha; exact hM.inside a ((hmem a).1 ha).2
      · rw [eph, etodo]
        intro hf a ha
        exact hM.flight hf a (List.mem_of_mem_erase ha)
    · intro d; simp [sentCount, eph, epc, esent]
    · intro d; simp [gotCount, eph, epc, egot]

theorem message_eq {g : Grid} (hg : g.Ok) {prog : List (Op P Q)} {G0 : Lattice P Q} {r : Nat}
    {op : Op P Q} {R : Rank P Q} (h : Mid g prog G0 r op R) (d : Dir) :
    message g (R.src op.toM2) d = msgOf g prog G0 r d R.pc := by
  have hle := hg.le
  cases d
  · simp only [message, msgOf]
    apply List.map_congr_left
    intro j hj
    rw [List.mem_range] at hj
    exact h.phys j (by omega)
  · simp only [message, msgOf]
    apply List.map_congr_left
    intro j hj
    rw [List.mem_range] at hj
    have e : g.Ng + g.Lz - g.Ng + j = g.Ng + (g.Lz - g.Ng + j) := by omega
    rw [e]
    exact h.phys _ (by omega)

theorem step_capture {g : Grid} (hg : g.Ok) {prog : List (Op P Q)} {G0 : Lattice P Q}
    {w w' : World P Q} (h : Inv g prog G0 w) {r : Nat} {d : Dir}
    (hs : step g prog w (.capture r d) = some w') : Inv g prog G0 w' := by
  simp only [step] at hs
  cases hop : prog[(w.rank r).pc]? with
  | none => simp [hop] at hs
  | some op =>
    simp only [hop] at hs
    by_cases hc : r < g.n ∧ (w.rank r).phase = .flight ∧ (w.rank r).sent d = false
    swap
    · rw [if_neg hc] at hs; simp at hs
    rw [if_pos hc] at hs
    obtain ⟨hr, hph, hsd⟩ := hc
    injection hs with hs
    subst hs
    have hR := h.ranks r hr
    obtain ⟨op', hM⟩ := hR.mid (by rw [hph]; decide)
    obtain rfl : op' = op := by
      have := hM.hop
      rw [hop] at this
      exact (Option.some.inj this).symm
    rw [message_eq hg hM d]
    generalize hR1 : { w.rank r with sent := fun d' => if d' = d then true else (w.rank r).sent d' } = R1
    have hrem : remaining g R1 = remaining g (w.rank r) := by subst hR1; rfl
    have hRI : RankInv g prog G0 r R1 := by
      refine ⟨by subst hR1; exact hR.pcle, by subst hR1; intro hx; simp [hph] at hx, fun _ => ⟨op', ?_⟩⟩
      subst hR1
      exact ⟨hM.hop, hM.phys, hM.done, hM.rest, hM.back, hM.front, hM.nodup, hM.inside, hM.flight,
        by intro hx; simp [hph] at hx⟩
    have hsc : sentCount R1 d = sentCount (w.rank r) d + 1 := by
      subst hR1; simp [sentCount, hph, hsd]
    have hsc' : ∀ d', d' ≠ d → sentCount R1 d' = sentCount (w.rank r) d' := by
      intro d' hd'; subst hR1; simp [sentCount, hd']
    have hgc : ∀ d', gotCount R1 d' = gotCount (w.rank r) d' := by
      intro d'; subst hR1; rfl
    have hpc : sentCount (w.rank r) d = (w.rank r).pc := by simp [sentCount, hsd]
    have hgot : ∀ r' d', gotCount ((w.setRank r R1).rank r') d' = gotCount (w.rank r') d' := by
      intro r' d'
      rw [setRank_rank]
      by_cases e : r' = r
      · rw [if_pos e, hgc, e]
      · rw [if_neg e]
    refine ⟨?_, ?_, ?_⟩
    · intro r' hr'
      show RankInv g prog G0 r' ((w.setRank r R1).rank r')
      rw [setRank_rank]
      by_cases e : r' = r
      · rw [if_pos e, e]; exact hRI
      · rw [if_neg e]; exact h.ranks r' hr'
    · intro r' hr' d'
      show gotCount ((w.setRank r R1).rank r') d' ≤ sentCount ((w.setRank r R1).rank (source g r' d')) d'
      rw [hgot, setRank_rank]
      have ho := h.order r' hr' d'
      by_cases e : source g r' d' = r
      · rw [if_pos e]
        rw [e] at ho
        by_cases ed : d' = d
        · subst ed; omega
        · rw [hsc' _ ed]; exact ho
      · rw [if_neg e]; exact ho
    · intro r' hr' d'
      show (if source g r' d' = r ∧ d' = d then _ else w.chan (source g r' d') d') =
        (List.range' (gotCount ((w.setRank r R1).rank r') d')
          (sentCount ((w.setRank r R1).rank (source g r' d')) d' - gotCount ((w.setRank r R1).rank r') d')).map _
      rw [hgot, setRank_rank]
      have ho := h.order r' hr' d'
      have hch := h.chans r' hr' d'
      by_cases e : source g r' d' = r
      · rw [if_pos e]
        rw [e] at ho hch ⊢
        by_cases ed : d' = d
        · subst ed
          simp only [and_self, if_true]
          rw [hch, hsc]
          have e3 : sentCount (w.rank r) d' + 1 - gotCount (w.rank r') d' =
            (sentCount (w.rank r) d' - gotCount (w.rank r') d') + 1 := by omega
          rw [e3, List.range'_1_concat, List.map_append]
          congr 1
          simp only [List.map_cons, List.map_nil]
          congr 2
          omega
        · simp only [ed, and_false, if_false]
          rw [hsc' _ ed]; exact hch
      · simp only [e, false_and, if_false]; exact hch

theorem receive_back (g : Grid) (a : Nat → P) (f : Nat → P) :
    ∀ j, j < g.Ng → receive g a ((List.range g.Ng).map f) .bck (g.Ng + g.Lz + j) = f j := by
  intro j hj
  have e : g.Ng + g.Lz + j - (g.Ng + g.Lz) = j := by omega
  simp [receive, hj]

theorem receive_front (g : Grid) (a : Nat → P) (f : Nat → P) :
    ∀ j, j < g.Ng → receive g a ((List.range g.Ng).map f) .fwd j = f j := by
  intro j hj
  simp [receive, hj]

theorem receive_phys (g : Grid) (a : Nat → P) (msg : List P) (d : Dir) :
    ∀ z, z < g.Lz → receive g a msg d (g.Ng + z) = a (g.Ng + z) := by
  intro z hz
  cases d
  · have : ¬ (g.Ng + g.Lz ≤ g.Ng + z) := by omega
    simp [receive, this]
  · have : ¬ (g.Ng + z < g.Ng) := by omega
    simp [receive, this]

theorem receive_other_front (g : Grid) (a : Nat → P) (msg : List P) :
    ∀ j, j < g.Ng → receive g a msg .bck j = a j := by
  intro j hj
  have : ¬ (g.Ng + g.Lz ≤ j) := by omega
  simp [receive, this]

theorem receive_other_back (g : Grid) (a : Nat → P) (msg : List P) :
    ∀ j, j < g.Ng → receive g a msg .fwd (g.Ng + g.Lz + j) = a (g.Ng + g.Lz + j) := by
  intro j hj
  have : ¬ (g.Ng + g.Lz + j < g.Ng) := by omega
  simp [receive, this]

theorem fwd_global {g : Grid} (hg : g.Ok) {r : Nat} (hr : r < g.n) (j : Nat) (hj : j < g.Ng) :
    fwdNeig g.n r * g.Lz + j = (r * g.Lz + g.Lz + j) % g.N := by
  have hle := hg.le
  have hrb := rank_bound hr
  rw [fwdNeig_cases hr]
  split
  · next h0 =>
    have e : r * g.Lz + g.Lz = g.N := by rw [← Nat.succ_mul]; show (r+1) * g.Lz = g.n * g.Lz; rw [h0]
    rw [e, Nat.add_mod_left, Nat.mod_eq_of_lt]
    · omega
    · have : 0 < g.n := hg.1
      have : g.Lz ≤ g.N := by omega
      omega
  · next h0 =>
    have e8 : (r + 2) * g.Lz ≤ g.n * g.Lz := Nat.mul_le_mul_right _ (by omega)
    have e9 : (r + 1) * g.Lz = r * g.Lz + g.Lz := Nat.succ_mul _ _
    rw [Nat.add_mul, Nat.two_mul] at e8
    rw [Nat.mod_eq_of_lt]
    · omega
    · show _ < g.n * g.Lz; omega

theorem bck_global {g : Grid} (hg : g.Ok) {r : Nat} (hr : r < g.n) (j : Nat) (hj : j < g.Ng) :
    bckNeig g.n r * g.Lz + (g.Lz - g.Ng + j) = (r * g.Lz + j + g.N - g.Ng) % g.N := by
  have hle := hg.le
  have hrb := rank_bound hr
  rw [bckNeig_cases hr]
  split
  · next h0 =>
    subst h0
    have e7 : (g.n - 1) * g.Lz + g.Lz = g.N := by
      rw [← Nat.succ_mul]; show _ = g.n * g.Lz; congr 1; omega
    rw [Nat.mod_eq_of_lt] <;> omega
  · next h0 =>
    have e7 : (r - 1) * g.Lz + g.Lz = r * g.Lz := by rw [← Nat.succ_mul]; congr 1; omega
    have : r * g.Lz + j + g.N - g.Ng = (r * g.Lz + j - g.Ng) + g.N := by omega
    rw [this, Nat.add_mod_right, Nat.mod_eq_of_lt] <;> omega

theorem step_deliver {g : Grid} (hg : g.Ok) {prog : List (Op P Q)} {G0 : Lattice P Q}
    {w w' : World P Q} (h : Inv g prog G0 w) {r : Nat} {d : Dir}
    (hs : step g prog w (.deliver r d) = some w') : Inv g prog G0 w' := by
  simp only [step] at hs
  cases hop : prog[(w.rank r).pc]? with
  | none => simp [hop] at hs
  | some op =>
    simp only [hop] at hs
    by_cases hc : r < g.n ∧ (w.rank r).phase = .flight ∧ (w.rank r).got d = false
    swap
    · rw [if_neg hc] at hs; simp at hs
    rw [if_pos hc] at hs
    obtain ⟨hr, hph, hgd⟩ := hc
    have hcr := h.chans r hr d
    have hor := h.order r hr d
    cases hch : w.chan (source g r d) d with
    | nil => simp [hch] at hs
    | cons msg rest =>
    simp only [hch] at hs
    injection hs with hs
    subst hs
    have hR := h.ranks r hr
    obtain ⟨op', hM⟩ := hR.mid (by rw [hph]; decide)
    obtain rfl : op' = op := by
      have := hM.hop
      rw [hop] at this
      exact (Option.some.inj this).symm
    have hpc : gotCount (w.rank r) d = (w.rank r).pc := by simp [gotCount, hgd]
    -- the head of the queue is the message of this substep
    rw [hch] at hcr
    obtain ⟨L, hL⟩ : ∃ L, sentCount (w.rank (source g r d)) d - gotCount (w.rank r) d = L + 1 := by
      cases hX : sentCount (w.rank (source g r d)) d - gotCount (w.rank r) d with
      | zero => rw [hX] at hcr; simp at hcr
      | succ L => exact ⟨L, rfl⟩
    rw [hL, List.range'_succ, List.map_cons] at hcr
    injection hcr with hmsg hrest
    rw [hpc] at hmsg
    generalize hR1 : { (w.rank r).setSrc op'.toM2 (receive g ((w.rank r).src op'.toM2) msg d) with
      got := fun d' => if d' = d then true else (w.rank r).got d' } = R1
    have eph : R1.phase = (w.rank r).phase := by subst hR1; simp
    have epc : R1.pc = (w.rank r).pc := by subst hR1; simp
    have esrc : R1.src op'.toM2 = receive g ((w.rank r).src op'.toM2) msg d := by
      subst hR1; exact Rank.src_setSrc _ _ _
    have edst : R1.dst op'.toM2 = (w.rank r).dst op'.toM2 := by
      subst hR1; exact Rank.dst_setSrc _ _ _
    have ev : R1.v = (w.rank r).v := by subst hR1; simp
    have etodo : R1.todo = (w.rank r).todo := by subst hR1; simp
    have esent : R1.sent = (w.rank r).sent := by subst hR1; simp
    have egot : R1.got = fun d' => if d' = d then true else (w.rank r).got d' := by subst hR1; rfl
    have hrem : remaining g R1 = remaining g (w.rank r) := by simp only [remaining, eph, etodo]
    have hRI : RankInv g prog G0 r R1 := by
      refine ⟨by rw [epc]; exact hR.pcle, by rw [eph, hph]; intro hx; simp at hx, fun _ => ⟨op', ?_⟩⟩
      refine ⟨by rw [epc]; exact hop, ?_, by rw [edst, ev, epc, hrem]; exact hM.done,
        by rw [ev, epc, hrem]; exact hM.rest, ?_, ?_, by rw [hrem]; exact hM.nodup,
        by rw [hrem]; exact hM.inside, by rw [eph, etodo]; exact hM.flight,
        by rw [eph, hph]; intro hx; simp at hx⟩
      · intro z hz
        rw [esrc, epc, receive_phys g _ _ _ z hz]
        exact hM.phys z hz
      · intro hgb j hj
        rw [esrc, epc]
        cases d
        · rw [hmsg]
          simp only [msgOf, source]
          rw [receive_back g _ _ j hj, fwd_global hg hr j hj]
        · rw [receive_other_back g _ _ j hj]
          refine hM.back ?_ j hj
          rw [egot] at hgb; simpa using hgb
      · intro hgf j hj
        rw [esrc, epc]
        cases d
        · rw [receive_other_front g _ _ j hj]
          refine hM.front ?_ j hj
          rw [egot] at hgf; simpa using hgf
        · rw [hmsg]
          simp only [msgOf, source]
          rw [receive_front g _ _ j hj, bck_global hg hr j hj]
    have hgc : gotCount R1 d = gotCount (w.rank r) d + 1 := by
      rw [hpc]; simp [gotCount, eph, epc, egot, hph]
    have hgc' : ∀ d', d' ≠ d → gotCount R1 d' = gotCount (w.rank r) d' := by
      intro d' hd'; simp [gotCount, eph, epc, egot, hd']
    have hsc : ∀ r' d', sentCount ((w.setRank r R1).rank r') d' = sentCount (w.rank r') d' := by
      intro r' d'
      rw [setRank_rank]
      by_cases e : r' = r
      · rw [if_pos e, e]; simp [sentCount, eph, epc, esent]
      · rw [if_neg e]
    refine ⟨?_, ?_, ?_⟩
    · intro r' hr'
      show RankInv g prog G0 r' ((w.setRank r R1).rank r')
      rw [setRank_rank]
      by_cases e : r' = r
      · rw [if_pos e, e]; exact hRI
      · rw [if_neg e]; exact h.ranks r' hr'
    · intro r' hr' d'
      show gotCount ((w.setRank r R1).rank r') d' ≤ sentCount ((w.setRank r R1).rank (source g r' d')) d'
      rw [hsc, setRank_rank]
      have ho := h.order r' hr' d'
      by_cases e : r' = r
      · subst e
        rw [if_pos rfl]
        by_cases ed : d' = d
        · subst ed; omega
        · rw [hgc' _ ed]; exact ho
      · rw [if_neg e]; exact ho
    · intro r' hr' d'
      show (if source g r' d' = source g r d ∧ d' = d then rest else w.chan (source g r' d') d') =
        (List.range' (gotCount ((w.setRank r R1).rank r') d')
          (sentCount ((w.setRank r R1).rank (source g r' d')) d' - gotCount ((w.setRank r R1).rank r') d')).map _
      rw [hsc, setRank_rank]
      have hch' := h.chans r' hr' d'
      by_cases e : r' = r
      · subst e
        rw [if_pos rfl]
        by_cases ed : d' = d
        · subst ed
          simp only [and_self, if_true]
          rw [hrest, hgc]
          congr 2
          omega
        · simp only [ed, and_false, if_false]
          rw [hgc' _ ed]; exact hch'
      · rw [if_neg e]
        have hne : ¬ (source g r' d' = source g r d ∧ d' = d) := by
          rintro ⟨h1, rfl⟩
          exact e (source_inj hg.1 hr' hr _ h1)
        rw [if_neg hne]; exact hch'

/-- Every event keeps the invariant. -/
theorem Inv.step {g : Grid} (hg : g.Ok) {prog : List (Op P Q)} (hloc : Local g.Ng prog)
    {G0 : Lattice P Q} {w w' : World P Q} (h : Inv g prog G0 w) {e : Event}
    (hs : Cluster.step g prog w e = some w') : Inv g prog G0 w' := by
  cases e with
  | start r => exact step_start hg h hs
  | capture r d => exact step_capture hg h hs
  | deliver r d => exact step_deliver hg h hs
  | compute r k => exact step_compute hloc h hs
  | wait r => exact step_wait h hs
  | finish r => exact step_finish h hs

theorem Inv.exec {g : Grid} (hg : g.Ok) {prog : List (Op P Q)} (hloc : Local g.Ng prog)
    {G0 : Lattice P Q} {w w' : World P Q} (h : Inv g prog G0 w) {es : List Event}
    (hs : Cluster.exec g prog w es = some w') : Inv g prog G0 w' := by
  induction es generalizing w with
  | nil =>
    simp only [Cluster.exec, List.foldlM_nil] at hs
    cases hs; exact h
  | cons e es ih =>
    simp only [Cluster.exec, List.foldlM_cons] at hs
    cases he : Cluster.step g prog w e with
    | none => rw [he] at hs; simp at hs
    | some w1 =>
      rw [he] at hs
      exact ih (h.step hg hloc he) hs

theorem Inv.init {g : Grid} (hg : g.Ok) (prog : List (Op P Q)) {w : World P Q} (hi : Initial g w) :
    Inv g prog (gather g w) w := by
  refine ⟨?_, ?_, ?_⟩
  · intro r hr
    obtain ⟨hpc, hid⟩ := hi.1 r hr
    refine ⟨by rw [hpc]; exact Nat.zero_le _, ?_, fun h => absurd hid h⟩
    intro _ z hz
    rw [hpc]
    simp only [lat, List.take_zero, Lattice.run, List.foldl_nil, gather]
    rw [div_of hz, mod_of hz]
    exact ⟨rfl, rfl, rfl⟩
  · intro r hr d
    obtain ⟨hpc, hid⟩ := hi.1 r hr
    obtain ⟨hpc', hid'⟩ := hi.1 _ (source_lt hg.1 r d)
    simp [gotCount, sentCount, hpc, hid, hpc', hid']
  · intro r hr d
    obtain ⟨hpc, hid⟩ := hi.1 r hr
    obtain ⟨hpc', hid'⟩ := hi.1 _ (source_lt hg.1 r d)
    simp [gotCount, sentCount, hpc, hid, hpc', hid', hi.2]

end Jaxions.Cluster
