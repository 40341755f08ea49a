import Verif.Lemmas.Cluster
/-
C10: the result of a run does not depend on the number of ranks, nor on the order of events.
-/
namespace Jaxions.Cluster

variable {P Q : Type}

/-- **C10** Whatever the order of kernel work, message departures and arrivals, when all ranks have
completed their substeps the gathered fields and velocities are those of the whole periodic
lattice evolved in one piece.  Initial field, velocities, auxiliary array and (stale) ghost
contents are arbitrary, the law is arbitrary as long as it looks at most `Ng` slices away. -/
theorem C10_gathered_result (g : Grid) (hg : 0 < g.n ∧ 0 < g.Lz ∧ (2 * g.Ng ≤ g.Lz ∨ g.Lz = g.Ng))
    (prog : List (Op P Q)) (hloc : Local g.Ng prog) (w w' : World P Q) (hi : Initial g w)
    (es : List Event) (hex : exec g prog w es = some w') (hfin : Finished g prog w') :
    Lattice.Same (g.n * g.Lz) (gather g w') (Lattice.run g.Ng (g.n * g.Lz) (gather g w) prog) := by
  have hinv := (Inv.init hg prog hi).exec hg hloc hex
  intro z hz
  have hr : z / g.Lz < g.n := Nat.div_lt_of_lt_mul (by rw [Nat.mul_comm]; exact hz)
  have hzl : z % g.Lz < g.Lz := Nat.mod_lt _ hg.2.1
  obtain ⟨hpc, hid⟩ := hfin _ hr
  have := (hinv.ranks _ hr).idle hid _ hzl
  rw [hpc, Nat.div_add_mod' z g.Lz] at this
  simp only [lat, List.take_length, Grid.N] at this
  exact this

/-- **C10** Two runs of the same program from the same field, on different numbers of ranks and
with unrelated orders of events, end with the same field. -/
theorem C10_rank_count_independent (g₁ g₂ : Grid)
    (h₁ : 0 < g₁.n ∧ 0 < g₁.Lz ∧ (2 * g₁.Ng ≤ g₁.Lz ∨ g₁.Lz = g₁.Ng))
    (h₂ : 0 < g₂.n ∧ 0 < g₂.Lz ∧ (2 * g₂.Ng ≤ g₂.Lz ∨ g₂.Lz = g₂.Ng))
    (hN : g₁.n * g₁.Lz = g₂.n * g₂.Lz) (hNg : g₁.Ng = g₂.Ng)
    (prog : List (Op P Q)) (hloc : Local g₁.Ng prog) (w₁ w₁' w₂ w₂' : World P Q)
    (hi₁ : Initial g₁ w₁) (hi₂ : Initial g₂ w₂)
    (hsame : Lattice.Same (g₁.n * g₁.Lz) (gather g₁ w₁) (gather g₂ w₂))
    (es₁ es₂ : List Event) (he₁ : exec g₁ prog w₁ es₁ = some w₁')
    (he₂ : exec g₂ prog w₂ es₂ = some w₂') (hf₁ : Finished g₁ prog w₁') (hf₂ : Finished g₂ prog w₂') :
    Lattice.Same (g₁.n * g₁.Lz) (gather g₁ w₁') (gather g₂ w₂') := by
  have a₁ := C10_gathered_result g₁ h₁ prog hloc w₁ w₁' hi₁ es₁ he₁ hf₁
  have a₂ := C10_gathered_result g₂ h₂ prog (hNg ▸ hloc) w₂ w₂' hi₂ es₂ he₂ hf₂
  have hpos : 0 < g₁.n * g₁.Lz := Nat.mul_pos h₁.1 h₁.2.1
  have key : ∀ (prog : List (Op P Q)) (G H : Lattice P Q), Local g₁.Ng prog →
      Lattice.Same (g₁.n * g₁.Lz) G H →
      Lattice.Same (g₁.n * g₁.Lz) (G.run g₁.Ng (g₁.n * g₁.Lz) prog) (H.run g₁.Ng (g₁.n * g₁.Lz) prog) := by
    intro prog
    induction prog with
    | nil => intro G H _ h; exact h
    | cons op prog ih =>
      intro G H hl h
      simp only [Lattice.run, List.foldl_cons]
      refine ih _ _ (fun o ho => hl o (List.mem_cons_of_mem _ ho)) ?_
      have hd : ∀ z, z < g₁.n * g₁.Lz → G.drifted op z = H.drifted op z := by
        intro z hz
        obtain ⟨e1, e2, e3⟩ := h z hz
        simp only [Lattice.drifted, e3]
        split
        · rw [e1]
        · rw [e2]
      have hk : ∀ z, z < g₁.n * g₁.Lz →
          G.kicked g₁.Ng (g₁.n * g₁.Lz) op z = H.kicked g₁.Ng (g₁.n * g₁.Lz) op z := by
        intro z hz
        simp only [Lattice.kicked, (h z hz).2.2]
        apply hl op List.mem_cons_self
        intro o _
        exact hd _ (Nat.mod_lt _ hpos)
      intro z hz
      simp only [Lattice.step]
      refine ⟨?_, ?_, by rw [hk z hz]⟩
      · split
        · exact hd z hz
        · simp only [hk z hz]
      · split
        · simp only [hk z hz]
        · exact hd z hz
  have a₃ := key prog _ _ hloc hsame
  rw [← hNg, ← hN] at a₂
  intro z hz
  obtain ⟨x1, x2, x3⟩ := a₁ z hz
  obtain ⟨y1, y2, y3⟩ := a₂ z hz
  obtain ⟨z1, z2, z3⟩ := a₃ z hz
  exact ⟨by rw [x1, z1, y1], by rw [x2, z2, y2], by rw [x3, z3, y3]⟩

/-! Every execution ends: no deadlock, no endless run. -/

/-- Events a rank still has to go through. -/
def left (g : Grid) (len : Nat) (R : Rank P Q) : Nat :=
  match R.phase with
  | .idle => (len - R.pc) * (g.Lz + 7)
  | .flight => (len - R.pc - 1) * (g.Lz + 7) + 2 + (boundary g).length + R.todo.length +
      (if R.sent .bck then 0 else 1) + (if R.sent .fwd then 0 else 1) +
      (if R.got .bck then 0 else 1) + (if R.got .fwd then 0 else 1)
  | .edge => (len - R.pc - 1) * (g.Lz + 7) + 1 + R.todo.length

def total (g : Grid) (len : Nat) (w : World P Q) : Nat :=
  ((List.range g.n).map fun r => left g len (w.rank r)).sum

theorem sum_one_less (n : Nat) (f f' : Nat → Nat) (r : Nat) (hr : r < n) (hfr : f r = f' r + 1)
    (hoff : ∀ s, s ≠ r → f s = f' s) :
    ((List.range n).map f).sum = ((List.range n).map f').sum + 1 := by
  induction n with
  | zero => omega
  | succ n ih =>
    simp only [List.range_succ, List.map_append, List.sum_append, List.map_cons, List.map_nil,
      List.sum_cons, List.sum_nil]
    by_cases e : r = n
    · subst e
      have : (List.range r).map f = (List.range r).map f' := by
        apply List.map_congr_left
        intro s hs
        rw [List.mem_range] at hs
        exact hoff s (by omega)
      rw [this, hfr]
      omega
    · rw [ih (by omega), hoff n (fun h => e h.symm)]
      omega

theorem length_all {g : Grid} (h : g.Ok) : (bulk g).length + (boundary g).length = g.Lz := by
  obtain ⟨_, _, h⟩ := h
  simp only [bulk, boundary, List.length_range', List.length_append]
  split
  · rw [List.length_range']; omega
  · simp only [List.length_nil]; omega

theorem total_update {g : Grid} {len : Nat} {w w' : World P Q} {r : Nat} (hr : r < g.n)
    (hone : left g len (w.rank r) = left g len (w'.rank r) + 1)
    (hoff : ∀ s, s ≠ r → w'.rank s = w.rank s) : total g len w = total g len w' + 1 :=
  sum_one_less g.n _ _ r hr hone (fun s hs => by rw [hoff s hs])

/-- Every event reduces the remaining work by one. -/
theorem total_step {g : Grid} (hg : g.Ok) {prog : List (Op P Q)}
    {w w' : World P Q} {e : Event} (hs : step g prog w e = some w') :
    total g prog.length w = total g prog.length w' + 1 := by
  have hall := length_all hg
  cases e with
  | start r =>
    simp only [step] at hs
    cases hop : prog[(w.rank r).pc]? with
    | none => simp [hop] at hs
    | some op =>
      simp only [hop] at hs
      split at hs
      swap
      · simp at hs
      next hc =>
      injection hs with hs
      subst hs
      have hlt := (List.getElem?_eq_some_iff.1 hop).1
      apply total_update hc.1
      · obtain ⟨k, hk⟩ : ∃ k, prog.length - (w.rank r).pc = k + 1 := ⟨prog.length - (w.rank r).pc - 1, by omega⟩
        rw [setRank_rank, if_pos rfl]
        simp only [left, hc.2, Rank.pc_setSrc, hk, Bool.false_eq_true, if_false, Nat.add_sub_cancel, Nat.succ_mul]
        omega
      · intro s hs; rw [setRank_rank, if_neg hs]
  | capture r d =>
    simp only [step] at hs
    cases hop : prog[(w.rank r).pc]? with
    | none => simp [hop] at hs
    | some op =>
      simp only [hop] at hs
      split at hs
      swap
      · simp at hs
      next hc =>
      injection hs with hs
      subst hs
      apply total_update hc.1
      · show left g prog.length (w.rank r) = left g prog.length ((w.setRank r _).rank r) + 1
        rw [setRank_rank, if_pos rfl]
        simp only [left, hc.2.1]
        cases d <;> simp [hc.2.2] <;> omega
      · intro s hs
        show (w.setRank r _).rank s = _
        rw [setRank_rank, if_neg hs]
  | deliver r d =>
    simp only [step] at hs
    cases hop : prog[(w.rank r).pc]? with
    | none => simp [hop] at hs
    | some op =>
      simp only [hop] at hs
      split at hs
      swap
      · simp at hs
      next hc =>
      cases hch : w.chan (source g r d) d with
      | nil => simp [hch] at hs
      | cons msg rest =>
      simp only [hch] at hs
      injection hs with hs
      subst hs
      apply total_update hc.1
      · show left g prog.length (w.rank r) = left g prog.length ((w.setRank r _).rank r) + 1
        rw [setRank_rank, if_pos rfl]
        simp only [left, hc.2.1, Rank.phase_setSrc, Rank.pc_setSrc, Rank.todo_setSrc, Rank.sent_setSrc]
        cases d <;> simp [hc.2.2] <;> omega
      · intro s hs
        show (w.setRank r _).rank s = _
        rw [setRank_rank, if_neg hs]
  | compute r k =>
    simp only [step] at hs
    cases hop : prog[(w.rank r).pc]? with
    | none => simp [hop] at hs
    | some op =>
      simp only [hop] at hs
      split at hs
      swap
      · simp at hs
      next hc =>
      injection hs with hs
      subst hs
      have hlen := List.length_erase_of_mem hc.2.2
      have hpos := List.length_pos_of_mem hc.2.2
      apply total_update hc.1
      · rw [setRank_rank, if_pos rfl]
        simp only [left, Rank.phase_setDst, Rank.pc_setDst, Rank.sent_setDst, Rank.got_setDst, hlen]
        cases hph : (w.rank r).phase with
        | idle => exact absurd hph hc.2.1
        | flight => simp only; omega
        | edge => simp only; omega
      · intro s hs; rw [setRank_rank, if_neg hs]
  | wait r =>
    simp only [step] at hs
    split at hs
    swap
    · simp at hs
    next hc =>
    obtain ⟨hr, hfl, htodo, s1, s2, g1, g2⟩ := hc
    injection hs with hs
    subst hs
    apply total_update hr
    · rw [setRank_rank, if_pos rfl]
      simp only [left, hfl, htodo, s1, s2, g1, g2, if_true, List.length_nil]
      omega
    · intro s hs; rw [setRank_rank, if_neg hs]
  | finish r =>
    simp only [step] at hs
    split at hs
    swap
    · simp at hs
    next hc =>
    injection hs with hs
    subst hs
    apply total_update hc.1
    · rw [setRank_rank, if_pos rfl]
      simp only [left, hc.2.1, hc.2.2, List.length_nil]
      have : prog.length - ((w.rank r).pc + 1) = prog.length - (w.rank r).pc - 1 := by omega
      rw [this]
    · intro s hs; rw [setRank_rank, if_neg hs]

theorem total_exec {g : Grid} (hg : g.Ok) {prog : List (Op P Q)} (hloc : Local g.Ng prog)
    {G0 : Lattice P Q} {w w' : World P Q} (h : Inv g prog G0 w) {es : List Event}
    (hs : exec g prog w es = some w') :
    total g prog.length w = total g prog.length w' + es.length := by
  induction es generalizing w with
  | nil =>
    simp only [exec, List.foldlM_nil] at hs
    cases hs; simp
  | cons e es ih =>
    simp only [exec, List.foldlM_cons] at hs
    cases he : step g prog w e with
    | none => rw [he] at hs; simp at hs
    | some w1 =>
      rw [he] at hs
      rw [total_step hg he, ih (h.step hg hloc he) hs, List.length_cons]
      omega

theorem total_init {g : Grid} (len : Nat) {w : World P Q} (hi : Initial g w) :
    total g len w = g.n * len * (g.Lz + 7) := by
  have : (List.range g.n).map (fun r => left g len (w.rank r)) =
      List.replicate g.n (len * (g.Lz + 7)) := by
    rw [List.eq_replicate_iff]
    refine ⟨by simp, ?_⟩
    intro b hb
    obtain ⟨r, hr, rfl⟩ := List.mem_map.1 hb
    rw [List.mem_range] at hr
    obtain ⟨hpc, hid⟩ := hi.1 r hr
    simp [left, hpc, hid]
  rw [total, this, List.sum_replicate_nat, Nat.mul_assoc]

theorem exists_min_pc (n : Nat) (f : Nat → Nat) (r0 : Nat) (h0 : r0 < n) :
    ∃ r, r < n ∧ f r ≤ f r0 ∧ ∀ s, s < n → f r ≤ f s := by
  induction hk : f r0 using Nat.strongRecOn generalizing r0 with
  | _ k ih =>
    by_cases h : ∃ s, s < n ∧ f s < f r0
    · obtain ⟨s, hs, hlt⟩ := h
      obtain ⟨r, hr, hle, hall⟩ := ih (f s) (by omega) s hs rfl
      exact ⟨r, hr, by omega, hall⟩
    · exact ⟨r0, h0, by omega, fun s hs => by
        rcases Nat.lt_or_ge (f s) (f r0) with h1 | h1
        · exact absurd ⟨s, hs, h1⟩ h
        · exact h1⟩

/-- As long as some rank has work left, some event can happen. -/
theorem progress {g : Grid} (hg : g.Ok) {prog : List (Op P Q)} {G0 : Lattice P Q} {w : World P Q}
    (h : Inv g prog G0 w) (hnf : ¬ Finished g prog w) : ∃ e w', step g prog w e = some w' := by
  -- a rank that is behind
  obtain ⟨r0, hr0, hb0⟩ : ∃ r0, r0 < g.n ∧ ¬ ((w.rank r0).pc = prog.length ∧ (w.rank r0).phase = .idle) := by
    apply Classical.byContradiction
    intro hcon
    apply hnf
    intro r hr
    apply Classical.byContradiction
    intro hx
    exact hcon ⟨r, hr, hx⟩
  have hpc0 : (w.rank r0).pc < prog.length := by
    by_cases hid : (w.rank r0).phase = .idle
    · have := (h.ranks r0 hr0).pcle
      have : (w.rank r0).pc ≠ prog.length := fun e => hb0 ⟨e, hid⟩
      omega
    · obtain ⟨op, hM⟩ := (h.ranks r0 hr0).mid hid
      exact (List.getElem?_eq_some_iff.1 hM.hop).1
  obtain ⟨r, hr, hle, hmin⟩ := exists_min_pc g.n (fun s => (w.rank s).pc) r0 hr0
  have hpc : (w.rank r).pc < prog.length := by
    have : (w.rank r).pc ≤ (w.rank r0).pc := hle
    omega
  have startOk : ∀ s, s < g.n → (w.rank s).pc < prog.length → (w.rank s).phase = .idle →
      ∃ w', step g prog w (.start s) = some w' := by
    intro s hs hp hid
    simp only [step, List.getElem?_eq_getElem hp, hs, hid, and_self, if_true]
    exact ⟨_, rfl⟩
  have captOk : ∀ s d, s < g.n → (w.rank s).pc < prog.length → (w.rank s).phase = .flight →
      (w.rank s).sent d = false → ∃ w', step g prog w (.capture s d) = some w' := by
    intro s d hs hp hid hsd
    simp only [step, List.getElem?_eq_getElem hp, hs, hid, hsd, and_self, if_true]
    exact ⟨_, rfl⟩
  have compOk : ∀ s k, s < g.n → (w.rank s).pc < prog.length → (w.rank s).phase ≠ .idle →
      k ∈ (w.rank s).todo → ∃ w', step g prog w (.compute s k) = some w' := by
    intro s k hs hp hid hk
    simp only [step, List.getElem?_eq_getElem hp]
    rw [if_pos ⟨hs, hid, hk⟩]
    exact ⟨_, rfl⟩
  cases hph : (w.rank r).phase with
  | idle =>
    obtain ⟨w', hw⟩ := startOk r hr hpc hph
    exact ⟨_, w', hw⟩
  | edge =>
    cases ht : (w.rank r).todo with
    | nil =>
      refine ⟨.finish r, ?_⟩
      simp only [step, hr, hph, ht, and_self, if_true]
      exact ⟨_, rfl⟩
    | cons k t =>
      obtain ⟨w', hw⟩ := compOk r k hr hpc (by rw [hph]; decide) (by rw [ht]; exact List.mem_cons_self)
      exact ⟨_, w', hw⟩
  | flight =>
    cases ht : (w.rank r).todo with
    | cons k t =>
      obtain ⟨w', hw⟩ := compOk r k hr hpc (by rw [hph]; decide) (by rw [ht]; exact List.mem_cons_self)
      exact ⟨_, w', hw⟩
    | nil =>
      by_cases hsent : ∃ d, (w.rank r).sent d = false
      · obtain ⟨d, hd⟩ := hsent
        obtain ⟨w', hw⟩ := captOk r d hr hpc hph hd
        exact ⟨_, w', hw⟩
      by_cases hgot : ∃ d, (w.rank r).got d = false
      · obtain ⟨d, hd⟩ := hgot
        have hsl := source_lt hg.1 r d
        have hmn : (w.rank r).pc ≤ (w.rank (source g r d)).pc := hmin _ hsl
        have hgc : gotCount (w.rank r) d = (w.rank r).pc := by simp [gotCount, hd]
        by_cases hsc : gotCount (w.rank r) d < sentCount (w.rank (source g r d)) d
        · have hch := h.chans r hr d
          obtain ⟨L, hL⟩ : ∃ L, sentCount (w.rank (source g r d)) d - gotCount (w.rank r) d = L + 1 :=
            ⟨sentCount (w.rank (source g r d)) d - gotCount (w.rank r) d - 1, by omega⟩
          rw [hL, List.range'_succ, List.map_cons] at hch
          refine ⟨.deliver r d, ?_⟩
          simp only [step, List.getElem?_eq_getElem hpc, hr, hph, hd, and_self, if_true, hch]
          exact ⟨_, rfl⟩
        · -- the sender is in the same substep and has not sent yet
          have hle2 : sentCount (w.rank (source g r d)) d ≤ (w.rank r).pc := by omega
          have hpcs : (w.rank (source g r d)).pc = (w.rank r).pc := by
            simp only [sentCount] at hle2; omega
          have hlts : (w.rank (source g r d)).pc < prog.length := by omega
          by_cases hids : (w.rank (source g r d)).phase = .idle
          · obtain ⟨w', hw⟩ := startOk _ hsl hlts hids
            exact ⟨_, w', hw⟩
          · have hns : (w.rank (source g r d)).sent d = false := by
              cases hx : (w.rank (source g r d)).sent d with
              | false => rfl
              | true =>
                simp only [sentCount, hids, hx, ne_eq, not_false_eq_true, and_self, if_true] at hle2
                omega
            have hfl : (w.rank (source g r d)).phase = .flight := by
              cases hx : (w.rank (source g r d)).phase with
              | idle => exact absurd hx hids
              | flight => rfl
              | edge =>
                obtain ⟨op, hM⟩ := (h.ranks _ hsl).mid hids
                have := (hM.edge hx d).1
                rw [hns] at this
                exact absurd this (by decide)
            obtain ⟨w', hw⟩ := captOk _ d hsl hlts hfl hns
            exact ⟨_, w', hw⟩
      · have hs : ∀ d, (w.rank r).sent d = true := by
          intro d
          cases hx : (w.rank r).sent d with
          | true => rfl
          | false => exact absurd ⟨d, hx⟩ hsent
        have hq : ∀ d, (w.rank r).got d = true := by
          intro d
          cases hx : (w.rank r).got d with
          | true => rfl
          | false => exact absurd ⟨d, hx⟩ hgot
        refine ⟨.wait r, ?_⟩
        simp only [step, hr, hph, ht, hs, hq, and_self, if_true]
        exact ⟨_, rfl⟩

/-- **C10** No deadlock and no endless run: an execution that has not finished can always be
continued, every execution has at most `n * len * (Lz + 7)` events, and it has exactly that many
when all ranks have finished; then no message is left over. -/
theorem C10_always_finishes (g : Grid) (hg : 0 < g.n ∧ 0 < g.Lz ∧ (2 * g.Ng ≤ g.Lz ∨ g.Lz = g.Ng))
    (prog : List (Op P Q)) (hloc : Local g.Ng prog) (w w' : World P Q) (hi : Initial g w)
    (es : List Event) (hex : exec g prog w es = some w') :
    (¬ Finished g prog w' → ∃ e w'', exec g prog w (es ++ [e]) = some w'') ∧
    es.length ≤ g.n * prog.length * (g.Lz + 7) ∧
    (es.length = g.n * prog.length * (g.Lz + 7) → Finished g prog w') ∧
    (Finished g prog w' → es.length = g.n * prog.length * (g.Lz + 7) ∧
      ∀ r, r < g.n → ∀ d, w'.chan r d = []) := by
  have hinv0 := Inv.init hg prog hi
  have hinv := hinv0.exec hg hloc hex
  have htot := total_exec hg hloc hinv0 hex
  rw [total_init _ hi] at htot
  have hcont : ¬ Finished g prog w' → ∃ e w'', exec g prog w (es ++ [e]) = some w'' := by
    intro hnf
    obtain ⟨e, w'', he⟩ := progress hg hinv hnf
    refine ⟨e, w'', ?_⟩
    simp only [exec] at hex ⊢
    rw [List.foldlM_append, hex]
    simp only [Option.bind_eq_bind, Option.bind_some, List.foldlM_cons, List.foldlM_nil, he]
    rfl
  refine ⟨hcont, by omega, ?_, ?_⟩
  · intro heq
    apply Classical.byContradiction
    intro hnf
    obtain ⟨e, w'', he⟩ := hcont hnf
    have := total_exec hg hloc hinv0 he
    rw [total_init _ hi, List.length_append, List.length_singleton] at this
    omega
  · intro hfin
    have hzero : total g prog.length w' = 0 := by
      have : (List.range g.n).map (fun r => left g prog.length (w'.rank r)) = List.replicate g.n 0 := by
        rw [List.eq_replicate_iff]
        refine ⟨by simp, ?_⟩
        intro b hb
        obtain ⟨r, hr, rfl⟩ := List.mem_map.1 hb
        rw [List.mem_range] at hr
        obtain ⟨hpc, hid⟩ := hfin r hr
        simp [left, hpc, hid]
      rw [total, this, List.sum_replicate_nat, Nat.mul_zero]
    refine ⟨by omega, ?_⟩
    intro s hs d
    -- every rank is the source of some receiver
    obtain ⟨r, hr, hsrc⟩ : ∃ r, r < g.n ∧ source g r d = s := by
      cases d
      · exact ⟨bckNeig g.n s, bckNeig_lt hg.1 s, (neig_iff hs (bckNeig_lt hg.1 s)).1 rfl⟩
      · exact ⟨fwdNeig g.n s, fwdNeig_lt hg.1 s, (neig_iff' hs (fwdNeig_lt hg.1 s)).1 rfl⟩
    have hch := hinv.chans r hr d
    rw [hsrc] at hch
    obtain ⟨p1, i1⟩ := hfin r hr
    obtain ⟨p2, i2⟩ := hfin s hs
    simpa [gotCount, sentCount, p1, p2, i1, i2] using hch

/-! Concrete case: three ranks with two slices each, one ghost slice, a nearest neighbour law, and
a schedule in which rank 0 runs ahead of the others. -/

def exOp (b : Bool) : Op Int Int where
  pre := fun p _ => p
  law := fun f q => let q' := q + (f 0 + f 2 - 2 * f 1); (f 1 + q', q')
  toM2 := b

def exWorld0 : World Int Int where
  rank := fun r => { m := fun k => if 1 ≤ k ∧ k < 3 then (10 * r + k : Nat) else 777
                     m2 := fun _ => 555, v := fun _ => 0, pc := 0, phase := .idle, todo := []
                     sent := fun _ => false, got := fun _ => false }
  chan := fun _ _ => []

example : Initial ⟨3, 2, 1⟩ exWorld0 := ⟨fun _ _ => ⟨rfl, rfl⟩, fun _ _ => rfl⟩
example : Local 1 [exOp true, exOp false] := by
  intro op hop f f' q h
  simp only [List.mem_cons, List.not_mem_nil, or_false] at hop
  rcases hop with rfl | rfl <;>
    simp only [exOp, h 0 (by decide), h 1 (by decide), h 2 (by decide)]

/-- A schedule for one substep on one rank alone (`n = 1`): the rank is its own neighbour. -/
example : ((exec ⟨1, 2, 1⟩ [exOp true] exWorld0
    [.start 0, .capture 0 .fwd, .deliver 0 .fwd, .capture 0 .bck, .deliver 0 .bck, .wait 0,
     .compute 0 2, .compute 0 1, .finish 0]).map fun w => ((w.rank 0).m2 1, (w.rank 0).m2 2)) =
    some (3, 0) := by decide

end Jaxions.Cluster
