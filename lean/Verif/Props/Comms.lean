import Verif.Lemmas.Comms
/-
C07 (message pieces), C08 (matching), C09 (ghost contents).
-/
namespace Jaxions

/-- Bytes covered by a list of pieces, in order. -/
def bytesOf (plan : List (Nat × Nat)) : List Nat := plan.flatMap fun c => List.range' c.1 c.2

/-- **C07** `sendGeneral` (used by `sendGhosts2` and `exchangeGhosts`): if the call is not refused
the pieces are each positive and at most 2147483584 bytes (representable as `int`), and
concatenated they are exactly the bytes `0 .. count-1` in order: no gap, no overlap. It is refused
if and only if ten such pieces do not suffice. -/
theorem C07_pieces_general (count : Nat) :
    (∀ plan, planGeneral count = some plan →
      bytesOf plan = List.range count ∧ plan.length ≤ 10 ∧
      ∀ c ∈ plan, 0 < c.2 ∧ c.2 ≤ 2147483584 ∧ c.2 < 2 ^ 31) ∧
    (planGeneral count = none ↔ count > 10 * 2147483584) := by
  have hM : 0 < maxChunk := by decide
  have hMv : maxChunk = 2147483584 := rfl
  have e := div_mul_add_mod count maxChunk
  have hlt := Nat.mod_lt count hM
  generalize hq : count / maxChunk = q at e
  generalize hr : count % maxChunk = r at e hlt
  have hn : nchunksGeneral count = if r = 0 then q else 1 + q := by
    simp only [nchunksGeneral, hq, hr]
  constructor
  · intro plan hp
    simp only [planGeneral] at hp
    split at hp
    · simp at hp
    · next hle =>
      simp only [Option.some.injEq] at hp
      subst hp
      rw [hn] at *
      simp only [nMpiChunk] at hle
      by_cases hr0 : r = 0
      · rw [if_pos hr0] at *
        cases q with
        | zero =>
          have : count = 0 := by omega
          subst this
          simp [bytesOf]
        | succ k =>
          have hcount : count = k * maxChunk + maxChunk := by rw [← e, hr0, Nat.add_mul]; omega
          refine ⟨?_, by simp; omega, ?_⟩
          · unfold bytesOf
            rw [flat_pieces maxChunk k maxChunk, ← hcount]
            · intro n hn
              rw [if_neg (by omega)]
            · rw [Nat.add_sub_cancel]
              split
              · rw [hcount]; omega
              · rfl
          · intro c hc
            simp only [List.mem_map, List.mem_range] at hc
            obtain ⟨n, hn, rfl⟩ := hc
            simp only [Nat.add_sub_cancel]
            split
            · rw [hcount]; omega
            · omega
      · rw [if_neg hr0] at *
        have hcount : count = q * maxChunk + r := e.symm
        have hl : count - (1 + q - 1) * maxChunk = r := by
          rw [Nat.add_sub_cancel_left]; omega
        rw [hl]
        refine ⟨?_, by simp; omega, ?_⟩
        · unfold bytesOf
          rw [Nat.add_comm 1 q, flat_pieces maxChunk q r, ← hcount]
          · intro n hn
            rw [if_neg (by omega)]
          · rw [if_pos (by omega)]
        · intro c hc
          simp only [List.mem_map, List.mem_range] at hc
          obtain ⟨n, hn, rfl⟩ := hc
          simp only
          split <;> omega
  · simp only [planGeneral, hn, nMpiChunk]
    have hcount : count = q * maxChunk + r := e.symm
    rw [hMv] at hcount hlt
    by_cases hr0 : r = 0
    · simp only [if_pos hr0]
      constructor
      · intro h
        by_cases hgt : q > 10
        · omega
        · rw [if_neg hgt] at h; simp at h
      · intro h; rw [if_pos (by omega)]
    · simp only [if_neg hr0]
      constructor
      · intro h
        by_cases hgt : 1 + q > 10
        · omega
        · rw [if_neg hgt] at h; simp at h
      · intro h; rw [if_pos (by omega)]

/-- **C07** `sendGhosts` (used by the propagators): the same decomposition; the last piece may
have no bytes, and the call is refused from exactly ten full pieces on. -/
theorem C07_pieces_ghosts (count : Nat) :
    (∀ plan, planGhosts count = some plan →
      bytesOf plan = List.range count ∧ plan.length ≤ 10 ∧
      ∀ c ∈ plan, c.2 ≤ 2147483584 ∧ c.2 < 2 ^ 31) ∧
    (planGhosts count = none ↔ count ≥ 10 * 2147483584) := by
  have hM : 0 < maxChunk := by decide
  have hMv : maxChunk = 2147483584 := rfl
  have e := div_mul_add_mod count maxChunk
  have hlt := Nat.mod_lt count hM
  generalize hq : count / maxChunk = q at e
  generalize hr : count % maxChunk = r at e hlt
  have hn : nchunksGhosts count = 1 + q := by simp only [nchunksGhosts, hq]
  have hcount : count = q * maxChunk + r := e.symm
  constructor
  · intro plan hp
    simp only [planGhosts] at hp
    split at hp
    · simp at hp
    · next hle =>
      simp only [Option.some.injEq] at hp
      subst hp
      rw [hn] at *
      simp only [nMpiChunk] at hle
      have hl : count - (1 + q - 1) * maxChunk = r := by
        rw [Nat.add_sub_cancel_left]; omega
      rw [hl]
      refine ⟨?_, by simp; omega, ?_⟩
      · unfold bytesOf
        rw [Nat.add_comm 1 q, flat_pieces maxChunk q r, ← hcount]
        · intro n hn
          rw [if_neg (by omega)]
        · rw [if_pos (by omega)]
      · intro c hc
        simp only [List.mem_map, List.mem_range] at hc
        obtain ⟨n, hn, rfl⟩ := hc
        simp only
        split <;> omega
  · simp only [planGhosts, hn, nMpiChunk]
    rw [hMv] at hcount hlt
    constructor
    · intro h
      split at h
      · omega
      · simp at h
    · intro h
      rw [if_pos (by omega)]

-- concrete cases: 5 GB in three pieces; an exact multiple; a refused size
example : planGeneral 5000000000 =
    some [(0, 2147483584), (2147483584, 2147483584), (4294967168, 705032832)] := by decide
example : planGhosts 2147483584 = some [(0, 2147483584), (2147483584, 0)] := by decide
example : planGeneral (10 * 2147483584 + 1) = none := by decide

/-! ### C08 -/

/-- Sends of rank `s` to `d` with tag `t` and receives of rank `d` from `s` with tag `t` match
one to one, in order, with equal sizes; and each matched pair is a piece of the same direction:
either a backward piece (from `sB` into `rF`) or a forward piece (from `sF` into `rB`). -/
structure Matched (b : Bufs) (plan : List (Nat × Nat)) (sends recvs : List Post) : Prop where
  sizes : sends.map Post.len = recvs.map Post.len
  pieces : (∃ dirB : Bool, ∃ pl, (pl = plan ∨ pl = []) ∧
    sends.map Post.off = pl.map (fun c => (if dirB then b.sB else b.sF) + c.1) ∧
    recvs.map Post.off = pl.map (fun c => (if dirB then b.rF else b.rB) + c.1))

theorem flatMap_ite {γ δ : Type _} (A B : Prop) [Decidable A] [Decidable B] (l : List γ) (x y : γ → δ) :
    l.flatMap (fun c => if A then [x c] else if B then [y c] else []) =
      if A then l.map x else if B then l.map y else [] := by
  by_cases hA : A
  · simp only [if_pos hA]; induction l <;> simp_all
  · by_cases hB : B
    · simp only [if_neg hA, if_pos hB]; induction l <;> simp_all
    · simp only [if_neg hA, if_neg hB]; induction l <;> simp_all

/-- Exact channel contents: sends of `sendGeneral`. -/
theorem channel_sendsGeneral (n : Nat) (b : Bufs) (plan : List (Nat × Nat)) (s d t : Nat) :
    onChannel (sendsGeneral n b plan s) d t =
      if bckNeig n s = d ∧ t = 2 * s + 1 ∧ b.sB ≠ b.rF then
        plan.map (fun c => ⟨d, t, b.sB + c.1, c.2⟩)
      else if fwdNeig n s = d ∧ t = 2 * s ∧ b.sF ≠ b.rB then
        plan.map (fun c => ⟨d, t, b.sF + c.1, c.2⟩)
      else [] := by
  rw [sendsGeneral, onChannel_flatMap, ← flatMap_ite]
  congr 1; funext c
  simp only [onChannel]
  by_cases h1 : b.sB = b.rF <;> by_cases h2 : b.sF = b.rB <;> by_cases h3 : bckNeig n s = d <;>
    by_cases h4 : fwdNeig n s = d <;> simp [h1, h2, h3, h4, List.filter_cons] <;> grind

/-- Receives of `sendGeneral`. -/
theorem channel_recvsGeneral (n : Nat) (b : Bufs) (plan : List (Nat × Nat)) (s d t : Nat) :
    onChannel (recvsGeneral n b plan d) s t =
      if fwdNeig n d = s ∧ t = 2 * s + 1 ∧ b.sB ≠ b.rF then
        plan.map (fun c => ⟨s, t, b.rF + c.1, c.2⟩)
      else if bckNeig n d = s ∧ t = 2 * s ∧ b.sF ≠ b.rB then
        plan.map (fun c => ⟨s, t, b.rB + c.1, c.2⟩)
      else [] := by
  rw [recvsGeneral, onChannel_flatMap, ← flatMap_ite]
  congr 1; funext c
  simp only [onChannel]
  by_cases h1 : b.sB = b.rF <;> by_cases h2 : b.sF = b.rB <;> by_cases h3 : fwdNeig n d = s <;>
    by_cases h4 : bckNeig n d = s <;> simp [h1, h2, h3, h4, List.filter_cons] <;> grind

/-- Sends of `sendGhosts`. -/
theorem channel_sendsGhosts (n : Nat) (b : Bufs) (plan : List (Nat × Nat)) (s d t : Nat) :
    onChannel (sendsGhosts n b plan s) d t =
      if bckNeig n s = d ∧ t = 2 * s + 1 then
        plan.map (fun c => ⟨d, t, b.sB + c.1, c.2⟩)
      else if fwdNeig n s = d ∧ t = 2 * s then
        plan.map (fun c => ⟨d, t, b.sF + c.1, c.2⟩)
      else [] := by
  rw [sendsGhosts, onChannel_flatMap, ← flatMap_ite]
  congr 1; funext c
  simp only [onChannel]
  by_cases h3 : bckNeig n s = d <;>
    by_cases h4 : fwdNeig n s = d <;> simp [h3, h4, List.filter_cons] <;> grind

/-- Receives of `sendGhosts`. -/
theorem channel_recvsGhosts (n : Nat) (b : Bufs) (plan : List (Nat × Nat)) (s d t : Nat) :
    onChannel (recvsGhosts n b plan d) s t =
      if fwdNeig n d = s ∧ t = 2 * s + 1 then
        plan.map (fun c => ⟨s, t, b.rF + c.1, c.2⟩)
      else if bckNeig n d = s ∧ t = 2 * s then
        plan.map (fun c => ⟨s, t, b.rB + c.1, c.2⟩)
      else [] := by
  rw [recvsGhosts, onChannel_flatMap, ← flatMap_ite]
  congr 1; funext c
  simp only [onChannel]
  by_cases h3 : fwdNeig n d = s <;>
    by_cases h4 : bckNeig n d = s <;> simp [h3, h4, List.filter_cons] <;> grind

theorem matched_of {b : Bufs} {plan : List (Nat × Nat)} {A B : Prop} [Decidable A] [Decidable B]
    {s d t : Nat} :
    Matched b plan
      (if A then plan.map (fun c => (⟨d, t, b.sB + c.1, c.2⟩ : Post))
        else if B then plan.map (fun c => ⟨d, t, b.sF + c.1, c.2⟩) else [])
      (if A then plan.map (fun c => (⟨s, t, b.rF + c.1, c.2⟩ : Post))
        else if B then plan.map (fun c => ⟨s, t, b.rB + c.1, c.2⟩) else []) := by
  by_cases hA : A
  · simp only [if_pos hA]
    exact ⟨by simp, true, plan, Or.inl rfl, by simp, by simp⟩
  · by_cases hB : B
    · simp only [if_neg hA, if_pos hB]
      exact ⟨by simp, false, plan, Or.inl rfl, by simp, by simp⟩
    · simp only [if_neg hA, if_neg hB]
      exact ⟨rfl, true, [], Or.inr rfl, rfl, rfl⟩

/-- **C08** In an exchange through `sendGeneral` every message has exactly one matching receive
and vice versa, for every number of ranks, every pair of ranks (also the same rank) and tag. -/
theorem C08_matching_general (n : Nat) (b : Bufs) (plan : List (Nat × Nat)) (s d t : Nat)
    (hs : s < n) (hd : d < n) :
    Matched b plan (onChannel (sendsGeneral n b plan s) d t) (onChannel (recvsGeneral n b plan d) s t) := by
  rw [channel_sendsGeneral, channel_recvsGeneral]
  simp only [neig_iff hs hd, neig_iff' hs hd]
  exact matched_of

/-- **C08** The same for the exchange used by the propagators. -/
theorem C08_matching_ghosts (n : Nat) (b : Bufs) (plan : List (Nat × Nat)) (s d t : Nat)
    (hs : s < n) (hd : d < n) :
    Matched b plan (onChannel (sendsGhosts n b plan s) d t) (onChannel (recvsGhosts n b plan d) s t) := by
  rw [channel_sendsGhosts, channel_recvsGhosts]
  simp only [neig_iff hs hd, neig_iff' hs hd]
  exact matched_of

/-- **C08** Nothing is addressed outside the group of ranks, so the channels above are all of
them, and all posts of a rank are on some channel. -/
theorem C08_peers_in_range (n : Nat) (hn : 0 < n) (b : Bufs) (plan : List (Nat × Nat)) (r : Nat)
    (hr : r < n) :
    (∀ p ∈ sendsGeneral n b plan r ++ recvsGeneral n b plan r, p.peer < n ∧ p.tag < 2 * n) ∧
    (∀ p ∈ sendsGhosts n b plan r ++ recvsGhosts n b plan r, p.peer < n ∧ p.tag < 2 * n) := by
  have hf := fwdNeig_lt hn r
  have hb := bckNeig_lt hn r
  constructor
  · intro p hp
    simp only [sendsGeneral, recvsGeneral, List.mem_append, List.mem_flatMap] at hp
    rcases hp with ⟨c, _, hp | hp⟩ | ⟨c, _, hp | hp⟩ <;> split at hp <;>
      simp only [List.mem_singleton, List.not_mem_nil] at hp <;> subst hp <;> simp only <;> omega
  · intro p hp
    simp only [sendsGhosts, recvsGhosts, List.mem_append, List.mem_flatMap, List.mem_cons,
      List.not_mem_nil, or_false] at hp
    rcases hp with ⟨c, _, rfl | rfl⟩ | ⟨c, _, rfl | rfl⟩ <;> simp only <;> omega

-- two ranks: both neighbours are the other rank, the tags keep the directions apart
example : onChannel (sendsGhosts 2 ⟨4, 12, 8, 0⟩ [(0, 4)] 0) 1 1 = [⟨1, 1, 4, 4⟩] ∧
    onChannel (recvsGhosts 2 ⟨4, 12, 8, 0⟩ [(0, 4)] 1) 0 1 = [⟨0, 1, 12, 4⟩] ∧
    onChannel (sendsGhosts 2 ⟨4, 12, 8, 0⟩ [(0, 4)] 0) 1 0 = [⟨1, 0, 8, 4⟩] := by decide
end Jaxions
