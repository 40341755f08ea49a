import Verif.Model.MemAlloc
/-
C16: allocation accounting.
-/
namespace Jaxions.Mem

/-! ### Specification, on the history only -/

/-- Blocks requested through the tracker and not released through it afterwards. -/
def liveBlocks : List Ev → List (Nat × Kind × Nat)
  | [] => []
  | .alloc k p n :: rest => if Ev.free p ∈ rest then liveBlocks rest else (p, k, n) :: liveBlocks rest
  | _ :: rest => liveBlocks rest

/-- Bytes of kind `k` in a list of blocks. -/
def bytesOf (k : Kind) : List (Nat × Kind × Nat) → Int
  | [] => 0
  | (_, k', n) :: rest => (if k' = k then (n : Int) else 0) + bytesOf k rest

/-- What the C library guarantees: an allocation returns a non null block that is not allocated. -/
def FreshAllocs (s : State) : List Ev → Prop
  | [] => True
  | e :: es =>
    (match e with
     | .alloc _ p _ => p ≠ 0 ∧ p ∉ s.heap
     | .otherAlloc p => p ≠ 0 ∧ p ∉ s.heap
     | _ => True) ∧
    (match step s e with
     | some s' => FreshAllocs s' es
     | none => True)

/-- Tracked blocks are not released behind the tracker's back. -/
def Disciplined (tr : List Ev) : Prop :=
  ∀ pre p post, tr = pre ++ Ev.otherFree p :: post → ∀ e ∈ liveBlocks pre, e.1 ≠ p

/-! ### Lemmas -/

theorem live_snoc_alloc (tr : List Ev) (k : Kind) (p n : Nat) :
    liveBlocks (tr ++ [.alloc k p n]) = liveBlocks tr ++ [(p, k, n)] := by
  induction tr with
  | nil => simp [liveBlocks]
  | cons e es ih =>
    cases e with
    | alloc k' p' n' =>
      simp only [List.cons_append, liveBlocks, List.mem_append, List.mem_singleton, reduceCtorEq,
        or_false]
      split <;> simp [ih]
    | _ => simpa [liveBlocks] using ih

theorem live_snoc_free (tr : List Ev) (p : Nat) :
    liveBlocks (tr ++ [.free p]) = (liveBlocks tr).filter (·.1 != p) := by
  induction tr with
  | nil => simp [liveBlocks]
  | cons e es ih =>
    cases e with
    | alloc k' p' n' =>
      simp only [List.cons_append, liveBlocks, List.mem_append, List.mem_singleton, Ev.free.injEq]
      by_cases h : Ev.free p' ∈ es
      · simp [h, ih]
      · by_cases hp : p' = p
        · subst hp
          simp [h, ih]
        · simp [h, hp, ih]
    | _ => simpa [liveBlocks] using ih

theorem live_snoc_other (tr : List Ev) (e : Ev) (h : (∃ p, e = .otherAlloc p) ∨ ∃ p, e = .otherFree p) :
    liveBlocks (tr ++ [e]) = liveBlocks tr := by
  induction tr with
  | nil => rcases h with ⟨p, rfl⟩ | ⟨p, rfl⟩ <;> rfl
  | cons e' es ih =>
    have hne : ∀ q, Ev.free q ≠ e := by
      rcases h with ⟨p, rfl⟩ | ⟨p, rfl⟩ <;> intro q <;> simp
    cases e' with
    | alloc k p n => simp [liveBlocks, ih, hne]
    | _ => simpa [liveBlocks] using ih

theorem bytes_append (k : Kind) (a b : List (Nat × Kind × Nat)) :
    bytesOf k (a ++ b) = bytesOf k a + bytesOf k b := by
  induction a with
  | nil => simp [bytesOf]
  | cons x xs ih => simp [bytesOf, ih]; omega

theorem bytes_nonneg (k : Kind) (a : List (Nat × Kind × Nat)) : 0 ≤ bytesOf k a := by
  induction a with
  | nil => simp [bytesOf]
  | cons x xs ih =>
    obtain ⟨p, k', n⟩ := x
    simp only [bytesOf]
    split <;> omega

/-- Removing the one entry with key `p` takes away its bytes. -/
theorem bytes_erase (k : Kind) (t : List (Nat × Kind × Nat)) (p : Nat)
    (hnd : (t.map (·.1)).Nodup) :
    bytesOf k (erase t p) = bytesOf k t -
      (if (lookup t p).1 = k then ((lookup t p).2 : Int) else 0) := by
  induction t with
  | nil => cases k <;> simp [erase, lookup, bytesOf]
  | cons x xs ih =>
    obtain ⟨q, k', n⟩ := x
    simp only [List.map_cons, List.nodup_cons] at hnd
    by_cases h : q = p
    · subst h
      have hno : erase xs q = xs := by
        unfold erase
        rw [List.filter_eq_self]
        intro y hy
        simp only [bne_iff_ne, ne_eq]
        intro heq
        exact hnd.1 (heq ▸ List.mem_map_of_mem hy)
      have he : erase ((q, k', n) :: xs) q = erase xs q := by simp [erase]
      have hl : lookup ((q, k', n) :: xs) q = (k', n) := by simp [lookup]
      rw [he, hno, hl]
      simp only [bytesOf]
      omega
    · have he : erase ((q, k', n) :: xs) p = (q, k', n) :: erase xs p := by simp [erase, h]
      have hl : lookup ((q, k', n) :: xs) p = lookup xs p := by simp [lookup, h]
      rw [he, hl]
      simp only [bytesOf, ih hnd.2]
      omega

/-- Invariant linking a state to the history that led to it. -/
structure Inv (tr : List Ev) (s : State) : Prop where
  table : s.table = liveBlocks tr
  nodup : (s.table.map (·.1)).Nodup
  live : ∀ e ∈ s.table, e.1 ∈ s.heap
  align : s.alignMem = bytesOf .align s.table
  alloc : s.allocMem = bytesOf .track s.table

theorem insert_fresh {s : State} {p : Nat} {v : Kind × Nat} (hl : ∀ e ∈ s.table, e.1 ∈ s.heap)
    (hp : p ∉ s.heap) : insert s.table p v = s.table ++ [(p, v)] := by
  unfold insert
  rw [if_neg]
  simp only [List.any_eq_true, beq_iff_eq, not_exists, not_and]
  rintro e he rfl
  exact hp (hl e he)

theorem inv_step {tr : List Ev} {s s' : State} (h : Inv tr s) (e : Ev)
    (hf : match e with
     | .alloc _ p _ => p ≠ 0 ∧ p ∉ s.heap
     | .otherAlloc p => p ≠ 0 ∧ p ∉ s.heap
     | _ => True)
    (hd : ∀ p, e = .otherFree p → ∀ b ∈ liveBlocks tr, b.1 ≠ p)
    (hs : step s e = some s') : Inv (tr ++ [e]) s' := by
  cases e with
  | alloc k p n =>
    have hins : ∀ v, insert s.table p v = s.table ++ [(p, v)] := fun v => insert_fresh h.live hf.2
    have hnd : ((s.table ++ [(p, k, n)]).map (·.1)).Nodup := by
      rw [List.map_append, List.nodup_append]
      refine ⟨h.nodup, by simp, ?_⟩
      intro a ha b hb
      simp only [List.map_cons, List.map_nil, List.mem_singleton] at hb
      obtain ⟨e, he, rfl⟩ := List.mem_map.mp ha
      intro heq
      exact hf.2 (hb ▸ heq ▸ h.live e he)
    have hlv : ∀ e ∈ s.table ++ [(p, k, n)], e.1 ∈ p :: s.heap := by
      intro e he
      rcases List.mem_append.mp he with he | he
      · exact List.mem_cons_of_mem _ (h.live e he)
      · simp only [List.mem_singleton] at he
        simp [he]
    cases k <;> simp only [step, Option.some.injEq] at hs <;> subst hs <;> rw [hins] <;>
      refine ⟨?_, hnd, hlv, ?_, ?_⟩ <;>
      simp [live_snoc_alloc, h.table, h.align, h.alloc, bytes_append, bytesOf]
  | free p =>
    simp only [step, Option.map_eq_some_iff] at hs
    obtain ⟨hp, hcf, hs⟩ := hs
    have hkeep : ∀ e ∈ erase s.table p, e.1 ∈ hp := by
      intro e he
      simp only [erase, List.mem_filter, bne_iff_ne] at he
      have hin := h.live e he.1
      unfold cfree at hcf
      split at hcf
      · simp only [Option.some.injEq] at hcf; exact hcf ▸ hin
      · split at hcf
        · simp only [Option.some.injEq] at hcf
          rw [← hcf]
          simp [hin, he.2]
        · cases hcf
    have hnd : ((erase s.table p).map (·.1)).Nodup :=
      h.nodup.sublist (List.Sublist.map _ List.filter_sublist)
    have ha := bytes_erase .align s.table p h.nodup
    have ht := bytes_erase .track s.table p h.nodup
    have htab : erase s.table p = liveBlocks (tr ++ [.free p]) := by
      rw [live_snoc_free, ← h.table]; rfl
    cases hk : (lookup s.table p).1 with
    | align =>
      simp only [hk] at hs
      subst hs
      exact ⟨htab, hnd, hkeep, by simp [ha, hk, h.align], by simp [ht, hk, h.alloc]⟩
    | track =>
      simp only [hk] at hs
      subst hs
      exact ⟨htab, hnd, hkeep, by simp [ha, hk, h.align], by simp [ht, hk, h.alloc]⟩
  | otherAlloc p =>
    simp only [step, Option.some.injEq] at hs
    subst hs
    refine ⟨?_, h.nodup, ?_, h.align, h.alloc⟩
    · rw [live_snoc_other _ _ (Or.inl ⟨p, rfl⟩)]; exact h.table
    · intro e he; exact List.mem_cons_of_mem _ (h.live e he)
  | otherFree p =>
    simp only [step, Option.map_eq_some_iff] at hs
    obtain ⟨hp, hcf, hs⟩ := hs
    subst hs
    refine ⟨?_, h.nodup, ?_, h.align, h.alloc⟩
    · rw [live_snoc_other _ _ (Or.inr ⟨p, rfl⟩)]; exact h.table
    · intro e he
      have hin := h.live e he
      have hne := hd p rfl e (h.table ▸ he)
      unfold cfree at hcf
      split at hcf
      · simp only [Option.some.injEq] at hcf; exact hcf ▸ hin
      · split at hcf
        · simp only [Option.some.injEq] at hcf
          rw [← hcf]
          simp [hin, hne]
        · cases hcf

theorem inv_run {pre tr : List Ev} {s s' : State} (h : Inv pre s) (hf : FreshAllocs s tr)
    (hd : Disciplined (pre ++ tr)) (hr : run s tr = some s') : Inv (pre ++ tr) s' := by
  induction tr generalizing pre s with
  | nil => simp only [run, Option.some.injEq] at hr; subst hr; simpa using h
  | cons e es ih =>
    simp only [run, Option.bind_eq_some_iff] at hr
    obtain ⟨s1, h1, h2⟩ := hr
    simp only [FreshAllocs, h1] at hf
    have hi := inv_step h e hf.1 (by
      intro p hp
      exact hd pre p es (by rw [hp])) h1
    have := ih hi hf.2 (by simpa using hd) h2
    simpa using this

/-! ### Properties -/

/-- **C16** After any history without undefined behaviour, whatever addresses the C library hands
out: the two counters are the bytes of the live blocks of either kind, the table lists exactly the
live blocks, and no counter has ever been driven below zero. -/
theorem C16_accounting (tr : List Ev) (s : State) (hf : FreshAllocs .empty tr)
    (hd : Disciplined tr) (hr : run .empty tr = some s) :
    s.alignMem = bytesOf .align (liveBlocks tr) ∧ s.allocMem = bytesOf .track (liveBlocks tr) ∧
    s.table = liveBlocks tr ∧ 0 ≤ s.alignMem ∧ 0 ≤ s.allocMem := by
  have h0 : Inv [] State.empty := ⟨rfl, by simp [State.empty], by simp [State.empty], rfl, rfl⟩
  have h := inv_run h0 hf (by simpa using hd) hr
  simp only [List.nil_append] at h
  rw [h.align, h.alloc]
  exact ⟨by rw [h.table], by rw [h.table], h.table, bytes_nonneg _ _, bytes_nonneg _ _⟩

theorem live_empty (tr : List Ev)
    (hall : ∀ pre k p n post, tr = pre ++ Ev.alloc k p n :: post → Ev.free p ∈ post) :
    liveBlocks tr = [] := by
  induction tr with
  | nil => rfl
  | cons e es ih =>
    have hes := ih (fun pre k p n post h => hall (e :: pre) k p n post (by rw [h]; rfl))
    cases e with
    | alloc k p n =>
      have := hall [] k p n es rfl
      simp [liveBlocks, this, hes]
    | _ => simpa [liveBlocks] using hes

/-- **C16** Once every tracked block has been released, in whatever order, the counters are zero
and the table is empty. -/
theorem C16_all_freed (tr : List Ev) (s : State) (hf : FreshAllocs .empty tr)
    (hd : Disciplined tr) (hr : run .empty tr = some s)
    (hall : ∀ pre k p n post, tr = pre ++ Ev.alloc k p n :: post → Ev.free p ∈ post) :
    s.alignMem = 0 ∧ s.allocMem = 0 ∧ s.table = [] := by
  have h := C16_accounting tr s hf hd hr
  rw [live_empty tr hall] at h
  exact ⟨h.1, h.2.1, h.2.2.1⟩

theorem run_append (s : State) (a b : List Ev) : run s (a ++ b) = (run s a).bind fun s' => run s' b := by
  induction a generalizing s with
  | nil => rfl
  | cons e es ih =>
    simp only [List.cons_append, run]
    cases step s e with
    | none => rfl
    | some s1 => simp [ih]

theorem gone_stays (s s' : State) (tr : List Ev) (p : Nat) (hp : p ∉ s.heap)
    (hno : ∀ e ∈ tr, (∀ k n, e ≠ .alloc k p n) ∧ e ≠ .otherAlloc p) (hr : run s tr = some s') :
    p ∉ s'.heap := by
  induction tr generalizing s with
  | nil => simp only [run, Option.some.injEq] at hr; exact hr ▸ hp
  | cons e es ih =>
    simp only [run, Option.bind_eq_some_iff] at hr
    obtain ⟨s1, h1, h2⟩ := hr
    refine ih s1 ?_ (fun e' he' => hno e' (List.mem_cons_of_mem _ he')) h2
    have he := hno e (List.mem_cons_self ..)
    have hcf : ∀ q h, cfree s.heap q = some h → p ∉ h := by
      intro q h hh
      unfold cfree at hh
      split at hh
      · simp only [Option.some.injEq] at hh; exact hh ▸ hp
      · split at hh
        · simp only [Option.some.injEq] at hh
          rw [← hh]; simp [hp]
        · cases hh
    cases e with
    | alloc k q n =>
      have hq : q ≠ p := fun h => he.1 k n (by rw [h])
      cases k <;> simp only [step, Option.some.injEq] at h1 <;> subst h1 <;>
        simp only [List.mem_cons, not_or] <;> exact ⟨fun h => hq h.symm, hp⟩
    | otherAlloc q =>
      have hq : q ≠ p := fun h => he.2 (by rw [h])
      simp only [step, Option.some.injEq] at h1; subst h1
      simp only [List.mem_cons, not_or]; exact ⟨fun h => hq h.symm, hp⟩
    | free q =>
      simp only [step, Option.map_eq_some_iff] at h1
      obtain ⟨h, hh, h1⟩ := h1
      have := hcf q h hh
      cases hk : (lookup s.table q).1 <;> simp only [hk] at h1 <;> subst h1 <;> exact this
    | otherFree q =>
      simp only [step, Option.map_eq_some_iff] at h1
      obtain ⟨h, hh, h1⟩ := h1
      subst h1
      exact hcf q h hh

/-- **C16** No block is released twice: in a history without undefined behaviour two releases of
the same address are separated by an allocation that returned it. -/
theorem C16_released_once (a b c : List Ev) (p : Nat) (hp : p ≠ 0) (s : State)
    (hr : run .empty (a ++ Ev.free p :: (b ++ Ev.free p :: c)) = some s) :
    ∃ e ∈ b, (∃ k n, e = .alloc k p n) ∨ e = .otherAlloc p := by
  by_cases hex : ∃ e ∈ b, (∃ k n, e = .alloc k p n) ∨ e = .otherAlloc p
  · exact hex
  exfalso
  rw [run_append] at hr
  simp only [run, Option.bind_eq_some_iff] at hr
  obtain ⟨s1, _, s2, h2, h3⟩ := hr
  rw [run_append] at h3
  simp only [run, Option.bind_eq_some_iff] at h3
  obtain ⟨s3, h4, s4, h5, _⟩ := h3
  have hgone : p ∉ s2.heap := by
    simp only [step, Option.map_eq_some_iff] at h2
    obtain ⟨h, hh, h2⟩ := h2
    have : p ∉ h := by
      unfold cfree at hh
      rw [if_neg hp] at hh
      split at hh
      · simp only [Option.some.injEq] at hh
        rw [← hh]; simp
      · cases hh
    cases hk : (lookup s1.table p).1 <;> simp only [hk] at h2 <;> subst h2 <;> exact this
  have hg := gone_stays s2 s3 b p hgone (by
    intro e he
    constructor
    · intro k n h; exact hex ⟨e, he, Or.inl ⟨k, n, h⟩⟩
    · intro h; exact hex ⟨e, he, Or.inr h⟩) h4
  simp only [step, Option.map_eq_some_iff] at h5
  obtain ⟨h, hh, _⟩ := h5
  unfold cfree at hh
  rw [if_neg hp, if_neg hg] at hh
  cases hh

-- mixed kinds, address 16 handed out twice, one block left
example : run .empty [.alloc .align 16 100, .alloc .track 48 7, .otherAlloc 64, .free 16,
    .alloc .track 16 30, .free 48, .otherFree 64] =
    some ⟨[(16, .track, 30)], 0, 30, [16]⟩ := by decide
example : liveBlocks [.alloc .align 16 100, .alloc .track 48 7, .otherAlloc 64, .free 16,
    .alloc .track 16 30, .free 48, .otherFree 64] = [(16, .track, 30)] := by decide
example : run .empty [.alloc .align 16 100, .free 16, .free 16] = none := by decide

end Jaxions.Mem
