/-
Checked memory.

A C++ allocation is modelled as a partial map from addresses to contents.
`none` at an address means "not inside any allocation", and every access there makes the
whole program return `none`: undefined behaviour is a distinct outcome.

All data movement routines of the code base (folding, padding, ghost transfers, slab IO)
are sequences of element copies; `copyCells` executes such a sequence.
-/
namespace Jaxions

universe u w

/-- Memory: address to content, `none` = not allocated. -/
abbrev Heap (A : Type u) (α : Type w) := A → Option α

variable {A : Type u} {α : Type w} [DecidableEq A]

/-- Store `x` at `a`; undefined behaviour if `a` is not allocated. -/
def Heap.write (h : Heap A α) (a : A) (x : α) : Option (Heap A α) :=
  if (h a).isSome then some (fun b => if b = a then some x else h b) else none

/-- `*d = *s`. -/
def copyCell (h : Heap A α) (d s : A) : Option (Heap A α) :=
  match h s with
  | none => none
  | some x => h.write d x

/-- A straight line of element copies, `(destination, source)`, executed in order. -/
def copyCells (ops : List (A × A)) (h : Heap A α) : Option (Heap A α) :=
  ops.foldlM (fun h p => copyCell h p.1 p.2) h

/-- `memcpy` of `n` elements: undefined if the two areas overlap (C standard), otherwise the
elements are copied. -/
def memcpy (dst src : Nat → A) (n : Nat) (h : Heap A α) : Option (Heap A α) :=
  if ∀ i < n, ∀ j < n, dst i ≠ src j then
    copyCells ((List.range n).map (fun i => (dst i, src i))) h
  else none

/-- Read a list of addresses. -/
def readAll (as : List A) (h : Heap A α) : Option (List α) := as.mapM h

/-- Write a list of values to a list of addresses in order. -/
def writeAll (l : List (A × α)) (h : Heap A α) : Option (Heap A α) :=
  l.foldlM (fun h p => h.write p.1 p.2) h

/-- `memmove` of `n` elements: all sources are read before any destination is written. -/
def memmove (dst src : Nat → A) (n : Nat) (h : Heap A α) : Option (Heap A α) :=
  match readAll ((List.range n).map src) h with
  | none => none
  | some xs => writeAll (((List.range n).map dst).zip xs) h

/-- A counted loop over a program state in which any iteration may be undefined. -/
def loop {σ : Type w} (n : Nat) (body : Nat → σ → Option σ) (s : σ) : Option σ :=
  (List.range n).foldlM (fun s i => body i s) s

/-! ### Rules -/

omit [DecidableEq A] in
theorem foldlM_append' {σ ι : Type _} (f : σ → ι → Option σ) (l₁ l₂ : List ι) (s : σ) :
    (l₁ ++ l₂).foldlM f s = (l₁.foldlM f s).bind (fun s => l₂.foldlM f s) := by
  simp [List.foldlM_append]

theorem loop_zero {σ : Type w} (body : Nat → σ → Option σ) (s : σ) : loop 0 body s = some s := by
  simp [loop]

theorem loop_succ {σ : Type w} (n : Nat) (body : Nat → σ → Option σ) (s : σ) :
    loop (n+1) body s = (loop n body s).bind (body n) := by
  simp only [loop, List.range_succ, List.foldlM_append]
  cases List.foldlM (fun s i => body i s) s (List.range n) <;> simp

/-- Invariant rule for loops: total correctness. -/
theorem loop_inv {σ : Type w} {P : Nat → σ → Prop} {n : Nat} {body : Nat → σ → Option σ} {s : σ}
    (h0 : P 0 s)
    (hstep : ∀ i, i < n → ∀ t, P i t → ∃ t', body i t = some t' ∧ P (i+1) t') :
    ∃ s', loop n body s = some s' ∧ P n s' := by
  induction n with
  | zero => exact ⟨s, loop_zero _ _, h0⟩
  | succ n ih =>
    obtain ⟨t, ht, hP⟩ := ih (fun i hi => hstep i (Nat.lt_succ_of_lt hi))
    obtain ⟨t', ht', hP'⟩ := hstep n (Nat.lt_succ_self n) t hP
    exact ⟨t', by rw [loop_succ, ht]; simpa using ht', hP'⟩

theorem write_eq (h : Heap A α) (a : A) (x : α) (ha : (h a).isSome) :
    h.write a x = some (fun b => if b = a then some x else h b) := by
  simp [Heap.write, ha]

theorem copyCell_eq (h : Heap A α) (d s : A) (hd : (h d).isSome) (hs : (h s).isSome) :
    copyCell h d s = some (fun b => if b = d then h s else h b) := by
  unfold copyCell
  cases hx : h s with
  | none => simp [hx] at hs
  | some x => simp [write_eq h d x hd]

/-- Core rule for element copies: if every address is allocated, no destination is also a
source, and a destination always has the same source, the copies succeed, every destination
receives the *original* content of its source and nothing else changes.  Nothing is said about
the order of `ops`, so the rule applies to any schedule of a parallel loop. -/
theorem copyCells_spec (ops : List (A × A)) (h : Heap A α)
    (halloc : ∀ p ∈ ops, (h p.1).isSome ∧ (h p.2).isSome)
    (hdisj : ∀ p ∈ ops, ∀ q ∈ ops, p.1 ≠ q.2)
    (hcons : ∀ p ∈ ops, ∀ q ∈ ops, p.1 = q.1 → p.2 = q.2) :
    ∃ h', copyCells ops h = some h' ∧ (∀ p ∈ ops, h' p.1 = h p.2) ∧
      (∀ a, (∀ p ∈ ops, a ≠ p.1) → h' a = h a) := by
  induction ops generalizing h with
  | nil => exact ⟨h, by simp [copyCells], by simp, by simp⟩
  | cons p ops ih =>
    obtain ⟨hd, hs⟩ := halloc p (by simp)
    have hstep := copyCell_eq h p.1 p.2 hd hs
    let h1 : Heap A α := fun b => if b = p.1 then h p.2 else h b
    have hsome : ∀ a, (h a).isSome → (h1 a).isSome := by
      intro a ha
      simp only [h1]
      split
      · exact hs
      · exact ha
    have hsrc : ∀ q ∈ p :: ops, h1 q.2 = h q.2 := by
      intro q hq
      simp only [h1]
      rw [if_neg]
      exact fun hc => hdisj p (by simp) q hq hc.symm
    obtain ⟨h', he, hv, hu⟩ := ih h1
      (fun q hq => ⟨hsome _ (halloc q (by simp [hq])).1, hsome _ (halloc q (by simp [hq])).2⟩)
      (fun a ha b hb => hdisj a (by simp [ha]) b (by simp [hb]))
      (fun a ha b hb => hcons a (by simp [ha]) b (by simp [hb]))
    refine ⟨h', ?_, ?_, ?_⟩
    · simp only [copyCells, List.foldlM_cons, hstep]
      simpa [copyCells, h1] using he
    · intro q hq
      by_cases hex : ∃ r ∈ ops, q.1 = r.1
      · obtain ⟨r, hr, hqr⟩ := hex
        rw [hqr, hv r hr, hsrc r (by simp [hr]), hcons q hq r (by simp [hr]) hqr]
      · rcases List.mem_cons.1 hq with rfl | hq'
        · rw [hu q.1 (fun r hr hc => hex ⟨r, hr, hc⟩)]
          simp [h1]
        · exact absurd ⟨q, hq', rfl⟩ hex
    · intro a ha
      rw [hu a (fun r hr => ha r (by simp [hr]))]
      simp [h1, ha p (by simp)]

/-- The allocation status never changes. -/
theorem copyCells_isSome {ops : List (A × A)} {h h' : Heap A α}
    (he : copyCells ops h = some h') (a : A) : (h' a).isSome = (h a).isSome := by
  induction ops generalizing h with
  | nil => simp [copyCells] at he; subst he; rfl
  | cons p ops ih =>
    simp only [copyCells, List.foldlM_cons] at he
    cases hc : copyCell h p.1 p.2 with
    | none => simp [hc] at he
    | some h1 =>
      simp only [hc] at he
      have := ih (h := h1) (by simpa [copyCells] using he)
      rw [this]
      unfold copyCell at hc
      cases hx : h p.2 with
      | none => simp [hx] at hc
      | some x =>
        simp only [hx, Heap.write] at hc
        split at hc
        · next hs =>
          simp only [Option.some.injEq] at hc
          subst hc
          show Option.isSome (if a = p.1 then some x else h a) = _
          split
          · next h2 => subst h2; simp [hs]
          · rfl
        · simp at hc

theorem copyCell_isSome {h h' : Heap A α} {d s : A} (he : copyCell h d s = some h') :
    (h d).isSome ∧ (h s).isSome ∧ ∀ a, (h' a).isSome = (h a).isSome := by
  have h3 := copyCells_isSome (ops := [(d, s)]) (h := h) (h' := h') (by simp [copyCells, he])
  unfold copyCell at he
  cases hx : h s with
  | none => simp [hx] at he
  | some x =>
    simp only [hx, Heap.write] at he
    split at he
    · next hs => exact ⟨hs, rfl, h3⟩
    · simp at he

/-- One access outside the allocation makes the whole sequence undefined, in any order. -/
theorem copyCells_none (ops : List (A × A)) (h : Heap A α) (p : A × A) (hp : p ∈ ops)
    (hbad : h p.1 = none ∨ h p.2 = none) : copyCells ops h = none := by
  induction ops generalizing h with
  | nil => simp at hp
  | cons q ops ih =>
    simp only [copyCells, List.foldlM_cons]
    cases hc : copyCell h q.1 q.2 with
    | none => rfl
    | some h1 =>
      obtain ⟨h1a, h1b, h1c⟩ := copyCell_isSome hc
      rcases List.mem_cons.1 hp with rfl | hp'
      · rcases hbad with hb | hb
        · rw [hb] at h1a; simp at h1a
        · rw [hb] at h1b; simp at h1b
      · apply ih h1 hp'
        rcases hbad with hb | hb
        · left
          have := h1c p.1
          rw [hb] at this
          exact Option.isNone_iff_eq_none.1 (by simpa using this)
        · right
          have := h1c p.2
          rw [hb] at this
          exact Option.isNone_iff_eq_none.1 (by simpa using this)

theorem writeAll_spec (l : List (A × α)) (h : Heap A α)
    (halloc : ∀ p ∈ l, (h p.1).isSome) (hnd : (l.map Prod.fst).Nodup) :
    ∃ h', writeAll l h = some h' ∧ (∀ p ∈ l, h' p.1 = some p.2) ∧
      (∀ a, a ∉ l.map Prod.fst → h' a = h a) := by
  induction l generalizing h with
  | nil => exact ⟨h, by simp [writeAll], by simp, by simp⟩
  | cons p l ih =>
    have hstep := write_eq h p.1 p.2 (halloc p (by simp))
    simp only [List.map_cons, List.nodup_cons] at hnd
    obtain ⟨h', he, hv, hu⟩ := ih (fun b => if b = p.1 then some p.2 else h b)
      (by
        intro q hq
        show Option.isSome (if q.1 = p.1 then some p.2 else h q.1)
        split
        · rfl
        · exact halloc q (by simp [hq])) hnd.2
    refine ⟨h', ?_, ?_, ?_⟩
    · simp only [writeAll, List.foldlM_cons, hstep]
      simpa [writeAll] using he
    · intro q hq
      rcases List.mem_cons.1 hq with rfl | hq
      · rw [hu q.1 hnd.1]; simp
      · exact hv q hq
    · intro a ha
      simp only [List.map_cons, List.mem_cons, not_or] at ha
      rw [hu a ha.2]
      simp [ha.1]

omit [DecidableEq A] in
theorem readAll_some (as : List A) (h : Heap A α) (halloc : ∀ a ∈ as, (h a).isSome) :
    ∃ xs, readAll as h = some xs ∧ as.map h = xs.map some := by
  induction as with
  | nil => exact ⟨[], by simp [readAll], rfl⟩
  | cons a as ih =>
    obtain ⟨xs, hx, hm⟩ := ih (fun b hb => halloc b (by simp [hb]))
    have ha := halloc a (by simp)
    cases hv : h a with
    | none => simp [hv] at ha
    | some x =>
      refine ⟨x :: xs, ?_, by simp [hv, hm]⟩
      simp only [readAll] at hx
      simp [readAll, List.mapM_cons, hv, hx]

/-- Rule for `memmove`: overlap between source and destination is allowed. -/
theorem memmove_spec (dst src : Nat → A) (n : Nat) (h : Heap A α)
    (hsrc : ∀ i < n, (h (src i)).isSome) (hdst : ∀ i < n, (h (dst i)).isSome)
    (hinj : ∀ i < n, ∀ j < n, dst i = dst j → i = j) :
    ∃ h', memmove dst src n h = some h' ∧ (∀ i < n, h' (dst i) = h (src i)) ∧
      (∀ a, (∀ i < n, a ≠ dst i) → h' a = h a) := by
  obtain ⟨xs, hx, hm⟩ := readAll_some ((List.range n).map src) h (by simpa using hsrc)
  have hlen : xs.length = n := by
    have := congrArg List.length hm
    simpa using this.symm
  have hval : ∀ i (hi : i < n), h (src i) = some (xs[i]'(by omega)) := by
    intro i hi
    have h1 : (((List.range n).map src).map h)[i]? = (xs.map some)[i]? := by rw [hm]
    simp [hi, hlen] at h1
    exact h1
  have hfst : ((((List.range n).map dst).zip xs).map Prod.fst) = (List.range n).map dst := by
    apply List.map_fst_zip
    simp [hlen]
  have hnd : ((List.range n).map dst).Nodup := by
    rw [List.nodup_iff_pairwise_ne, List.pairwise_map]
    refine List.Pairwise.imp_of_mem ?_ (List.nodup_range (n := n))
    intro a b ha hb hab hc
    exact hab (hinj a (by simpa using ha) b (by simpa using hb) hc)
  obtain ⟨h', he, hv, hu⟩ := writeAll_spec (((List.range n).map dst).zip xs) h
    (by
      intro p hp
      have : p.1 ∈ (List.range n).map dst := by rw [← hfst]; exact List.mem_map_of_mem hp
      obtain ⟨i, hi, hpi⟩ := List.mem_map.1 this
      rw [← hpi]; exact hdst i (by simpa using hi))
    (by rw [hfst]; exact hnd)
  refine ⟨h', by simp [memmove, hx, he], ?_, ?_⟩
  · intro i hi
    have hmem : (dst i, xs[i]'(by omega)) ∈ ((List.range n).map dst).zip xs := by
      rw [List.mem_iff_getElem]
      refine ⟨i, by simp [hlen, hi], by simp⟩
    rw [hv _ hmem, hval i hi]
  · intro a ha
    apply hu
    rw [hfst]
    intro hc
    obtain ⟨i, hi, hai⟩ := List.mem_map.1 hc
    exact ha i (by simpa using hi) hai.symm

/-- Rule for `memcpy`. -/
theorem memcpy_spec (dst src : Nat → A) (n : Nat) (h : Heap A α)
    (hsrc : ∀ i < n, (h (src i)).isSome) (hdst : ∀ i < n, (h (dst i)).isSome)
    (hinj : ∀ i < n, ∀ j < n, dst i = dst j → i = j)
    (hdisj : ∀ i < n, ∀ j < n, dst i ≠ src j) :
    ∃ h', memcpy dst src n h = some h' ∧ (∀ i < n, h' (dst i) = h (src i)) ∧
      (∀ a, (∀ i < n, a ≠ dst i) → h' a = h a) := by
  obtain ⟨h', he, hv, hu⟩ := copyCells_spec ((List.range n).map (fun i => (dst i, src i))) h
    (by
      intro p hp
      obtain ⟨i, hi, rfl⟩ := List.mem_map.1 hp
      exact ⟨hdst i (by simpa using hi), hsrc i (by simpa using hi)⟩)
    (by
      intro p hp q hq
      obtain ⟨i, hi, rfl⟩ := List.mem_map.1 hp
      obtain ⟨j, hj, rfl⟩ := List.mem_map.1 hq
      exact hdisj i (by simpa using hi) j (by simpa using hj))
    (by
      intro p hp q hq hpq
      obtain ⟨i, hi, rfl⟩ := List.mem_map.1 hp
      obtain ⟨j, hj, rfl⟩ := List.mem_map.1 hq
      rw [hinj i (by simpa using hi) j (by simpa using hj) hpq])
  refine ⟨h', ?_, ?_, ?_⟩
  · rw [memcpy, if_pos hdisj, he]
  · intro i hi
    exact hv (dst i, src i) (List.mem_map.2 ⟨i, by simpa using hi, rfl⟩)
  · intro a ha
    apply hu
    intro p hp
    obtain ⟨i, hi, rfl⟩ := List.mem_map.1 hp
    exact ha i (by simpa using hi)

end Jaxions
