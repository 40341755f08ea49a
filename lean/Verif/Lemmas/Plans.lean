import Verif.Spec.Plans
import Mathlib.Data.List.Sort
import Mathlib.Data.List.Perm.Basic
import Mathlib.Data.List.Nodup
import Mathlib.Data.List.Induction

namespace Jaxions.Plans

variable {N : Type} [LinearOrder N]

open Spec

/-- The handles a plan answers for. -/
def Ptr.hs : Ptr → List ℕ
  | .handle n => [n]
  | _ => []

def Plan.hs (p : Plan) : List ℕ :=
  if p.prec = .none then [] else
    (if p.dir.fwd then p.fwd.hs else []) ++ (if p.dir.bck then p.bck.hs else [])

def Plan.Wf (p : Plan) : Prop :=
  p.prec ≠ .none → (p.dir.fwd = true → ∃ n, p.fwd = .handle n) ∧
    (p.dir.bck = true → ∃ n, p.bck = .handle n) ∧
    (p.dir.fwd = false → p.fwd = .wild) ∧ (p.dir.bck = false → p.bck = .wild)

structure Inv (s : State N) : Prop where
  sorted : s.plans.Pairwise (fun a b => a.1 < b.1)
  wf : ∀ e ∈ s.plans, e.2.Wf
  hs : List.Perm (s.plans.flatMap (fun e => e.2.hs)) s.live
  made : s.made = List.range s.made.length
  split : List.Perm s.made (s.live ++ s.gone)

/-- The stored plan and the meaning of its name agree. -/
def entry (p : Plan) : Entry :=
  if p.prec = .none then .placeholder else .plan p.owner p.dir

def reg (s : State N) : Reg N := ⟨fun n => (find n s.plans).map entry, s.init⟩

/-! ### The map -/

omit [LinearOrder N] in
theorem find_cons [DecidableEq N] (n : N) (e : N × Plan) (l : List (N × Plan)) :
    find n (e :: l) = if e.1 = n then some e.2 else find n l := by
  unfold find
  by_cases h : e.1 = n <;> simp [h]

theorem find_none {n : N} {l : List (N × Plan)} :
    find n l = none ↔ ∀ e ∈ l, e.1 ≠ n := by
  induction l with
  | nil => simp [find]
  | cons e l ih =>
    rw [find_cons]
    by_cases h : e.1 = n
    · simp [h]
    · simp [h, ih]

theorem find_some_mem {n : N} {p : Plan} {l : List (N × Plan)} (h : find n l = some p) :
    (n, p) ∈ l := by
  induction l with
  | nil => simp [find] at h
  | cons e l ih =>
    rw [find_cons] at h
    by_cases he : e.1 = n
    · rw [if_pos he] at h
      simp only [Option.some.injEq] at h
      subst he h
      simp
    · rw [if_neg he] at h
      exact List.mem_cons_of_mem _ (ih h)

theorem find_of_mem {n : N} {p : Plan} {l : List (N × Plan)}
    (hs : l.Pairwise (fun a b => a.1 < b.1)) (h : (n, p) ∈ l) : find n l = some p := by
  induction l with
  | nil => simp at h
  | cons e l ih =>
    rw [find_cons]
    rw [List.pairwise_cons] at hs
    rcases List.mem_cons.1 h with h | h
    · subst h; simp
    · have := hs.1 _ h
      rw [if_neg (ne_of_lt this)]
      exact ih hs.2 h

theorem insert_perm (n : N) (p : Plan) (l : List (N × Plan)) :
    List.Perm (insert n p l) ((n, p) :: l) := by
  induction l with
  | nil => exact List.Perm.refl _
  | cons e l ih =>
    unfold insert
    by_cases h : n < e.1
    · rw [if_pos h]
    · rw [if_neg h]
      exact (List.Perm.cons e ih).trans (List.Perm.swap _ _ _)

theorem insert_sorted {n : N} (p : Plan) {l : List (N × Plan)}
    (hs : l.Pairwise (fun a b => a.1 < b.1)) (h : find n l = none) :
    (insert n p l).Pairwise (fun a b => a.1 < b.1) := by
  induction l with
  | nil => simp [insert]
  | cons e l ih =>
    rw [List.pairwise_cons] at hs
    have hne := find_none.1 h
    unfold insert
    by_cases hlt : n < e.1
    · rw [if_pos hlt, List.pairwise_cons]
      refine ⟨?_, List.pairwise_cons.2 hs⟩
      intro b hb
      rcases List.mem_cons.1 hb with hb | hb
      · subst hb; exact hlt
      · exact hlt.trans (hs.1 b hb)
    · rw [if_neg hlt, List.pairwise_cons]
      have hgt : e.1 < n := lt_of_le_of_ne (not_lt.1 hlt) (hne e (by simp))
      refine ⟨?_, ih hs.2 (find_none.2 fun x hx => hne x (List.mem_cons_of_mem _ hx))⟩
      intro b hb
      rcases List.mem_cons.1 ((insert_perm n p l).mem_iff.1 hb) with hb | hb
      · subst hb; exact hgt
      · exact hs.1 b hb

theorem find_insert {n : N} (p : Plan) {l : List (N × Plan)}
    (hs : l.Pairwise (fun a b => a.1 < b.1)) (h : find n l = none) (m : N) :
    find m (insert n p l) = if m = n then some p else find m l := by
  have hs' := insert_sorted p hs h
  by_cases hm : m = n
  · rw [if_pos hm, hm]
    exact find_of_mem hs' ((insert_perm n p l).mem_iff.2 (by simp))
  · rw [if_neg hm]
    cases hf : find m l with
    | none =>
      refine find_none.2 fun e he => ?_
      rcases List.mem_cons.1 ((insert_perm n p l).mem_iff.1 he) with he | he
      · subst he; exact fun h => hm h.symm
      · exact find_none.1 hf e he
    | some q =>
      exact find_of_mem hs' ((insert_perm n p l).mem_iff.2
        (List.mem_cons_of_mem _ (find_some_mem hf)))

theorem find_erase (n m : N) (l : List (N × Plan)) :
    find m (erase n l) = if m = n then none else find m l := by
  induction l with
  | nil => simp [find, erase]
  | cons e l ih =>
    unfold erase at ih ⊢
    by_cases he : e.1 = n
    · rw [List.filter_cons_of_neg (by simp [he]), ih, find_cons]
      by_cases hm : m = n
      · simp [hm]
      · rw [if_neg hm, if_neg hm, if_neg (by rw [he]; exact fun h => hm h.symm)]
    · rw [List.filter_cons_of_pos (by simp [he]), find_cons, find_cons, ih]
      by_cases hm : m = n
      · rw [if_pos hm, if_neg (by rw [hm]; exact he)]
        simp [hm]
      · rw [if_neg hm, if_neg hm]

theorem erase_head {e : N × Plan} {l : List (N × Plan)}
    (hs : (e :: l).Pairwise (fun a b => a.1 < b.1)) : erase e.1 (e :: l) = l := by
  rw [List.pairwise_cons] at hs
  unfold erase
  rw [List.filter_cons_of_neg (by simp)]
  exact List.filter_eq_self.2 fun x hx => by simp [ne_of_gt (hs.1 x hx)]

theorem erase_perm {n : N} {p : Plan} {l : List (N × Plan)}
    (hs : l.Pairwise (fun a b => a.1 < b.1)) (h : find n l = some p) :
    List.Perm l ((n, p) :: erase n l) := by
  induction l with
  | nil => simp [find] at h
  | cons e l ih =>
    rw [find_cons] at h
    by_cases he : e.1 = n
    · rw [if_pos he] at h
      simp only [Option.some.injEq] at h
      subst he h
      rw [erase_head hs]
    · rw [if_neg he] at h
      rw [List.pairwise_cons] at hs
      have : erase n (e :: l) = e :: erase n l := by
        unfold erase
        rw [List.filter_cons_of_pos (by simp [he])]
      rw [this]
      exact (List.Perm.cons e (ih hs.2 h)).trans (List.Perm.swap _ _ _)

theorem erase_sorted (n : N) {l : List (N × Plan)}
    (hs : l.Pairwise (fun a b => a.1 < b.1)) :
    (erase n l).Pairwise (fun a b => a.1 < b.1) := hs.filter _

/-! ### The handles -/

theorem Inv.nodup {s : State N} (h : Inv s) : (s.live ++ s.gone).Nodup := by
  rw [← h.split.nodup_iff, h.made]
  exact List.nodup_range

theorem Inv.fresh {s : State N} (h : Inv s) : s.made.length ∉ s.made := by
  rw [h.made]
  simp

theorem inv_start : Inv (start : State N) := by
  constructor <;> simp [start]

omit [LinearOrder N] in
/-- The constructor of a supported plan makes exactly the handles of its
directions. -/
theorem construct_spec (owner : ℕ) (kind : Kind) (prec : Prec) (dir : Dir) (s : State N)
    (hk : kind.hasCase = true) (hp : prec ≠ .none) :
    ∃ p new, construct owner kind prec dir s =
        (p, { s with made := s.made ++ new, live := s.live ++ new }) ∧
      p.owner = owner ∧ p.dir = dir ∧ p.prec = prec ∧ p.Wf ∧ p.hs = new ∧
      new = (List.range (dir.fwd.toNat + dir.bck.toNat)).map (s.made.length + ·) := by
  unfold construct
  rw [if_neg hp, if_pos hk]
  obtain ⟨f, b⟩ := dir
  cases f <;> cases b
  · exact ⟨_, [], by simp; rfl, rfl, rfl, rfl, by simp [Plan.Wf], by simp [Plan.hs], by simp⟩
  · exact ⟨_, [s.made.length], by simp [planner]; rfl, rfl, rfl, rfl, by simp [Plan.Wf],
      by simp [Plan.hs, Ptr.hs, hp], by simp⟩
  · exact ⟨_, [s.made.length], by simp [planner]; rfl, rfl, rfl, rfl, by simp [Plan.Wf],
      by simp [Plan.hs, Ptr.hs, hp], by simp⟩
  · refine ⟨_, [s.made.length, s.made.length + 1], by simp [planner]; rfl, rfl, rfl, rfl,
      by simp [Plan.Wf], by simp [Plan.hs, Ptr.hs, hp], ?_⟩
    simp [List.range_succ]

theorem range_append_map (n k : ℕ) :
    List.range n ++ (List.range k).map (n + ·) = List.range (n + k) := by
  rw [List.range_add]

theorem inv_create {s : State N} (h : Inv s) (owner : ℕ) {kind : Kind} {prec : Prec}
    (dir : Dir) (name : N) (hk : kind.hasCase = true) (hp : prec ≠ .none) :
    Inv (initPlan owner kind prec dir name s) ∧
    reg (initPlan owner kind prec dir name s) =
      (reg s).fresh name (.plan owner dir) := by
  unfold initPlan
  cases hf : find name s.plans with
  | some p =>
    refine ⟨h, ?_⟩
    unfold Reg.fresh
    rw [if_neg (by simp [reg, hf])]
  | none =>
    obtain ⟨p, new, he, ho, hd, hpr, hw, hh, hnew⟩ :=
      construct_spec owner kind prec dir s hk hp
    simp only [he]
    constructor
    · constructor
      · exact insert_sorted p h.sorted hf
      · intro e hm
        rcases List.mem_cons.1 ((insert_perm name p _).mem_iff.1 hm) with hm | hm
        · subst hm; exact hw
        · exact h.wf e hm
      · refine ((insert_perm name p s.plans).flatMap_right _).trans ?_
        simp only [List.flatMap_cons]
        rw [hh]
        exact (List.Perm.append_left _ h.hs).trans List.perm_append_comm
      · dsimp only
        rw [List.length_append, hnew, List.length_map, List.length_range,
          ← range_append_map s.made.length, ← h.made]
      · dsimp only
        refine (List.Perm.append_right new h.split).trans ?_
        rw [List.append_assoc, List.append_assoc]
        exact List.Perm.append_left _ List.perm_append_comm
    · unfold Reg.fresh
      rw [if_pos (by simp [reg, hf])]
      unfold reg Reg.set
      congr 1
      funext m
      dsimp only
      rw [find_insert p h.sorted hf]
      by_cases hm : m = name
      · simp [hm, entry, hpr, hp, ho, hd]
      · simp [hm]

theorem inv_fetch {s : State N} (h : Inv s) (name : N) :
    Inv (fetchPlan name s).2 ∧
    reg (fetchPlan name s).2 = (reg s).fresh name .placeholder ∧
    find name (fetchPlan name s).2.plans = some (fetchPlan name s).1 ∧
    (fetchPlan name s).2.live = s.live ∧ (fetchPlan name s).2.gone = s.gone ∧
    (fetchPlan name s).2.made = s.made ∧ (fetchPlan name s).2.errs = s.errs ∧
    (fetchPlan name s).2.ran = s.ran := by
  unfold fetchPlan
  cases hf : find name s.plans with
  | some p =>
    refine ⟨h, ?_, hf, rfl, rfl, rfl, rfl, rfl⟩
    unfold Reg.fresh
    rw [if_neg (by simp [reg, hf])]
  | none =>
    dsimp only
    refine ⟨?_, ?_, ?_, rfl, rfl, rfl, rfl, rfl⟩
    · constructor
      · exact insert_sorted _ h.sorted hf
      · intro e hm
        rcases List.mem_cons.1 ((insert_perm name _ _).mem_iff.1 hm) with hm | hm
        · subst hm; simp [Plan.Wf, Plan.empty]
        · exact h.wf e hm
      · refine ((insert_perm name _ s.plans).flatMap_right _).trans ?_
        simpa [List.flatMap_cons, Plan.hs, Plan.empty] using h.hs
      · exact h.made
      · exact h.split
    · unfold Reg.fresh
      rw [if_pos (by simp [reg, hf])]
      unfold reg Reg.set
      congr 1
      funext m
      dsimp only
      rw [find_insert _ h.sorted hf]
      by_cases hm : m = name
      · simp [hm, entry, Plan.empty]
      · simp [hm]
    · rw [find_insert _ h.sorted hf, if_pos rfl]

omit [LinearOrder N] in
theorem destroyPtr_handle {s : State N} {n : ℕ} (hn : n ∈ s.live) :
    destroyPtr (.handle n) s =
      some { s with live := s.live.erase n, gone := s.gone ++ [n] } := by
  simp [destroyPtr, hn]

omit [LinearOrder N] in
/-- Destroying a stored plan kills its handles, each once. -/
theorem destroyPlan_spec {s : State N} {p : Plan} (hw : p.Wf) {rest : List ℕ}
    (hl : List.Perm s.live (p.hs ++ rest)) :
    ∃ s', destroyPlan p s = some s' ∧ List.Perm s'.live rest ∧ s'.gone = s.gone ++ p.hs ∧
      s'.plans = s.plans ∧ s'.init = s.init ∧ s'.made = s.made ∧ s'.ran = s.ran ∧
      s'.errs = s.errs ++ (if p.prec = .none then [.notRemoved] else []) := by
  unfold destroyPlan
  by_cases hp : p.prec = .none
  · rw [if_pos hp]
    refine ⟨_, rfl, ?_, ?_, rfl, rfl, rfl, rfl, ?_⟩
    · simpa [Plan.hs, hp] using hl
    · simp [Plan.hs, hp]
    · simp [hp]
  · rw [if_neg hp]
    obtain ⟨h1, h2, -, -⟩ := hw hp
    have hhs : p.hs = (if p.dir.fwd then p.fwd.hs else []) ++
        (if p.dir.bck then p.bck.hs else []) := by unfold Plan.hs; rw [if_neg hp]
    rw [hhs] at hl ⊢
    cases hf : p.dir.fwd <;> cases hb : p.dir.bck
    · simp only [hf, hb] at hl
      exact ⟨s, by simp, by simpa using hl, by simp, rfl, rfl, rfl, rfl, by simp [hp]⟩
    · obtain ⟨b, hb'⟩ := h2 hb
      simp only [hf, hb, hb', Ptr.hs] at hl
      have hl' : List.Perm s.live (b :: rest) := by simpa using hl
      have hm : b ∈ s.live := hl'.mem_iff.2 (by simp)
      refine ⟨{ s with live := s.live.erase b, gone := s.gone ++ [b] },
        by simp [hb', destroyPtr_handle hm], ?_, by simp [hb', Ptr.hs], rfl, rfl,
        rfl, rfl, by simp [hp]⟩
      exact (hl'.erase b).trans (by simp)
    · obtain ⟨f, hf'⟩ := h1 hf
      simp only [hf, hb, hf', Ptr.hs] at hl
      have hl' : List.Perm s.live (f :: rest) := by simpa using hl
      have hm : f ∈ s.live := hl'.mem_iff.2 (by simp)
      refine ⟨{ s with live := s.live.erase f, gone := s.gone ++ [f] },
        by simp [hf', destroyPtr_handle hm], ?_, by simp [hf', Ptr.hs], rfl, rfl,
        rfl, rfl, by simp [hp]⟩
      exact (hl'.erase f).trans (by simp)
    · obtain ⟨f, hf'⟩ := h1 hf
      obtain ⟨b, hb'⟩ := h2 hb
      simp only [hf, hb, hf', hb', Ptr.hs] at hl
      have hl' : List.Perm s.live (f :: b :: rest) := by simpa using hl
      have hm : f ∈ s.live := hl'.mem_iff.2 (by simp)
      have hl2 : List.Perm (s.live.erase f) (b :: rest) := (hl'.erase f).trans (by simp)
      have hm2 : b ∈ s.live.erase f := hl2.mem_iff.2 (by simp)
      refine ⟨{ s with live := (s.live.erase f).erase b, gone := s.gone ++ [f] ++ [b] }, ?_, ?_,
        by simp [hf', hb', Ptr.hs], rfl, rfl, rfl, rfl, by simp [hp]⟩
      · simp [hf', hb', destroyPtr, hm, hm2]
      · exact (hl2.erase b).trans (by simp)

theorem inv_remove {s : State N} (h : Inv s) (name : N) :
    ∃ s', removePlan name s = some s' ∧ Inv s' ∧ reg s' = (reg s).set name none ∧
      s'.made = s.made ∧ s'.errs = s.errs ++
        (if (reg s).get name = some .placeholder ∨ (reg s).get name = none
          then [.notRemoved] else []) := by
  obtain ⟨h1, hr, hf, hl, hg, hm, he, -⟩ := inv_fetch h name
  unfold removePlan
  generalize hfe : fetchPlan name s = q at *
  obtain ⟨p, t⟩ := q
  dsimp only at *
  have hpe := erase_perm h1.sorted hf
  have hperm : List.Perm t.live (p.hs ++ (erase name t.plans).flatMap (fun e => e.2.hs)) := by
    refine h1.hs.symm.trans ((hpe.flatMap_right _).trans ?_)
    simp [List.flatMap_cons]
  obtain ⟨u, hu, hul, hug, hup, hui, hum, -, hue⟩ :=
    destroyPlan_spec (h1.wf _ (find_some_mem hf)) hperm
  refine ⟨{ u with plans := erase name u.plans }, by simp [hu], ?_, ?_, by
    dsimp only; rw [hum, hm], ?_⟩
  · constructor
    · dsimp only; rw [hup]; exact erase_sorted name h1.sorted
    · intro e hem
      dsimp only at hem
      rw [hup] at hem
      exact h1.wf e (List.mem_of_mem_filter hem)
    · dsimp only; rw [hup]; exact hul.symm
    · dsimp only; rw [hum]; exact h1.made
    · dsimp only
      rw [hum, hug]
      refine h1.split.trans ?_
      refine (List.Perm.append_right _ hperm).trans ?_
      refine List.Perm.trans ?_ (List.Perm.append_right _ hul.symm)
      rw [List.append_assoc]
      refine List.perm_append_comm.trans ?_
      rw [List.append_assoc]
  · have e1 : t.init = s.init := by
      have := congrArg Reg.on hr
      have e2 : ((reg s).fresh name .placeholder).on = s.init := by
        unfold Reg.fresh; split_ifs <;> rfl
      rw [e2] at this
      exact this
    unfold reg Reg.set
    dsimp only
    rw [hup, hui, e1]
    congr 1
    funext m
    rw [find_erase]
    by_cases hmn : m = name
    · simp [hmn]
    · rw [if_neg hmn, if_neg hmn]
      have := congrArg (fun r => Reg.get r m) hr
      have e2 : ((reg s).fresh name .placeholder).get m = (reg s).get m := by
        unfold Reg.fresh; split_ifs
        · simp [Reg.set, hmn]
        · rfl
      rw [e2] at this
      exact this
  · dsimp only
    rw [hue, he]
    congr 1
    have hreg : ((reg s).get name = some .placeholder ∨ (reg s).get name = none) ↔
        p.prec = .none := by
      have := congrArg (fun r => Reg.get r name) hr
      have e1 : (reg t).get name = some (entry p) := by simp [reg, hf]
      rw [e1] at this
      unfold Reg.fresh at this
      by_cases hn : (reg s).get name = none
      · rw [if_pos hn] at this
        simp only [Reg.set, ↓reduceIte, Option.some.injEq] at this
        constructor
        · intro _
          by_contra hp
          simp [entry, hp] at this
        · intro _; exact Or.inr hn
      · rw [if_neg hn] at this
        rw [← this]
        constructor
        · intro hx
          by_contra hp
          simp [entry, hp] at hx
        · intro hp; left; simp [entry, hp]
    by_cases hp : p.prec = .none
    · rw [if_pos hp, if_pos (hreg.2 hp)]
    · rw [if_neg hp, if_neg (fun hx => hp (hreg.1 hx))]

/-- The loop of `closeFFT`. -/
theorem closeLoop_spec (l : List (N × Plan)) : ∀ (prec : Option Prec) (s : State N),
    Inv s → s.plans = l →
    ∃ s', closeLoop l prec s =
        some ((l.getLast?.map (fun e => e.2.prec)).or prec, s') ∧
      Inv s' ∧ s'.plans = [] ∧ s'.init = s.init ∧ s'.made = s.made ∧ s'.ran = s.ran := by
  induction l with
  | nil =>
    intro prec s h hs
    exact ⟨s, by simp [closeLoop], h, hs, rfl, rfl, rfl⟩
  | cons e l ih =>
    intro prec s h hs
    obtain ⟨name, p⟩ := e
    have hsort := h.sorted
    rw [hs] at hsort
    have her := erase_head hsort
    dsimp only at her
    have hperm : List.Perm s.live (p.hs ++ l.flatMap (fun e => e.2.hs)) := by
      have := h.hs.symm
      rw [hs] at this
      simpa [List.flatMap_cons] using this
    obtain ⟨u, hu, hul, hug, hup, hui, hum, hur, -⟩ :=
      destroyPlan_spec (h.wf (name, p) (by rw [hs]; simp)) hperm
    have hpl : erase name u.plans = l := by rw [hup, hs, her]
    have hinv : Inv { u with plans := erase name u.plans } := by
      constructor
      · dsimp only; rw [hpl]; exact (List.pairwise_cons.1 hsort).2
      · intro e he
        dsimp only at he
        rw [hpl] at he
        exact h.wf e (by rw [hs]; exact List.mem_cons_of_mem _ he)
      · dsimp only; rw [hpl]; exact hul.symm
      · dsimp only; rw [hum]; exact h.made
      · dsimp only
        rw [hum, hug]
        refine h.split.trans ?_
        refine (List.Perm.append_right _ hperm).trans ?_
        refine List.Perm.trans ?_ (List.Perm.append_right _ hul.symm)
        rw [List.append_assoc]
        refine List.perm_append_comm.trans ?_
        rw [List.append_assoc]
    obtain ⟨s', hl, hi, hp', hin, hma, hra⟩ := ih (some p.prec) _ hinv hpl
    refine ⟨s', ?_, hi, hp', hin.trans hui, hma.trans hum, hra.trans hur⟩
    unfold closeLoop
    rw [hu]
    simp only [Option.bind_eq_bind, Option.bind_some]
    rw [hl]
    congr 2
    cases hl' : l with
    | nil => simp
    | cons b l' =>
      rw [List.getLast?_cons_cons]
      rw [List.getLast?_eq_some_getLast (by simp)]
      simp

/-- The plan of the greatest name is the last one. -/
theorem last_greatest {l : List (N × Plan)} (hs : l.Pairwise (fun a b => a.1 < b.1))
    {e : N × Plan} (he : l.getLast? = some e) :
    e ∈ l ∧ ∀ m, find m l ≠ none → m ≤ e.1 := by
  obtain ⟨l', rfl⟩ := List.getLast?_eq_some_iff.1 he
  refine ⟨by simp, ?_⟩
  intro m hm
  obtain ⟨p, hp⟩ := Option.ne_none_iff_exists'.1 hm
  have := find_some_mem hp
  rcases List.mem_append.1 this with h | h
  · exact le_of_lt ((List.pairwise_append.1 hs).2.2 _ h e (by simp))
  · rw [List.mem_singleton] at h
    rw [← h]

/-! ### One call -/

theorem inv_run {s : State N} (h : Inv s) (name : N) (way : Way) :
    (step s (.run name way) = none ↔ Forbidden (reg s) (.run name way)) ∧
    ∀ s', step s (.run name way) = some s' →
      Inv s' ∧ reg s' = (reg s).fresh name .placeholder ∧
      (∀ owner dir, (reg s).get name = some (.plan owner dir) →
        ∃ n ∈ s.live, s' = { s with ran := s.ran ++ [(n, owner)] }) ∧
      ((reg s).get name = none ∨ (reg s).get name = some .placeholder →
        s'.errs = s.errs ++ [.notRun] ∧ s'.ran = s.ran) := by
  obtain ⟨h1, hr, hf, hl, hg, hm, he, hra⟩ := inv_fetch h name
  have hkn : ∀ p, find name s.plans = some p → fetchPlan name s = (p, s) := by
    intro p hp
    unfold fetchPlan
    rw [hp]
  unfold step
  dsimp only
  have hempty : find name s.plans = none → (fetchPlan name s).1 = Plan.empty := by
    intro hn; unfold fetchPlan; rw [hn]
  generalize hfe : fetchPlan name s = q at *
  obtain ⟨p, t⟩ := q
  dsimp only at *
  have hget : (reg s).get name = (find name s.plans).map entry := rfl
  unfold runPlan
  by_cases hp : p.prec = .none
  · rw [if_pos hp]
    have hno : ∀ owner dir, (reg s).get name ≠ some (.plan owner dir) := by
      intro owner dir hx
      rw [hget] at hx
      cases hfn : find name s.plans with
      | none => rw [hfn] at hx; simp at hx
      | some p' =>
        have := hkn p' hfn
        rw [Prod.mk.injEq] at this
        rw [hfn, ← this.1] at hx
        simp [entry, hp] at hx
    refine ⟨?_, ?_⟩
    · constructor
      · intro hx; cases hx
      · rintro ⟨owner, dir, hx, -⟩
        exact absurd hx (hno owner dir)
    · intro s' hs'
      rw [Option.some.injEq] at hs'
      subst hs'
      refine ⟨⟨h1.sorted, h1.wf, h1.hs, h1.made, h1.split⟩, hr, ?_, ?_⟩
      · intro owner dir hx
        exact absurd hx (hno owner dir)
      · intro _
        exact ⟨by dsimp only; rw [he], hra⟩
  · rw [if_neg hp]
    have hfn : find name s.plans = some p := by
      cases hfn : find name s.plans with
      | none => rw [hempty hfn] at hp; exact absurd rfl hp
      | some p' =>
        have := hkn p' hfn
        rw [Prod.mk.injEq] at this
        rw [this.1]
    have ht : t = s := by
      have := hkn p hfn
      rw [Prod.mk.injEq] at this
      exact this.2
    subst ht
    have hge : (reg t).get name = some (.plan p.owner p.dir) := by
      rw [hget, hfn]; simp [entry, hp]
    have hmem := find_some_mem hfn
    obtain ⟨w1, w2, w3, w4⟩ := h.wf _ hmem hp
    dsimp only at w1 w2 w3 w4
    have hlive : ∀ n, n ∈ p.hs → n ∈ t.live := by
      intro n hn
      exact h.hs.mem_iff.1 (List.mem_flatMap.2 ⟨_, hmem, hn⟩)
    have key : ∀ (ptr : Ptr) (d : Bool), (d = true → ∃ n, ptr = .handle n ∧ n ∈ t.live) →
        (d = false → ptr = .wild) → (Dir.has p.dir way = d) →
        ((execute p.owner ptr t = none ↔ Forbidden (reg t) (.run name way)) ∧
        ∀ s', execute p.owner ptr t = some s' →
          Inv s' ∧ reg s' = (reg t).fresh name .placeholder ∧
          (∀ owner dir, (reg t).get name = some (.plan owner dir) →
            ∃ n ∈ t.live, s' = { t with ran := t.ran ++ [(n, owner)] }) ∧
          ((reg t).get name = none ∨ (reg t).get name = some .placeholder →
            s'.errs = t.errs ++ [.notRun] ∧ s'.ran = t.ran)) := by
      intro ptr d hd1 hd2 hd
      cases d with
      | false =>
        rw [hd2 rfl]
        refine ⟨⟨fun _ => ⟨_, _, hge, hd⟩, fun _ => rfl⟩, ?_⟩
        intro s' hx
        cases hx
      | true =>
        obtain ⟨n, rfl, hn⟩ := hd1 rfl
        have hex : execute p.owner (.handle n) t =
            some { t with ran := t.ran ++ [(n, p.owner)] } := by
          simp [execute, hn]
        rw [hex]
        refine ⟨⟨fun hx => (Option.some_ne_none _ hx).elim, ?_⟩, ?_⟩
        · rintro ⟨owner, dir, hx, hy⟩
          rw [hge] at hx
          simp only [Option.some.injEq, Entry.plan.injEq] at hx
          rw [← hx.2, hd] at hy
          cases hy
        · intro s' hs'
          rw [Option.some.injEq] at hs'
          subst hs'
          refine ⟨⟨h1.sorted, h1.wf, h1.hs, h1.made, h1.split⟩, hr, ?_, ?_⟩
          · intro owner dir hx
            rw [hge] at hx
            simp only [Option.some.injEq, Entry.plan.injEq] at hx
            exact ⟨n, hn, by rw [hx.1]⟩
          · intro hx
            rw [hge] at hx
            simp at hx
    cases way with
    | fwd =>
      refine key p.fwd p.dir.fwd ?_ w3 rfl
      intro hd
      obtain ⟨n, hn⟩ := w1 hd
      exact ⟨n, hn, hlive n (by simp [Plan.hs, hp, hd, hn, Ptr.hs])⟩
    | bck =>
      refine key p.bck p.dir.bck ?_ w4 rfl
      intro hd
      obtain ⟨n, hn⟩ := w2 hd
      exact ⟨n, hn, hlive n (by simp [Plan.hs, hp, hd, hn, Ptr.hs])⟩

theorem inv_close {s : State N} (h : Inv s) :
    (closeFFT s = none ↔ Forbidden (reg s) .close) ∧
    ∀ s', closeFFT s = some s' → Inv s' ∧ (reg s).Next .close (reg s') ∧
      s'.made = s.made ∧ (s.init = true → s'.plans = []) := by
  unfold closeFFT
  by_cases hi : s.init = true
  · rw [if_pos hi]
    obtain ⟨u, hu, hinv, hpl, hin, hma, -⟩ := closeLoop_spec s.plans none s h rfl
    rw [hu]
    simp only [Option.bind_eq_bind, Option.bind_some, Option.or_none]
    have hnil : ∀ t : State N, t.plans = [] → (reg t).get = fun _ => none := by
      intro t ht; funext m; simp [reg, ht, find]
    cases hl : s.plans.getLast? with
    | none =>
      have hnone : s.plans = [] := List.getLast?_eq_none_iff.1 hl
      refine ⟨⟨fun _ => ⟨hi, fun n => congrFun (hnil s hnone) n⟩, fun _ => rfl⟩, ?_⟩
      intro s' hx
      cases hx
    | some e =>
      obtain ⟨hmem, hgt⟩ := last_greatest h.sorted hl
      have hfe : find e.1 s.plans = some e.2 := find_of_mem h.sorted hmem
      have hnf : ¬ Forbidden (reg s) .close := by
        rintro ⟨-, hx⟩
        have := hx e.1
        simp [reg, hfe] at this
      have hplan : (∃ n owner dir, (reg s).get n = some (.plan owner dir) ∧
          ∀ m, (reg s).get m ≠ none → m ≤ n) ↔ e.2.prec ≠ .none := by
        constructor
        · rintro ⟨n, owner, dir, h1, h2⟩ hp
          have h3 : n ≤ e.1 := hgt n (by
            intro hx; simp [reg, hx] at h1)
          have h4 : e.1 ≤ n := h2 e.1 (by simp [reg, hfe])
          have h5 : n = e.1 := le_antisymm h3 h4
          subst h5
          simp [reg, hfe, entry, hp] at h1
        · intro hp
          refine ⟨e.1, e.2.owner, e.2.dir, by simp [reg, hfe, entry, hp], ?_⟩
          intro m hm
          refine hgt m fun hx => hm ?_
          simp [reg, hx]
      simp only [Option.map_some]
      cases hp : e.2.prec with
      | none =>
        refine ⟨⟨fun hx => (Option.some_ne_none _ hx).elim, fun hx => absurd hx hnf⟩, ?_⟩
        intro s' hs'
        dsimp only at hs'
        rw [Option.some.injEq] at hs'
        subst hs'
        refine ⟨⟨hinv.sorted, hinv.wf, hinv.hs, hinv.made, hinv.split⟩, ?_, hma, fun _ => hpl⟩
        unfold Reg.Next
        dsimp only
        rw [if_pos (show (reg s).on = true from hi)]
        refine ⟨hnil _ hpl, ?_⟩
        rw [hplan, hp]
        simp [reg, hin, hi]
      | single =>
        refine ⟨⟨fun hx => (Option.some_ne_none _ hx).elim, fun hx => absurd hx hnf⟩, ?_⟩
        intro s' hs'
        dsimp only at hs'
        rw [Option.some.injEq] at hs'
        subst hs'
        refine ⟨⟨hinv.sorted, hinv.wf, hinv.hs, hinv.made, hinv.split⟩, ?_, hma, fun _ => hpl⟩
        unfold Reg.Next
        dsimp only
        rw [if_pos (show (reg s).on = true from hi)]
        refine ⟨hnil _ hpl, ?_⟩
        rw [hplan, hp]
        simp [reg]
      | double =>
        refine ⟨⟨fun hx => (Option.some_ne_none _ hx).elim, fun hx => absurd hx hnf⟩, ?_⟩
        intro s' hs'
        dsimp only at hs'
        rw [Option.some.injEq] at hs'
        subst hs'
        refine ⟨⟨hinv.sorted, hinv.wf, hinv.hs, hinv.made, hinv.split⟩, ?_, hma, fun _ => hpl⟩
        unfold Reg.Next
        dsimp only
        rw [if_pos (show (reg s).on = true from hi)]
        refine ⟨hnil _ hpl, ?_⟩
        rw [hplan, hp]
        simp [reg]
  · rw [if_neg hi]
    refine ⟨⟨fun hx => (Option.some_ne_none _ hx).elim, fun hx => absurd hx.1 hi⟩, ?_⟩
    intro s' hs'
    rw [Option.some.injEq] at hs'
    subst hs'
    refine ⟨h, ?_, rfl, fun hx => absurd hx hi⟩
    unfold Reg.Next
    dsimp only
    rw [if_neg (show ¬ (reg s).on = true from hi)]

theorem inv_step {s : State N} (h : Inv s) {c : Call N} (hc : Ok c) :
    (step s c = none ↔ Forbidden (reg s) c) ∧
    ∀ s', step s c = some s' → Inv s' ∧ (reg s).Next c (reg s') := by
  cases c with
  | start prec =>
    refine ⟨⟨fun hx => (Option.some_ne_none _ hx).elim, fun hx => hx.elim⟩, ?_⟩
    intro s' hs'
    unfold step at hs'
    dsimp only at hs'
    rw [Option.some.injEq] at hs'
    subst hs'
    unfold initFFT Reg.Next
    dsimp only
    by_cases hi : s.init = true
    · rw [if_pos hi]
      exact ⟨h, by simp [reg, hi]⟩
    · rw [if_neg hi]
      by_cases hp : prec = .none
      · rw [if_pos hp]
        exact ⟨h, by simp [reg, hp]⟩
      · rw [if_neg hp]
        exact ⟨⟨h.sorted, h.wf, h.hs, h.made, h.split⟩, by simp [reg, hp]⟩
  | create owner kind prec dir name =>
    refine ⟨⟨fun hx => (Option.some_ne_none _ hx).elim, fun hx => hx.elim⟩, ?_⟩
    intro s' hs'
    unfold step at hs'
    dsimp only at hs'
    rw [Option.some.injEq] at hs'
    subst hs'
    exact inv_create h owner dir name hc.1 hc.2
  | fetch name =>
    refine ⟨⟨fun hx => (Option.some_ne_none _ hx).elim, fun hx => hx.elim⟩, ?_⟩
    intro s' hs'
    unfold step at hs'
    dsimp only at hs'
    rw [Option.some.injEq] at hs'
    subst hs'
    exact ⟨(inv_fetch h name).1, (inv_fetch h name).2.1⟩
  | run name way =>
    obtain ⟨h1, h2⟩ := inv_run h name way
    exact ⟨h1, fun s' hs' => ⟨(h2 s' hs').1, (h2 s' hs').2.1⟩⟩
  | remove name =>
    obtain ⟨t, ht, hi, hr, -, -⟩ := inv_remove h name
    have : step s (.remove name) = some t := ht
    refine ⟨⟨fun hx => ?_, fun hx => hx.elim⟩, ?_⟩
    · rw [this] at hx; cases hx
    · intro s' hs'
      rw [this, Option.some.injEq] at hs'
      subst hs'
      exact ⟨hi, hr⟩
  | close =>
    obtain ⟨h1, h2⟩ := inv_close h
    exact ⟨h1, fun s' hs' => ⟨(h2 s' hs').1, (h2 s' hs').2.1⟩⟩
  | assign dst src => exact hc.elim

/-! ### Histories -/

theorem history_snoc (cs : List (Call N)) (c : Call N) :
    history (cs ++ [c]) = (history cs).bind (fun s => step s c) := by
  unfold history
  rw [List.foldlM_append]
  cases h : List.foldlM step start cs with
  | none => rfl
  | some s => simp

theorem history_inv (cs : List (Call N)) (hok : ∀ c ∈ cs, Ok c) :
    ∀ s, history cs = some s → Inv s ∧ Reg.After cs (reg s) := by
  induction cs using List.reverseRecOn with
  | nil =>
    intro s hs
    have : s = start := by
      unfold history at hs
      simpa using hs.symm
    subst this
    refine ⟨inv_start, ?_⟩
    have : reg (start : State N) = Reg.start := rfl
    rw [this]
    exact Reg.After.nil
  | append_singleton cs c ih =>
    intro s hs
    rw [history_snoc] at hs
    cases hh : history cs with
    | none => rw [hh] at hs; cases hs
    | some t =>
      rw [hh] at hs
      obtain ⟨hi, ha⟩ := ih (fun c hc => hok c (List.mem_append_left _ hc)) t hh
      obtain ⟨-, h2⟩ := inv_step hi (hok c (by simp))
      obtain ⟨hi', hn⟩ := h2 s hs
      exact ⟨hi', Reg.After.snoc ha hn⟩

end Jaxions.Plans
