import Verif.Spec.Header
import Mathlib.Data.List.Induction

namespace Jaxions.Header

open Spec

theorem lastOf_snoc {β : Type} (f : PotOpt → Option β) (os : List PotOpt) (o : PotOpt) :
    lastOf f (os ++ [o]) = (f o).or (lastOf f os) := by
  unfold lastOf
  rw [List.filterMap_append]
  cases h : f o with
  | none => simp [h]
  | some b => simp [h]

/-- The variables after all options. -/
theorem potParse_spec (os : List PotOpt) :
    potParse os = ⟨os.any isPot, (asked os).q, (asked os).pq, (asked os).damp, (asked os).evol,
      lastOf zeroOf os⟩ := by
  induction os using List.reverseRecOn with
  | nil => rfl
  | append_singleton os o ih =>
    unfold potParse at ih ⊢
    rw [List.foldl_append, ih]
    unfold asked
    simp only [lastOf_snoc, List.any_append, List.foldl_cons, List.foldl_nil, List.any_cons,
      List.any_nil, Bool.or_false]
    cases o with
    | ind3 z => cases z <;> simp [potOption, isPot, qcdOf, pqOf, dampOf, evolOf, zeroOf]
    | _ => simp [potOption, isPot, qcdOf, pqOf, dampOf, evolOf, zeroOf]

theorem type_num : ∀ v : PotVars, v.type = (⟨v.q, v.pq, v.damp, v.evol⟩ : Pot).num := by
  rintro ⟨u, q, pq, d, e, i⟩
  unfold PotVars.type Pot.num
  dsimp only
  cases q <;> cases pq <;> cases d <;> cases e <;> decide

theorem num_masks (p : Pot) :
    p.num &&& V_QCD = p.q.bit ∧ p.num &&& V_PQ = p.pq.bit ∧ p.num &&& V_DAMP = p.damp.bit ∧
    p.num &&& V_EVOL_RHO = (if p.evol = .rho then 8192 else 0) ∧
    p.num &&& V_EVOL_THETA = (if p.evol = .theta then 4096 else 0) ∧
    p.num &&& (V_EVOL_RHO ||| V_EVOL_THETA) = p.evol.bit := by
  obtain ⟨q, pq, d, e⟩ := p
  cases q <;> cases pq <;> cases d <;> cases e <;> decide

theorem or_num (q : Qcd) (pq : Pq) (d : Damp) (e : Evol) :
    q.bit ||| pq.bit ||| d.bit ||| e.bit = (⟨q, pq, d, e⟩ : Pot).num := by
  cases q <;> cases pq <;> cases d <;> cases e <;> decide

theorem num_inj {p p' : Pot} (h : p.num = p'.num) : p = p' := by
  have h1 := num_masks p
  have h2 := num_masks p'
  rw [h] at h1
  obtain ⟨q, pq, d, e⟩ := p
  obtain ⟨q', pq', d', e'⟩ := p'
  dsimp only at h1 h2
  have hq : q.bit = q'.bit := h1.1.symm.trans h2.1
  have hpq : pq.bit = pq'.bit := h1.2.1.symm.trans h2.2.1
  have hd : d.bit = d'.bit := h1.2.2.1.symm.trans h2.2.2.1
  have he : e.bit = e'.bit := h1.2.2.2.2.2.symm.trans h2.2.2.2.2.2
  have eq : q = q' := by revert hq; cases q <;> cases q' <;> decide
  have epq : pq = pq' := by revert hpq; cases pq <;> cases pq' <;> decide
  have ed : d = d' := by revert hd; cases d <;> cases d' <;> decide
  have ee : e = e' := by revert he; cases e <;> cases e' <;> decide
  rw [eq, epq, ed, ee]

/-- What a run started from a file with the options `os` does use. -/
def used (os : List PotOpt) (file : Pot) (zero : Bool) : Pot :=
  ⟨if (lastOf zeroOf os).getD zero then .q0
    else if os.any isPot then (asked os).q else file.q,
   if os.any isPot then (asked os).pq else .p1,
   if (asked os).damp = .none then file.damp else (asked os).damp,
   if (asked os).evol = .full then (if file.evol = .rho then .rho else .full)
    else (asked os).evol⟩

theorem readQcd_spec (z u : Bool) (p p' : Pot) :
    readQcd z (if u then p'.num else 0) (writePot p.num) =
      (if z then Qcd.q0 else if u then p'.q else p.q).bit := by
  unfold readQcd writePot qcdText
  cases z with
  | true => rfl
  | false =>
    cases u with
    | true =>
      simp only [Bool.false_eq_true, if_false, if_true, (num_masks p').1]
      exact if_neg (by cases p'.q <;> decide)
    | false =>
      simp only [Bool.false_eq_true, if_false, Nat.zero_and, if_true, (num_masks p).1]
      cases p.q <;> decide +kernel

theorem readPq_spec (u : Bool) (p p' : Pot) :
    readPq (if u then p'.num else 0) (writePot p.num) = (if u then p'.pq else Pq.p1).bit := by
  unfold readPq writePot pqText
  cases u with
  | true =>
    simp only [if_true, (num_masks p').2.1]
    exact if_neg (by cases p'.pq <;> decide)
  | false =>
    simp only [Bool.false_eq_true, if_false, Nat.zero_and, if_true, (num_masks p).2.1]
    cases p.pq <;> decide +kernel

theorem readDamp_spec (u : Bool) (p p' : Pot) (hu : u = false → p'.damp = .none) :
    readDamp (if u then p'.num else 0) (writePot p.num) =
      (if p'.damp = .none then p.damp else p'.damp).bit := by
  unfold readDamp writePot dampText
  cases u with
  | true =>
    simp only [if_true, (num_masks p').2.2.1, (num_masks p).2.2.1]
    cases p'.damp <;> cases p.damp <;> decide +kernel
  | false =>
    simp only [Bool.false_eq_true, if_false, Nat.zero_and, if_true, (num_masks p).2.2.1, hu rfl]
    cases p.damp <;> decide +kernel

theorem readEvol_spec (u : Bool) (p p' : Pot) (hu : u = false → p'.evol = .full) :
    readEvol (if u then p'.num else 0) (writePot p.num) =
      (if p'.evol = .full then (if p.evol = .rho then Evol.rho else .full) else p'.evol).bit := by
  unfold readEvol writePot evolText
  cases u with
  | true =>
    simp only [if_true, (num_masks p').2.2.2.2.2, (num_masks p').2.2.2.2.1,
      (num_masks p').2.2.2.1, (num_masks p).2.2.2.1]
    cases p'.evol <;> cases p.evol <;> decide +kernel
  | false =>
    simp only [Bool.false_eq_true, if_false, Nat.zero_and, if_true, (num_masks p).2.2.2.1, hu rfl]
    cases p.evol <;> decide +kernel

theorem lastOf_none {β : Type} {f : PotOpt → Option β} {os : List PotOpt}
    (h : ∀ o ∈ os, f o = none) : lastOf f os = none := by
  unfold lastOf
  rw [List.filterMap_eq_nil_iff.2 h]
  rfl

theorem not_pot {os : List PotOpt} (h : os.any isPot = false) :
    (lastOf pqOf os = none ∧ lastOf dampOf os = none ∧ lastOf evolOf os = none) := by
  rw [List.any_eq_false] at h
  refine ⟨lastOf_none ?_, lastOf_none ?_, lastOf_none ?_⟩ <;>
  · intro o ho
    have := h o ho
    cases o <;> simp [isPot] at this <;> rfl

theorem restart_spec (os : List PotOpt) (p : Pot) (z : Bool) :
    restartPot os (savePot (p.num, z)) =
      ((used os p z).num, (lastOf zeroOf os).getD z) := by
  unfold restartPot savePot readPot
  rw [potParse_spec]
  dsimp only
  rw [type_num]
  dsimp only
  have h1 : os.any isPot = false → (asked os).damp = .none := by
    intro h; unfold asked; rw [(not_pot h).2.1]; rfl
  have h2 : os.any isPot = false → (asked os).evol = .full := by
    intro h; unfold asked; rw [(not_pot h).2.2]; rfl
  rw [readQcd_spec _ _ p ⟨(asked os).q, (asked os).pq, (asked os).damp, (asked os).evol⟩,
    readPq_spec, readDamp_spec _ _ _ h1, readEvol_spec _ _ _ h2, or_num]
  rfl

end Jaxions.Header
