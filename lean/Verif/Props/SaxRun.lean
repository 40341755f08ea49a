import Verif.Lemmas.SaxSweep
import Verif.Props.PaxionLaw

/-!
# C87: a saxion run on ranks integrates the field equation

`runVec` works on registers, arrays of every rank, messages and ghosts; `eqRule` is kick and drift of
the equation of motion on one periodic lattice.
-/

namespace Jaxions.SaxRun

open Stencil Simd SaxKernel Run Paxion

variable {p : Prec} {i : Isa}

/-- **C87** The run on any number of ranks has no undefined access and ends with the lattice evolved
by the equation of motion. -/
theorem C87_run {n sz Lx Lz NN : ℕ} (hf : Fits n sz Lx (sites .saxion p i) Lz NN) (h5 : NN ≤ 5)
    (PC : List ℝ) (w : ℕ → ℝ) (ood2 : ℝ) (hPC : ∀ k, k < NN → PC[k]? = some (w k))
    (cs : List (Opt × Luck C)) (hc : ∀ c ∈ cs, Covered p c.1)
    (hl : ∀ c ∈ cs, Fair Lx (sites .saxion p i) Lz NN c.2) {b : Bool} {wd : World C} {F : Lat C}
    (hφ : Periodic3 Lx (n * Lz) F.φ) (hν : Periodic3 Lx (n * Lz) F.ν)
    (hw : Holding n Lx (sites .saxion p i) Lz NN b wd F) :
    ∃ w', runVec p i n sz ⟨Lx, sites .saxion p i, NN⟩ Lz PC ood2 b cs wd = some w' ∧
      Holding n Lx (sites .saxion p i) Lz NN (if cs.length % 2 = 0 then b else !b) w'
        (evolve (cs.map fun c => eqRule NN w ood2 c.1) F) := by
  obtain ⟨w', h1, h2⟩ := C59_saxion hf h5 PC w ood2 hPC (cs.map fun c => (eqLaw c.1, c.2))
    (by
      intro q hq
      obtain ⟨c, hc', rfl⟩ := List.mem_map.1 hq
      exact hl c hc') hφ hν hw
  rw [List.map_map] at h1 h2
  rw [List.length_map] at h2
  exact ⟨w', runVec_of n sz _ rfl Lz PC ood2 eqLaw cs (fun c h => sitewise (hc c h)) b wd w' h1, h2⟩

/-- **C87** The same lattice run in another precision, with other vectors, on another number of ranks,
in another order: the same field and velocity at every site. -/
theorem C87_same {p' : Prec} {i' : Isa} {n n' sz sz' Lx Lz Lz' NN : ℕ}
    (hf : Fits n sz Lx (sites .saxion p i) Lz NN) (hf' : Fits n' sz' Lx (sites .saxion p' i') Lz' NN)
    (hN : n * Lz = n' * Lz') (h5 : NN ≤ 5) (PC : List ℝ) (hPC : PC.length = NN) (ood2 : ℝ)
    (cs cs' : List (Opt × Luck C)) (he : cs.map Prod.fst = cs'.map Prod.fst)
    (hc : ∀ c ∈ cs, Covered p c.1) (hc' : ∀ c ∈ cs', Covered p' c.1)
    (hl : ∀ c ∈ cs, Fair Lx (sites .saxion p i) Lz NN c.2)
    (hl' : ∀ c ∈ cs', Fair Lx (sites .saxion p' i') Lz' NN c.2) {b : Bool} {wd wd' : World C} {F : Lat C}
    (hφ : Periodic3 Lx (n * Lz) F.φ) (hν : Periodic3 Lx (n * Lz) F.ν)
    (hw : Holding n Lx (sites .saxion p i) Lz NN b wd F)
    (hw' : Holding n' Lx (sites .saxion p' i') Lz' NN b wd' F) :
    ∃ e e', runVec p i n sz ⟨Lx, sites .saxion p i, NN⟩ Lz PC ood2 b cs wd = some e ∧
      runVec p' i' n' sz' ⟨Lx, sites .saxion p' i', NN⟩ Lz' PC ood2 b cs' wd' = some e' ∧
      ∀ x y Z, x < Lx → y < Lx → Z < n * Lz →
        let c := if cs.length % 2 = 0 then b else !b
        site Lx (sites .saxion p i) Lz NN (if c then e.m else e.m2) x y Z =
            site Lx (sites .saxion p' i') Lz' NN (if c then e'.m else e'.m2) x y Z ∧
          site Lx (sites .saxion p i) Lz 0 e.v x y Z = site Lx (sites .saxion p' i') Lz' 0 e'.v x y Z := by
  have hPC' : ∀ k, k < NN → PC[k]? = some (PC.getD k 0) := by
    intro k hk
    rw [List.getD_eq_getElem?_getD, List.getElem?_eq_getElem (by omega)]
    rfl
  obtain ⟨e, h1, h2⟩ := C87_run hf h5 PC _ ood2 hPC' cs hc hl hφ hν hw
  obtain ⟨e', h1', h2'⟩ := C87_run hf' h5 PC _ ood2 hPC' cs' hc' hl' (hN ▸ hφ) (hN ▸ hν) hw'
  refine ⟨e, e', h1, h1', ?_⟩
  have hlen : cs.length = cs'.length := by simpa using congrArg List.length he
  have hev : (cs.map fun c => eqRule NN (fun k => PC.getD k 0) ood2 c.1) =
      cs'.map fun c => eqRule NN (fun k => PC.getD k 0) ood2 c.1 := by
    have := congrArg (List.map (eqRule NN (fun k => PC.getD k 0) ood2)) he
    rwa [List.map_map, List.map_map] at this
  rw [← hlen, ← hev] at h2'
  intro x y Z hx hy hZ c
  rw [h2.field.site hf.depth.1 hx hy hZ, h2'.field.site hf'.depth.1 hx hy (hN ▸ hZ),
    h2.vel.site hf.depth.1 hx hy hZ, h2'.vel.site hf'.depth.1 hx hy (hN ▸ hZ)]
  exact ⟨rfl, rfl⟩

/-! ### Symmetries -/

theorem lap_map (T : C →ₗ[ℝ] C) (w : ℕ → ℝ) (NN : ℕ) (φ : ℤ → ℤ → ℤ → C) (x y z : ℤ) :
    laplacian w NN (fun x y z => T (φ x y z)) x y z = T (laplacian w NN φ x y z) := by
  unfold laplacian
  rw [map_sum]
  refine Finset.sum_congr rfl fun k _ => ?_
  simp only [map_smul, map_add, map_sub]

/-- A linear map of all sites. -/
def image (T : C →ₗ[ℝ] C) (F : Lat C) : Lat C :=
  ⟨fun x y z => T (F.φ x y z), fun x y z => T (F.ν x y z)⟩

theorem evolve_image (T : C →ₗ[ℝ] C) (NN : ℕ) (w : ℕ → ℝ) (ood2 : ℝ) (cs : List Opt)
    (h : ∀ c ∈ cs, ∀ m, grad (potential c) (T m) = T (grad (potential c) m)) (F : Lat C) :
    evolve (cs.map (eqRule NN w ood2)) (image T F) = image T (evolve (cs.map (eqRule NN w ood2)) F) := by
  induction cs generalizing F with
  | nil => rfl
  | cons c cs ih =>
    rw [List.map_cons]
    unfold evolve
    rw [← ih fun c' hc' => h c' (List.mem_cons_of_mem _ hc')]
    congr 1
    have hc := h c (List.mem_cons_self ..)
    have key : ∀ L m v, eqLaw c (T L) (T m) (T v) = (T (eqLaw c L m v).1, T (eqLaw c L m v).2) := by
      intro L m v
      simp only [eqLaw, hc, map_add, map_sub, map_smul]
    unfold Rule.step image eqRule
    simp only [lap_map, key]

/-- Multiplication by `u`. -/
def turn (u : C) : C →ₗ[ℝ] C where
  toFun := fun z => (u.1 * z.1 - u.2 * z.2, u.2 * z.1 + u.1 * z.2)
  map_add' := fun a b => by ext <;> simp <;> ring
  map_smul' := fun k a => by ext <;> simp <;> ring

/-- Conjugation. -/
def mirror : C →ₗ[ℝ] C where
  toFun := fun z => (z.1, -z.2)
  map_add' := fun a b => by ext <;> simp; ring
  map_smul' := fun k a => by ext <;> simp

/-- **C87** Without a QCD potential a constant phase in front of the field stays in front of it: the
run of the turned lattice ends with the lattice of the other run, turned. -/
theorem C87_phase {n sz Lx Lz NN : ℕ} (hf : Fits n sz Lx (sites .saxion p i) Lz NN) (h5 : NN ≤ 5)
    (PC : List ℝ) (w : ℕ → ℝ) (ood2 : ℝ) (hPC : ∀ k, k < NN → PC[k]? = some (w k))
    (cs : List (Opt × Luck C)) (hc : ∀ c ∈ cs, Covered p c.1 ∧ c.1.pot.qcd = .qcd0)
    (hl : ∀ c ∈ cs, Fair Lx (sites .saxion p i) Lz NN c.2) {u : C} (hu : u.1 ^ 2 + u.2 ^ 2 = 1) {b : Bool}
    {wd wd' : World C} {F : Lat C} (hφ : Periodic3 Lx (n * Lz) F.φ) (hν : Periodic3 Lx (n * Lz) F.ν)
    (hw : Holding n Lx (sites .saxion p i) Lz NN b wd F)
    (hw' : Holding n Lx (sites .saxion p i) Lz NN b wd' (rotate u F)) :
    ∃ e e' G, runVec p i n sz ⟨Lx, sites .saxion p i, NN⟩ Lz PC ood2 b cs wd = some e ∧
      runVec p i n sz ⟨Lx, sites .saxion p i, NN⟩ Lz PC ood2 b cs wd' = some e' ∧
      Holding n Lx (sites .saxion p i) Lz NN (if cs.length % 2 = 0 then b else !b) e G ∧
      Holding n Lx (sites .saxion p i) Lz NN (if cs.length % 2 = 0 then b else !b) e' (rotate u G) := by
  obtain ⟨e, h1, h2⟩ := C87_run hf h5 PC w ood2 hPC cs (fun c h => (hc c h).1) hl hφ hν hw
  have per : ∀ {N : ℕ} {φ : ℤ → ℤ → ℤ → C}, Periodic3 Lx N φ →
      Periodic3 Lx N fun x y z => turn u (φ x y z) := fun h =>
    ⟨fun x y z => by simp only [h.1], fun x y z => by simp only [h.2.1], fun x y z => by simp only [h.2.2]⟩
  obtain ⟨e', h1', h2'⟩ := C87_run (F := rotate u F) hf h5 PC w ood2 hPC cs (fun c h => (hc c h).1) hl
    (per hφ) (per hν) hw'
  refine ⟨e, e', _, h1, h1', h2, ?_⟩
  have hm : (cs.map fun c => eqRule NN w ood2 c.1) = (cs.map Prod.fst).map (eqRule NN w ood2) := by
    rw [List.map_map]; rfl
  have key := evolve_image (turn u) NN w ood2 (cs.map Prod.fst) (by
    intro c hc' m
    obtain ⟨d, hd, rfl⟩ := List.mem_map.1 hc'
    obtain ⟨hcov, hq⟩ := hc d hd
    have e1 := grad_potential hcov m.1 m.2
    have e2 := grad_potential hcov (turn u m).1 (turn u m).2
    have hn : (turn u m).1 ^ 2 + (turn u m).2 ^ 2 = m.1 ^ 2 + m.2 ^ 2 := by
      simp only [turn, LinearMap.coe_mk, AddHom.coe_mk]
      linear_combination (m.1 ^ 2 + m.2 ^ 2) * hu
    rw [hn] at e2
    rw [hq] at e1 e2
    rw [show turn u m = ((turn u m).1, (turn u m).2) from rfl, e2, show m = (m.1, m.2) from rfl, e1]
    simp only [turn, LinearMap.coe_mk, AddHom.coe_mk, qcdForce]
    ext <;> simp only <;> ring) F
  rw [← hm] at key
  have : rotate u (evolve (cs.map fun c => eqRule NN w ood2 c.1) F) =
      image (turn u) (evolve (cs.map fun c => eqRule NN w ood2 c.1) F) := rfl
  rw [this, ← key]
  exact h2'

/-- **C87** The run of the conjugate lattice, theta to minus theta, ends with the conjugate. -/
theorem C87_conjugate {n sz Lx Lz NN : ℕ} (hf : Fits n sz Lx (sites .saxion p i) Lz NN) (h5 : NN ≤ 5)
    (PC : List ℝ) (w : ℕ → ℝ) (ood2 : ℝ) (hPC : ∀ k, k < NN → PC[k]? = some (w k))
    (cs : List (Opt × Luck C)) (hc : ∀ c ∈ cs, Covered p c.1)
    (hl : ∀ c ∈ cs, Fair Lx (sites .saxion p i) Lz NN c.2) {b : Bool}
    {wd wd' : World C} {F : Lat C} (hφ : Periodic3 Lx (n * Lz) F.φ) (hν : Periodic3 Lx (n * Lz) F.ν)
    (hw : Holding n Lx (sites .saxion p i) Lz NN b wd F)
    (hw' : Holding n Lx (sites .saxion p i) Lz NN b wd' (conj F)) :
    ∃ e e' G, runVec p i n sz ⟨Lx, sites .saxion p i, NN⟩ Lz PC ood2 b cs wd = some e ∧
      runVec p i n sz ⟨Lx, sites .saxion p i, NN⟩ Lz PC ood2 b cs wd' = some e' ∧
      Holding n Lx (sites .saxion p i) Lz NN (if cs.length % 2 = 0 then b else !b) e G ∧
      Holding n Lx (sites .saxion p i) Lz NN (if cs.length % 2 = 0 then b else !b) e' (conj G) := by
  obtain ⟨e, h1, h2⟩ := C87_run hf h5 PC w ood2 hPC cs hc hl hφ hν hw
  have per : ∀ {N : ℕ} {φ : ℤ → ℤ → ℤ → C}, Periodic3 Lx N φ →
      Periodic3 Lx N fun x y z => mirror (φ x y z) := fun h =>
    ⟨fun x y z => by simp only [h.1], fun x y z => by simp only [h.2.1], fun x y z => by simp only [h.2.2]⟩
  obtain ⟨e', h1', h2'⟩ := C87_run (F := conj F) hf h5 PC w ood2 hPC cs hc hl (per hφ) (per hν) hw'
  refine ⟨e, e', _, h1, h1', h2, ?_⟩
  have hm : (cs.map fun c => eqRule NN w ood2 c.1) = (cs.map Prod.fst).map (eqRule NN w ood2) := by
    rw [List.map_map]; rfl
  have key := evolve_image mirror NN w ood2 (cs.map Prod.fst) (by
    intro c hc' m
    obtain ⟨d, hd, rfl⟩ := List.mem_map.1 hc'
    have hcov := hc d hd
    have e1 := grad_potential hcov m.1 m.2
    have e2 := grad_potential hcov m.1 (-m.2)
    rw [neg_sq] at e2
    rw [show mirror m = (m.1, -m.2) from rfl, e2, show m = (m.1, m.2) from rfl, e1]
    rcases hcov.qcd with hq | hq | ⟨-, hq⟩ <;> rw [hq] <;>
      simp only [mirror, LinearMap.coe_mk, AddHom.coe_mk, qcdForce] <;>
      ext <;> simp only <;> ring) F
  rw [← hm] at key
  have : conj (evolve (cs.map fun c => eqRule NN w ood2 c.1) F) =
      image mirror (evolve (cs.map fun c => eqRule NN w ood2 c.1) F) := rfl
  rw [this, ← key]
  exact h2'

/-! ### The charge -/

theorem charge_step {Lx N NN : ℕ} (w : ℕ → ℝ) (ood2 : ℝ) {c : Opt} (hc : Covered p c)
    (hq : c.pot.qcd = .qcd0) {F : Lat C} (hφ : Periodic3 Lx N F.φ) :
    charge Lx N ((eqRule NN w ood2 c).step F) =
      (1 - friction c) / (1 + friction c) * charge Lx N F := by
  set h := friction c with hh
  set L := laplacian (fun k => w k * ood2) NN F.φ with hL
  set f : ℤ → ℤ → ℤ → ℝ := fun x y z => (F.φ x y z).1 with hf
  set g : ℤ → ℤ → ℤ → ℝ := fun x y z => (F.φ x y z).2 with hg
  have pf : Periodic3 Lx N f := ⟨fun x y z => by simp only [hf, hφ.1], fun x y z => by
    simp only [hf, hφ.2.1], fun x y z => by simp only [hf, hφ.2.2]⟩
  have pg : Periodic3 Lx N g := ⟨fun x y z => by simp only [hg, hφ.1], fun x y z => by
    simp only [hg, hφ.2.1], fun x y z => by simp only [hg, hφ.2.2]⟩
  have l1 : ∀ x y z, (L x y z).1 = laplacian (fun k => w k * ood2) NN f x y z := by
    intro x y z
    simp only [hL, laplacian, Prod.fst_sum, Prod.smul_fst, Prod.fst_sub, Prod.fst_add, hf]
  have l2 : ∀ x y z, (L x y z).2 = laplacian (fun k => w k * ood2) NN g x y z := by
    intro x y z
    simp only [hL, laplacian, Prod.snd_sum, Prod.smul_snd, Prod.snd_sub, Prod.snd_add, hg]
  have adj := lap_adjoint NN (fun k => w k * ood2) pf pg
  have e : (fun x y z => ((((eqRule NN w ood2 c).step F).φ x y z).1 * (((eqRule NN w ood2 c).step F).ν x y z).2 -
      (((eqRule NN w ood2 c).step F).φ x y z).2 * (((eqRule NN w ood2 c).step F).ν x y z).1)) =
      fun x y z => (1 - h) / (1 + h) * ((F.φ x y z).1 * (F.ν x y z).2 - (F.φ x y z).2 * (F.ν x y z).1) +
        (c.q.dz * c.q.c / (1 + h) * (f x y z * laplacian (fun k => w k * ood2) NN g x y z) +
         -(c.q.dz * c.q.c / (1 + h)) * (g x y z * laplacian (fun k => w k * ood2) NN f x y z)) := by
    funext x y z
    have hg := grad_potential hc (F.φ x y z).1 (F.φ x y z).2
    rw [hq] at hg
    simp only [qcdForce] at hg
    simp only [Rule.step, eqRule, eqLaw, ← hh, ← hL, Prod.fst_add, Prod.snd_add, Prod.fst_sub, Prod.snd_sub,
      Prod.smul_fst, Prod.smul_snd, smul_eq_mul, l1, l2, hf, hg]
    ring
  have s1 : charge Lx N ((eqRule NN w ood2 c).step F) = total Lx N
      (fun x y z => ((((eqRule NN w ood2 c).step F).φ x y z).1 * (((eqRule NN w ood2 c).step F).ν x y z).2 -
      (((eqRule NN w ood2 c).step F).φ x y z).2 * (((eqRule NN w ood2 c).step F).ν x y z).1)) := rfl
  rw [s1, e, total_add, total_add, total_mul, total_mul, total_mul, adj]
  have s2 : charge Lx N F = total Lx N
      (fun x y z => (F.φ x y z).1 * (F.ν x y z).2 - (F.φ x y z).2 * (F.ν x y z).1) := rfl
  rw [s2]
  ring

theorem step_periodic {Lx N NN : ℕ} (w : ℕ → ℝ) (ood2 : ℝ) (c : Opt) {F : Lat C}
    (hφ : Periodic3 Lx N F.φ) (hν : Periodic3 Lx N F.ν) :
    Periodic3 Lx N ((eqRule NN w ood2 c).step F).φ ∧ Periodic3 Lx N ((eqRule NN w ood2 c).step F).ν := by
  have hL : Periodic3 Lx N (laplacian (fun k => w k * ood2) NN F.φ) := by
    refine ⟨fun x y z => ?_, fun x y z => ?_, fun x y z => ?_⟩ <;> unfold laplacian <;>
      refine Finset.sum_congr rfl fun k _ => ?_
    · simp only [add_right_comm x (Lx : ℤ), ← sub_add_eq_add_sub x, hφ.1]
    · simp only [add_right_comm y (Lx : ℤ), ← sub_add_eq_add_sub y, hφ.2.1]
    · simp only [add_right_comm z (N : ℤ), ← sub_add_eq_add_sub z, hφ.2.2]
  refine ⟨⟨fun x y z => ?_, fun x y z => ?_, fun x y z => ?_⟩, fun x y z => ?_, fun x y z => ?_,
    fun x y z => ?_⟩ <;> simp only [Rule.step, eqRule, hL.1, hL.2.1, hL.2.2, hφ.1, hφ.2.1, hφ.2.2, hν.1, hν.2.1, hν.2.2]

/-- **C87** Without a QCD potential every substep multiplies the charge by the factor of the friction,
whatever the step, the PQ potential and the expansion. -/
theorem C87_charge {n sz Lx Lz NN : ℕ} (hf : Fits n sz Lx (sites .saxion p i) Lz NN) (h5 : NN ≤ 5)
    (PC : List ℝ) (w : ℕ → ℝ) (ood2 : ℝ) (hPC : ∀ k, k < NN → PC[k]? = some (w k))
    (cs : List (Opt × Luck C)) (hc : ∀ c ∈ cs, Covered p c.1 ∧ c.1.pot.qcd = .qcd0)
    (hl : ∀ c ∈ cs, Fair Lx (sites .saxion p i) Lz NN c.2) {b : Bool}
    {wd : World C} {F : Lat C} (hφ : Periodic3 Lx (n * Lz) F.φ) (hν : Periodic3 Lx (n * Lz) F.ν)
    (hw : Holding n Lx (sites .saxion p i) Lz NN b wd F) :
    ∃ e G, runVec p i n sz ⟨Lx, sites .saxion p i, NN⟩ Lz PC ood2 b cs wd = some e ∧
      Holding n Lx (sites .saxion p i) Lz NN (if cs.length % 2 = 0 then b else !b) e G ∧
      charge Lx (n * Lz) G =
        (cs.map fun c => (1 - friction c.1) / (1 + friction c.1)).prod * charge Lx (n * Lz) F := by
  obtain ⟨e, h1, h2⟩ := C87_run hf h5 PC w ood2 hPC cs (fun c h => (hc c h).1) hl hφ hν hw
  refine ⟨e, _, h1, h2, ?_⟩
  clear h1 h2 hw hl
  induction cs generalizing F with
  | nil => simp [evolve]
  | cons c cs ih =>
    obtain ⟨q1, q2⟩ := step_periodic (NN := NN) w ood2 c.1 hφ hν
    rw [List.map_cons, evolve, ih (fun c' h => hc c' (List.mem_cons_of_mem _ h)) q1 q2,
      charge_step w ood2 (hc c (List.mem_cons_self ..)).1 (hc c (List.mem_cons_self ..)).2 hφ,
      List.map_cons, List.prod_cons]
    ring

/-- **C87** Without QCD potential and without damping the charge is the same after the run. -/
theorem C87_conserved {n sz Lx Lz NN : ℕ} (hf : Fits n sz Lx (sites .saxion p i) Lz NN) (h5 : NN ≤ 5)
    (PC : List ℝ) (w : ℕ → ℝ) (ood2 : ℝ) (hPC : ∀ k, k < NN → PC[k]? = some (w k))
    (cs : List (Opt × Luck C))
    (hc : ∀ c ∈ cs, Covered p c.1 ∧ c.1.pot.qcd = .qcd0 ∧ c.1.pot.damp = .none)
    (hl : ∀ c ∈ cs, Fair Lx (sites .saxion p i) Lz NN c.2) {b : Bool}
    {wd : World C} {F : Lat C} (hφ : Periodic3 Lx (n * Lz) F.φ) (hν : Periodic3 Lx (n * Lz) F.ν)
    (hw : Holding n Lx (sites .saxion p i) Lz NN b wd F) :
    ∃ e G, runVec p i n sz ⟨Lx, sites .saxion p i, NN⟩ Lz PC ood2 b cs wd = some e ∧
      Holding n Lx (sites .saxion p i) Lz NN (if cs.length % 2 = 0 then b else !b) e G ∧
      charge Lx (n * Lz) G = charge Lx (n * Lz) F := by
  obtain ⟨e, G, h1, h2, h3⟩ := C87_charge hf h5 PC w ood2 hPC cs
    (fun c h => ⟨(hc c h).1, (hc c h).2.1⟩) hl hφ hν hw
  refine ⟨e, G, h1, h2, ?_⟩
  have : (cs.map fun c => (1 - friction c.1) / (1 + friction c.1)) = cs.map fun _ => (1 : ℝ) := by
    refine List.map_congr_left fun c h => ?_
    simp [friction, (hc c h).2.2]
  rw [h3, this]
  simp

/-! ### Examples -/

/-- Options of a substep without QCD potential and without damping. -/
noncomputable def freeOpt : Opt :=
  ⟨⟨2, 1, 0, 3, 5, 0, 0, 1 / 10, 1 / 2, 1⟩, ⟨.pq2, .qcd0, .none, false, false⟩⟩

/-- Options of a substep with QCD potential and friction. -/
noncomputable def dampedOpt : Opt :=
  ⟨⟨2, 1, 0, 3, 5, 1, 0, 1 / 10, 1 / 2, 1⟩, ⟨.pq1, .qcd1, .all, false, false⟩⟩

theorem covered_free (p : Prec) : Covered p freeOpt :=
  ⟨by norm_num [freeOpt], rfl, rfl, by simp [freeOpt], .inl rfl⟩

theorem covered_damped (p : Prec) : Covered p dampedOpt :=
  ⟨by norm_num [dampedOpt], rfl, rfl, by simp [dampedOpt], .inr (.inl rfl)⟩

/-- Friction of the second. -/
example : friction dampedOpt = 1 / 80 := by norm_num [friction, dampedOpt]

/-- The force of the first at `1 + i`, not at the minimum. -/
example : grad (potential freeOpt) (1, 1) = (-15, -15) := by
  rw [grad_potential (covered_free .double)]
  norm_num [freeOpt, pqSite, qcdForce, Par.LaLa]

/-- Three substeps of a lattice of 16x16x8 sites on two ranks in double precision with AVX2 and on four
ranks in single precision with AVX-512, in different orders: the same sites. -/
example (F : Lat C) (hφ : Periodic3 16 (2 * 4) F.φ) (hν : Periodic3 16 (2 * 4) F.ν) :
    ∃ e e', runVec .double .avx2 2 16 ⟨16, sites .saxion .double .avx2, 1⟩ 4 [1] 1 true
        [(freeOpt, inOrder 16 2 4 1 0), (dampedOpt, inOrder 16 2 4 1 0), (freeOpt, inOrder 16 2 4 1 0)]
        ⟨fill 2 16 2 4 1 F.φ, fill 2 16 2 4 1 F.φ, fill 2 16 2 4 0 F.ν⟩ = some e ∧
      runVec .single .avx512 4 8 ⟨16, sites .saxion .single .avx512, 1⟩ 2 [1] 1 true
        [(freeOpt, backwards 16 8 2 1 fun _ _ => 0), (dampedOpt, backwards 16 8 2 1 fun _ _ => 0),
          (freeOpt, backwards 16 8 2 1 fun _ _ => 0)]
        ⟨fill 4 16 8 2 1 F.φ, fill 4 16 8 2 1 F.φ, fill 4 16 8 2 0 F.ν⟩ = some e' ∧
      ∀ x y Z, x < 16 → y < 16 → Z < 8 →
        site 16 2 4 1 e.m2 x y Z = site 16 8 2 1 e'.m2 x y Z ∧
        site 16 2 4 0 e.v x y Z = site 16 8 2 0 e'.v x y Z := by
  have key := C87_same (p := .double) (i := .avx2) (p' := .single) (i' := .avx512) (n := 2) (n' := 4)
    (sz := 16) (sz' := 8) (Lx := 16) (Lz := 4) (Lz' := 2) (NN := 1)
    ⟨by decide, by decide, by decide, by decide, by decide, by decide, by decide, by omega⟩
    ⟨by decide, by decide, by decide, by decide, by decide, by decide, by decide, by omega⟩ rfl
    (by decide) [1] rfl 1
    [(freeOpt, inOrder 16 2 4 1 0), (dampedOpt, inOrder 16 2 4 1 0), (freeOpt, inOrder 16 2 4 1 0)]
    [(freeOpt, backwards 16 8 2 1 fun _ _ => 0), (dampedOpt, backwards 16 8 2 1 fun _ _ => 0),
          (freeOpt, backwards 16 8 2 1 fun _ _ => 0)] rfl
    (by
      intro c h
      simp only [List.mem_cons, List.not_mem_nil, or_false] at h
      rcases h with rfl | rfl | rfl
      exacts [covered_free _, covered_damped _, covered_free _])
    (by
      intro c h
      simp only [List.mem_cons, List.not_mem_nil, or_false] at h
      rcases h with rfl | rfl | rfl
      exacts [covered_free _, covered_damped _, covered_free _])
    (by
      intro c h
      simp only [List.mem_cons, List.not_mem_nil, or_false] at h
      rcases h with rfl | rfl | rfl <;> exact fair_inOrder _ _ _ _ _)
    (by
      intro c h
      simp only [List.mem_cons, List.not_mem_nil, or_false] at h
      rcases h with rfl | rfl | rfl <;> exact fair_backwards _ _ _ _ _) hφ hν
    (C59_holding (by decide) (by decide) true F) (C59_holding (by decide) (by decide) true F)
  obtain ⟨e, e', h1, h2, h3⟩ := key
  exact ⟨e, e', h1, h2, fun x y Z hx hy hZ => h3 x y Z hx hy hZ⟩

/-- A circular motion has charge. -/
example : charge 2 2 ⟨fun _ _ _ => (1, 0), fun _ _ _ => (0, 1)⟩ = 8 := by
  norm_num [charge]

end Jaxions.SaxRun
