import Verif.Lemmas.Run
import Verif.Props.ThetaKernel
/-
C59: a run of the propagators on any number of ranks is the evolution of one periodic lattice.
-/
namespace Jaxions.Run

open Stencil

variable {α : Type}

/-- The messages may be delivered in any order of their bytes, and every rank may go through the
vectors of the kernel calls before and after the wait in any order and with any tiles. -/
structure Fair (Lx S Lz NN : Nat) (l : Luck α) : Prop where
  msgs : ∀ q, (l.msgs q).Perm q
  orders : ∀ r, ∃ bY bZ, 0 < bY ∧ 0 < bZ ∧
    (l.bulk r).Perm (kernelVisits Lx S bY bZ (2 * (NN * (Lx * Lx))) (Lz * (Lx * Lx))) ∧
    (l.edges r).Perm ((boundaryCalls true (NN * (Lx * Lx)) (Lz * (Lx * Lx))).flatMap fun c =>
      kernelVisits Lx S bY bZ c.1 c.2)

/-- A division of the lattice the code can work with. -/
structure Fits (n sz Lx S Lz NN : Nat) : Prop where
  ranks : 0 < n
  bytes : 0 < sz
  side : 0 < Lx
  lanes : 0 < S
  dvd : S ∣ Lx
  rows : 2 * NN ≤ Lx / S
  depth : 0 < Lz ∧ (2 * NN ≤ Lz ∨ Lz = NN)
  message : NN * (Lx * Lx * sz) < 10 * 2147483584

/-- The arrays that hold the lattice: `toM2` if the field is in `m`. -/
structure Holding (n Lx S Lz NN : Nat) (toM2 : Bool) (w : World α) (F : Lat α) : Prop where
  allocM : WorldAlloc n ⟨Lx * Lx, Lz, NN⟩ w.m
  allocM2 : WorldAlloc n ⟨Lx * Lx, Lz, NN⟩ w.m2
  field : Shows n Lx S Lz NN (if toM2 then w.m else w.m2) F.φ
  vel : Shows n Lx S Lz 0 w.v F.ν

theorem onRank_set (h : Heap (Nat × Nat) α) (r : Nat) (k : Heap Nat α) (q a : Nat) :
    setRank h r k (q, a) = if q = r then k a else h (q, a) := rfl

/-- The kernel calls of all ranks. -/
theorem ranks_step {n sz Lx S Lz NN : Nat} (hf : Fits n sz Lx S Lz NN) {u : Sub α} {g : Rule α}
    (hc : Computes NN u g) {l : Luck α} (hl : Fair Lx S Lz NN l) {old src dst v : Heap (Nat × Nat) α}
    {F : Lat α} (hper : Periodic3 Lx (n * Lz) F.φ)
    (hsrc : ∀ r, r < n → Holds Lx S (Lz + 2 * NN) (onRank src r)
      (fun x y z => F.φ x y (z + ((r * Lz : Nat) - (NN : Nat) : Int))))
    (hold : WorldAlloc n ⟨Lx * Lx, Lz, NN⟩ old)
    (hkeep : ∀ r a, r < n → NN * (Lx * Lx) ≤ a → a < (NN + Lz) * (Lx * Lx) → src (r, a) = old (r, a))
    (ha : WorldAlloc n ⟨Lx * Lx, Lz, NN⟩ dst) (hv : Shows n Lx S Lz 0 v F.ν) :
    ∃ p, (List.range n).foldlM (rankStep ⟨Lx, S, NN⟩ Lz u l old src) (dst, v) = some p ∧
      WorldAlloc n ⟨Lx * Lx, Lz, NN⟩ p.1 ∧ Shows n Lx S Lz NN p.1 (g.step F).φ ∧
      Shows n Lx S Lz 0 p.2 (g.step F).ν := by
  have main := range_inv (f := rankStep ⟨Lx, S, NN⟩ Lz u l old src)
    (P := fun k p => WorldAlloc n ⟨Lx * Lx, Lz, NN⟩ p.1 ∧
      ∀ r x y z : Nat, r < n → x < Lx → y < Lx → z < Lz →
        (r < k → p.1 (r, cell Lx S x y (z + NN)) = some ((g.step F).φ x y (r * Lz + z : Nat)) ∧
          p.2 (r, cell Lx S x y z) = some ((g.step F).ν x y (r * Lz + z : Nat))) ∧
        (k ≤ r → p.2 (r, cell Lx S x y z) = some (F.ν x y (r * Lz + z : Nat))))
    (s := (dst, v)) n ?_ ?_
  · obtain ⟨p, h1, h2, h3⟩ := main
    exact ⟨p, h1, h2, fun r x y z hr hx hy hz => ((h3 r x y z hr hx hy hz).1 hr).1,
      fun r x y z hr hx hy hz => ((h3 r x y z hr hx hy hz).1 hr).2⟩
  · refine ⟨ha, fun r x y z hr hx hy hz => ⟨fun h => absurd h (Nat.not_lt_zero _), fun _ => ?_⟩⟩
    exact hv r x y z hr hx hy hz
  · rintro k hk ⟨d, vv⟩ ⟨h1, h2⟩
    obtain ⟨bY, bZ, hby, hbz, hb, he⟩ := hl.orders k
    have hord : (l.bulk k ++ l.edges k).Perm (substepVisits true Lx S bY bZ Lz NN) := by
      unfold substepVisits bulkCall
      rw [List.flatMap_cons]
      exact hb.append he
    have hnd := (order_spec hf.side hf.lanes hf.dvd hby hbz hf.depth.2 _ hord).1
    have hbulk : ∀ i ∈ l.bulk k, S ∣ i ∧ 2 * NN ≤ i / (Lx * Lx) ∧ i / (Lx * Lx) < Lz :=
      fun i hi => bulk_mem hf.side hf.lanes hf.dvd hby hbz (hb.mem_iff.1 hi)
    have hp : 0 < Lx * Lx := Nat.mul_pos hf.side hf.side
    have hsame : ∀ a, NN * (Lx * Lx) ≤ a → a < (NN + Lz) * (Lx * Lx) →
        inFlight ⟨Lx, S, NN⟩ Lz (l.ghosts k) (onRank old k) a = onRank src k a := by
      intro a h1 h2
      unfold inFlight
      rw [if_neg (by simp only; omega)]
      exact (hkeep k a hk h1 h2).symm
    have hmid : ∀ a, a < (Lz + 2 * NN) * (Lx * Lx) →
        (inFlight ⟨Lx, S, NN⟩ Lz (l.ghosts k) (onRank old k) a).isSome := by
      intro a haa
      have := (hold k a).2 ⟨hk, haa⟩
      unfold inFlight
      split
      · rw [Option.isSome_map]; exact this
      · exact this
    have hsplit := sweep_split ⟨Lx, S, NN⟩
      (u.lapF ⟨Lx, S, NN⟩ (inFlight ⟨Lx, S, NN⟩ Lz (l.ghosts k) (onRank old k)))
      (u.lapF ⟨Lx, S, NN⟩ (onRank src k)) u.law
      (inFlight ⟨Lx, S, NN⟩ Lz (l.ghosts k) (onRank old k)) (onRank src k) (l.bulk k) (l.edges k)
      (fun i hi hi' => (List.nodup_append.1 hnd).2.2 i hi' i hi rfl)
      (by
        rintro ⟨i, q⟩ hc
        simp only [lanes, List.mem_flatMap, List.mem_map, List.mem_range, Prod.mk.injEq] at hc
        obtain ⟨i', hi', q', hq', rfl, rfl⟩ := hc
        obtain ⟨hd1, hd2, hd3⟩ := hbulk i' hi'
        rw [Nat.le_div_iff_mul_le hp] at hd2
        rw [Nat.div_lt_iff_lt_mul hp] at hd3
        refine hsame _ ?_ ?_
        · refine le_trans (Nat.mul_le_mul_right _ (show NN ≤ 2 * NN by omega)) ?_
          exact le_trans hd2 (Nat.le_add_right _ _)
        · refine Nat.lt_of_lt_of_le ?_ (Nat.mul_le_mul_right _ (show Lz ≤ NN + Lz by omega))
          obtain ⟨c, rfl⟩ := hd1
          obtain ⟨e, he⟩ : S ∣ Lz * (Lx * Lx) := Dvd.dvd.mul_left (Dvd.dvd.mul_left hf.dvd _) _
          rw [he] at hd3 ⊢
          have hce : c < e := Nat.lt_of_mul_lt_mul_left hd3
          have : S * (c + 1) ≤ S * e := Nat.mul_le_mul_left _ hce
          rw [Nat.mul_add, Nat.mul_one] at this
          have hq'' : q' < S := hq'
          simp only
          omega)
    obtain ⟨o', e1, e2, e3⟩ := substep_rule hf.side hf.lanes hf.dvd hby hbz hf.depth.2
      (fun i q => if i ∈ l.bulk k then
        u.lapF ⟨Lx, S, NN⟩ (inFlight ⟨Lx, S, NN⟩ Lz (l.ghosts k) (onRank old k)) i q
        else u.lapF ⟨Lx, S, NN⟩ (onRank src k) i q)
      (fun x y z => g.lap F.φ x y (k * Lz + z : Nat)) u.law (l.bulk k ++ l.edges k) hord (onRank src k)
      ⟨onRank vv k, onRank d k⟩
      (fun x y z => F.φ x y (z + ((k * Lz : Nat) - (NN : Nat) : Int)))
      (fun x y z => F.ν x y (z + (k * Lz : Nat)))
      (by
        intro x y z hx hy hz
        have key : g.lap (fun x y z => F.φ x y (z + ((k * Lz : Nat) - (NN : Nat) : Int))) x y
            (z + NN : Nat) = g.lap F.φ x y (k * Lz + z : Nat) := by
          have := hc.shift F.φ 0 0 ((k * Lz : Nat) - (NN : Nat) : Int) x y (z + NN : Nat)
          simp only [add_zero] at this
          rw [this]
          congr 1
          push_cast
          ring
        split
        · rename_i hi
          obtain ⟨_, q1, q2⟩ := hbulk _ hi
          rw [cell_sub_div hf.lanes hf.dvd hx hy] at q1 q2
          rw [bulk_lap hf.lanes hf.dvd hf.rows hc (hper.xy _) (hsrc k hk) hmid hsame hx hy q1 q2, key]
        · rw [hc.lap hf.lanes hf.dvd hf.rows (onRank src k) _ _ (hper.xy _) (hsrc k hk) hx hy
            (by omega) (by omega), key])
      (hsrc k hk)
      (by
        intro x y z hx hy hz
        have := (h2 k x y z hk hx hy hz).2 le_rfl
        refine Eq.trans this ?_
        congr 2
        push_cast
        ring)
      (by
        intro a haa
        exact (h1 k a).2 ⟨hk, haa⟩)
    refine ⟨(setRank d k o'.m2, setRank vv k o'.v), ?_, ?_, ?_⟩
    · unfold rankStep
      rw [← hsplit] at e1
      simp only [Option.bind_eq_bind, Option.bind_eq_some_iff] at e1 ⊢
      obtain ⟨o1, e5, e6⟩ := e1
      exact ⟨o1, e5, o', e6, rfl⟩
    · intro r a
      simp only [onRank_set]
      split
      · rename_i hrk
        subst hrk
        rw [sweepWith_isSome e1]
        exact h1 r a
      · exact h1 r a
    · intro r x y z hr hx hy hz
      have old := h2 r x y z hr hx hy hz
      simp only [onRank_set]
      constructor
      · intro hlt
        by_cases hrk : r = k
        · subst hrk
          rw [if_pos rfl, if_pos rfl]
          have := e2 x y z hx hy hz
          have q1 : ((z + NN : Nat) : Int) + ((r * Lz : Nat) - (NN : Nat) : Int) =
              ((r * Lz + z : Nat) : Int) := by push_cast; ring
          have q2 : (z : Int) + ((r * Lz : Nat) : Int) = ((r * Lz + z : Nat) : Int) := by
            push_cast; ring
          simp only [q1, q2, hc.law] at this
          exact this
        · rw [if_neg hrk, if_neg hrk]
          exact old.1 (by omega)
      · intro hle
        rw [if_neg (by omega)]
        exact old.2 (by omega)

/-- One substep on all ranks is one substep of the lattice. -/
theorem C59_substep {n sz Lx S Lz NN : Nat} (hf : Fits n sz Lx S Lz NN) {u : Sub α} {g : Rule α}
    (hc : Computes NN u g) {l : Luck α} (hl : Fair Lx S Lz NN l) {b : Bool} {w : World α} {F : Lat α}
    (hφ : Periodic3 Lx (n * Lz) F.φ) (hw : Holding n Lx S Lz NN b w F) :
    ∃ w', substep n sz ⟨Lx, S, NN⟩ Lz b u l w = some w' ∧
      Holding n Lx S Lz NN (!b) w' (g.step F) := by
  have hNN : NN ≤ Lz := by have := hf.depth.2; omega
  have hp : 0 < Lx * Lx := Nat.mul_pos hf.side hf.side
  have halloc : WorldAlloc n ⟨Lx * Lx, Lz, NN⟩ (if b then w.m else w.m2) := by
    cases b
    · exact hw.allocM2
    · exact hw.allocM
  have hallocD : WorldAlloc n ⟨Lx * Lx, Lz, NN⟩ (if b then w.m2 else w.m) := by
    cases b
    · exact hw.allocM
    · exact hw.allocM2
  obtain ⟨src, e1, e2⟩ := exchange_eq (s := ⟨Lx, S, NN⟩) hf.ranks hf.bytes hf.depth.1 hNN
    hf.message l.msgs hl.msgs _ halloc
  have hkeep : ∀ r a, r < n → NN * (Lx * Lx) ≤ a → a < (NN + Lz) * (Lx * Lx) →
      src (r, a) = (if b then w.m else w.m2) (r, a) := by
    intro r a hr h1 h2
    refine e2.keep r a ?_
    rintro ⟨_, h3⟩
    simp only [Nat.sub_self, Nat.zero_mul] at h3
    omega
  obtain ⟨p, e3, h1, h2, h3⟩ := ranks_step hf hc hl hφ
    (fun r hr => exchanged_holds hf.ranks hf.lanes hf.dvd hf.depth.1 hNN hφ hw.field e2 hr)
    halloc hkeep hallocD hw.vel
  have ha := exchanged_alloc (g := ⟨Lx * Lx, Lz, NN⟩) hf.depth.1 hp halloc e2
  refine ⟨if b then ⟨src, p.1, p.2⟩ else ⟨p.1, src, p.2⟩, ?_, ?_⟩
  · unfold substep
    simp only [e1, e3, Option.bind_eq_bind, Option.bind_some, Option.pure_def]
  · cases b
    · exact ⟨h1, ha, h2, h3⟩
    · exact ⟨ha, h1, h2, h3⟩

/-- Number of substeps done: where the field is afterwards. -/
def inM (b : Bool) : Nat → Bool
  | 0 => b
  | k + 1 => inM (!b) k

theorem inM_eq (b : Bool) (k : Nat) : inM b k = if k % 2 = 0 then b else !b := by
  induction k generalizing b with
  | zero => rfl
  | succ k ih =>
    rw [inM, ih]
    rcases Nat.mod_two_eq_zero_or_one k with h | h
    · rw [if_pos h, if_neg (by omega)]
    · rw [if_neg (by omega), if_pos (by omega), Bool.not_not]

/-- Any number of substeps on any number of ranks, whatever the order of the messages and of the
vectors, never goes out of bounds and leaves on the ranks the lattice evolved on its own. -/
theorem C59_run {n sz Lx S Lz NN : Nat} (hf : Fits n sz Lx S Lz NN) {us : List (Sub α × Luck α)}
    {gs : List (Rule α)}
    (hus : List.Forall₂ (fun ul g => Computes NN ul.1 g ∧ Fair Lx S Lz NN ul.2) us gs) {b : Bool}
    {w : World α} {F : Lat α} (hφ : Periodic3 Lx (n * Lz) F.φ) (hν : Periodic3 Lx (n * Lz) F.ν)
    (hw : Holding n Lx S Lz NN b w F) :
    ∃ w', run n sz ⟨Lx, S, NN⟩ Lz b us w = some w' ∧
      Holding n Lx S Lz NN (if us.length % 2 = 0 then b else !b) w' (evolve gs F) := by
  rw [← inM_eq]
  induction hus generalizing b w F with
  | nil => exact ⟨w, rfl, hw⟩
  | @cons ul g us gs h1 _ ih =>
    obtain ⟨w1, e1, e2⟩ := C59_substep hf h1.1 h1.2 hφ hw
    have hp := Rule.step_periodic h1.1 hφ hν
    obtain ⟨w2, e3, e4⟩ := ih hp.1 hp.2 e2
    refine ⟨w2, ?_, e4⟩
    obtain ⟨u, l⟩ := ul
    unfold run
    rw [e1]
    exact e3

/-! ### The two kernels -/

/-- The rule of an axion substep: periodic or plain differences, the kick and drift of C58. -/
def axionRule {K : Type} [Field K] [LinearOrder K] (NN : Nat) (w : Nat → K) (pot : ThetaKernel.Pot)
    (p : Simd.Prec) (wMod : Bool) (P : ThetaKernel.Par K) : Rule K where
  lap := ThetaKernel.lapW (ThetaKernel.wrapOf wMod P.tV) (fun k => w k * P.ood2) NN
  law := ThetaKernel.kick pot p wMod P

theorem axion_computes {K : Type} [Field K] [LinearOrder K] {NN : Nat} (h5 : NN ≤ 5) {w : Nat → K}
    (pot : ThetaKernel.Pot) (p : Simd.Prec) (wMod : Bool) (P : ThetaKernel.Par K)
    (hPC : ∀ k, k < NN → P.PC[k]? = some (w k)) :
    Computes NN (axionSub pot p wMod P) (axionRule NN w pot p wMod P) where
  law := rfl
  lap := fun hS hd hrow m φ nz hper hm _ _ _ hx hy hz hz' =>
    ThetaKernel.lapT_eq hS hd hrow wMod P w hPC h5 m φ nz hper hm hx hy hz hz'
  shift := by
    intro φ a b c x y z
    simp only [axionRule, ThetaKernel.lapW, add_right_comm, sub_add_eq_add_sub]
  near := by
    intro φ ψ x y z h
    simp only [axionRule, ThetaKernel.lapW]
    refine Finset.sum_congr rfl fun k hk => ?_
    rw [Finset.mem_range] at hk
    simp only [h _ _ z (by omega) (by omega), h _ _ (z + (k + 1 : Nat)) (by omega) (by omega),
      h _ _ (z - (k + 1 : Nat)) (by omega) (by omega)]

/-- The rule of a saxion substep: the plain Laplacian of C04. -/
def saxionRule {K : Type} [Field K] [AddCommGroup α] [Module K α] (NN : Nat) (w : Nat → K) (ood2 : K)
    (law : α → α → α → α × α) : Rule α where
  lap := laplacian (fun k => w k * ood2) NN
  law := law

theorem saxion_computes {K : Type} [Field K] [AddCommGroup α] [Module K α] {NN : Nat} (h5 : NN ≤ 5)
    {w : Nat → K} (PC : List K) (ood2 : K) (law : α → α → α → α × α)
    (hPC : ∀ k, k < NN → PC[k]? = some (w k)) :
    Computes NN (saxionSub PC ood2 law) (saxionRule NN w ood2 law) where
  law := rfl
  lap := fun hS hd hrow m φ nz hper hm _ _ _ hx hy hz hz' =>
    C04_laplacian hS hd hrow PC w hPC h5 ood2 m φ nz hper hm hx hy hz hz'
  shift := by
    intro φ a b c x y z
    simp only [saxionRule, laplacian, add_right_comm, sub_add_eq_add_sub]
  near := by
    intro φ ψ x y z h
    simp only [saxionRule, laplacian]
    refine Finset.sum_congr rfl fun k hk => ?_
    rw [Finset.mem_range] at hk
    simp only [h _ _ z (by omega) (by omega), h _ _ (z + (k + 1 : Nat)) (by omega) (by omega),
      h _ _ (z - (k + 1 : Nat)) (by omega) (by omega)]

/-- Axion runs: any sequence of kicks of C58 (potential, precision, wrapping and parameters may change
from substep to substep). -/
theorem C59_axion {K : Type} [Field K] [LinearOrder K] {n sz Lx S Lz NN : Nat}
    (hf : Fits n sz Lx S Lz NN) (h5 : NN ≤ 5) (w : Nat → K)
    (steps : List ((ThetaKernel.Pot × Simd.Prec × Bool × ThetaKernel.Par K) × Luck K))
    (hsteps : ∀ q ∈ steps, (∀ k, k < NN → q.1.2.2.2.PC[k]? = some (w k)) ∧ Fair Lx S Lz NN q.2)
    {b : Bool} {wd : World K} {F : Lat K} (hφ : Periodic3 Lx (n * Lz) F.φ)
    (hν : Periodic3 Lx (n * Lz) F.ν) (hw : Holding n Lx S Lz NN b wd F) :
    ∃ w', run n sz ⟨Lx, S, NN⟩ Lz b
        (steps.map fun q => (axionSub q.1.1 q.1.2.1 q.1.2.2.1 q.1.2.2.2, q.2)) wd = some w' ∧
      Holding n Lx S Lz NN (if steps.length % 2 = 0 then b else !b) w'
        (evolve (steps.map fun q => axionRule NN w q.1.1 q.1.2.1 q.1.2.2.1 q.1.2.2.2) F) := by
  have key := C59_run (us := steps.map fun q => (axionSub q.1.1 q.1.2.1 q.1.2.2.1 q.1.2.2.2, q.2))
    (gs := steps.map fun q => axionRule NN w q.1.1 q.1.2.1 q.1.2.2.1 q.1.2.2.2) hf
    (by
      rw [List.forall₂_map_left_iff, List.forall₂_map_right_iff, List.forall₂_same]
      exact fun q hq => ⟨axion_computes h5 _ _ _ _ (hsteps q hq).1, (hsteps q hq).2⟩) hφ hν hw
  rwa [List.length_map] at key

/-- Saxion runs: any sequence of laws for a site. -/
theorem C59_saxion {K : Type} [Field K] [AddCommGroup α] [Module K α] {n sz Lx S Lz NN : Nat}
    (hf : Fits n sz Lx S Lz NN) (h5 : NN ≤ 5) (PC : List K) (w : Nat → K) (ood2 : K)
    (hPC : ∀ k, k < NN → PC[k]? = some (w k))
    (steps : List ((α → α → α → α × α) × Luck α)) (hsteps : ∀ q ∈ steps, Fair Lx S Lz NN q.2)
    {b : Bool} {wd : World α} {F : Lat α} (hφ : Periodic3 Lx (n * Lz) F.φ)
    (hν : Periodic3 Lx (n * Lz) F.ν) (hw : Holding n Lx S Lz NN b wd F) :
    ∃ w', run n sz ⟨Lx, S, NN⟩ Lz b (steps.map fun q => (saxionSub PC ood2 q.1, q.2)) wd = some w' ∧
      Holding n Lx S Lz NN (if steps.length % 2 = 0 then b else !b) w'
        (evolve (steps.map fun q => saxionRule NN w ood2 q.1) F) := by
  have key := C59_run (us := steps.map fun q => (saxionSub PC ood2 q.1, q.2))
    (gs := steps.map fun q => saxionRule NN w ood2 q.1) hf
    (by
      rw [List.forall₂_map_left_iff, List.forall₂_map_right_iff, List.forall₂_same]
      exact fun q hq => ⟨saxion_computes h5 _ _ _ hPC, hsteps q hq⟩) hφ hν hw
  rwa [List.length_map] at key

/-! ### Independence of the division -/

/-- Value of site `(x, y, Z)` of the whole lattice in arrays divided over ranks of depth `Lz`. -/
def site (Lx S Lz off : Nat) (h : Nat × Nat → Option α) (x y Z : Nat) : Option α :=
  h (Z / Lz, cell Lx S x y (Z % Lz + off))

theorem Shows.site {n Lx S Lz off : Nat} (hL : 0 < Lz) {h : Nat × Nat → Option α}
    {φ : Int → Int → Int → α} (hs : Shows n Lx S Lz off h φ) {x y Z : Nat} (hx : x < Lx) (hy : y < Lx)
    (hZ : Z < n * Lz) : site Lx S Lz off h x y Z = some (φ x y Z) := by
  have := hs (Z / Lz) x y (Z % Lz) (Nat.div_lt_of_lt_mul (by rw [Nat.mul_comm]; exact hZ)) hx hy
    (Nat.mod_lt _ hL)
  rw [div_mul_add_mod] at this
  exact this

/-- The same lattice run on different numbers of ranks, with different vector widths, tiles, message
orders and cell sizes ends with the same field and velocity at every site. -/
theorem C59_same {n n' sz sz' Lx S S' Lz Lz' NN : Nat} (hf : Fits n sz Lx S Lz NN)
    (hf' : Fits n' sz' Lx S' Lz' NN) (hN : n * Lz = n' * Lz') {us us' : List (Sub α × Luck α)}
    {gs : List (Rule α)}
    (hus : List.Forall₂ (fun ul g => Computes NN ul.1 g ∧ Fair Lx S Lz NN ul.2) us gs)
    (hus' : List.Forall₂ (fun ul g => Computes NN ul.1 g ∧ Fair Lx S' Lz' NN ul.2) us' gs) {b : Bool}
    {w w' : World α} {F : Lat α} (hφ : Periodic3 Lx (n * Lz) F.φ) (hν : Periodic3 Lx (n * Lz) F.ν)
    (hw : Holding n Lx S Lz NN b w F) (hw' : Holding n' Lx S' Lz' NN b w' F) :
    ∃ e e', run n sz ⟨Lx, S, NN⟩ Lz b us w = some e ∧
      run n' sz' ⟨Lx, S', NN⟩ Lz' b us' w' = some e' ∧
      ∀ x y Z, x < Lx → y < Lx → Z < n * Lz →
        let c := if gs.length % 2 = 0 then b else !b
        site Lx S Lz NN (if c then e.m else e.m2) x y Z =
            site Lx S' Lz' NN (if c then e'.m else e'.m2) x y Z ∧
          site Lx S Lz 0 e.v x y Z = site Lx S' Lz' 0 e'.v x y Z := by
  obtain ⟨e, h1, h2⟩ := C59_run hf hus hφ hν hw
  obtain ⟨e', h1', h2'⟩ := C59_run hf' hus' (hN ▸ hφ) (hN ▸ hν) hw'
  refine ⟨e, e', h1, h1', ?_⟩
  rw [hus.length_eq] at h2
  rw [hus'.length_eq] at h2'
  intro x y Z hx hy hZ c
  rw [h2.field.site hf.depth.1 hx hy hZ, h2'.field.site hf'.depth.1 hx hy (hN ▸ hZ),
    h2.vel.site hf.depth.1 hx hy hZ, h2'.vel.site hf'.depth.1 hx hy (hN ▸ hZ)]
  exact ⟨rfl, rfl⟩

/-! ### The hypotheses can be met -/

/-- Arrays of `n` ranks filled from a lattice. -/
def fill (n Lx S Lz off : Nat) (φ : Int → Int → Int → α) : Heap (Nat × Nat) α := fun p =>
  if p.1 < n ∧ p.2 < (Lz + 2 * off) * (Lx * Lx) then
    let c := p.2 % (Lx * Lx)
    some (φ (c / S % Lx : Nat) (c % S * (Lx / S) + c / S / Lx : Nat)
      ((p.1 * Lz + p.2 / (Lx * Lx) : Nat) - (off : Nat) : Int))
  else none

theorem fill_shows {n Lx S Lz off : Nat} (hS : 0 < S) (hd : S ∣ Lx) (φ : Int → Int → Int → α) :
    Shows n Lx S Lz off (fill n Lx S Lz off φ) φ := by
  intro r x y z hr hx hy hz
  have hlt := cell_lt hS hd hx hy
  have e1 : cell Lx S x y (z + off) / (Lx * Lx) = z + off := by rw [cell_split]; exact div_of hlt
  have e2 : cell Lx S x y (z + off) % (Lx * Lx) = cell Lx S x y 0 := by
    rw [cell_split]; exact mod_of hlt
  obtain ⟨Y, rfl⟩ : ∃ Y, Lx = Y * S := by
    obtain ⟨Y, h⟩ := hd; exact ⟨Y, by rw [h, Nat.mul_comm]⟩
  have hY : 0 < Y := by
    rcases Nat.eq_zero_or_pos Y with h | h
    · subst h; simp at hy
    · exact h
  have hc : cell (Y * S) S x y 0 = (y % Y * (Y * S) + x) * S + y / Y := by
    unfold cell; rw [Nat.mul_div_cancel _ hS]; ring
  have hl : y / Y < S := by rw [Nat.div_lt_iff_lt_mul hY, Nat.mul_comm]; exact hy
  unfold fill
  simp only
  rw [if_pos]
  · rw [e1, e2, hc, div_of hl, mod_of hl, div_of hx, mod_of hx, Nat.mul_div_cancel _ hS,
      div_mul_add_mod]
    congr 2
    push_cast
    ring
  · refine ⟨hr, ?_⟩
    rw [cell_split]
    exact pair_lt (by omega) hlt

/-- Every lattice can be put on the ranks. -/
theorem C59_holding {n Lx S Lz NN : Nat} (hS : 0 < S) (hd : S ∣ Lx) (b : Bool) (F : Lat α) :
    Holding n Lx S Lz NN b ⟨fill n Lx S Lz NN F.φ, fill n Lx S Lz NN F.φ, fill n Lx S Lz 0 F.ν⟩ F where
  allocM := fun r a => by unfold fill; simp only; split <;> simp_all
  allocM2 := fun r a => by unfold fill; simp only; split <;> simp_all
  field := by simp only [ite_self]; exact fill_shows hS hd _
  vel := fill_shows hS hd _

/-- In order, with tiles of one row. -/
def inOrder (Lx S Lz NN : Nat) (x : α) : Luck α where
  msgs := id
  bulk := fun _ => kernelVisits Lx S 1 1 (2 * (NN * (Lx * Lx))) (Lz * (Lx * Lx))
  edges := fun _ => (boundaryCalls true (NN * (Lx * Lx)) (Lz * (Lx * Lx))).flatMap fun c =>
    kernelVisits Lx S 1 1 c.1 c.2
  ghosts := fun _ _ => x

theorem fair_inOrder (Lx S Lz NN : Nat) (x : α) : Fair Lx S Lz NN (inOrder Lx S Lz NN x) :=
  ⟨fun _ => List.Perm.refl _,
    fun _ => ⟨1, 1, Nat.one_pos, Nat.one_pos, List.Perm.refl _, List.Perm.refl _⟩⟩

/-- Backwards, with tiles that depend on the rank. -/
def backwards (Lx S Lz NN : Nat) (x : Nat → Nat → α) : Luck α where
  msgs := List.reverse
  bulk := fun r => (kernelVisits Lx S (r + 1) 2 (2 * (NN * (Lx * Lx))) (Lz * (Lx * Lx))).reverse
  edges := fun r => ((boundaryCalls true (NN * (Lx * Lx)) (Lz * (Lx * Lx))).flatMap fun c =>
    kernelVisits Lx S (r + 1) 2 c.1 c.2).reverse
  ghosts := x

theorem fair_backwards (Lx S Lz NN : Nat) (x : Nat → Nat → α) :
    Fair Lx S Lz NN (backwards Lx S Lz NN x) :=
  ⟨fun _ => List.reverse_perm _,
    fun r => ⟨r + 1, 2, Nat.succ_pos _, Nat.two_pos, List.reverse_perm _, List.reverse_perm _⟩⟩

/-- Two kicks of a lattice of `8×8×8` sites, on two ranks with vectors of two single precision sites
and on four ranks with vectors of four, messages and vectors in different orders. -/
example (F : Lat ℚ) (hφ : Periodic3 8 (2 * 4) F.φ) (hν : Periodic3 8 (2 * 4) F.ν)
    (P : ThetaKernel.Par ℚ) (hP : P.PC = [1]) :
    ∃ e e', run 2 4 ⟨8, 2, 1⟩ 4 true
        [(axionSub .qcdC .single true P, inOrder 8 2 4 1 0),
         (axionSub .qcd0 .single true P, inOrder 8 2 4 1 0)]
        ⟨fill 2 8 2 4 1 F.φ, fill 2 8 2 4 1 F.φ, fill 2 8 2 4 0 F.ν⟩ = some e ∧
      run 4 4 ⟨8, 4, 1⟩ 2 true
        [(axionSub .qcdC .single true P,
            backwards 8 4 2 1 fun r a => r + a),
         (axionSub .qcd0 .single true P,
            backwards 8 4 2 1 fun r a => r + a)]
        ⟨fill 4 8 4 2 1 F.φ, fill 4 8 4 2 1 F.φ, fill 4 8 4 2 0 F.ν⟩ = some e' ∧
      ∀ x y Z, x < 8 → y < 8 → Z < 8 →
        site 8 2 4 1 e.m x y Z = site 8 4 2 1 e'.m x y Z ∧
        site 8 2 4 0 e.v x y Z = site 8 4 2 0 e'.v x y Z := by
  have hPC : ∀ k, k < 1 → P.PC[k]? = some ((fun _ => 1 : Nat → ℚ) k) := by
    intro k hk
    obtain rfl : k = 0 := by omega
    rw [hP]; rfl
  have hc := fun pot => axion_computes (NN := 1) (by decide) pot .single true P hPC
  have key := C59_same (n := 2) (n' := 4) (sz := 4) (sz' := 4) (Lx := 8) (S := 2) (S' := 4) (Lz := 4)
    (Lz' := 2) (NN := 1)
    (us := [(axionSub .qcdC .single true P, inOrder 8 2 4 1 0),
         (axionSub .qcd0 .single true P, inOrder 8 2 4 1 0)])
    (us' := [(axionSub .qcdC .single true P,
            backwards 8 4 2 1 fun r a => r + a),
         (axionSub .qcd0 .single true P,
            backwards 8 4 2 1 fun r a => r + a)])
    (gs := [axionRule 1 (fun _ => 1) .qcdC .single true P,
      axionRule 1 (fun _ => 1) .qcd0 .single true P])
    ⟨by decide, by decide, by decide, by decide, by decide, by decide, by decide, by omega⟩
    ⟨by decide, by decide, by decide, by decide, by decide, by decide, by decide, by omega⟩ rfl
    (.cons ⟨hc _, fair_inOrder _ _ _ _ _⟩ (.cons ⟨hc _, fair_inOrder _ _ _ _ _⟩ .nil))
    (.cons ⟨hc _, fair_backwards _ _ _ _ _⟩ (.cons ⟨hc _, fair_backwards _ _ _ _ _⟩ .nil)) hφ hν
    (C59_holding (by decide) (by decide) true F) (C59_holding (by decide) (by decide) true F)
  obtain ⟨e, e', h1, h2, h3⟩ := key
  exact ⟨e, e', h1, h2, fun x y Z hx hy hZ => by simpa using h3 x y Z hx hy hZ⟩

end Jaxions.Run
