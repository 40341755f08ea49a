import Verif.Props.EnergySax
import Verif.Props.EnergyTheta
import Verif.Model.EnergyCall
import Verif.Spec.EnergyCall
/-
C53: the energies `energy` returns and `writeEnergy` stores are averages over the whole lattice.
-/
noncomputable section

namespace Jaxions.Energy

open Stencil Simd SaxKernel

/-! ### Helpers -/

theorem sumOpt_some (n : ℕ) (t : ℕ → ℕ → Option ℝ) (q : ℕ) (g : ℕ → ℝ)
    (h : ∀ r, r < n → t r q = some (g r)) :
    sumOpt (((List.range n).map t).map fun t => t q) = some (∑ r ∈ Finset.range n, g r) := by
  have key : ∀ l : List ℕ, (∀ r ∈ l, r < n) →
      sumOpt ((l.map t).map fun t => t q) = some ((l.map g).sum) := by
    intro l
    induction l with
    | nil => intro _; rfl
    | cons a l ih =>
      intro hl
      simp only [List.map_cons, sumOpt, h a (hl a List.mem_cons_self),
        ih (fun r hr => hl r (List.mem_cons_of_mem _ hr)), List.sum_cons]
      rfl
  rw [key _ (fun r hr => List.mem_range.1 hr)]
  rfl

theorem sumOpt_none (n : ℕ) (t : ℕ → ℕ → Option ℝ) (q : ℕ) {r : ℕ} (hr : r < n)
    (h : t r q = none) : sumOpt (((List.range n).map t).map fun t => t q) = none := by
  have key : ∀ l : List ℕ, r ∈ l → sumOpt ((l.map t).map fun t => t q) = none := by
    intro l
    induction l with
    | nil => simp
    | cons a l ih =>
      intro hl
      rcases List.mem_cons.1 hl with e | e
      · subst e
        simp [sumOpt, h]
      · simp only [List.map_cons, sumOpt]
        rw [ih e]
        cases t a q <;> rfl
  exact key _ (List.mem_range.2 hr)

/-- Sums over the ranks of sums over their sites are sums over the lattice. -/
theorem sum_ranks (n V : ℕ) (f : ℕ → ℝ) :
    ∑ r ∈ Finset.range n, ∑ k ∈ Finset.range V, f (r * V + k) = ∑ N ∈ Finset.range (n * V), f N := by
  induction n with
  | zero => simp
  | succ n ih => rw [Finset.sum_range_succ, ih, Nat.succ_mul, Finset.sum_range_add]

theorem xOf_rank (Lx Lz r k : ℕ) : xOf Lx (r * (Lz * (Lx * Lx)) + k) = xOf Lx k := by
  unfold xOf
  rw [show r * (Lz * (Lx * Lx)) + k = k + Lx * (r * (Lz * Lx)) by ring, Nat.add_mul_mod_self_left]

theorem yOf_rank {Lx : ℕ} (hL : 0 < Lx) (Lz r k : ℕ) :
    yOf Lx (r * (Lz * (Lx * Lx)) + k) = yOf Lx k := by
  unfold yOf
  rw [show r * (Lz * (Lx * Lx)) + k = k + Lx * (Lx * (r * Lz)) by ring, Nat.add_mul_div_left _ _ hL,
    Nat.add_mul_mod_self_left]

theorem zOf_rank {Lx : ℕ} (hL : 0 < Lx) (Lz r k : ℕ) :
    zOf Lx (r * (Lz * (Lx * Lx)) + k) = zOf Lx k + r * Lz := by
  unfold zOf
  rw [show r * (Lz * (Lx * Lx)) + k = k + Lx * (Lx * (r * Lz)) by ring, Nat.add_mul_div_left _ _ hL,
    Nat.add_mul_div_left _ _ hL]

theorem saxDensity_slab (U : SaxUniverse) (pq : Pq) (V : ℝ × ℝ → ℝ) (Φ Φ' : ℤ → ℤ → ℤ → ℝ × ℝ)
    (Lz NN r : ℕ) (x y z : ℤ) (q : ℕ) :
    saxDensity U pq V (slab Lz NN r Φ) (slab Lz NN r Φ') x y (z + NN) q =
      saxDensity U pq V Φ Φ' x y (z + r * Lz) q := by
  have e0 : z + NN - NN + r * Lz = z + r * Lz := by ring
  have e1 : z + NN + 1 - NN + r * Lz = z + r * Lz + 1 := by ring
  have e2 : z + NN - 1 - NN + r * Lz = z + r * Lz - 1 := by ring
  rcases q with _ | _ | _ | _ | _ | _ | _ | _ | _ | _ | _ | q <;>
    simp only [saxDensity, slab, e0, e1, e2]

theorem axionDensity_slab (U : Universe) (w : ℝ → ℝ) (Φ Φ' : ℤ → ℤ → ℤ → ℝ)
    (Lz NN r : ℕ) (x y z : ℤ) (q : ℕ) :
    axionDensity U w (slab Lz NN r Φ) (slab Lz NN r Φ') x y (z + NN) q =
      axionDensity U w Φ Φ' x y (z + r * Lz) q := by
  have e0 : z + NN - NN + r * Lz = z + r * Lz := by ring
  have e1 : z + NN + 1 - NN + r * Lz = z + r * Lz + 1 := by ring
  have e2 : z + NN - 1 - NN + r * Lz = z + r * Lz - 1 := by ring
  rcases q with _ | _ | _ | _ | _ | q <;>
    simp only [axionDensity, meanX, meanY, meanZ, slab, e0, e1, e2]

theorem mapM_range {α : Type} (n : ℕ) (f : ℕ → Option α) (g : ℕ → α)
    (h : ∀ r, r < n → f r = some (g r)) : (List.range n).mapM f = some ((List.range n).map g) := by
  have key : ∀ l : List ℕ, (∀ r ∈ l, r < n) → l.mapM f = some (l.map g) := by
    intro l
    induction l with
    | nil => intro _; rfl
    | cons a l ih =>
      intro hl
      rw [List.mapM_cons, h a (hl a List.mem_cons_self), ih fun r hr => hl r (List.mem_cons_of_mem _ hr)]
      rfl
  exact key _ fun r hr => List.mem_range.1 hr

theorem masked_sum (V : ℕ) (mk : ℕ → Bool) (f : ℕ → ℝ) :
    (∑ n ∈ Finset.range V, if mk n = true then f n else 0) =
      ∑ n ∈ (Finset.range V).filter (fun n => mk n = true), f n := (Finset.sum_filter _ _).symm

theorem masked_card (V : ℕ) (mk : ℕ → Bool) :
    (∑ n ∈ Finset.range V, if mk n = true then (1 : ℝ) else 0) = masked V mk := by
  rw [masked_sum, Finset.sum_const, nsmul_eq_mul, mul_one, masked]

/-! ### C53 -/

/-- A run on `n` ranks: on each the conditions of `Call` for its slab of the whole field. -/
structure Ranks (p : Prec) (i : Isa) (Lx Lz NN Vt n : ℕ) (U : SaxUniverse)
    (Φ Φ' : ℤ → ℤ → ℤ → ℝ × ℝ) (m v : ℕ → Heap ℕ (ℝ × ℝ)) (m2 : ℕ → Heap ℕ ℝ)
    (order : ℕ → List ℕ) : Prop where
  some : 0 < n
  deep : 0 < Lz
  call : ∀ r, r < n → Call p i Lx Lz NN Vt U (slab Lz NN r Φ) (slab Lz NN r Φ') (m r) (v r) (m2 r)
    (order r)

theorem Ranks.side {p : Prec} {i : Isa} {Lx Lz NN Vt n : ℕ} {U : SaxUniverse}
    {Φ Φ' : ℤ → ℤ → ℤ → ℝ × ℝ} {m v : ℕ → Heap ℕ (ℝ × ℝ)} {m2 : ℕ → Heap ℕ ℝ} {order : ℕ → List ℕ}
    (h : Ranks p i Lx Lz NN Vt n U Φ Φ' m v m2 order) : 0 < Lx := by
  have := (h.call 0 h.some).rows
  rcases Nat.eq_zero_or_pos Lx with e | e
  · subst e; simp at this
  · exact e

/-- **C53** Single precision: what `energy` returns are the averages over the whole lattice, and over
the masked sites of the whole lattice, whatever the number of ranks.  If no site is masked the masked
averages are no numbers.  Every request but `EN_MASK` marks the map array as energy map and fills
it. -/
theorem C53_mean {Lx Lz NN Vt n : ℕ} (i : Isa) (U : SaxUniverse) (pq : Pq) (qcd : Qcd)
    (hq : qcd = .qcdC ∨ qcd = .qcdV ∨ (qcd = .qcd0 ∧ U.chi = 0)) (req : Req) (lowMem hasMask : Bool)
    (hreq : req = .mask ∨ lowMem = false) (hmask : wantsMask req → hasMask = true) (threads : ℕ)
    (Φ Φ' : ℤ → ℤ → ℤ → ℝ × ℝ) (MK : ℕ → Bool) (m v : ℕ → Heap ℕ (ℝ × ℝ)) (m2 : ℕ → Heap ℕ ℝ)
    (order : ℕ → List ℕ) (h : Ranks .single i Lx Lz NN Vt n U Φ Φ' m v m2 order)
    (buf : ℕ → Option ℝ) (b : Bool) :
    let ε := fun N => saxDensity U pq (named U qcd) Φ Φ' (xOf Lx N) (yOf Lx N) (zOf Lx N)
    let W := Lz * (Lx * Lx)
    let V := n * W
    ∃ e b' maps, energySaxRanks Real.sqrt Nat.floor (saxParams U) .single i threads (pq, qcd) lowMem
        hasMask req Vt ⟨Lx, sites .saxion .single i, NN⟩ n V (fun r k => MK (r * W + k)) m v order m2
        buf b = some ((e, b'), maps) ∧
      (wantsTotal req → ∀ q, q < 11 → e q = some (mean V fun N => ε N q)) ∧
      (wantsMask req → 0 < masked V MK → e 22 = some (masked V MK : ℝ) ∧
        ∀ q, q < 11 → e (11 + q) = some (maskedMean V MK fun N => ε N q)) ∧
      (masked V MK = 0 ∨ ¬ wantsMask req → ∀ q, q < 11 → e (11 + q) = none) ∧
      b' = (b || decide (req ≠ .mask)) ∧ maps.length = n ∧
      ∀ r, r < n → ∃ M, maps[r]? = some M ∧
        (req = .mask → M = m2 r) ∧
        (req ≠ .mask → ∀ k, k < W → let N := r * W + k
          M k = some (if req = .mapmask ∧ MK N = false then 0
            else ε N 0 + ε N 1 + ε N 2 + ε N 3 + ε N 4) ∧
          M (k + Vt) = some (if req = .mapmask ∧ MK N = false then 0
            else ε N 5 + ε N 6 + ε N 7 + ε N 8 + ε N 9)) := by
  intro ε W V
  have hL := h.side
  have hε : ∀ r k q, saxDensity U pq (named U qcd) (slab Lz NN r Φ) (slab Lz NN r Φ') (xOf Lx k)
      (yOf Lx k) (zOf Lx k + NN) q = ε (r * W + k) q := by
    intro r k q
    rw [saxDensity_slab]
    simp only [ε, W, xOf_rank, yOf_rank hL, zOf_rank hL]
    push_cast
    rfl
  have hex : ∀ r, ∃ o, r < n → _ := fun r => by
    by_cases hr : r < n
    · obtain ⟨o, ho⟩ := C52_single i U pq qcd hq req (fun k => MK (r * W + k)) threads _ _ (m r) (v r)
        (m2 r) (order r) (h.call r hr)
      exact ⟨o, fun _ => ho⟩
    · exact ⟨(fun _ => none, fun _ => none), fun c => absurd c hr⟩
  choose o ho using hex
  have hrun := mapM_range n _ o fun r hr => (ho r hr).1
  have hV : 0 < V := Nat.mul_pos h.some (Nat.mul_pos h.deep (Nat.mul_pos hL hL))
  have hVr : (V : ℝ) ≠ 0 := by exact_mod_cast hV.ne'
  have hre : refuses true lowMem hasMask req = false := by
    have h1 : (req.hasMap && true && lowMem) = false := by
      rcases hreq with e | e
      · rw [e]; cases lowMem <;> rfl
      · rw [e, Bool.and_false]
    have h2 : (req.hasMask && !hasMask) = false := by
      by_cases w : wantsMask req
      · simp [hmask w]
      · have : req.hasMask = false := Bool.eq_false_iff.2 fun e => w ((hasMask_iff req).1 e)
        simp [this]
    rw [refuses, h1, h2]
    rfl
  have key : ∀ (q : ℕ) (g : ℕ → ℝ), q < 23 → (∀ r, r < n → (o r).1 q = some (∑ k ∈ Finset.range W, g (r * W + k))) →
      allreduce true ((List.range n).map fun r => (o r).1) buf q = some (∑ N ∈ Finset.range V, g N) := by
    intro q g hq hg
    simp only [allreduce, if_true, if_pos hq]
    rw [sumOpt_some n (fun r => (o r).1) q _ hg, sum_ranks]
  have h22 : allreduce true ((List.range n).map fun r => (o r).1) buf 22 =
      some (if wantsMask req then (masked V MK : ℝ) else 0) := by
    by_cases w : wantsMask req
    · rw [key 22 (fun N => if MK N = true then 1 else 0) (by omega), if_pos w, masked_card]
      intro r hr
      rw [(ho r hr).2.2.2.1, if_pos w]
    · rw [key 22 (fun N => 0) (by omega), if_neg w, Finset.sum_const_zero]
      intro r hr
      rw [(ho r hr).2.2.2.1, if_neg w, Finset.sum_const_zero]
  refine ⟨scaled V (allreduce true ((List.range n).map fun r => (o r).1) buf), b || req.hasMap,
    (List.range n).map fun r => (o r).2, ?_, ?_, ?_, ?_, ?_, by simp, ?_⟩
  · simp only [energySaxRanks, hre, Bool.false_eq_true, if_false]
    rw [hrun]
    simp only [Option.bind_eq_bind, Option.bind_some, Option.pure_def, List.map_map]
    rfl
  · intro w q hq'
    show scaled V (allreduce true ((List.range n).map fun r => (o r).1) buf) q = _
    rw [scaled, if_pos hq', key q (fun N => ε N q) (by omega)]
    · simp only [mean, Option.bind_eq_bind, Option.bind_some, Option.pure_def, mul_one_div]
    · intro r hr
      rw [(ho r hr).2.1 q hq', if_pos w]
      simp only [hε]
      rfl
  · intro w hm
    have hmr : ((masked V MK : ℕ) : ℝ) ≠ 0 := by exact_mod_cast hm.ne'
    constructor
    · show scaled V (allreduce true ((List.range n).map fun r => (o r).1) buf) 22 = _
      simp only [scaled, h22, if_pos w]
      norm_num
    · intro q hq'
      show scaled V (allreduce true ((List.range n).map fun r => (o r).1) buf) (11 + q) = _
      rw [scaled, if_neg (by omega), if_pos (by omega), h22, if_pos w,
        key (11 + q) (fun N => if MK N = true then ε N q else 0) (by omega)]
      · simp only [Option.bind_eq_bind, Option.bind_some, Option.pure_def, if_neg hmr, mul_one_div,
          masked_sum, maskedMean]
      · intro r hr
        rw [(ho r hr).2.2.1 q hq', if_pos w]
        simp only [hε]
        rfl
  · intro hm q hq'
    show scaled V (allreduce true ((List.range n).map fun r => (o r).1) buf) (11 + q) = _
    have : (if wantsMask req then (masked V MK : ℝ) else 0) = 0 := by
      rcases hm with e | e
      · simp [e]
      · rw [if_neg e]
    rw [scaled, if_neg (by omega), if_pos (by omega), h22, this]
    simp
  · show (b || req.hasMap) = _
    cases req <;> rfl
  · intro r hr
    refine ⟨(o r).2, by simp [hr], (ho r hr).2.2.2.2.1, ?_⟩
    intro hne k hk N
    obtain ⟨c1, c2⟩ := (ho r hr).2.2.2.2.2.1 hne k hk
    rw [c1, c2]
    simp only [hε]
    exact ⟨rfl, rfl⟩

/-- The same for doubles: means of gradients, potentials; the kinetic ones times `⌊1/R²⌋R²`; the mean
radius is no number, and with more than one thread none of the masked averages is. -/
theorem C53_double {Lx Lz NN Vt n : ℕ} (i : Isa) (U : SaxUniverse) (pq : Pq) (qcd : Qcd)
    (hq : qcd = .qcdC ∨ qcd = .qcdV ∨ (qcd = .qcd0 ∧ U.chi = 0)) (req : Req) (lowMem hasMask : Bool)
    (hreq : req = .mask ∨ lowMem = false) (hmask : wantsMask req → hasMask = true) (threads : ℕ)
    (Φ Φ' : ℤ → ℤ → ℤ → ℝ × ℝ) (MK : ℕ → Bool) (m v : ℕ → Heap ℕ (ℝ × ℝ)) (m2 : ℕ → Heap ℕ ℝ)
    (order : ℕ → List ℕ) (h : Ranks .double i Lx Lz NN Vt n U Φ Φ' m v m2 order)
    (hub : i = .avx ∨ i = .avx2 → wantsMask req → ∀ n, MK n = false)
    (buf : ℕ → Option ℝ) (b : Bool) :
    let ε := fun N => saxDensity U pq (named U qcd) Φ Φ' (xOf Lx N) (yOf Lx N) (zOf Lx N)
    let W := Lz * (Lx * Lx)
    let V := n * W
    let f := fun q : ℕ => if q = 3 ∨ q = 8 then (⌊1 / U.R / U.R⌋₊ : ℝ) * U.R ^ 2 else 1
    ∃ e b' maps, energySaxRanks Real.sqrt Nat.floor (saxParams U) .double i threads (pq, qcd) lowMem
        hasMask req Vt ⟨Lx, sites .saxion .double i, NN⟩ n V (fun r k => MK (r * W + k)) m v order m2
        buf b = some ((e, b'), maps) ∧
      (wantsTotal req → ∀ q, q < 10 → e q = some (f q * mean V fun N => ε N q)) ∧
      e 10 = none ∧
      (1 < threads → ∀ q, q < 11 → e (11 + q) = none) := by
  intro ε W V f
  have hL := h.side
  have hε : ∀ r k q, saxDensity U pq (named U qcd) (slab Lz NN r Φ) (slab Lz NN r Φ') (xOf Lx k)
      (yOf Lx k) (zOf Lx k + NN) q = ε (r * W + k) q := by
    intro r k q
    rw [saxDensity_slab]
    simp only [ε, W, xOf_rank, yOf_rank hL, zOf_rank hL]
    push_cast
    rfl
  have hex : ∀ r, ∃ o, r < n → _ := fun r => by
    by_cases hr : r < n
    · obtain ⟨o, ho⟩ := C52_double i U pq qcd hq req (fun k => MK (r * W + k)) threads _ _ (m r) (v r)
        (m2 r) (order r) (h.call r hr) (fun a b k => hub a b _)
      exact ⟨o, fun _ => ho⟩
    · exact ⟨(fun _ => none, fun _ => none), fun c => absurd c hr⟩
  choose o ho using hex
  have hrun := mapM_range n _ o fun r hr => (ho r hr).1
  have hre : refuses true lowMem hasMask req = false := by
    have h1 : (req.hasMap && true && lowMem) = false := by
      rcases hreq with e | e
      · rw [e]; cases lowMem <;> rfl
      · rw [e, Bool.and_false]
    have h2 : (req.hasMask && !hasMask) = false := by
      by_cases w : wantsMask req
      · simp [hmask w]
      · have : req.hasMask = false := Bool.eq_false_iff.2 fun e => w ((hasMask_iff req).1 e)
        simp [this]
    rw [refuses, h1, h2]
    rfl
  refine ⟨scaled V (allreduce true ((List.range n).map fun r => (o r).1) buf), b || req.hasMap,
    (List.range n).map fun r => (o r).2, ?_, ?_, ?_, ?_⟩
  · simp only [energySaxRanks, hre, Bool.false_eq_true, if_false]
    rw [hrun]
    simp only [Option.bind_eq_bind, Option.bind_some, Option.pure_def, List.map_map]
    rfl
  · intro w q hq'
    rw [scaled, if_pos (by omega), allreduce, if_pos (by simp; omega),
      sumOpt_some n (fun r => (o r).1) q
        (fun r => ∑ k ∈ Finset.range W, f q * ε (r * W + k) q),
      sum_ranks n W fun N => f q * ε N q]
    · simp only [mean, Option.bind_eq_bind, Option.bind_some, Option.pure_def, mul_one_div,
        ← Finset.mul_sum, mul_div_assoc]
      rfl
    · intro r hr
      rw [(ho r hr).2.1 q hq', if_pos w, Finset.mul_sum]
      simp only [hε]
      rfl
  · rw [scaled, if_pos (by omega), allreduce, if_pos (by simp),
      sumOpt_none n (fun r => (o r).1) 10 h.some (ho 0 h.some).2.2.1]
    rfl
  · intro ht q hq'
    rw [scaled, if_neg (by omega), if_pos (by omega),
      show allreduce true ((List.range n).map fun r => (o r).1) buf 22 = none from ?_]
    · rfl
    · rw [allreduce, if_pos (by simp),
        sumOpt_none n (fun r => (o r).1) 22 h.some ((ho 0 h.some).2.2.2.2.2.1 ht).2]

/-- **C53** What ends up in the file: under the name of each quantity its average over the whole
lattice; after a masked request, under the name with `nMask` its average over the masked sites and
their number. -/
theorem C53_file {Lx Lz NN Vt n : ℕ} (i : Isa) (U : SaxUniverse) (pq : Pq) (qcd : Qcd)
    (hq : qcd = .qcdC ∨ qcd = .qcdV ∨ (qcd = .qcd0 ∧ U.chi = 0)) (threads : ℕ)
    (Φ Φ' : ℤ → ℤ → ℤ → ℝ × ℝ) (MK : ℕ → Bool) (m v : ℕ → Heap ℕ (ℝ × ℝ)) (m2 : ℕ → Heap ℕ ℝ)
    (order : ℕ → List ℕ) (h : Ranks .single i Lx Lz NN Vt n U Φ Φ' m v m2 order)
    (buf : ℕ → Option ℝ) (b : Bool) :
    let ε := fun N => saxDensity U pq (named U qcd) Φ Φ' (xOf Lx N) (yOf Lx N) (zOf Lx N)
    let W := Lz * (Lx * Lx)
    let V := n * W
    let call := fun lowMem req => energySaxRanks Real.sqrt Nat.floor (saxParams U) .single i threads
      (pq, qcd) lowMem true req Vt ⟨Lx, sites .saxion .single i, NN⟩ n V (fun r k => MK (r * W + k)) m v
      order m2 buf b
    (∃ s, call false .ene = some s ∧ ∀ rmask < 0, ((writeEnergy true rmask s.1.1).map Prod.fst).Nodup ∧
      ∀ q, q < 11 → (quantity q, some (mean V fun N => ε N q)) ∈ writeEnergy true rmask s.1.1) ∧
    ∀ lowMem, 0 < masked V MK → ∃ s, call lowMem .mask = some s ∧ ∀ rmask > 0,
      ((writeEnergy true rmask s.1.1).map Prod.fst).Nodup ∧
      ("Number of masked points", some (masked V MK : ℝ)) ∈ writeEnergy true rmask s.1.1 ∧
      ∀ q, q < 11 → (quantity q ++ " nMask", some (maskedMean V MK fun N => ε N q)) ∈
        writeEnergy true rmask s.1.1 := by
  intro ε W V call
  constructor
  · obtain ⟨e, b', maps, h0, h1, -⟩ := C53_mean i U pq qcd hq .ene false true (Or.inr rfl)
      (fun _ => rfl) threads Φ Φ' MK m v m2 order h buf b
    refine ⟨_, h0, fun rmask hr => ⟨?_, ?_⟩⟩
    · simp only [writeEnergy, if_pos hr, if_neg (not_lt.2 hr.le), List.append_nil, List.map_map]
      exact (by decide : ((totalNames true).map Prod.fst).Nodup)
    · intro q hq'
      have h1 := h1 trivial q hq'
      show (_, some (mean V fun N => ε N q)) ∈ _
      rw [← h1]
      simp only [writeEnergy, if_pos hr, if_neg (not_lt.2 hr.le), List.append_nil]
      refine List.mem_map.2 ⟨(quantity q, q), ?_, rfl⟩
      have : ∀ q < 11, (quantity q, q) ∈ totalNames true := by decide
      exact this q hq'
  · intro lowMem hm
    obtain ⟨e, b', maps, h0, -, h2, -⟩ := C53_mean i U pq qcd hq .mask lowMem true (Or.inl rfl)
      (fun _ => rfl) threads Φ Φ' MK m v m2 order h buf b
    obtain ⟨h2, h3⟩ := h2 trivial hm
    refine ⟨_, h0, fun rmask hr => ⟨?_, ?_, ?_⟩⟩
    · simp only [writeEnergy, if_neg (not_lt.2 hr.le), if_pos hr, List.nil_append, List.map_map]
      exact (by decide : ((maskNames true).map Prod.fst).Nodup)
    · rw [← h2]
      simp only [writeEnergy, if_neg (not_lt.2 hr.le), if_pos hr, List.nil_append]
      exact List.mem_map.2 ⟨("Number of masked points", 22), by decide, rfl⟩
    · intro q hq'
      have h3 := h3 q hq'
      show (_, some (maskedMean V MK fun N => ε N q)) ∈ _
      rw [← h3]
      simp only [writeEnergy, if_neg (not_lt.2 hr.le), if_pos hr, List.nil_append]
      refine List.mem_map.2 ⟨(quantity q ++ " nMask", 11 + q), ?_, rfl⟩
      have : ∀ q < 11, (quantity q ++ " nMask", 11 + q) ∈ maskNames true := by decide
      exact this q hq'

/-- **C53** (violated for the low memory mode) There every request but the masked one is refused, also
the one for the totals only: the array keeps what the caller put there, and with the zeros of measa.cpp:223 the
file says that all energies vanish, whatever the field. -/
theorem C53_lowmem_zero (sq : ℝ → ℝ) (tr : ℝ → ℕ) (P : SaxPar ℝ) (p : Prec) (i : Isa) (threads : ℕ)
    (pot : Pq × Qcd) (hasMask : Bool) (req : Req) (hreq : req ≠ .mask) (Vt : ℕ) (s : Shape) (n V : ℕ)
    (mk : ℕ → ℕ → Bool) (m v : ℕ → Heap ℕ (ℝ × ℝ)) (order : ℕ → List ℕ) (m2 : ℕ → Heap ℕ ℝ) (b : Bool) :
    ∃ r, energySaxRanks sq tr P p i threads pot true hasMask req Vt s n V mk m v order m2
        (fun _ => some 0) b = some r ∧ r.1.2 = b ∧
      ∀ a ∈ writeEnergy true (-1 : ℝ) r.1.1, a.2 = some 0 := by
  have hre : refuses true true hasMask req = true := by
    cases req <;> first | exact absurd rfl hreq | rfl
  refine ⟨((fun _ => some 0, b), (List.range n).map m2), ?_, rfl, ?_⟩
  · simp only [energySaxRanks, hre, if_true]
  · intro a ha
    obtain ⟨c, -, rfl⟩ := List.mem_map.1 ha
    rfl

/-- **C53** A masked request without mask changes nothing. -/
theorem C53_no_mask (sq : ℝ → ℝ) (tr : ℝ → ℕ) (P : SaxPar ℝ) (p : Prec) (i : Isa) (threads : ℕ)
    (pot : Pq × Qcd) (lowMem : Bool) (req : Req) (hreq : wantsMask req) (Vt : ℕ) (s : Shape) (n V : ℕ)
    (mk : ℕ → ℕ → Bool) (m v : ℕ → Heap ℕ (ℝ × ℝ)) (order : ℕ → List ℕ) (m2 : ℕ → Heap ℕ ℝ)
    (buf : ℕ → Option ℝ) (b : Bool) :
    energySaxRanks sq tr P p i threads pot lowMem false req Vt s n V mk m v order m2 buf b =
      some ((buf, b), (List.range n).map m2) := by
  have hre : refuses true lowMem false req = true := by
    rw [refuses, (hasMask_iff req).2 hreq]
    simp
  simp only [energySaxRanks, hre, if_true]

/-- A run of the angle on `n` ranks. -/
structure ThetaRanks (S Lx Lz NN n : ℕ) (U : Universe) (Θ Θ' : ℤ → ℤ → ℤ → ℝ)
    (m v m2 : ℕ → Heap ℕ ℝ) (order : ℕ → List ℕ) : Prop where
  vec : 0 < S
  dvd : S ∣ Lx
  rows : 2 ≤ Lx / S
  ghosts : 1 ≤ NN
  pos : 0 < U.R
  periodic : Periodic Lx Θ
  field : ∀ r, r < n → Holds Lx S (Lz + 2 * NN) (m r) fun x y z => U.R * slab Lz NN r Θ x y z
  velocity : ∀ r, r < n → Holds Lx S Lz (v r) fun x y z =>
    U.R * (U.H * slab Lz NN r Θ x y (z + NN) + slab Lz NN r Θ' x y (z + NN))
  map : ∀ r, r < n → ∀ k, k < Lz * (Lx * Lx) → (m2 r k).isSome
  order : ∀ r, r < n → (order r).Perm (visits ⟨Lx, S, NN⟩ Lz)

/-- **C53** The angle: the five averages over the whole lattice, except in double precision on
AVX-512; all requests fill the map but `EN_MASK`. -/
theorem C53_axion {S Lx Lz NN n : ℕ} (i : Isa) (p : Prec) (hb : ¬ (i = .avx512 ∧ p = .double))
    (wMod : Bool) (U : Universe) (frw zz : ℝ) (hH : frw / zz = U.H) (req : Req)
    (lowMem hasMask : Bool) (hmask : wantsMask req → hasMask = true)
    (Θ Θ' : ℤ → ℤ → ℤ → ℝ) (m v m2 : ℕ → Heap ℕ ℝ) (order : ℕ → List ℕ)
    (h : ThetaRanks S Lx Lz NN n U Θ Θ' m v m2 order) (buf : ℕ → Option ℝ) (b : Bool) :
    let ε := fun N => axionDensity U (fun d => if wMod then modPd d (2 * Real.pi) else d) Θ Θ'
      (xOf Lx N) (yOf Lx N) (zOf Lx N)
    let W := Lz * (Lx * Lx)
    let V := n * W
    ∃ e b' maps, energyThetaRanks i p wMod (params U frw zz) lowMem hasMask req ⟨Lx, S, NN⟩ n V m v
        order m2 buf b = some ((e, b'), maps) ∧
      (∀ q, q < 5 → e q = some (mean V fun N => ε N q)) ∧
      (∀ rmask < 0, ((writeEnergy false rmask e).map Prod.fst).Nodup ∧ ∀ q, q < 5 →
        (quantity q, some (mean V fun N => ε N q)) ∈ writeEnergy false rmask e) ∧
      b' = (b || decide (req ≠ .mask)) ∧ maps.length = n ∧
      ∀ r, r < n → ∃ M, maps[r]? = some M ∧ ∀ k, M k = if req ≠ .mask ∧ k < W then
        some (ε (r * W + k) 0 + ε (r * W + k) 1 + ε (r * W + k) 2 + ε (r * W + k) 3 +
          ε (r * W + k) 4) else m2 r k := by
  intro ε W V
  have hL : 0 < Lx := by
    have := h.rows
    rcases Nat.eq_zero_or_pos Lx with e | e
    · subst e; simp at this
    · exact e
  have hε : ∀ r k q, axionDensity U (fun d => if wMod then modPd d (2 * Real.pi) else d)
      (slab Lz NN r Θ) (slab Lz NN r Θ') (xOf Lx k) (yOf Lx k) (zOf Lx k + NN) q =
      ε (r * W + k) q := by
    intro r k q
    rw [axionDensity_slab]
    simp only [ε, W, xOf_rank, yOf_rank hL, zOf_rank hL]
    push_cast
    rfl
  have hex : ∀ r, ∃ o, r < n → _ := fun r => by
    by_cases hr : r < n
    · obtain ⟨o, ho⟩ := C51_axion i p hb wMod req.hasMap h.vec h.dvd h.rows h.ghosts U frw zz h.pos hH
        (slab Lz NN r Θ) (slab Lz NN r Θ') (fun x y z => h.periodic x y _) (m r) (v r) (m2 r)
        (h.field r hr) (h.velocity r hr) (h.map r hr) (order r) (h.order r hr)
      exact ⟨o, fun _ => ho⟩
    · exact ⟨(fun _ => 0, fun _ => none), fun c => absurd c hr⟩
  choose o ho using hex
  have hrun := mapM_range n _ o fun r hr => (ho r hr).1
  have hre : refuses false lowMem hasMask req = false := by
    have h2 : (req.hasMask && !hasMask) = false := by
      by_cases w : wantsMask req
      · simp [hmask w]
      · have : req.hasMask = false := Bool.eq_false_iff.2 fun e => w ((hasMask_iff req).1 e)
        simp [this]
    rw [refuses, h2]
    simp
  have he : ∀ q, q < 5 → scaled V (allreduce false ((List.range n).map fun r q =>
      if q < 5 then some ((o r).1 q) else none) buf) q = some (mean V fun N => ε N q) := by
    intro q hq
    rw [scaled, if_pos (by omega), allreduce, if_pos (by simpa using hq),
      sumOpt_some n (fun r q => if q < 5 then some ((o r).1 q) else none) q
        (fun r => ∑ k ∈ Finset.range W, ε (r * W + k) q), sum_ranks n W fun N => ε N q]
    · simp only [mean, Option.bind_eq_bind, Option.bind_some, Option.pure_def, mul_one_div]
      rfl
    · intro r hr
      show (if q < 5 then some ((o r).1 q) else none) = _
      rw [if_pos hq, (ho r hr).2.1 q]
      simp only [hε]
      rfl
  refine ⟨scaled V (allreduce false ((List.range n).map fun r q =>
      if q < 5 then some ((o r).1 q) else none) buf), b || req.hasMap,
    (List.range n).map fun r => (o r).2, ?_, he, ?_, ?_, by simp, ?_⟩
  · simp only [energyThetaRanks, hre, Bool.false_eq_true, if_false]
    rw [hrun]
    simp only [Option.bind_eq_bind, Option.bind_some, Option.pure_def, List.map_map]
    rfl
  · intro rmask hr
    constructor
    · simp only [writeEnergy, if_pos hr, if_neg (not_lt.2 hr.le), List.append_nil, List.map_map]
      exact (by decide : ((totalNames false).map Prod.fst).Nodup)
    · intro q hq'
      rw [← he q hq']
      simp only [writeEnergy, if_pos hr, if_neg (not_lt.2 hr.le), List.append_nil]
      refine List.mem_map.2 ⟨(quantity q, q), ?_, rfl⟩
      have : ∀ q < 5, (quantity q, q) ∈ totalNames false := by decide
      exact this q hq'
  · cases req <;> rfl
  · intro r hr
    refine ⟨(o r).2, by simp [hr], ?_⟩
    intro k
    rw [(ho r hr).2.2 k]
    simp only [hε]
    have : (req.hasMap = true) ↔ req ≠ .mask := by cases req <;> decide
    simp only [this]
    rfl

/-! ### A concrete case -/

/-- Two ranks with one slice each meet the hypotheses. -/
example : ∃ (Φ Φ' : ℤ → ℤ → ℤ → ℝ × ℝ) (m v : ℕ → Heap ℕ (ℝ × ℝ)) (m2 : ℕ → Heap ℕ ℝ)
    (order : ℕ → List ℕ), Φ 1 0 0 ≠ Φ 0 0 0 ∧
    Ranks .single .sse 4 1 1 16 2 ⟨2, 3, 1, 1, 1, 0⟩ Φ Φ' m v m2 order := by
  have e : ∀ x y z : ℕ, x < 4 → y < 4 → cell 4 2 x y z / 2 % 4 = x := by
    intro x y z hx hy
    have h1 : y % 2 = 0 ∨ y % 2 = 1 := by omega
    simp only [cell]
    rcases h1 with h | h <;> norm_num [h] <;> omega
  refine ⟨fun x _ _ => (1 + ((x % 4 : ℤ) : ℝ), 1), fun _ _ _ => (1, 2),
    fun _ a => some (2 * (1 + (((a / 2 % 4 : ℕ) : ℤ) : ℝ)), 2 * 1),
    fun _ a => some (2 * (3 * (1 + (((a / 2 % 4 : ℕ) : ℤ) : ℝ)) + 1), 2 * (3 * 1 + 2)),
    fun _ _ => some 0, fun _ => (visits ⟨4, 2, 1⟩ 1).reverse, by norm_num, ?_⟩
  refine ⟨by decide, by decide, fun r _ => ?_⟩
  refine ⟨by decide, by decide, le_refl _, by norm_num, by norm_num, fun x y z => by simp [slab], ?_, ?_,
    ?_, ?_, fun n _ => ⟨rfl, rfl⟩, List.reverse_perm _⟩
  · intro x y z _ _ _
    have := sq_nonneg (1 + ((((x : ℤ) % 4 : ℤ)) : ℝ))
    simp only [slab, radial]
    nlinarith
  · intro x y z _ _ _
    have := sq_nonneg (1 + ((((x : ℤ) % 4 : ℤ)) : ℝ) - 0)
    simp only [slab]
    nlinarith
  · intro x y z hx hy hz
    have e' : ((x : ℤ) % 4) = (x : ℤ) := by omega
    show some _ = _
    simp only [slab]
    rw [show sites .saxion .single .sse = 2 from rfl, e x y z hx hy, e']
  · intro x y z hx hy hz
    have e' : ((x : ℤ) % 4) = (x : ℤ) := by omega
    show some _ = _
    simp only [slab]
    rw [show sites .saxion .single .sse = 2 from rfl, e x y z hx hy, e']

end Jaxions.Energy
