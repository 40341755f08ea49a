import Verif.Lemmas.Paxion
/-
C63: a run of the Paxion propagator on any number of ranks is the evolution of one complex field.
-/
namespace Jaxions.Paxion

open Stencil Run

/-- A division of the lattice this propagator can work with: at least two ghost depths of slices on
every rank. -/
structure PFits (n sz Lx S Lz NN : Nat) : Prop where
  ranks : 0 < n
  bytes : 0 < sz
  side : 0 < Lx
  lanes : 0 < S
  dvd : S ∣ Lx
  rows : 2 * NN ≤ Lx / S
  depth : 0 < Lz ∧ 2 * NN ≤ Lz
  message : NN * (Lx * Lx * sz) < 10 * 2147483584

theorem PFits.fits {n sz Lx S Lz NN : Nat} (h : PFits n sz Lx S Lz NN) : Fits n sz Lx S Lz NN :=
  ⟨h.ranks, h.bytes, h.side, h.lanes, h.dvd, h.rows, ⟨h.depth.1, Or.inl h.depth.2⟩, h.message⟩

/-- The calls of a Laplacian operation: any order of the bytes in the messages and of the vectors on
every rank; the last call is made without a condition. -/
structure PFair (Lx S Lz NN : Nat) (l : Luck ℝ) : Prop where
  msgs : ∀ q, (l.msgs q).Perm q
  orders : ∀ r, ∃ bY bZ, 0 < bY ∧ 0 < bZ ∧
    (l.bulk r).Perm (kernelVisits Lx S bY bZ (2 * (NN * (Lx * Lx))) (Lz * (Lx * Lx))) ∧
    (l.edges r).Perm ((boundaryCalls false (NN * (Lx * Lx)) (Lz * (Lx * Lx))).flatMap fun c =>
      kernelVisits Lx S bY bZ c.1 c.2)

/-- The call of a potential operation: any order of the vectors. -/
def PotFair (Lx S Lz NN : Nat) (order : Nat → List Nat) : Prop :=
  ∀ r, ∃ bY bZ, 0 < bY ∧ 0 < bZ ∧
    (order r).Perm (kernelVisits Lx S bY bZ (NN * (Lx * Lx)) (Lz * (Lx * Lx) + NN * (Lx * Lx)))

theorem PFair.fair {n sz Lx S Lz NN : Nat} (hf : PFits n sz Lx S Lz NN) {l : Luck ℝ}
    (h : PFair Lx S Lz NN l) : Fair Lx S Lz NN l := by
  refine ⟨h.msgs, fun r => ?_⟩
  obtain ⟨bY, bZ, h1, h2, h3, h4⟩ := h.orders r
  refine ⟨bY, bZ, h1, h2, h3, ?_⟩
  have hp : 0 < Lx * Lx := Nat.mul_pos hf.side hf.side
  have hlt : NN * (Lx * Lx) < Lz * (Lx * Lx) := by
    apply Nat.mul_lt_mul_of_pos_right _ hp
    have := hf.depth
    omega
  have : boundaryCalls true (NN * (Lx * Lx)) (Lz * (Lx * Lx)) =
      boundaryCalls false (NN * (Lx * Lx)) (Lz * (Lx * Lx)) := by
    unfold boundaryCalls
    simp only [Bool.not_true, Bool.not_false, Bool.false_or, Bool.true_or, if_true,
      decide_eq_true_eq, gt_iff_lt, hlt]
  rw [this]
  exact h4

/-- The arrays hold the complex field. -/
structure PHolding (n Lx S Lz NN : Nat) (w : PWorld) (F : Lat ℝ) : Prop where
  allocM : WorldAlloc n ⟨Lx * Lx, Lz, NN⟩ w.m
  allocV : WorldAlloc n ⟨Lx * Lx, Lz, NN⟩ w.v
  re : Shows n Lx S Lz NN w.m F.φ
  im : Shows n Lx S Lz NN w.v F.ν

theorem cell_up (Lx S x y z NN : Nat) : cell Lx S x y z + NN * (Lx * Lx) = cell Lx S x y (z + NN) := by
  rw [cell_split, cell_split Lx S x y (z + NN), Nat.add_mul]
  omega

/-- A Laplacian operation between two arrays. -/
theorem add_step {n sz Lx S Lz NN : Nat} (hf : PFits n sz Lx S Lz NN) (h5 : NN ≤ 5) (PC : List ℝ)
    (w : Nat → ℝ) (hPC : ∀ k, k < NN → PC[k]? = some (w k)) (k : ℝ) {l : Luck ℝ}
    (hl : PFair Lx S Lz NN l) {old dst : Heap (Nat × Nat) ℝ} {φ ν : Int → Int → Int → ℝ}
    (hφ : Periodic3 Lx (n * Lz) φ) (ha : WorldAlloc n ⟨Lx * Lx, Lz, NN⟩ old)
    (hs : Shows n Lx S Lz NN old φ) (hd : WorldAlloc n ⟨Lx * Lx, Lz, NN⟩ dst)
    (hv : Shows n Lx S Lz NN dst ν) :
    ∃ src d, exchange n sz ⟨Lx, S, NN⟩ Lz l.msgs old = some src ∧
      (List.range n).foldlM (addRank ⟨Lx, S, NN⟩ Lz PC k l old src) dst = some d ∧
      WorldAlloc n ⟨Lx * Lx, Lz, NN⟩ src ∧ Shows n Lx S Lz NN src φ ∧
      WorldAlloc n ⟨Lx * Lx, Lz, NN⟩ d ∧
      Shows n Lx S Lz NN d (fun x y z => ν x y z + k * laplacian w NN φ x y z) := by
  have hNN : NN ≤ Lz := by have := hf.depth; omega
  have hp : 0 < Lx * Lx := Nat.mul_pos hf.side hf.side
  obtain ⟨src, e1, e2⟩ := exchange_eq (s := ⟨Lx, S, NN⟩) hf.ranks hf.bytes hf.depth.1 hNN
    hf.message l.msgs hl.msgs _ ha
  have hkeep : ∀ r a, r < n → NN * (Lx * Lx) ≤ a → a < (NN + Lz) * (Lx * Lx) →
      src (r, a) = old (r, a) := by
    intro r a hr h1 h2
    refine e2.keep r a ?_
    rintro ⟨_, h3⟩
    simp only [Nat.sub_self, Nat.zero_mul] at h3
    omega
  have hsrc := exchanged_alloc (g := ⟨Lx * Lx, Lz, NN⟩) hf.depth.1 hp ha e2
  have hvs : Shows n Lx S Lz 0 (fun q => dst (q.1, q.2 + NN * (Lx * Lx))) ν := by
    intro r x y z hr hx hy hz
    simp only [Nat.add_zero, cell_up]
    exact hv r x y z hr hx hy hz
  obtain ⟨p, e3, h1, h2, h3⟩ := ranks_step (F := ⟨φ, ν⟩) hf.fits
    (saxion_computes h5 PC k addLaw hPC) (hl.fair hf) hφ
    (fun r hr => exchanged_holds hf.ranks hf.lanes hf.dvd hf.depth.1 hNN hφ hs e2 hr)
    ha hkeep hd hvs
  obtain ⟨d, k1, k2, k3⟩ := addRanks_sim _ e3 dst (fun r a => rfl)
  refine ⟨src, d, e1, k1, hsrc, ?_, ?_, ?_⟩
  · intro r x y z hr hx hy hz
    have hlt := cell_lt hf.lanes hf.dvd hx hy
    have hz' : cell Lx S x y (z + NN) < (NN + Lz) * (Lx * Lx) := by
      rw [cell_split]
      exact pair_lt (by omega) hlt
    have hz'' : NN * (Lx * Lx) ≤ cell Lx S x y (z + NN) := by
      rw [← cell_up]
      omega
    rw [hkeep r _ hr hz'' hz']
    exact hs r x y z hr hx hy hz
  · intro r a
    rw [k3]
    exact hd r a
  · intro r x y z hr hx hy hz
    have := h3 r x y z hr hx hy hz
    rw [k2] at this
    simp only [Nat.add_zero] at this
    have e : cell Lx S x y z + NN * Shape.Sf ⟨Lx, S, NN⟩ = cell Lx S x y (z + NN) :=
      cell_up Lx S x y z NN
    rw [e] at this
    rw [this]
    congr 1
    simp only [Rule.step, saxionRule, addLaw, laplacian, smul_eq_mul, Finset.mul_sum]
    congr 1
    exact Finset.sum_congr rfl fun j _ => by ring

/-- All vectors of the physical slices at once are the vectors of a substep. -/
theorem pot_order {n sz Lx S Lz NN bY bZ : Nat} (hf : PFits n sz Lx S Lz NN) (hby : 0 < bY)
    (hbz : 0 < bZ) :
    (kernelVisits Lx S bY bZ (NN * (Lx * Lx)) (Lz * (Lx * Lx) + NN * (Lx * Lx))).Perm
      (substepVisits true Lx S bY bZ Lz NN) := by
  have hp : 0 < Lx * Lx := Nat.mul_pos hf.side hf.side
  obtain ⟨h1, h2⟩ := order_spec hf.side hf.lanes hf.dvd hby hbz (Or.inl hf.depth.2) _
    (List.Perm.refl (substepVisits true Lx S bY bZ Lz NN))
  have hle : ¬ NN * (Lx * Lx) > Lz * (Lx * Lx) + NN * (Lx * Lx) := by omega
  have hd : S ∣ Lx * S := ⟨Lx, Nat.mul_comm _ _⟩
  have hz : (Lz * (Lx * Lx) + NN * (Lx * Lx)) / (Lx * Lx) = Lz + NN := by
    rw [← Nat.add_mul, Nat.mul_div_cancel _ hp]
  have e : Lx / S * (Lx * S) = Lx * Lx := by
    obtain ⟨Y, rfl⟩ := hf.dvd
    rw [Nat.mul_div_cancel_left _ hf.lanes]; ring
  unfold kernelVisits
  rw [if_neg hle, hz, Nat.mul_div_cancel _ hp]
  refine (List.perm_ext_iff_of_nodup (Tile.nodup_visits _ hf.lanes hd) h1).2 fun i => ?_
  rw [h2, Tile.mem_visits _ hf.lanes hd hby hbz]
  simp only [e]
  rw [Nat.le_div_iff_mul_le hp, Nat.div_lt_iff_lt_mul hp, Nat.add_comm Lz NN]
  tauto

/-- The potential array shows a potential; without gravity there is none and it does not matter. -/
def PotHolds (n Lx S Lz NN : Nat) : Option (Heap (Nat × Nat) ℝ) → (Int → Int → Int → ℝ) → Prop
  | none, Φ => Φ = fun _ _ _ => 0
  | some h, Φ => Shows n Lx S Lz NN h Φ

theorem lanes_nodup {n sz Lx S Lz NN bY bZ : Nat} (hf : PFits n sz Lx S Lz NN) (hby : 0 < bY)
    (hbz : 0 < bZ) {order : List Nat} (ho : order.Perm (substepVisits true Lx S bY bZ Lz NN)) :
    ((Stencil.lanes ⟨Lx, S, NN⟩ order).map fun c => c.1 + c.2).Nodup := by
  obtain ⟨hnd, hmem⟩ := order_spec hf.side hf.lanes hf.dvd hby hbz (Or.inl hf.depth.2) order ho
  have hlane : ∀ c ∈ Stencil.lanes ⟨Lx, S, NN⟩ order, c.1 ∈ order ∧ c.2 < S := by
    rintro ⟨i, l⟩ hc
    simp only [Stencil.lanes, List.mem_flatMap, List.mem_map, List.mem_range, Prod.mk.injEq] at hc
    obtain ⟨i', hi', l', hl', rfl, rfl⟩ := hc
    exact ⟨hi', hl'⟩
  refine List.Nodup.map_on ?_ ?_
  · rintro ⟨i, l⟩ hc ⟨i', l'⟩ hc' e
    obtain ⟨h1, h2⟩ := hlane _ hc
    obtain ⟨h3, h4⟩ := hlane _ hc'
    obtain ⟨⟨k, hk⟩, _⟩ := (hmem i).1 h1
    obtain ⟨⟨k', hk'⟩, _⟩ := (hmem i').1 h3
    simp only at e h2 h4
    rw [hk, hk', Nat.mul_comm S k, Nat.mul_comm S k'] at e
    have := pair_inj h2 h4 e
    rw [hk, hk', this.1, this.2]
  · unfold Stencil.lanes
    rw [List.nodup_flatMap]
    refine ⟨fun i _ => List.Nodup.map (fun a b h => (Prod.mk.inj h).2) List.nodup_range, ?_⟩
    refine hnd.imp ?_
    intro a b hab
    simp only [Function.onFun, List.Disjoint, List.mem_map]
    rintro _ ⟨_, _, rfl⟩ ⟨_, _, e⟩
    exact hab (Prod.mk.inj e).1.symm

/-- A potential operation. -/
theorem rot_step {n sz Lx S Lz NN : Nat} (hf : PFits n sz Lx S Lz NN) (w : Nat → ℝ) (k g : ℝ)
    {m2 : Option (Heap (Nat × Nat) ℝ)} {Φ : Int → Int → Int → ℝ} (hΦ : PotHolds n Lx S Lz NN m2 Φ)
    {order : Nat → List Nat} (ho : PotFair Lx S Lz NN order)
    {W : PWorld} {F : Lat ℝ}
    (hw : PHolding n Lx S Lz NN W F) :
    ∃ W', rotAll n ⟨Lx, S, NN⟩ k g m2 order W = some W' ∧
      PHolding n Lx S Lz NN W' (Move.on NN w F (.turn k g Φ)) := by
  have main := range_inv (f := rotRank ⟨Lx, S, NN⟩ k g m2 order)
    (P := fun q X => WorldAlloc n ⟨Lx * Lx, Lz, NN⟩ X.m ∧ WorldAlloc n ⟨Lx * Lx, Lz, NN⟩ X.v ∧
      ∀ r x y z : Nat, r < n → x < Lx → y < Lx → z < Lz →
        (r < q → X.m (r, cell Lx S x y (z + NN)) =
            some ((Move.on NN w F (.turn k g Φ)).φ x y (r * Lz + z : Nat)) ∧
          X.v (r, cell Lx S x y (z + NN)) =
            some ((Move.on NN w F (.turn k g Φ)).ν x y (r * Lz + z : Nat))) ∧
        (q ≤ r → X.m (r, cell Lx S x y (z + NN)) = some (F.φ x y (r * Lz + z : Nat)) ∧
          X.v (r, cell Lx S x y (z + NN)) = some (F.ν x y (r * Lz + z : Nat))))
    (s := W) n ?_ ?_
  · obtain ⟨X, h1, h2, h3, h4⟩ := main
    exact ⟨X, h1, h2, h3, fun r x y z hr hx hy hz => ((h4 r x y z hr hx hy hz).1 hr).1,
      fun r x y z hr hx hy hz => ((h4 r x y z hr hx hy hz).1 hr).2⟩
  · refine ⟨hw.allocM, hw.allocV, fun r x y z hr hx hy hz =>
      ⟨fun h => absurd h (Nat.not_lt_zero _), fun _ => ⟨?_, ?_⟩⟩⟩
    · exact hw.re r x y z hr hx hy hz
    · exact hw.im r x y z hr hx hy hz
  · rintro q hq X ⟨h1, h2, h3⟩
    obtain ⟨bY, bZ, hby, hbz, hb⟩ := ho q
    have hord := hb.trans (pot_order hf hby hbz)
    obtain ⟨hnd, hmem⟩ := order_spec hf.side hf.lanes hf.dvd hby hbz (Or.inl hf.depth.2) _ hord
    let φ' : Int → Int → Int → ℝ := fun x y z =>
      ((X.m (q, cell Lx S x.toNat y.toNat z.toNat)).getD 0)
    have hm' : Holds Lx S (Lz + 2 * NN) (onRank X.m q) φ' := by
      intro x y z hx hy hz
      have hlt := cell_lt hf.lanes hf.dvd hx hy
      have := (h1 q (cell Lx S x y z)).2 ⟨hq, by
        rw [cell_split]; exact pair_lt (by omega) hlt⟩
      obtain ⟨v, hv⟩ := Option.isSome_iff_exists.1 this
      simp only [φ', onRank, Int.toNat_natCast, hv, Option.getD_some]
    obtain ⟨o', e1, e2, e3⟩ := substep_rule hf.side hf.lanes hf.dvd hby hbz (Or.inl hf.depth.2)
      (fun i l => match m2.map fun h => onRank h q with | none => some 0 | some p => p (i + l))
      (fun x y z => Φ x y (q * Lz + z : Nat)) (rotLaw k g) (order q) hord (onRank X.m q)
      ⟨fun a => onRank X.v q (a + NN * (Lx * Lx)), onRank X.m q⟩
      φ' (fun x y z => F.ν x y (z + (q * Lz : Nat)))
      (by
        intro x y z hx hy hz
        have hle : y / (Lx / S) ≤ cell Lx S x y (z + NN) := by unfold cell; omega
        cases m2 with
        | none =>
          simp only [PotHolds] at hΦ
          simp only [Option.map_none, hΦ]
        | some h =>
          simp only [Option.map_some, Nat.sub_add_cancel hle]
          exact hΦ q x y z hq hx hy hz)
      hm'
      (by
        intro x y z hx hy hz
        simp only [cell_up]
        refine (((h3 q x y z hq hx hy hz).2 le_rfl).2).trans ?_
        congr 2
        push_cast
        ring)
      (by
        intro a ha
        exact (h1 q a).2 ⟨hq, ha⟩)
    obtain ⟨X', k1, k2, k3, k4⟩ := rotSweep_sim e1 (onRank X.m q, onRank X.v q)
      (lanes_nodup hf hby hbz hord) (fun _ _ => rfl) rfl (fun _ => rfl)
    refine ⟨⟨setRank X.m q X'.1, setRank X.v q X'.2⟩, ?_, ?_, ?_, ?_⟩
    · unfold rotRank
      simp only [k1, Option.bind_eq_bind, Option.bind_some, Option.pure_def]
    · intro r a
      simp only [onRank_set]
      split
      · rename_i hr
        subst hr
        rw [k2, sweepWith_isSome e1]
        exact h1 r a
      · exact h1 r a
    · intro r a
      simp only [onRank_set]
      split
      · rename_i hr
        subst hr
        rw [k4]
        exact h2 r a
      · exact h2 r a
    · intro r x y z hr hx hy hz
      have old := h3 r x y z hr hx hy hz
      simp only [onRank_set]
      constructor
      · intro hlt
        by_cases hrq : r = q
        · subst hrq
          rw [if_pos rfl, if_pos rfl]
          obtain ⟨u1, u2⟩ := e2 x y z hx hy hz
          have hmval : φ' x y (z + NN : Nat) = F.φ x y (r * Lz + z : Nat) := by
            have := (old.2 le_rfl).1
            simp only [φ', Int.toNat_natCast, this, Option.getD_some]
          have q2 : (z : Int) + ((r * Lz : Nat) : Int) = ((r * Lz + z : Nat) : Int) := by
            push_cast; ring
          rw [k3] at u2
          have ec : cell Lx S x y z + NN * Shape.Sf ⟨Lx, S, NN⟩ = cell Lx S x y (z + NN) :=
            cell_up Lx S x y z NN
          rw [ec] at u2
          simp only [hmval, q2] at u1 u2
          have hang : k * (F.ν x y (r * Lz + z : Nat) * F.ν x y (r * Lz + z : Nat) +
              F.φ x y (r * Lz + z : Nat) * F.φ x y (r * Lz + z : Nat)) +
              g * Φ x y (r * Lz + z : Nat) = angle k g Φ F x y (r * Lz + z : Nat) := by
            unfold angle; ring
          constructor
          · rw [k2, u1]
            simp only [rotLaw, Move.on, hang]
          · rw [u2]
            simp only [rotLaw, Move.on, hang]
            congr 1
            ring
        · rw [if_neg hrq, if_neg hrq]
          exact old.1 (by omega)
      · intro hle
        rw [if_neg (by omega), if_neg (by omega)]
        exact old.2 (by omega)

/-- An operation of the program and what it means for the lattice. -/
def Means (n Lx S Lz NN : Nat) : Op → Move → Prop
  | .lap toV k l, .kick toV' k' => toV = toV' ∧ k = k' ∧ PFair Lx S Lz NN l
  | .pot k g m2 order, .turn k' g' Φ => k = k' ∧ g = g' ∧ PotHolds n Lx S Lz NN m2 Φ ∧
      Periodic3 Lx (n * Lz) Φ ∧ PotFair Lx S Lz NN order
  | _, _ => False

theorem on_periodic {Lx N NN : Nat} (w : Nat → ℝ) (F : Lat ℝ) (h1 : Periodic3 Lx N F.φ)
    (h2 : Periodic3 Lx N F.ν) (mv : Move) (hm : ∀ k g Φ, mv = .turn k g Φ → Periodic3 Lx N Φ) :
    Periodic3 Lx N (mv.on NN w F).φ ∧ Periodic3 Lx N (mv.on NN w F).ν := by
  have key : ∀ f : Int → Int → Int → ℝ, Periodic3 Lx N f → Periodic3 Lx N (laplacian w NN f) := by
    intro f hf
    refine ⟨fun x y z => ?_, fun x y z => ?_, fun x y z => ?_⟩ <;>
      simp only [laplacian, add_right_comm _ (Lx : Int), add_right_comm _ (N : Int),
        add_sub_right_comm _ (Lx : Int), add_sub_right_comm _ (N : Int), hf.1, hf.2.1, hf.2.2]
  cases mv with
  | kick b k =>
    cases b
    · refine ⟨⟨?_, ?_, ?_⟩, h2⟩ <;> intro x y z <;>
        simp only [Move.on, h1.1, h1.2.1, h1.2.2, (key _ h2).1, (key _ h2).2.1, (key _ h2).2.2]
    · refine ⟨h1, ⟨?_, ?_, ?_⟩⟩ <;> intro x y z <;>
        simp only [Move.on, h2.1, h2.2.1, h2.2.2, (key _ h1).1, (key _ h1).2.1, (key _ h1).2.2]
  | turn k g Φ =>
    have h3 := hm k g Φ rfl
    refine ⟨⟨?_, ?_, ?_⟩, ⟨?_, ?_, ?_⟩⟩ <;> intro x y z <;>
      simp only [Move.on, angle, h1.1, h1.2.1, h1.2.2, h2.1, h2.2.1, h2.2.2, h3.1, h3.2.1, h3.2.2]

/-- **C63** Any list of kernel calls of the Paxion propagator, on any number of ranks, with any order
of the messages and of the vectors and anything in the ghost slices while messages are on their way,
stays in bounds and leaves on the ranks the complex field evolved on one lattice. -/
theorem C63_run {n sz Lx S Lz NN : Nat} (hf : PFits n sz Lx S Lz NN) (h5 : NN ≤ 5) (PC : List ℝ)
    (w : Nat → ℝ) (hPC : ∀ k, k < NN → PC[k]? = some (w k)) {ops : List Op} {ms : List Move}
    (hops : List.Forall₂ (Means n Lx S Lz NN) ops ms) {W : PWorld} {F : Lat ℝ}
    (hφ : Periodic3 Lx (n * Lz) F.φ) (hν : Periodic3 Lx (n * Lz) F.ν)
    (hW : PHolding n Lx S Lz NN W F) :
    ∃ W', runOps n sz ⟨Lx, S, NN⟩ Lz PC ops W = some W' ∧
      PHolding n Lx S Lz NN W' (moves NN w ms F) := by
  induction hops generalizing W F with
  | nil => exact ⟨W, rfl, hW⟩
  | @cons op mv ops ms h1 _ ih =>
    have hstep : ∃ W1, op.run n sz ⟨Lx, S, NN⟩ Lz PC W = some W1 ∧
        PHolding n Lx S Lz NN W1 (mv.on NN w F) := by
      cases op with
      | lap b k l =>
        cases mv with
        | turn => exact absurd h1 (by simp [Means])
        | kick b' k' =>
          obtain ⟨rfl, rfl, hl⟩ := h1
          cases b
          · obtain ⟨src, d, e1, e2, a1, a2, a3, a4⟩ := add_step hf h5 PC w hPC k hl hν hW.allocV
              hW.im hW.allocM hW.re
            refine ⟨⟨d, src⟩, ?_, ⟨a3, a1, a4, a2⟩⟩
            unfold Op.run addAll
            simp only [Bool.false_eq_true, if_false, e1, e2, Option.bind_eq_bind, Option.bind_some,
              Option.pure_def]
          · obtain ⟨src, d, e1, e2, a1, a2, a3, a4⟩ := add_step hf h5 PC w hPC k hl hφ hW.allocM
              hW.re hW.allocV hW.im
            refine ⟨⟨src, d⟩, ?_, ⟨a1, a3, a2, a4⟩⟩
            unfold Op.run addAll
            simp only [if_true, e1, e2, Option.bind_eq_bind, Option.bind_some, Option.pure_def]
      | pot k g m2 order =>
        cases mv with
        | kick => exact absurd h1 (by simp [Means])
        | turn k' g' Φ =>
          obtain ⟨rfl, rfl, h2, _, h4⟩ := h1
          exact rot_step hf w k g h2 h4 hW
    obtain ⟨W1, e1, e2⟩ := hstep
    have hp := on_periodic (NN := NN) w F hφ hν mv (by
      rintro k g Φ rfl
      cases op with
      | lap => exact absurd h1 (by simp [Means])
      | pot => exact h1.2.2.2.1)
    obtain ⟨W2, e3, e4⟩ := ih hp.1 hp.2 e2
    refine ⟨W2, ?_, e4⟩
    unfold runOps
    rw [List.foldlM_cons, e1]
    exact e3

/-- Backwards, with tiles that depend on the rank, and all boundary calls. -/
def pBackwards (Lx S Lz NN : Nat) (x : Nat → Nat → ℝ) : Luck ℝ where
  msgs := List.reverse
  bulk := fun r => (kernelVisits Lx S (r + 1) 2 (2 * (NN * (Lx * Lx))) (Lz * (Lx * Lx))).reverse
  edges := fun r => ((boundaryCalls false (NN * (Lx * Lx)) (Lz * (Lx * Lx))).flatMap fun c =>
    kernelVisits Lx S (r + 1) 2 c.1 c.2).reverse
  ghosts := x

theorem pFair_backwards (Lx S Lz NN : Nat) (x : Nat → Nat → ℝ) :
    PFair Lx S Lz NN (pBackwards Lx S Lz NN x) :=
  ⟨fun _ => List.reverse_perm _,
    fun r => ⟨r + 1, 2, Nat.succ_pos _, Nat.two_pos, List.reverse_perm _, List.reverse_perm _⟩⟩

/-- Half a step of the potential, a kick of both parts, half a step of the potential, on two ranks
of four slices of `8×8` sites, with vectors of two sites. -/
example (F : Lat ℝ) (hφ : Periodic3 8 (2 * 4) F.φ) (hν : Periodic3 8 (2 * 4) F.ν) :
    let pot : Op := .pot 0.1 0 none fun _ => (kernelVisits 8 2 3 1 64 (4 * 64 + 64)).reverse
    ∃ W, runOps 2 4 ⟨8, 2, 1⟩ 4 [1]
        [pot, .lap true 0.2 (pBackwards 8 2 4 1 fun r a => r + a),
         .lap false (-0.2) (pBackwards 8 2 4 1 fun _ _ => 7), pot]
        ⟨fill 2 8 2 4 1 F.φ, fill 2 8 2 4 1 F.ν⟩ = some W ∧
      PHolding 2 8 2 4 1 W (moves 1 (fun _ => 1)
        [.turn 0.1 0 fun _ _ _ => 0, .kick true 0.2, .kick false (-0.2), .turn 0.1 0 fun _ _ _ => 0]
        F) := by
  intro pot
  have hp : Means 2 8 2 4 1 pot (.turn 0.1 0 fun _ _ _ => 0) :=
    ⟨rfl, rfl, rfl, ⟨fun _ _ _ => rfl, fun _ _ _ => rfl, fun _ _ _ => rfl⟩,
      fun _ => ⟨3, 1, by decide, by decide, List.reverse_perm _⟩⟩
  have hk : ∀ b k x, Means 2 8 2 4 1 (.lap b k (pBackwards 8 2 4 1 x)) (.kick b k) :=
    fun _ _ _ => ⟨rfl, rfl, pFair_backwards _ _ _ _ _⟩
  refine C63_run (n := 2) (sz := 4) (Lx := 8) (S := 2) (Lz := 4) (NN := 1)
    ⟨by decide, by decide, by decide, by decide, by decide, by decide, by decide, by omega⟩
    (by decide) [1] (fun _ => 1) ?_
    (.cons hp (.cons (hk _ _ _) (.cons (hk _ _ _) (.cons hp .nil)))) hφ hν ?_
  · intro k hk
    obtain rfl : k = 0 := by omega
    rfl
  · exact ⟨fun r a => by unfold fill; simp only; split <;> simp_all,
      fun r a => by unfold fill; simp only; split <;> simp_all,
      fill_shows (by decide) (by decide) _, fill_shows (by decide) (by decide) _⟩

end Jaxions.Paxion
