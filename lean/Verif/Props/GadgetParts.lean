/-
**C70** The N-body snapshot of the "void" kind: particles, their place in the file, the buffers,
the smoothing of the velocities and the options.
-/
import Verif.Lemmas.GadgetVoid
import Mathlib.Tactic.NormNum
import Mathlib.Tactic.Positivity
import Mathlib.Tactic.Linarith
import Mathlib.Tactic.Ring

namespace Jaxions
namespace Gadget

/-! ### Particles -/

/-- **C70** With `p` particles per point, `p` a divisor of the points of a slice, particle number
`k` of the file belongs to point number `k / p` of the whole grid and has the coordinates of that
point, on any number of ranks.  In particular every point has `p` particles. -/
theorem C70_particles (g : Grid) (p : ℕ) (hL : 0 < g.L) (hR : 0 < g.ranks) (hp : 0 < p)
    (hdvd : p ∣ g.S) (rank zDim j : ℕ) (hj : j < g.S) (hz : zDim < p * g.Lz) :
    let nPrt := p * (g.L * g.L * g.Tz)
    ∃ c, inFile g p nPrt rank zDim j = some c ∧ c.x < g.L ∧ c.y < g.L ∧
      siteNo g.L c.x c.y c.z = (offset g nPrt rank zDim + j) / p ∧
      siteNo g.L c.x c.y c.z = rank * g.n3 + c.idx := by
  intro nPrt
  obtain ⟨q, hq⟩ := hdvd
  have hq' : g.S = q * p := by rw [hq, Nat.mul_comm]
  have hS : 0 < g.S := Nat.mul_pos hL hL
  have hN : nSlabs g nPrt = p * g.Lz := by
    have : nPrt = (p * g.Lz * g.ranks) * g.S := by
      show p * (g.L * g.L * g.Tz) = _
      unfold Grid.Tz Grid.S; ring
    unfold nSlabs
    rw [this, Nat.mul_div_cancel _ hS, Nat.mul_div_cancel _ hR]
  have hn3 : (0 + p * g.Lz) * q ≤ g.n3 := by
    unfold Grid.n3; rw [hq]; apply le_of_eq; ring
  have hs := slabs_get g hL p q rank hp hq' (p * g.Lz) 0 zDim hz hn3
  rw [Nat.zero_mul, Nat.zero_add] at hs
  have hfile : inFile g p nPrt rank zDim j = some (begin_ g rank (zDim * q + j / p)) := by
    unfold inFile
    rw [hN, hs, Option.bind_some]
    exact rep_get (begin_ g rank) p hp q (zDim * q) j (by rw [← hq']; exact hj)
  refine ⟨_, hfile, ?_⟩
  rw [begin_val]
  dsimp only
  generalize hi : zDim * q + j / p = i
  have hsite : siteNo g.L (i % g.L) (i / g.L % g.L) (i / g.L / g.L + rank * g.Lz) =
      rank * g.n3 + i := by
    unfold siteNo Grid.n3 Grid.S
    have h1 := Nat.div_add_mod i g.L
    have h2 := Nat.div_add_mod (i / g.L) g.L
    calc ((i / g.L / g.L + rank * g.Lz) * g.L + i / g.L % g.L) * g.L + i % g.L
        = (g.L * (i / g.L / g.L) + i / g.L % g.L) * g.L + i % g.L + rank * (g.L * g.L * g.Lz) := by
          ring
      _ = g.L * (i / g.L) + i % g.L + rank * (g.L * g.L * g.Lz) := by rw [h2]; ring
      _ = rank * (g.L * g.L * g.Lz) + i := by rw [h1]; ring
  refine ⟨Nat.mod_lt _ hL, Nat.mod_lt _ hL, ?_, hsite⟩
  rw [hsite, ← hi]
  unfold offset
  rw [hN]
  have : (rank * (p * g.Lz) + zDim) * g.S + j = j + p * (rank * g.n3 + zDim * q) := by
    unfold Grid.n3; rw [hq]; ring
  rw [this, Nat.add_mul_div_left _ _ hp]
  omega

/-- Two ranks, four points per side, two particles per point: the hypotheses can be met. -/
example : ∃ c, inFile ⟨4, 2, 1, 2⟩ 2 (2 * (4 * 4 * 4)) 1 3 5 = some c ∧
    siteNo 4 c.x c.y c.z = 58 := by
  obtain ⟨c, h1, _, _, h2, _⟩ := C70_particles ⟨4, 2, 1, 2⟩ 2 (by decide) (by decide) (by decide)
    ⟨8, rfl⟩ 1 3 5 (by decide) (by decide)
  exact ⟨c, h1, h2⟩

/-- **C70** (negative) If `p` does not divide the number of points of a slice, the second slab
begins one point too late: the point `S / p` gets only the `S % p` particles that were left in
the first slab. -/
theorem C70_particles_lost (g : Grid) (p nPrt rank : ℕ) (hL : 0 < g.L) (hp : 0 < p)
    (hndvd : ¬ p ∣ g.S) (hroom : g.S / p + 1 < g.n3) (hN : 1 < nSlabs g nPrt) :
    (∃ c, inFile g p nPrt rank 1 0 = some c ∧ c.idx = g.S / p + 1) ∧
    (∀ j < g.S, ∃ c, inFile g p nPrt rank 0 j = some c ∧
      (c.idx = g.S / p ↔ p * (g.S / p) ≤ j)) ∧
    g.S % p < p := by
  have hmod := Nat.mod_lt g.S hp
  have hpos : 0 < g.S % p := by
    rcases Nat.eq_zero_or_pos (g.S % p) with h | h
    · exact absurd (Nat.dvd_of_mod_eq_zero h) hndvd
    · exact h
  have hd := Nat.div_add_mod g.S p
  -- the loop of one slab takes `S / p + 1` points
  have step : ∀ i, i + (g.S / p + 1) ≤ g.n3 →
      fill g p (begin_ g rank i) [] = (i + (g.S / p + 1), [] ++
        (List.range' i (g.S / p + 1)).flatMap fun s => List.replicate p (begin_ g rank s)) := by
    intro i hi
    refine fill_run g hL p rank (g.S / p + 1) i [] hi ?_ (Or.inr ?_)
    · intro j hj
      rw [List.length_nil, Nat.zero_add]
      have : j * p ≤ g.S / p * p := Nat.mul_le_mul_right p (by omega)
      rw [Nat.mul_comm (g.S / p)] at this
      omega
    · rw [List.length_nil, Nat.zero_add, Nat.succ_mul, Nat.mul_comm (g.S / p)]
      omega
  obtain ⟨n, hn⟩ : ∃ n, nSlabs g nPrt = n + 2 := ⟨nSlabs g nPrt - 2, by omega⟩
  have h1 := step 0 (by omega)
  refine ⟨?_, ?_, hmod⟩
  · -- the second slab starts at `S / p + 1`
    refine ⟨begin_ g rank (g.S / p + 1), ?_, by rw [begin_val]⟩
    unfold inFile
    rw [hn]
    unfold slabs
    dsimp only
    rw [h1]
    dsimp only
    unfold slabs
    dsimp only
    rw [List.getElem?_cons_succ, List.getElem?_cons_zero, Option.bind_some, Nat.zero_add]
    -- whatever the second slab takes, its first entry is the first particle of that point
    have : ∀ (k : ℕ) (hk : g.S / p + 1 + (k + 1) ≤ g.n3)
        (h2 : ∀ j < k + 1, ([] : List Part).length + j * p < g.S)
        (h3 : g.S / p + 1 + (k + 1) = g.n3 ∨ g.S ≤ ([] : List Part).length + (k + 1) * p),
        ((fill g p (begin_ g rank (g.S / p + 1)) []).2)[0]? =
          some (begin_ g rank (g.S / p + 1)) := by
      intro k hk h2 h3
      rw [fill_run g hL p rank (k + 1) (g.S / p + 1) [] hk h2 h3, List.nil_append,
        rep_get _ p hp _ _ 0 (Nat.mul_pos (by omega) hp), Nat.zero_div, Nat.add_zero]
    by_cases hfit : g.S / p + 1 + (g.S / p + 1) ≤ g.n3
    · refine this (g.S / p) hfit ?_ (Or.inr ?_)
      · intro j hj
        rw [List.length_nil, Nat.zero_add]
        have : j * p ≤ g.S / p * p := Nat.mul_le_mul_right p (by omega)
        rw [Nat.mul_comm (g.S / p)] at this
        omega
      · rw [List.length_nil, Nat.zero_add, Nat.succ_mul, Nat.mul_comm (g.S / p)]
        omega
    · refine this (g.n3 - (g.S / p + 1) - 1) (by omega) ?_ (Or.inl (by omega))
      intro j hj
      rw [List.length_nil, Nat.zero_add]
      have : j * p ≤ g.S / p * p := Nat.mul_le_mul_right p (by omega)
      rw [Nat.mul_comm (g.S / p)] at this
      omega
  · intro j hj
    refine ⟨begin_ g rank (0 + j / p), ?_, ?_⟩
    · unfold inFile
      rw [hn]
      unfold slabs
      dsimp only
      rw [h1, List.getElem?_cons_zero, Option.bind_some, List.nil_append]
      exact rep_get _ p hp _ 0 j (by rw [Nat.succ_mul, Nat.mul_comm (g.S / p)]; omega)
    · rw [begin_val]
      dsimp only
      rw [Nat.zero_add]
      constructor
      · intro h
        have := Nat.div_mul_le_self j p
        rw [h, Nat.mul_comm] at this
        exact this
      · intro h
        refine Nat.le_antisymm (Nat.div_le_div_right hj.le) ?_
        rw [Nat.le_div_iff_mul_le hp, Nat.mul_comm]
        exact h

/-- Three particles per point on a grid of four points per side. -/
example : ∃ c, inFile ⟨4, 4, 1, 1⟩ 3 (3 * 64) 0 1 0 = some c ∧ c.idx = 6 :=
  (C70_particles_lost ⟨4, 4, 1, 1⟩ 3 (3 * 64) 0 (by decide) (by decide) (by decide) (by decide)
    (by decide)).1

/-- **C70** (negative) With fewer particles than points, no place of the file is filled, although
the header announces the particles. -/
theorem C70_no_particles (g : Grid) (nPrt rank zDim j : ℕ) (hL : 0 < g.L)
    (hfew : nPrt < g.L * g.L * g.Tz) (hcells : g.L * g.L * g.Tz < 2 ^ 32) :
    ppGrid g.L g.Tz nPrt = some 0 ∧ inFile g 0 nPrt rank zDim j = none := by
  constructor
  · unfold ppGrid cells32
    rw [Nat.mod_eq_of_lt hcells, if_neg (by omega), Nat.div_eq_of_lt hfew]
  · have h0 : ∀ n lPos, lPos ≤ g.n3 → ∀ b ∈ slabs g 0 rank n lPos, b = [] := by
      intro n
      induction n with
      | zero => intro lPos _ b hb; simp [slabs] at hb
      | succ n ih =>
        intro lPos hl b hb
        have hS : 0 < g.S := Nat.mul_pos hL hL
        have hf := fill_run g hL 0 rank (g.n3 - lPos) lPos [] (by omega)
          (by intro j _; simpa using hS) (Or.inl (by omega))
        unfold slabs at hb
        dsimp only at hb
        rw [hf] at hb
        rw [List.mem_cons] at hb
        rcases hb with rfl | hb
        · simp
        · exact ih _ (by omega) b hb
    unfold inFile
    cases h : (slabs g 0 rank (nSlabs g nPrt) 0)[zDim]? with
    | none => rfl
    | some b =>
      rw [Option.bind_some, h0 _ 0 (by omega) b (List.mem_of_getElem? h)]
      rfl

/-- **C70** Every place of the file that the header announces belongs to one slab of one rank,
exactly when the number of particles is a multiple of ranks times points of a slice; the particle
at place `k` has the identity number `k`. -/
theorem C70_places_iff (g : Grid) (nPrt : ℕ) (hL : 0 < g.L) :
    (∀ k < nPrt, ∃! s : ℕ × ℕ × ℕ, s.1 < g.ranks ∧ s.2.1 < nSlabs g nPrt ∧ s.2.2 < g.S ∧
      idOf g nPrt s.1 s.2.1 s.2.2 = k) ↔ g.S * g.ranks ∣ nPrt := by
  have hS : 0 < g.S := Nat.mul_pos hL hL
  have hnn : nSlabs g nPrt = nPrt / (g.S * g.ranks) := by
    unfold nSlabs; rw [Nat.div_div_eq_div_mul]
  have hid : ∀ r z j, idOf g nPrt r z j = (r * nSlabs g nPrt + z) * g.S + j := fun _ _ _ => rfl
  constructor
  · intro h
    by_contra hnd
    have hm : 0 < nPrt % (g.S * g.ranks) := by
      rcases Nat.eq_zero_or_pos (nPrt % (g.S * g.ranks)) with h' | h'
      · exact absurd (Nat.dvd_of_mod_eq_zero h') hnd
      · exact h'
    have hd := Nat.div_add_mod nPrt (g.S * g.ranks)
    rw [← hnn] at hd
    obtain ⟨⟨r, z, j⟩, ⟨h1, h2, h3, h4⟩, _⟩ := h (g.S * g.ranks * nSlabs g nPrt) (by omega)
    dsimp only at h1 h2 h3 h4
    rw [hid] at h4
    have a1 : r * nSlabs g nPrt + z < g.ranks * nSlabs g nPrt := pair_lt h1 h2
    have a2 : (r * nSlabs g nPrt + z) * g.S + j < g.ranks * nSlabs g nPrt * g.S := pair_lt a1 h3
    rw [h4] at a2
    have : g.S * g.ranks * nSlabs g nPrt = g.ranks * nSlabs g nPrt * g.S := by ring
    omega
  · intro hdvd k hk
    have hprod : g.ranks * nSlabs g nPrt * g.S = nPrt := by
      rw [hnn]
      calc g.ranks * (nPrt / (g.S * g.ranks)) * g.S = g.S * g.ranks * (nPrt / (g.S * g.ranks)) := by
            ring
        _ = nPrt := Nat.mul_div_cancel' hdvd
    have hk1 : k / g.S < g.ranks * nSlabs g nPrt := by
      rw [Nat.div_lt_iff_lt_mul hS, hprod]; exact hk
    have hN : 0 < nSlabs g nPrt := by
      rcases Nat.eq_zero_or_pos (nSlabs g nPrt) with h | h
      · rw [h, Nat.mul_zero] at hk1; exact absurd hk1 (Nat.not_lt_zero _)
      · exact h
    refine ⟨(k / g.S / nSlabs g nPrt, k / g.S % nSlabs g nPrt, k % g.S), ⟨?_, ?_, ?_, ?_⟩, ?_⟩
    · dsimp only
      rw [Nat.div_lt_iff_lt_mul hN]; exact hk1
    · exact Nat.mod_lt _ hN
    · exact Nat.mod_lt _ hS
    · dsimp only
      rw [hid, div_mul_add_mod, div_mul_add_mod]
    · rintro ⟨r, z, j⟩ ⟨h1, h2, h3, h4⟩
      dsimp only at h1 h2 h3 h4
      rw [hid] at h4
      rw [← h4, div_of h3, mod_of h3, div_of h2, mod_of h2]

example : (⟨4, 2, 1, 2⟩ : Grid).S * (⟨4, 2, 1, 2⟩ : Grid).ranks ∣ 64 := ⟨2, rfl⟩

/-! ### Coordinates -/

/-- **C70** A particle of point `c` displaced by less than one point is stored at its place, inside
the box. -/
theorem C70_place_inside (n c : ℕ) (b d : ℝ) (hc : c < n) (hb : 0 < b) (hd : 0 ≤ d ∧ d < 1) :
    place n b c d = (c + d) * b / n ∧ 0 ≤ place n b c d ∧ place n b c d < b := by
  have hn : (0 : ℝ) < n := by exact_mod_cast (by omega : 0 < n)
  have hcn : (c : ℝ) + 1 ≤ n := by exact_mod_cast hc
  have h0 : 0 ≤ ((c : ℝ) + d) * b / n := by
    have : (0 : ℝ) ≤ c := Nat.cast_nonneg c
    have := hd.1
    positivity
  have h1 : ((c : ℝ) + d) * b / n < b := by
    rw [div_lt_iff₀ hn, mul_comm b]
    exact mul_lt_mul_of_pos_right (by linarith [hd.2]) hb
  have e : place n b c d = (c + d) * b / n := by
    unfold place
    dsimp only
    rw [if_neg (not_lt.2 h0), if_neg (not_lt.2 h1.le)]
  rw [e]
  exact ⟨rfl, h0, h1⟩

/-- **C70** Whatever the displacement, the stored coordinate is a periodic image of the right one;
it lies in the box exactly when the particle left it by at most one length of the box. -/
theorem C70_place_iff (n : ℕ) (b c d : ℝ) (hn : 0 < n) (hb : 0 < b) :
    (∃ k : ℤ, place n b c d = (c + d) * b / n + k * b) ∧
    ((0 ≤ place n b c d ∧ place n b c d ≤ b) ↔ (-(n : ℝ) ≤ c + d ∧ c + d ≤ 2 * n)) := by
  have hn' : (0 : ℝ) < n := by exact_mod_cast hn
  have hlow : -(n : ℝ) ≤ c + d ↔ -b ≤ (c + d) * b / n := by
    rw [le_div_iff₀ hn']
    constructor
    · intro h; nlinarith
    · intro h
      by_contra hc
      nlinarith
  have hhigh : c + d ≤ 2 * n ↔ (c + d) * b / n ≤ 2 * b := by
    rw [div_le_iff₀ hn']
    constructor
    · intro h; nlinarith
    · intro h
      by_contra hc
      nlinarith
  rw [hlow, hhigh]
  unfold place
  dsimp only
  generalize (c + d) * b / n = x
  by_cases h0 : x < 0
  · rw [if_pos h0, if_neg (by linarith)]
    refine ⟨⟨1, by push_cast; ring⟩, ?_⟩
    constructor
    · rintro ⟨h1, _⟩; exact ⟨by linarith, by linarith⟩
    · rintro ⟨h1, _⟩; exact ⟨by linarith, by linarith⟩
  · rw [if_neg h0]
    by_cases h1 : x > b
    · rw [if_pos h1]
      refine ⟨⟨-1, by push_cast; ring⟩, ?_⟩
      constructor
      · rintro ⟨_, h2⟩; exact ⟨by linarith, by linarith⟩
      · rintro ⟨_, h2⟩; exact ⟨by linarith, by linarith⟩
    · rw [if_neg h1]
      refine ⟨⟨0, by push_cast; ring⟩, ?_⟩
      constructor
      · rintro ⟨_, _⟩; exact ⟨by linarith, by linarith⟩
      · rintro ⟨_, _⟩; exact ⟨by linarith, by linarith⟩

example : place 4 8 3 0.25 = 6.5 := by
  have := (C70_place_inside 4 3 8 0.25 (by omega) (by norm_num) ⟨by norm_num, by norm_num⟩).1
  push_cast at this
  rw [this]; norm_num

/-! ### Buffers -/

/-- **C70** The positions and the masses of a slab lie inside `m2`, behind the densities and apart
from each other, if there is at least one ghost slice: the masses are read from densities that
the loop has not touched. -/
theorem C70_buffers (g : Grid) (hNg : 1 ≤ g.Ng) (t t' c i : ℕ) (ht : t < g.S) (ht' : t' < g.S)
    (hc : c < 3) (hi : i < g.n3) :
    posCell g t c < m2Room g ∧ massCell g t < m2Room g ∧ posCell g t c ≠ i ∧ massCell g t ≠ i ∧
    (1 ≤ g.Lz → posCell g t c ≠ massCell g t') := by
  have hn3 : g.n3 = g.S * g.Lz := rfl
  have h1 : g.S * (g.Lz * 2 + 1) = 2 * (g.S * g.Lz) + g.S := by ring
  have h2 : g.S * (g.Lz + 1) = g.S * g.Lz + g.S := by ring
  have h3 : m2Room g = 2 * (g.S * g.Lz) + 4 * (g.S * g.Ng) := by
    unfold m2Room Grid.v3; ring
  have h4 : g.S ≤ g.S * g.Ng := Nat.le_mul_of_pos_right _ hNg
  have h5 : 1 ≤ g.Lz → g.S ≤ g.S * g.Lz := fun h => Nat.le_mul_of_pos_right _ h
  unfold posCell massCell
  rw [h1, h2, h3]
  rw [hn3] at hi
  generalize g.S * g.Lz = a at *
  generalize g.S * g.Ng = b at *
  refine ⟨by omega, by omega, by omega, by omega, ?_⟩
  intro h
  have := h5 h
  omega

/-- **C70** (negative) The velocities are written outside the allocation of `v`, for every grid
and every particle, unless there are more than twice as many ghost slices as slices. -/
theorem C70_velocity_outside (g : Grid) (v : Heap ℕ ℝ) (hv : ∀ a, vRoom g ≤ a → v a = none)
    (hNg : g.Ng ≤ 2 * g.Lz + 1) (t : ℕ) (u : ℝ × ℝ × ℝ) : storeVel g t u v = none := by
  have h : vRoom g ≤ velCell g t 0 := by
    unfold vRoom velCell Grid.v3 Grid.n3
    have : g.S * g.Ng ≤ g.S * (2 * g.Lz + 1) := Nat.mul_le_mul_left _ hNg
    have e1 : g.S * (g.Lz + 2 * g.Ng) = g.S * g.Lz + 2 * (g.S * g.Ng) := by ring
    have e2 : g.S * (g.Lz * 2 + 1) = g.S * (2 * g.Lz + 1) := by ring
    rw [e1, e2]
    omega
  unfold storeVel Heap.write
  rw [hv _ h]
  rfl

/-- An allocation as in the code: one ghost slice, four slices. -/
example : storeVel ⟨4, 4, 1, 1⟩ 0 (0, 0, 0)
    (fun a => if a < vRoom ⟨4, 4, 1, 1⟩ then some 0 else none) = none :=
  C70_velocity_outside _ _ (fun a h => by simp [Nat.not_lt.2 h]) (by decide) 0 _

/-- **C70** (negative) The loop that takes the mean runs over the memory of the smoothed velocity
along x: afterwards all of it is made of densities, and nothing of the velocity is left. -/
theorem C70_smoothed_lost (g : Grid) (bits : Word → ℝ) (order : List ℕ) (m2 : ℕ → Word)
    (ho : order.Perm (List.range (g.n3 / 2))) (heven : 2 ∣ g.n3) (idx : ℕ) (hi : idx < g.n3) :
    let d := (m2 (2 * (idx / 2))).read bits + (m2 (2 * (idx / 2) + 1)).read bits
    pairLoop g bits order m2 (vxCell g idx) = if idx % 2 = 0 then .low d else .high d := by
  intro d
  have hv3 : g.n3 ≤ g.v3 := by
    unfold Grid.n3 Grid.v3
    exact Nat.mul_le_mul_left _ (by omega)
  have hmem : idx / 2 ∈ order := ho.mem_iff.2 (List.mem_range.2 (by omega))
  have hnd : order.Nodup := ho.nodup_iff.2 List.nodup_range
  have hlt : ∀ i ∈ order, i < g.n3 / 2 := fun i hi => List.mem_range.1 (ho.mem_iff.1 hi)
  clear ho
  -- the densities stay, and a pair is written once
  have keep : ∀ (l : List ℕ) (m : ℕ → Word), (∀ i ∈ l, i < g.n3 / 2) → ∀ a,
      (∀ i ∈ l, a ≠ g.v3 + 2 * i ∧ a ≠ g.v3 + 2 * i + 1) → pairLoop g bits l m a = m a := by
    intro l
    induction l with
    | nil => intro m _ a _; rfl
    | cons i l ih =>
      intro m hl a ha
      unfold pairLoop at ih ⊢
      rw [List.foldl_cons, ih _ (fun j hj => hl j (List.mem_cons_of_mem i hj)) a
        (fun j hj => ha j (List.mem_cons_of_mem i hj))]
      have := ha i List.mem_cons_self
      unfold pairStep
      rw [if_neg this.1, if_neg this.2]
  have main : ∀ (l : List ℕ) (m : ℕ → Word), (∀ i ∈ l, i < g.n3 / 2) → l.Nodup → idx / 2 ∈ l →
      (∀ a < g.n3, m a = m2 a) →
      pairLoop g bits l m (vxCell g idx) = if idx % 2 = 0 then .low d else .high d := by
    intro l
    induction l with
    | nil => intro m _ _ h; simp at h
    | cons i l ih =>
      intro m hl hnd hmem hm
      have hil := hl i List.mem_cons_self
      by_cases h : idx / 2 = i
      · have hni : i ∉ l := (List.nodup_cons.1 hnd).1
        have := keep l (pairStep g bits m i) (fun j hj => hl j (List.mem_cons_of_mem i hj))
          (vxCell g idx) (fun j hj => by
            have : j ≠ i := fun e => hni (e ▸ hj)
            unfold vxCell
            omega)
        unfold pairLoop at this ⊢
        rw [List.foldl_cons, this]
        unfold pairStep vxCell
        rw [← h, hm _ (by omega), hm _ (by omega)]
        by_cases h2 : idx % 2 = 0
        · rw [if_pos h2, if_pos (by omega)]
        · rw [if_neg h2, if_neg (by omega), if_pos (by omega)]
      · have hmem' : idx / 2 ∈ l := by
          rcases List.mem_cons.1 hmem with h' | h'
          · exact absurd h' h
          · exact h'
        have := ih (pairStep g bits m i) (fun j hj => hl j (List.mem_cons_of_mem i hj))
          (List.nodup_cons.1 hnd).2 hmem' (by
            intro a ha
            unfold pairStep
            rw [if_neg (by omega), if_neg (by omega)]
            exact hm a ha)
        unfold pairLoop at this ⊢
        rw [List.foldl_cons]
        exact this
  exact main order m2 hlt hnd hmem (fun a _ => rfl)

example : ([1, 0] : List ℕ).Perm (List.range ((⟨2, 1, 1, 1⟩ : Grid).n3 / 2)) := by
  show ([1, 0] : List ℕ).Perm (List.range 2)
  decide

/-! ### Smoothing -/

/-- **C70** The loop of the filter attributes to `idx` the mode stored at the complex number `idx`
of the transform. -/
theorem C70_filter_mode (g : Grid) (rank kx kz ky : ℕ) (hx : kx < g.L / 2 + 1) (hz : kz < g.Tz) :
    modeOf g rank (kx + (g.L / 2 + 1) * (kz + g.Tz * ky)) =
      ((kx : ℤ), wrapped g.L (ky + rank * g.L / g.ranks : ℕ), wrapped g.Tz kz) := by
  have e : kx + (g.L / 2 + 1) * (kz + g.Tz * ky) = (ky * g.Tz + kz) * (g.L / 2 + 1) + kx := by ring
  rw [e]
  unfold modeOf
  dsimp only
  rw [div_of hx, div_of hz]
  congr 1
  · have : (ky * g.Tz + kz) * (g.L / 2 + 1) + kx - (ky * g.Tz + kz) * (g.L / 2 + 1) = kx := by omega
    rw [this]
  · have : ky * g.Tz + kz - ky * g.Tz = kz := by omega
    rw [this]

/-- **C70** The number given to a place `k < n` of the transform is congruent to it and the smallest
such in size. -/
theorem C70_filter_number (n k : ℕ) (hk : k < n) :
    wrapped n k ≡ k [ZMOD n] ∧ 2 * |wrapped n k| ≤ n := by
  unfold wrapped
  split
  · refine ⟨?_, ?_⟩
    · simp [Int.ModEq]
    · rw [abs_of_nonpos (by omega)]
      omega
  · refine ⟨rfl, ?_⟩
    rw [abs_of_nonneg (by omega)]
    omega

/-- **C70** (negative) But the loop counts real numbers.  The modes of the second half of the list
are neither damped nor normalised, among them the last one, which is not the mode zero. -/
theorem C70_filter_half (g : Grid) (pref norm : ℝ) (rank : ℕ) (a : ℕ → ℝ) (hL : 2 ≤ g.L)
    (hz : 1 ≤ g.Lz) :
    (∀ i t, nModes g ≤ 2 * i → filterLoop g pref norm rank a (2 * i + t) = a (2 * i + t)) ∧
    nModes g ≤ 2 * (nModes g - 1) ∧ (modeOf g rank (nModes g - 1)).1 ≠ 0 := by
  have hn : 2 ≤ nModes g := by
    unfold nModes
    have h1 : 2 * 2 ≤ (g.L / 2 + 1) * g.L := Nat.mul_le_mul (by omega) hL
    have := Nat.le_mul_of_pos_right ((g.L / 2 + 1) * g.L) hz
    omega
  refine ⟨?_, by omega, ?_⟩
  · intro i t h
    unfold filterLoop
    rw [if_neg (by omega)]
  · have e : nModes g - 1 = (g.L * g.Lz - 1) * (g.L / 2 + 1) + g.L / 2 := by
      have h1 : 1 ≤ g.L * g.Lz := Nat.mul_pos (by omega) hz
      obtain ⟨m, hm⟩ : ∃ m, g.L * g.Lz = m + 1 := ⟨g.L * g.Lz - 1, by omega⟩
      have : nModes g = (m + 1) * (g.L / 2 + 1) := by
        unfold nModes
        rw [Nat.mul_assoc, hm, Nat.mul_comm]
      rw [this, hm, Nat.succ_mul, Nat.add_sub_cancel]
      omega
    unfold modeOf
    dsimp only
    rw [e, div_of (by omega)]
    have : (g.L * g.Lz - 1) * (g.L / 2 + 1) + g.L / 2 - (g.L * g.Lz - 1) * (g.L / 2 + 1) =
        g.L / 2 := by omega
    rw [this]
    have : 1 ≤ g.L / 2 := by omega
    omega

/-- **C70** (negative) And in the first half a mode is damped with the factors of other modes: the
wave of one period along x is damped with the factor of two periods in its real part and of three
in its imaginary part. -/
theorem C70_filter_wrong (g : Grid) (pref norm : ℝ) (a : ℕ → ℝ) (hL : 6 ≤ g.L) (hz : 1 ≤ g.Lz)
    (hR : 1 ≤ g.ranks) :
    filterLoop g pref norm 0 a 2 = a 2 * (Real.exp (-pref * 4) * norm) ∧
    filterLoop g pref norm 0 a 3 = a 3 * (Real.exp (-pref * 9) * norm) ∧
    filter g pref norm 0 1 = Real.exp (-pref * 1) * norm := by
  have hTz : 0 < g.Tz := Nat.mul_pos hz hR
  have hn : 4 ≤ nModes g := by
    unfold nModes
    have h1 : 4 * 6 ≤ (g.L / 2 + 1) * g.L := Nat.mul_le_mul (by omega) hL
    have := Nat.le_mul_of_pos_right ((g.L / 2 + 1) * g.L) hz
    omega
  have mode : ∀ k, k ≤ 3 → filter g pref norm 0 k = Real.exp (-pref * ((k * k : ℕ) : ℝ)) * norm := by
    intro k hk
    have h := C70_filter_mode g 0 k 0 0 (by omega) hTz
    simp only [Nat.mul_zero, Nat.add_zero, Nat.zero_mul, Nat.zero_div] at h
    have w : ∀ n, wrapped n ((0 : ℕ) : ℤ) = 0 := by
      intro n; unfold wrapped; rw [if_neg (by omega)]; rfl
    rw [w, w] at h
    unfold filter
    rw [h]
    dsimp only
    push_cast
    simp only [add_zero]
  unfold filterLoop
  rw [if_pos (by omega), if_pos (by omega), mode 2 (by omega), mode 3 (by omega), mode 1 (by omega)]
  norm_num

/-- **C70** (negative) Only a part of the points is carried to the transform and back. -/
theorem C70_moved (g : Grid) (hL : 3 ≤ g.L) (hz : 1 ≤ g.Lz) : moved g < g.n3 := by
  unfold moved Grid.n3 Grid.S
  refine Nat.mul_lt_mul_of_pos_right ?_ hz
  exact Nat.mul_lt_mul_of_lt_of_le (by omega) (by omega) (by omega)

example : nModes ⟨6, 6, 1, 1⟩ = 144 ∧ moved ⟨6, 6, 1, 1⟩ = 96 ∧ (⟨6, 6, 1, 1⟩ : Grid).n3 = 216 := by
  decide

/-! ### Options -/

/-- **C70** The option for velocities does what it says.  (negative) The one for displacements
smooths the velocities instead, and no choice of options displaces the particles. -/
theorem C70_options (v s d : Bool) :
    (options v s d).mapVel = v ∧ (options v s d).smVel = (s || d) ∧ (options v s d).disp = false := by
  cases v <;> cases s <;> cases d <;> decide

end Gadget
end Jaxions
