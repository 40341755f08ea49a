import Verif.Lemmas.Projector
import Mathlib.Algebra.Order.Ring.Rat

/-
C35: the projected map is the average along z of the whole field, on rank 0.
-/

namespace Jaxions.Projector

variable {K : Type} [Field K]

/-- C35: for every number of ranks and every order of the loops the map on rank 0 is the average
of the filtered field over all slices of all ranks; the other ranks hold zeros; `m2` and the
physical part of `m` are untouched. -/
theorem C35_map {P : ℕ} {g : Shape} (hf : 1 ≤ g.fS) (hz : 1 ≤ g.Lz) (hn : 1 ≤ g.Ng)
    (filter : K → K) {G : ℕ → ℕ → K} {s : Fin (P + 1) → Mem K} (hs : Holds g G s)
    {order order' : Fin (P + 1) → List ℕ} (ho : ∀ r, (order r).Perm (List.range g.n2))
    (ho' : ∀ r, (order' r).Perm (List.range g.n2)) :
    ∃ s', runCpu g filter order order' s = some s' ∧
      (∀ pt < g.n2, s' 0 (.m, pt) = some (average (g.Lz * (P + 1)) filter G pt)) ∧
      (∀ r, r ≠ 0 → ∀ pt < g.n2, s' r (.m, pt) = some 0) ∧
      (∀ r a, ¬ InGhost g a → s' r a = s r a) ∧ Holds g G s' := by
  have hin : ∀ r : Fin (P + 1), ∀ pt < g.n2, ∀ zc < g.Lz,
      s r (inAt g pt zc) = some (G pt (r * g.Lz + zc)) := by
    intro r pt hpt zc hzc
    have := hs.field r pt hpt zc hzc
    have e : inAt g pt zc = (.m2, zc * g.n2 + pt) := by
      show (Buf.m2, pt + g.n2 * zc) = _
      rw [Nat.add_comm, Nat.mul_comm]
    rw [e]; exact this
  obtain ⟨s1, a1, a2⟩ := allRanks_spec (s := s)
    (f := fun r h => (order r).foldlM (sumPoint g filter) h)
    (Q := fun r h' => (∀ pt < g.n2, h' (out pt) = some 0 ∧
        h' (med g pt) = some ((List.range g.Lz).map fun z => filter (G pt (r * g.Lz + z))).sum) ∧
      ∀ a, (∀ pt < g.n2, a ≠ out pt ∧ a ≠ med g pt) → h' a = s r a)
    (fun r => sums_spec hf hz filter (F := fun pt z => G pt (r * g.Lz + z)) (hin r)
      (fun pt hpt => hs.alloc r _ (med_lt hf hn hpt)) (fun pt hpt => hs.alloc r _ (out_lt hf hn hpt))
      (ho r))
  obtain ⟨s2, b1, b2, b3, b4⟩ := reduce_spec (g := g) (s := s1)
    (S := fun r pt => ((List.range g.Lz).map fun z => filter (G pt (r * g.Lz + z))).sum)
    (fun r pt hpt => ((a2 r).1 pt hpt).2) (fun pt hpt => by rw [((a2 0).1 pt hpt).1]; rfl)
  obtain ⟨s3, c1, c2⟩ := allRanks_spec (s := s2)
    (f := fun r h => (order' r).foldlM (scalePoint (1 / ((g.Lz * (P + 1) : ℕ) : K))) h)
    (Q := fun r h' => (∀ pt < g.n2, h' (out pt) = some ((if r = 0 then
          ((List.finRange (P + 1)).map fun r : Fin (P + 1) =>
            ((List.range g.Lz).map fun z => filter (G pt (r * g.Lz + z))).sum).sum else 0) *
          (1 / ((g.Lz * (P + 1) : ℕ) : K)))) ∧
      ∀ a, (∀ pt < g.n2, a ≠ out pt) → h' a = s2 r a)
    (fun r => scale_spec _ (X := fun pt => if r = 0 then
          ((List.finRange (P + 1)).map fun r : Fin (P + 1) =>
            ((List.range g.Lz).map fun z => filter (G pt (r * g.Lz + z))).sum).sum else 0)
      (fun pt hpt => by
        by_cases hr : r = 0
        · subst hr
          rw [b2 pt hpt]; simp
        · rw [b3 r hr, ((a2 r).1 pt hpt).1, if_neg hr]) (ho' r))
  have hkeep : ∀ r a, (∀ pt < g.n2, a ≠ out pt ∧ a ≠ med g pt) → s3 r a = s r a := by
    intro r a ha
    rw [(c2 r).2 a (fun pt hpt => (ha pt hpt).1), b4 r a (fun pt hpt => (ha pt hpt).1),
      (a2 r).2 a ha]
  refine ⟨s3, ?_, ?_, ?_, ?_, ?_, ?_⟩
  · unfold runCpu
    rw [a1, Option.bind_some, b1, Option.bind_some, c1]
  · intro pt hpt
    rw [show ((Buf.m, pt) : Buf × ℕ) = out pt from rfl, (c2 0).1 pt hpt, if_pos rfl]
    congr 1
    rw [sum_ranks (fun z => filter (G pt z)) g.Lz (P + 1), mul_one_div]
    rfl
  · intro r hr pt hpt
    rw [show ((Buf.m, pt) : Buf × ℕ) = out pt from rfl, (c2 r).1 pt hpt, if_neg hr, zero_mul]
  · intro r a ha
    refine hkeep r a (fun pt hpt => ⟨?_, ?_⟩)
    · rintro rfl
      refine ha ⟨rfl, Or.inl ?_⟩
      show pt < _
      have h1 : g.n2 * 1 ≤ g.n2 * g.Ng := Nat.mul_le_mul_left _ hn
      have h2 : 1 * (g.n2 * g.Ng) ≤ g.fS * (g.n2 * g.Ng) := Nat.mul_le_mul_right _ hf
      omega
    · rintro rfl
      refine ha ⟨rfl, Or.inr ?_⟩
      show _ ≤ g.fS * (g.n2 * g.Ng + g.n2 * g.Lz) + pt
      rw [Nat.mul_add, Nat.add_comm (g.n2 * g.Lz)]
      exact Nat.le_add_right _ _
  · intro r pt hpt zc hzc
    rw [hkeep r _ (fun q _ => ⟨by simp [out], by simp [med]⟩)]
    exact hs.field r pt hpt zc hzc
  · intro r i hi
    by_cases ho : i < g.n2
    · rw [show ((Buf.m, i) : Buf × ℕ) = out i from rfl, (c2 r).1 i ho]; rfl
    · by_cases hm : ∃ pt < g.n2, (Buf.m, i) = med g pt
      · obtain ⟨pt, hpt, e⟩ := hm
        rw [e, (c2 r).2 _ (fun q hq => med_ne_out hf hz hq), b4 r _ (fun q hq => med_ne_out hf hz hq),
          ((a2 r).1 pt hpt).2]
        rfl
      · rw [hkeep r _ (fun q hq => ⟨fun he => ho (by rw [out_inj (p := i) he]; exact hq),
          fun he => hm ⟨q, hq, he⟩⟩)]
        exact hs.alloc r i hi

/-- C35: the map does not depend on the number of ranks, on the number of ghost slices or on the
kind of field that owns the memory. -/
theorem C35_ranks {P P' : ℕ} {g g' : Shape} (hf : 1 ≤ g.fS) (hz : 1 ≤ g.Lz) (hn : 1 ≤ g.Ng)
    (hf' : 1 ≤ g'.fS) (hz' : 1 ≤ g'.Lz) (hn' : 1 ≤ g'.Ng) (h2 : g'.n2 = g.n2)
    (hT : g'.Lz * (P' + 1) = g.Lz * (P + 1)) (filter : K → K) {G : ℕ → ℕ → K}
    {s : Fin (P + 1) → Mem K} {s' : Fin (P' + 1) → Mem K} (hs : Holds g G s) (hs' : Holds g' G s')
    {o1 o2 : Fin (P + 1) → List ℕ} {o3 o4 : Fin (P' + 1) → List ℕ}
    (p1 : ∀ r, (o1 r).Perm (List.range g.n2)) (p2 : ∀ r, (o2 r).Perm (List.range g.n2))
    (p3 : ∀ r, (o3 r).Perm (List.range g'.n2)) (p4 : ∀ r, (o4 r).Perm (List.range g'.n2)) :
    ∃ t t', runCpu g filter o1 o2 s = some t ∧ runCpu g' filter o3 o4 s' = some t' ∧
      ∀ pt < g.n2, t 0 (.m, pt) = t' 0 (.m, pt) := by
  obtain ⟨t, a1, a2, -⟩ := C35_map hf hz hn filter hs p1 p2
  obtain ⟨t', b1, b2, -⟩ := C35_map hf' hz' hn' filter hs' p3 p4
  refine ⟨t, t', a1, b1, fun pt hpt => ?_⟩
  rw [a2 pt hpt, b2 pt (by rw [h2]; exact hpt), hT]

omit [Field K] in
theorem write_map {g : Shape} {name : String} {h : Mem K} {f : File K} {X : ℕ → K}
    (hX : ∀ pt < g.n2, h (.m, pt) = some (X pt)) :
    writePMap g name h f = some (if name ∈ f.map Prod.fst then .exited
      else .on (f ++ [(name, (List.range g.n2).map X)])) := by
  unfold writePMap
  by_cases hc : name ∈ f.map Prod.fst
  · rw [if_pos hc, if_pos hc]
  · rw [if_neg hc, if_neg hc]
    have : readAll ((List.range g.n2).map out) h = some ((List.range g.n2).map X) := by
      unfold readAll
      rw [mapM_some (F := fun a => X a.2) _ (by
        intro a ha
        obtain ⟨pt, hpt, rfl⟩ := List.mem_map.1 ha
        exact hX pt (List.mem_range.1 hpt)), List.map_map]
      rfl
    rw [this]
    rfl

/-- C35: what reaches the file.  With one of the two maps asked for the file gets the average of
the energy, or of its square, under `/map/P`.  With both the program exits at the second one and
leaves the measurement undone. -/
theorem C35_file {P : ℕ} {g : Shape} (hf : 1 ≤ g.fS) (hz : 1 ≤ g.Lz) (hn : 1 ≤ g.Ng)
    {G : ℕ → ℕ → K} {s : Fin (P + 1) → Mem K} (hs : Holds g G s)
    {order order' : Fin (P + 1) → List ℕ} (ho : ∀ r, (order r).Perm (List.range g.n2))
    (ho' : ∀ r, (order' r).Perm (List.range g.n2)) (f : File K) (hnew : "/map/P" ∉ f.map Prod.fst) :
    (∃ t, twoMaps true false g order order' s f = some (.on (t, f ++ [("/map/P",
        (List.range g.n2).map (average (g.Lz * (P + 1)) (fun x => x) G))]))) ∧
    (∃ t, twoMaps false true g order order' s f = some (.on (t, f ++ [("/map/P",
        (List.range g.n2).map (average (g.Lz * (P + 1)) (fun x => x * x) G))]))) ∧
    twoMaps true true g order order' s f = some .exited := by
  obtain ⟨t, a1, a2, -, -, a5⟩ := C35_map hf hz hn (fun x => x) hs ho ho'
  obtain ⟨u, b1, b2, -, -, -⟩ := C35_map hf hz hn (fun x => x * x) hs ho ho'
  obtain ⟨w, c1, c2, -, -, -⟩ := C35_map hf hz hn (fun x => x * x) a5 ho ho'
  refine ⟨⟨t, ?_⟩, ⟨u, ?_⟩, ?_⟩
  · simp [twoMaps, projectField, a1, write_map a2, hnew]
  · simp [twoMaps, projectField, b1, write_map b2, hnew]
  · simp [twoMaps, projectField, a1, write_map a2, hnew, c1, write_map c2]

/-! ### A case -/

def exShape : Shape := ⟨4, 2, 1, 2⟩

/-- Two ranks with two slices each; the field is `pt + 10 z`. -/
def exMem : Fin 2 → Mem ℚ := fun r a =>
  match a with
  | (.m, i) => if i < 32 then some 7 else none
  | (.m2, i) => if i < 8 then some ((i % 4 + 10 * (r * 2 + i / 4) : ℕ) : ℚ) else none

example : Holds exShape (fun pt z => ((pt + 10 * z : ℕ) : ℚ)) exMem := by
  constructor
  · intro r pt hpt zc hzc
    have hpt : pt < 4 := hpt
    have hzc : zc < 2 := hzc
    show (if zc * 4 + pt < 8 then some (((zc * 4 + pt) % 4 + 10 * (r * 2 + (zc * 4 + pt) / 4) : ℕ) : ℚ)
      else none) = some ((pt + 10 * (r * 2 + zc) : ℕ) : ℚ)
    rw [if_pos (by omega), show (zc * 4 + pt) % 4 = pt by omega, show (zc * 4 + pt) / 4 = zc by omega]
  · intro r i hi
    have hi : i < 32 := hi
    show (if i < 32 then some (7 : ℚ) else none).isSome
    rw [if_pos hi]; rfl

example : (runCpu exShape (fun x => x) (fun _ => [2, 0, 3, 1]) (fun _ => List.range 4) exMem).map
    (fun t => (List.range 5).map fun i => t 0 (.m, i)) =
      some [some 15, some 16, some 17, some 18, some 7] := by decide +kernel

end Jaxions.Projector
