import Verif.Spec.ConfIO
import Verif.Basic.DivMod
import Mathlib.Tactic.Ring
import Mathlib.Data.List.Nodup
import Mathlib.Data.List.Pairwise

namespace Jaxions.ConfIO

open Spec

theorem mem_turns {P Lz : ℕ} {u : Turn} : u ∈ turns P Lz ↔ u.rank < P ∧ u.z < Lz := by
  obtain ⟨r, z⟩ := u
  simp [turns]

theorem nodup_turns (P Lz : ℕ) : (turns P Lz).Nodup := by
  unfold turns
  rw [List.nodup_flatMap]
  refine ⟨?_, ?_⟩
  · intro r _
    exact List.nodup_range.map (fun a b h => by simpa using h)
  · refine List.nodup_range.imp ?_
    intro a b hab
    simp only [Function.onFun, List.disjoint_left, List.mem_map, not_exists, not_and]
    rintro u ⟨z, -, rfl⟩ z' - h
    simp only [Turn.mk.injEq] at h
    exact hab h.1.symm

theorem mem_writeTurn {t : FType} {surf ng Lz : ℕ} {u : Turn} {p : Cell × Cell} :
    p ∈ writeTurn t surf ng Lz u ↔ ∃ d ∈ t.saved, ∃ k, k < t.comps * surf ∧
      p = (.file d (fileOffset Lz (t.comps * surf) u + k),
        .mem u.rank d (startOf t surf ng d + t.comps * surf * u.z + k)) := by
  unfold writeTurn
  simp only [List.mem_flatMap, List.mem_map, List.mem_range]
  constructor
  · rintro ⟨d, hd, k, hk, rfl⟩
    exact ⟨d, hd, k, hk, rfl⟩
  · rintro ⟨d, hd, k, hk, rfl⟩
    exact ⟨d, hd, k, hk, rfl⟩

theorem mem_readTurn {t : FType} {surf Nz : ℕ} {first : Dset → ℕ} {u : Turn} {p : Cell × Cell} :
    p ∈ readTurn t surf first Nz u ↔ ∃ d, ∃ k, k < t.comps * surf ∧
      p = (.mem u.rank d (first d + t.comps * surf * u.z + k),
        .file d (fileOffset Nz (t.comps * surf) u + k)) := by
  unfold readTurn
  simp only [List.mem_flatMap, List.mem_map, List.mem_range]
  constructor
  · rintro ⟨d, hd, k, hk, rfl⟩
    exact ⟨d, k, hk, rfl⟩
  · rintro ⟨d, k, hk, rfl⟩
    exact ⟨d, by cases d <;> simp, k, hk, rfl⟩

/-- Rank, slice and place in the slab are determined by the place in the file. -/
theorem fileOffset_inj {Lz slab : ℕ} {u w : Turn} {k l : ℕ} (hu : u.z < Lz) (hw : w.z < Lz)
    (hk : k < slab) (hl : l < slab) (h : fileOffset Lz slab u + k = fileOffset Lz slab w + l) :
    u = w ∧ k = l := by
  unfold fileOffset at h
  obtain ⟨h1, h2⟩ := pair_inj hk hl h
  obtain ⟨h3, h4⟩ := pair_inj hu hw h1
  obtain ⟨r, z⟩ := u
  obtain ⟨r', z'⟩ := w
  dsimp only at h3 h4
  subst h3 h4
  exact ⟨rfl, h2⟩

theorem slab_place {C L x y c : ℕ} (hx : x < L) (hy : y < L) (hc : c < C) :
    (y * L + x) * C + c < C * (L * L) := by
  rw [Nat.mul_comm C]
  exact pair_lt (pair_lt hy hx) hc

theorem file_place (C L r Lz x y z c : ℕ) :
    (((r * Lz + z) * L + y) * L + x) * C + c =
      (r * Lz + z) * (C * (L * L)) + ((y * L + x) * C + c) := by ring

theorem mem_place (C L first x y z c : ℕ) :
    first + ((z * L + y) * L + x) * C + c =
      first + C * (L * L) * z + ((y * L + x) * C + c) := by ring

/-- Every place of a slab belongs to a site. -/
theorem slab_site {C L k : ℕ} (hk : k < C * (L * L)) :
    ∃ c x y, c < C ∧ x < L ∧ y < L ∧ k = (y * L + x) * C + c := by
  have hC : 0 < C := by
    rcases Nat.eq_zero_or_pos C with h | h
    · subst h; simp at hk
    · exact h
  have hL : 0 < L := by
    rcases Nat.eq_zero_or_pos L with h | h
    · subst h; simp at hk
    · exact h
  refine ⟨k % C, k / C % L, k / C / L, Nat.mod_lt _ hC, Nat.mod_lt _ hL, ?_, ?_⟩
  · rw [Nat.mul_comm C] at hk
    exact lt_of_mul_div (lt_of_mul_div hk)
  · rw [div_mul_add_mod, div_mul_add_mod]

end Jaxions.ConfIO
