import Verif.Model.Comms
import Verif.Basic.DivMod
/-
Helper lemmas for the ghost exchange.
-/
namespace Jaxions

theorem bckNeig_eq {n r : Nat} (hn : 0 < n) : bckNeig n r = (r + n - 1) % n := by
  unfold bckNeig
  congr 1
  omega

theorem fwdNeig_lt {n : Nat} (hn : 0 < n) (r : Nat) : fwdNeig n r < n := Nat.mod_lt _ hn
theorem bckNeig_lt {n : Nat} (hn : 0 < n) (r : Nat) : bckNeig n r < n := Nat.mod_lt _ hn

theorem fwdNeig_cases {n r : Nat} (hr : r < n) : fwdNeig n r = if r + 1 = n then 0 else r + 1 := by
  unfold fwdNeig
  split
  · next h => rw [h, Nat.mod_self]
  · exact Nat.mod_eq_of_lt (by omega)

theorem bckNeig_cases {n r : Nat} (hr : r < n) : bckNeig n r = if r = 0 then n - 1 else r - 1 := by
  rw [bckNeig_eq (by omega)]
  split
  · next h => subst h; rw [Nat.zero_add]; exact Nat.mod_eq_of_lt (by omega)
  · have : r + n - 1 = (r - 1) + n := by omega
    rw [this, Nat.add_mod_right]
    exact Nat.mod_eq_of_lt (by omega)

theorem neig_iff {n s d : Nat} (hs : s < n) (hd : d < n) : bckNeig n s = d ↔ fwdNeig n d = s := by
  rw [bckNeig_cases hs, fwdNeig_cases hd]
  split <;> split <;> omega

theorem neig_iff' {n s d : Nat} (hs : s < n) (hd : d < n) : fwdNeig n s = d ↔ bckNeig n d = s := by
  rw [bckNeig_cases hd, fwdNeig_cases hs]
  split <;> split <;> omega

/-- Intervals laid end to end. -/
theorem flat_pieces (M : Nat) : ∀ (k l : Nat) (f : Nat → Nat),
    (∀ n, n < k → f n = M) → f k = l →
    ((List.range (k + 1)).map fun n => (n * M, f n)).flatMap (fun c => List.range' c.1 c.2) =
      List.range (k * M + l) := by
  intro k l f hf hl
  rw [List.range_succ, List.map_append, List.flatMap_append]
  have h1 : ∀ k, (∀ n, n < k → f n = M) →
      ((List.range k).map fun n => (n * M, f n)).flatMap (fun c => List.range' c.1 c.2) = List.range (k * M) := by
    intro k
    induction k with
    | zero => intro _; simp
    | succ k ih =>
      intro hf
      rw [List.range_succ, List.map_append, List.flatMap_append, ih (fun n hn => hf n (by omega))]
      simp only [List.map_cons, List.map_nil, List.flatMap_cons, List.flatMap_nil, List.append_nil,
        hf k (by omega)]
      rw [List.range_eq_range', List.range_eq_range', Nat.add_mul, Nat.one_mul,
        ← List.range'_append_1, Nat.zero_add]
  rw [h1 k hf]
  simp only [List.map_cons, List.map_nil, List.flatMap_cons, List.flatMap_nil, List.append_nil, hl]
  rw [List.range_eq_range', List.range_eq_range', ← List.range'_append_1, Nat.zero_add]

/-- Channel contents: filtering the posts of one chunk list. -/
theorem onChannel_flatMap (plan : List (Nat × Nat)) (f : Nat × Nat → List Post) (peer tag : Nat) :
    onChannel (plan.flatMap f) peer tag = plan.flatMap (fun c => onChannel (f c) peer tag) := by
  simp [onChannel, List.filter_flatMap]

end Jaxions
