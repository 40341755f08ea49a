import Verif.Spec.Save

namespace Jaxions.Save

variable {β : Type}

theorem evStep_other {p q : Path} (h : q ≠ p) (d : Disk β) (e : Ev β) : evStep p d e q = d q := by
  cases e <;> simp [evStep, h]

theorem fold_other {p q : Path} (h : q ≠ p) (es : List (Ev β)) (d : Disk β) :
    es.foldl (evStep p) d q = d q := by
  induction es generalizing d with
  | nil => rfl
  | cons e es ih => rw [List.foldl_cons, ih, evStep_other h]

/-- Effect of the puts on the file. -/
theorem fold_put (p : Path) (w : List (ℕ × β)) (hw : (w.map Prod.fst).Nodup) (d : Disk β)
    (f : File β) (hf : d p = some f) :
    ∃ f', (w.map (fun x => Ev.put x.1 x.2)).foldl (evStep p) d p = some f' ∧
      f'.closed = f.closed ∧
      ∀ i b, f'.data i = some b ↔ (i, b) ∈ w ∨ (i ∉ w.map Prod.fst ∧ f.data i = some b) := by
  induction w generalizing d f with
  | nil => exact ⟨f, hf, rfl, fun i b => by simp⟩
  | cons x w ih =>
    obtain ⟨j, a⟩ := x
    rw [List.map_cons, List.nodup_cons] at hw
    have h1 : evStep p d (.put j a) p = some ⟨fun k => if k = j then some a else f.data k, f.closed⟩ := by
      simp [evStep, hf]
    obtain ⟨f', e1, e2, e3⟩ := ih hw.2 _ _ h1
    refine ⟨f', by simpa using e1, e2, ?_⟩
    intro i b
    rw [e3]
    simp only [List.mem_cons, List.map_cons, Prod.mk.injEq, not_or]
    by_cases hij : i = j
    · subst hij
      rw [if_pos rfl]
      constructor
      · rintro (h | ⟨_, h⟩)
        · exact .inl (.inr h)
        · rw [Option.some.injEq] at h; exact .inl (.inl ⟨rfl, h.symm⟩)
      · rintro ((⟨_, rfl⟩ | h) | ⟨⟨h, _⟩, _⟩)
        · exact .inr ⟨hw.1, rfl⟩
        · exact .inl h
        · exact absurd rfl h
    · rw [if_neg hij]
      constructor
      · rintro (h | ⟨h1, h2⟩)
        · exact .inl (.inr h)
        · exact .inr ⟨⟨hij, h1⟩, h2⟩
      · rintro ((⟨h, _⟩ | h) | ⟨⟨_, h1⟩, h2⟩)
        · exact absurd h hij
        · exact .inl h
        · exact .inr ⟨h1, h2⟩

theorem nodup_take {w : List (ℕ × β)} (hw : (w.map Prod.fst).Nodup) (k : ℕ) :
    ((w.take k).map Prod.fst).Nodup := by
  rw [List.map_take]
  exact hw.sublist (List.take_sublist _ _)

theorem crash_zero (c : Call β) (d : Disk β) : crash c 0 d = d := rfl

theorem events_length {c : Call β} (hc : c.created = true) : c.events.length = c.items.length + 2 := by
  simp [Call.events, hc]

/-- In the middle of a call the file is open and holds the elements put so far. -/
theorem crash_mid {c : Call β} (hc : c.created = true) (hw : WellFormed c) (d : Disk β) {k : ℕ}
    (h0 : 0 < k) (hk : k < c.items.length + 2) :
    ∃ f, crash c k d c.path = some f ∧ f.closed = false ∧
      ∀ i b, f.data i = some b ↔ (i, b) ∈ c.items.take (k - 1) := by
  obtain ⟨j, rfl⟩ : ∃ j, k = j + 1 := ⟨k - 1, by omega⟩
  have hj : j ≤ c.items.length := by omega
  have he : c.events.take (j + 1) =
      .create :: (c.items.take j).map (fun x => Ev.put x.1 x.2) := by
    simp only [Call.events, hc, if_true, List.cons_append, List.take_succ_cons, List.cons.injEq, true_and]
    rw [List.take_append_of_le_length (by simpa using hj), List.map_take]
  unfold crash
  rw [he, List.foldl_cons]
  have h1 : evStep c.path d .create c.path = some ⟨fun _ => none, false⟩ := by simp [evStep]
  obtain ⟨f', e1, e2, e3⟩ := fold_put c.path (c.items.take j) (nodup_take hw j) _ _ h1
  refine ⟨f', e1, e2, ?_⟩
  intro i b
  rw [e3]
  simp

/-- At the end the file is closed and holds the content. -/
theorem crash_end {c : Call β} (hc : c.created = true) (hw : WellFormed c) (d : Disk β) :
    HoldsFile (finish d c) c.path c.items := by
  have he : c.events.take c.events.length =
      (.create :: c.items.map (fun x => Ev.put x.1 x.2)) ++ [.close] := by
    rw [List.take_length]; simp [Call.events, hc]
  have h1 : evStep c.path d .create c.path = some ⟨fun _ => none, false⟩ := by simp [evStep]
  obtain ⟨f', e1, e2, e3⟩ := fold_put c.path c.items hw _ _ h1
  refine ⟨⟨f'.data, true⟩, ?_, rfl, ?_⟩
  · unfold finish crash
    rw [he, List.foldl_append, List.foldl_cons]
    simp only [List.foldl_cons, List.foldl_nil]
    simp [evStep] at e1 ⊢
    simp [e1]
  · intro i b
    rw [e3]
    simp

theorem finish_uncreated {c : Call β} (hc : c.created = false) (k : ℕ) (d : Disk β) :
    crash c k d = d := by
  simp [crash, Call.events, hc]

end Jaxions.Save
