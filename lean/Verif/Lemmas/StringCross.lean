import Verif.Model.StringLength
import Verif.Props.Winding

/-!
# Where a string crosses a plaquette
-/

namespace Jaxions
namespace StrLen

open Winding

variable {K : Type} [Field K] [LinearOrder K] [IsStrictOrderedRing K]

/-- On which side of the line through `p` and `q` the point `(x, y)` is. -/
def ell (p q : K × K) (x y : K) : K :=
  (p.1 - q.1) * y + (q.2 - p.2) * x + (p.2 * q.1 - q.2 * p.1)

/-- `(x, y)` is on the border of the unit square and the values `a`, `b`, `c`, `d` at the corners
(in cyclic order), interpolated along the sides, give `f` there. -/
def Bd (a b c d x y f : K) : Prop :=
  0 ≤ x ∧ x ≤ 1 ∧ 0 ≤ y ∧ y ≤ 1 ∧
    ((y = 0 ∧ f = a + x * (b - a)) ∨ (x = 1 ∧ f = b + y * (c - b)) ∨
     (y = 1 ∧ f = d + x * (c - d)) ∨ (x = 0 ∧ f = a + y * (d - a)))

omit [IsStrictOrderedRing K] in
theorem Bd.neg {a b c d x y f : K} (h : Bd a b c d x y f) : Bd (-a) (-b) (-c) (-d) x y (-f) := by
  obtain ⟨h1, h2, h3, h4, h⟩ := h
  refine ⟨h1, h2, h3, h4, ?_⟩
  rcases h with ⟨h, e⟩ | ⟨h, e⟩ | ⟨h, e⟩ | ⟨h, e⟩
  · exact .inl ⟨h, by rw [e]; ring⟩
  · exact .inr (.inl ⟨h, by rw [e]; ring⟩)
  · exact .inr (.inr (.inl ⟨h, by rw [e]; ring⟩))
  · exact .inr (.inr (.inr ⟨h, by rw [e]; ring⟩))

theorem mix_pos {p q t : K} (hp : 0 < p) (hq : 0 < q) (h0 : 0 ≤ t) (h1 : t ≤ 1) :
    0 < p + t * (q - p) := by
  rcases eq_or_lt_of_le h0 with h | h
  · rw [← h]; simpa using hp
  · have e : p + t * (q - p) = (1 - t) * p + t * q := by ring
    rw [e]
    have h2 : 0 ≤ (1 - t) * p := mul_nonneg (by linarith) hp.le
    have h3 : 0 < t * q := mul_pos h hq
    linarith

theorem mix_nonneg {p q t : K} (hp : 0 ≤ p) (hq : 0 ≤ q) (h0 : 0 ≤ t) (h1 : t ≤ 1) :
    0 ≤ p + t * (q - p) := by
  have e : p + t * (q - p) = (1 - t) * p + t * q := by ring
  rw [e]
  have h2 : 0 ≤ (1 - t) * p := mul_nonneg (by linarith) hp
  have h3 : 0 ≤ t * q := mul_nonneg h0 hq
  linarith

theorem Bd.nonneg {a b c d x y f : K} (h : Bd a b c d x y f) (ha : 0 ≤ a) (hb : 0 ≤ b) (hc : 0 ≤ c)
    (hd : 0 ≤ d) : 0 ≤ f := by
  obtain ⟨h1, h2, h3, h4, h⟩ := h
  rcases h with ⟨h, e⟩ | ⟨h, e⟩ | ⟨h, e⟩ | ⟨h, e⟩ <;> rw [e] <;> apply mix_nonneg <;> assumption

/-- A zero between values of opposite signs is strictly between. -/
theorem node_bounds {p q t : K} (hp : 0 < p) (hq : q < 0) (e : t * (p - q) = p) : 0 < t ∧ t < 1 := by
  have hd : 0 < p - q := by linarith
  have ht : t = p / (p - q) := by rw [eq_div_iff hd.ne']; exact e
  rw [ht]
  exact ⟨div_pos hp hd, (div_lt_one hd).mpr (by linarith)⟩

theorem node_bounds' {p q t : K} (hp : p < 0) (hq : 0 < q) (e : t * (p - q) = p) : 0 < t ∧ t < 1 :=
  node_bounds (p := -p) (q := -q) (by linarith) (by linarith) (by linear_combination -e)

theorem sq_side {k s t : K} (hk : 0 < k) (h : k * (s - t) * (s - t) ≠ 0 ∨ s - t ≠ 0) :
    0 < k * ((s - t) * (s - t)) := by
  have : s - t ≠ 0 := by
    rcases h with h | h
    · intro h0; rw [h0] at h; simp at h
    · exact h
  exact mul_pos hk (mul_self_pos.mpr this)

/-- Only the corner `b` is on the other side. -/
theorem ell_b {a b c d s t x y f : K} (ha : 0 < a) (hb : b < 0) (hc : 0 < c) (hd : 0 < d)
    (es : s * (a - b) = a) (et : t * (b - c) = b) (h : Bd a b c d x y f) (hf : f ≠ 0) :
    0 < -1 * ell (s, 0) (1, t) x y * f := by
  obtain ⟨s0, s1⟩ := node_bounds ha hb es
  obtain ⟨t0, t1⟩ := node_bounds' hb hc et
  obtain ⟨h1, h2, h3, h4, h⟩ := h
  simp only [ell]
  rcases h with ⟨h, e⟩ | ⟨h, e⟩ | ⟨h, e⟩ | ⟨h, e⟩
  · have e' : f = (a - b) * (s - x) := by rw [e]; linear_combination -es
    have hx : s - x ≠ 0 := by intro h0; rw [h0] at e'; exact hf (by rw [e']; ring)
    have := sq_side (mul_pos t0 (sub_pos.mpr (hb.trans ha))) (.inr hx)
    rw [e', h]; linarith
  · have e' : f = (b - c) * (t - y) := by rw [e]; linear_combination -et
    have hx : t - y ≠ 0 := by intro h0; rw [h0] at e'; exact hf (by rw [e']; ring)
    have := sq_side (mul_pos (sub_pos.mpr s1) (sub_pos.mpr (hb.trans hc))) (.inr hx)
    rw [e', h]; linarith
  · have f0 : 0 < f := by rw [e]; exact mix_pos hd hc h1 h2
    refine mul_pos ?_ f0
    rw [h]
    have := mul_nonneg t0.le (sub_nonneg.mpr h2)
    have := mul_pos (sub_pos.mpr s1) (sub_pos.mpr t1)
    linarith
  · have f0 : 0 < f := by rw [e]; exact mix_pos ha hd h3 h4
    refine mul_pos ?_ f0
    rw [h]
    have := mul_nonneg (sub_pos.mpr s1).le h3
    have := mul_pos s0 t0
    linarith

/-- Only the corner `c` is on the other side. -/
theorem ell_c {a b c d s t x y f : K} (ha : 0 < a) (hb : 0 < b) (hc : c < 0) (hd : 0 < d)
    (es : s * (b - c) = b) (et : t * (d - c) = d) (h : Bd a b c d x y f) (hf : f ≠ 0) :
    0 < -1 * ell (1, s) (t, 1) x y * f := by
  obtain ⟨s0, s1⟩ := node_bounds hb hc es
  obtain ⟨t0, t1⟩ := node_bounds hd hc et
  obtain ⟨h1, h2, h3, h4, h⟩ := h
  simp only [ell]
  rcases h with ⟨h, e⟩ | ⟨h, e⟩ | ⟨h, e⟩ | ⟨h, e⟩
  · have f0 : 0 < f := by rw [e]; exact mix_pos ha hb h1 h2
    refine mul_pos ?_ f0
    rw [h]
    have := mul_nonneg (sub_pos.mpr s1).le (sub_nonneg.mpr h2)
    have := mul_pos (sub_pos.mpr t1) s0
    linarith
  · have e' : f = (b - c) * (s - y) := by rw [e]; linear_combination -es
    have hx : s - y ≠ 0 := by intro h0; rw [h0] at e'; exact hf (by rw [e']; ring)
    have := sq_side (mul_pos (sub_pos.mpr t1) (sub_pos.mpr (hc.trans hb))) (.inr hx)
    rw [e', h]; linarith
  · have e' : f = (d - c) * (t - x) := by rw [e]; linear_combination -et
    have hx : t - x ≠ 0 := by intro h0; rw [h0] at e'; exact hf (by rw [e']; ring)
    have := sq_side (mul_pos (sub_pos.mpr s1) (sub_pos.mpr (hc.trans hd))) (.inr hx)
    rw [e', h]; linarith
  · have f0 : 0 < f := by rw [e]; exact mix_pos ha hd h3 h4
    refine mul_pos ?_ f0
    rw [h]
    have := mul_nonneg (sub_pos.mpr t1).le (sub_nonneg.mpr h4)
    have := mul_pos (sub_pos.mpr s1) t0
    linarith

/-- Only the corner `d` is on the other side. -/
theorem ell_d {a b c d s t x y f : K} (ha : 0 < a) (hb : 0 < b) (hc : 0 < c) (hd : d < 0)
    (es : s * (d - c) = d) (et : t * (a - d) = a) (h : Bd a b c d x y f) (hf : f ≠ 0) :
    0 < -1 * ell (s, 1) (0, t) x y * f := by
  obtain ⟨s0, s1⟩ := node_bounds' hd hc es
  obtain ⟨t0, t1⟩ := node_bounds ha hd et
  obtain ⟨h1, h2, h3, h4, h⟩ := h
  simp only [ell]
  rcases h with ⟨h, e⟩ | ⟨h, e⟩ | ⟨h, e⟩ | ⟨h, e⟩
  · have f0 : 0 < f := by rw [e]; exact mix_pos ha hb h1 h2
    refine mul_pos ?_ f0
    rw [h]
    have := mul_nonneg (sub_pos.mpr t1).le h1
    have := mul_pos s0 t0
    linarith
  · have f0 : 0 < f := by rw [e]; exact mix_pos hb hc h3 h4
    refine mul_pos ?_ f0
    rw [h]
    have := mul_nonneg s0.le (sub_nonneg.mpr h4)
    have := mul_pos (sub_pos.mpr s1) (sub_pos.mpr t1)
    linarith
  · have e' : f = (c - d) * (x - s) := by rw [e]; linear_combination -es
    have hx : x - s ≠ 0 := by intro h0; rw [h0] at e'; exact hf (by rw [e']; ring)
    have := sq_side (mul_pos (sub_pos.mpr t1) (sub_pos.mpr (hd.trans hc))) (.inr hx)
    rw [e', h]; linarith
  · have e' : f = (a - d) * (t - y) := by rw [e]; linear_combination -et
    have hx : t - y ≠ 0 := by intro h0; rw [h0] at e'; exact hf (by rw [e']; ring)
    have := sq_side (mul_pos s0 (sub_pos.mpr (hd.trans ha))) (.inr hx)
    rw [e', h]; linarith

/-- Only the corner `a` is on the other side. -/
theorem ell_a {a b c d s t x y f : K} (ha : a < 0) (hb : 0 < b) (hc : 0 < c) (hd : 0 < d)
    (es : s * (a - b) = a) (et : t * (a - d) = a) (h : Bd a b c d x y f) (hf : f ≠ 0) :
    0 < 1 * ell (s, 0) (0, t) x y * f := by
  obtain ⟨s0, s1⟩ := node_bounds' ha hb es
  obtain ⟨t0, t1⟩ := node_bounds' ha hd et
  obtain ⟨h1, h2, h3, h4, h⟩ := h
  simp only [ell]
  rcases h with ⟨h, e⟩ | ⟨h, e⟩ | ⟨h, e⟩ | ⟨h, e⟩
  · have e' : f = (b - a) * (x - s) := by rw [e]; linear_combination -es
    have hx : x - s ≠ 0 := by intro h0; rw [h0] at e'; exact hf (by rw [e']; ring)
    have := sq_side (mul_pos t0 (sub_pos.mpr (ha.trans hb))) (.inr hx)
    rw [e', h]; linarith
  · have f0 : 0 < f := by rw [e]; exact mix_pos hb hc h3 h4
    refine mul_pos ?_ f0
    rw [h]
    have := mul_nonneg s0.le h3
    have := mul_pos (sub_pos.mpr s1) t0
    linarith
  · have f0 : 0 < f := by rw [e]; exact mix_pos hd hc h1 h2
    refine mul_pos ?_ f0
    rw [h]
    have := mul_nonneg t0.le h1
    have := mul_pos (sub_pos.mpr t1) s0
    linarith
  · have e' : f = (d - a) * (y - t) := by rw [e]; linear_combination -et
    have hx : y - t ≠ 0 := by intro h0; rw [h0] at e'; exact hf (by rw [e']; ring)
    have := sq_side (mul_pos s0 (sub_pos.mpr (ha.trans hd))) (.inr hx)
    rw [e', h]; linarith

/-- `a`, `d` on one side, `b`, `c` on the other. -/
theorem ell_ad {a b c d s t x y f : K} (ha : 0 < a) (hb : b < 0) (hc : c < 0) (hd : 0 < d)
    (es : s * (a - b) = a) (et : t * (d - c) = d) (h : Bd a b c d x y f) (hf : f ≠ 0) :
    0 < -1 * ell (s, 0) (t, 1) x y * f := by
  obtain ⟨s0, s1⟩ := node_bounds ha hb es
  obtain ⟨t0, t1⟩ := node_bounds hd hc et
  obtain ⟨h1, h2, h3, h4, h⟩ := h
  simp only [ell]
  rcases h with ⟨h, e⟩ | ⟨h, e⟩ | ⟨h, e⟩ | ⟨h, e⟩
  · have e' : f = (a - b) * (s - x) := by rw [e]; linear_combination -es
    have hx : s - x ≠ 0 := by intro h0; rw [h0] at e'; exact hf (by rw [e']; ring)
    have := sq_side (sub_pos.mpr (hb.trans ha)) (.inr hx)
    rw [e', h]; linarith
  · have f0 : 0 < -f := by
      rw [e]
      have := mix_pos (neg_pos.mpr hb) (neg_pos.mpr hc) h3 h4
      linarith
    have g0 : 0 < ((s, (0 : K)).1 - (t, (1 : K)).1) * y + (1 - 0) * x + (0 * t - 1 * s) := by
      rw [h]
      simp only
      rcases lt_or_ge 0 y with hy | hy
      · have := mul_nonneg (sub_pos.mpr s1).le (sub_nonneg.mpr h4)
        have := mul_pos (sub_pos.mpr t1) hy
        linarith
      · have : y = 0 := le_antisymm hy h3
        rw [this]; linarith
    have := mul_pos g0 f0
    simp only at this ⊢
    linarith
  · have e' : f = (d - c) * (t - x) := by rw [e]; linear_combination -et
    have hx : t - x ≠ 0 := by intro h0; rw [h0] at e'; exact hf (by rw [e']; ring)
    have := sq_side (sub_pos.mpr (hc.trans hd)) (.inr hx)
    rw [e', h]; linarith
  · have f0 : 0 < f := by rw [e]; exact mix_pos ha hd h3 h4
    refine mul_pos ?_ f0
    rw [h]
    have : 0 < s + y * (t - s) := mix_pos s0 t0 h3 h4
    linarith

/-- `a`, `b` on one side, `c`, `d` on the other. -/
theorem ell_ab {a b c d s t x y f : K} (ha : 0 < a) (hb : 0 < b) (hc : c < 0) (hd : d < 0)
    (es : s * (b - c) = b) (et : t * (a - d) = a) (h : Bd a b c d x y f) (hf : f ≠ 0) :
    0 < -1 * ell (1, s) (0, t) x y * f := by
  obtain ⟨s0, s1⟩ := node_bounds hb hc es
  obtain ⟨t0, t1⟩ := node_bounds ha hd et
  obtain ⟨h1, h2, h3, h4, h⟩ := h
  simp only [ell]
  rcases h with ⟨h, e⟩ | ⟨h, e⟩ | ⟨h, e⟩ | ⟨h, e⟩
  · have f0 : 0 < f := by rw [e]; exact mix_pos ha hb h1 h2
    refine mul_pos ?_ f0
    rw [h]
    have : 0 < t + x * (s - t) := mix_pos t0 s0 h1 h2
    linarith
  · have e' : f = (b - c) * (s - y) := by rw [e]; linear_combination -es
    have hx : s - y ≠ 0 := by intro h0; rw [h0] at e'; exact hf (by rw [e']; ring)
    have := sq_side (sub_pos.mpr (hc.trans hb)) (.inr hx)
    rw [e', h]; linarith
  · have f0 : 0 < -f := by
      rw [e]
      have := mix_pos (neg_pos.mpr hd) (neg_pos.mpr hc) h1 h2
      linarith
    have g0 : 0 < 1 - (t + x * (s - t)) := by
      have := mix_pos (sub_pos.mpr t1) (sub_pos.mpr s1) h1 h2
      linarith
    have := mul_pos g0 f0
    rw [h]; linarith
  · have e' : f = (a - d) * (t - y) := by rw [e]; linear_combination -et
    have hx : t - y ≠ 0 := by intro h0; rw [h0] at e'; exact hf (by rw [e']; ring)
    have := sq_side (sub_pos.mpr (hd.trans ha)) (.inr hx)
    rw [e', h]; linarith

/-! ## The list of nodes -/

theorem quo_node {p q : K} (h : p * q ≤ 0) (h0 : p ≠ 0 ∨ q ≠ 0) :
    ∃ t, quo p (p - q) = some t ∧ t * (p - q) = p := by
  have hd : p - q ≠ 0 := by
    intro e
    have e : p = q := sub_eq_zero.mp e
    rw [e] at h h0
    have : q = 0 := by
      by_contra hq
      exact absurd h (not_le.mpr (mul_self_pos.mpr hq))
    simp [this] at h0
  exact ⟨p / (p - q), by rw [quo, if_neg hd], div_mul_cancel₀ _ hd⟩

/-- The sides on which the two nodes are. -/
inductive Two (a b c d : K) : K × K → K × K → Prop
  | br (s t : K) : s * (a - b) = a → t * (b - c) = b → a * b ≤ 0 → b * c ≤ 0 → 0 < c * d →
      0 < d * a → Two a b c d (s, 0) (1, t)
  | bt (s t : K) : s * (a - b) = a → t * (d - c) = d → a * b ≤ 0 → 0 < b * c → c * d ≤ 0 →
      0 < d * a → Two a b c d (s, 0) (t, 1)
  | bl (s t : K) : s * (a - b) = a → t * (a - d) = a → a * b ≤ 0 → 0 < b * c → 0 < c * d →
      d * a ≤ 0 → Two a b c d (s, 0) (0, t)
  | rt (s t : K) : s * (b - c) = b → t * (d - c) = d → 0 < a * b → b * c ≤ 0 → c * d ≤ 0 →
      0 < d * a → Two a b c d (1, s) (t, 1)
  | rl (s t : K) : s * (b - c) = b → t * (a - d) = a → 0 < a * b → b * c ≤ 0 → 0 < c * d →
      d * a ≤ 0 → Two a b c d (1, s) (0, t)
  | tl (s t : K) : s * (d - c) = d → t * (a - d) = a → 0 < a * b → 0 < b * c → c * d ≤ 0 →
      d * a ≤ 0 → Two a b c d (s, 1) (0, t)

omit [IsStrictOrderedRing K] in
theorem ne_of_mul_pos {p q : K} (h : 0 < p * q) : p ≠ 0 ∧ q ≠ 0 :=
  ⟨fun e => by rw [e] at h; simp at h, fun e => by rw [e] at h; simp at h⟩

theorem nodes_two {a b c d : K} {n0 n1 : Option (K × K)} (h : nodes a b d c = [n0, n1]) :
    ∃ P Q, n0 = some P ∧ n1 = some Q ∧ Two a b c d P Q := by
  unfold nodes at h
  by_cases h1 : a * b ≤ 0 <;> by_cases h2 : b * c ≤ 0 <;> by_cases h3 : c * d ≤ 0 <;>
    by_cases h4 : d * a ≤ 0 <;>
    simp only [h1, h2, h3, h4, if_true, if_false, List.nil_append, List.append_nil,
      List.cons_append, List.cons.injEq, List.cons_ne_nil,
      and_true, and_false, reduceCtorEq] at h
  · obtain ⟨rfl, rfl⟩ := h
    have g3 := not_le.mp h3; have g4 := not_le.mp h4
    obtain ⟨s, e1, e2⟩ := quo_node h1 (.inl (ne_of_mul_pos g4).2)
    obtain ⟨t, e3, e4⟩ := quo_node h2 (.inr (ne_of_mul_pos g3).1)
    exact ⟨_, _, by rw [e1]; rfl, by rw [e3]; rfl, .br s t e2 e4 h1 h2 g3 g4⟩
  · obtain ⟨rfl, rfl⟩ := h
    have g3 := not_le.mp h2; have g4 := not_le.mp h4
    obtain ⟨s, e1, e2⟩ := quo_node h1 (.inl (ne_of_mul_pos g4).2)
    obtain ⟨t, e3, e4⟩ := quo_node (p := d) (q := c) (by rw [mul_comm]; exact h3)
      (.inl (ne_of_mul_pos g4).1)
    exact ⟨_, _, by rw [e1]; rfl, by rw [e3]; rfl, .bt s t e2 e4 h1 g3 h3 g4⟩
  · obtain ⟨rfl, rfl⟩ := h
    have g3 := not_le.mp h2; have g4 := not_le.mp h3
    obtain ⟨s, e1, e2⟩ := quo_node h1 (.inr (ne_of_mul_pos g3).1)
    obtain ⟨t, e3, e4⟩ := quo_node (p := a) (q := d) (by rw [mul_comm]; exact h4)
      (.inr (ne_of_mul_pos g4).2)
    exact ⟨_, _, by rw [e1]; rfl, by rw [e3]; rfl, .bl s t e2 e4 h1 g3 g4 h4⟩
  · obtain ⟨rfl, rfl⟩ := h
    have g3 := not_le.mp h1; have g4 := not_le.mp h4
    obtain ⟨s, e1, e2⟩ := quo_node h2 (.inl (ne_of_mul_pos g3).2)
    obtain ⟨t, e3, e4⟩ := quo_node (p := d) (q := c) (by rw [mul_comm]; exact h3)
      (.inl (ne_of_mul_pos g4).1)
    exact ⟨_, _, by rw [e1]; rfl, by rw [e3]; rfl, .rt s t e2 e4 g3 h2 h3 g4⟩
  · obtain ⟨rfl, rfl⟩ := h
    have g3 := not_le.mp h1; have g4 := not_le.mp h3
    obtain ⟨s, e1, e2⟩ := quo_node h2 (.inl (ne_of_mul_pos g3).2)
    obtain ⟨t, e3, e4⟩ := quo_node (p := a) (q := d) (by rw [mul_comm]; exact h4)
      (.inl (ne_of_mul_pos g3).1)
    exact ⟨_, _, by rw [e1]; rfl, by rw [e3]; rfl, .rl s t e2 e4 g3 h2 g4 h4⟩
  · obtain ⟨rfl, rfl⟩ := h
    have g3 := not_le.mp h1; have g4 := not_le.mp h2
    obtain ⟨s, e1, e2⟩ := quo_node (p := d) (q := c) (by rw [mul_comm]; exact h3)
      (.inr (ne_of_mul_pos g4).2)
    obtain ⟨t, e3, e4⟩ := quo_node (p := a) (q := d) (by rw [mul_comm]; exact h4)
      (.inl (ne_of_mul_pos g3).1)
    exact ⟨_, _, by rw [e1]; rfl, by rw [e3]; rfl, .tl s t e2 e4 g3 g4 h3 h4⟩

/-- The two nodes are on the border, and the value there is zero. -/
theorem Two.bd {a b c d : K} {P Q : K × K} (h : Two a b c d P Q) :
    Bd a b c d P.1 P.2 0 ∧ Bd a b c d Q.1 Q.2 0 := by
  have key : ∀ {p q t : K}, t * (p - q) = p → p * q ≤ 0 → (p ≠ 0 ∨ q ≠ 0) → 0 ≤ t ∧ t ≤ 1 := by
    intro p q t e h h0
    have hd : p - q ≠ 0 := by
      intro e'
      have ep : p = 0 := by rw [← e, e', mul_zero]
      have eq : q = 0 := by rw [ep] at e'; linarith
      rcases h0 with h0 | h0 <;> contradiction
    have ht : t = p / (p - q) := by rw [eq_div_iff hd]; exact e
    rcases lt_or_gt_of_ne hd with hd | hd
    · have : p ≤ 0 := by
        by_contra hp
        have hp := not_le.mp hp
        have := mul_pos hp (show (0 : K) < q by linarith)
        linarith
      have hq : 0 ≤ q := by
        by_contra hq
        have hq := not_le.mp hq
        have := mul_pos_of_neg_of_neg (show p < 0 by linarith) hq
        linarith
      rw [ht]
      exact ⟨div_nonneg_of_nonpos this hd.le, (div_le_one_of_neg hd).mpr (by linarith)⟩
    · have : 0 ≤ p := by
        by_contra hp
        have hp := not_le.mp hp
        have := mul_pos_of_neg_of_neg hp (show q < 0 by linarith)
        linarith
      have hq : q ≤ 0 := by
        by_contra hq
        have hq := not_le.mp hq
        have := mul_pos (show 0 < p by linarith) hq
        linarith
      rw [ht]
      exact ⟨div_nonneg this hd.le, (div_le_one hd).mpr (by linarith)⟩
  have z : (0 : K) ≤ 1 := zero_le_one
  cases h with
  | br s t h1 h2 h3 h4 h5 h6 =>
    obtain ⟨s0, s1⟩ := key h1 h3 (.inl (ne_of_mul_pos h6).2)
    obtain ⟨t0, t1⟩ := key h2 h4 (.inr (ne_of_mul_pos h5).1)
    exact ⟨⟨s0, s1, le_rfl, z, .inl ⟨rfl, by linear_combination h1⟩⟩,
      ⟨z, le_rfl, t0, t1, .inr (.inl ⟨rfl, by linear_combination h2⟩)⟩⟩
  | bt s t h1 h2 h3 h4 h5 h6 =>
    obtain ⟨s0, s1⟩ := key h1 h3 (.inl (ne_of_mul_pos h6).2)
    obtain ⟨t0, t1⟩ := key h2 (by rw [mul_comm]; exact h5) (.inl (ne_of_mul_pos h6).1)
    exact ⟨⟨s0, s1, le_rfl, z, .inl ⟨rfl, by linear_combination h1⟩⟩,
      ⟨t0, t1, z, le_rfl, .inr (.inr (.inl ⟨rfl, by linear_combination h2⟩))⟩⟩
  | bl s t h1 h2 h3 h4 h5 h6 =>
    obtain ⟨s0, s1⟩ := key h1 h3 (.inr (ne_of_mul_pos h4).1)
    obtain ⟨t0, t1⟩ := key h2 (by rw [mul_comm]; exact h6) (.inr (ne_of_mul_pos h5).2)
    exact ⟨⟨s0, s1, le_rfl, z, .inl ⟨rfl, by linear_combination h1⟩⟩,
      ⟨le_rfl, z, t0, t1, .inr (.inr (.inr ⟨rfl, by linear_combination h2⟩))⟩⟩
  | rt s t h1 h2 h3 h4 h5 h6 =>
    obtain ⟨s0, s1⟩ := key h1 h4 (.inl (ne_of_mul_pos h3).2)
    obtain ⟨t0, t1⟩ := key h2 (by rw [mul_comm]; exact h5) (.inl (ne_of_mul_pos h6).1)
    exact ⟨⟨z, le_rfl, s0, s1, .inr (.inl ⟨rfl, by linear_combination h1⟩)⟩,
      ⟨t0, t1, z, le_rfl, .inr (.inr (.inl ⟨rfl, by linear_combination h2⟩))⟩⟩
  | rl s t h1 h2 h3 h4 h5 h6 =>
    obtain ⟨s0, s1⟩ := key h1 h4 (.inl (ne_of_mul_pos h3).2)
    obtain ⟨t0, t1⟩ := key h2 (by rw [mul_comm]; exact h6) (.inr (ne_of_mul_pos h5).2)
    exact ⟨⟨z, le_rfl, s0, s1, .inr (.inl ⟨rfl, by linear_combination h1⟩)⟩,
      ⟨le_rfl, z, t0, t1, .inr (.inr (.inr ⟨rfl, by linear_combination h2⟩))⟩⟩
  | tl s t h1 h2 h3 h4 h5 h6 =>
    obtain ⟨s0, s1⟩ := key h1 (by rw [mul_comm]; exact h5) (.inr (ne_of_mul_pos h4).2)
    obtain ⟨t0, t1⟩ := key h2 (by rw [mul_comm]; exact h6) (.inl (ne_of_mul_pos h3).1)
    exact ⟨⟨s0, s1, z, le_rfl, .inr (.inr (.inl ⟨rfl, by linear_combination h1⟩))⟩,
      ⟨le_rfl, z, t0, t1, .inr (.inr (.inr ⟨rfl, by linear_combination h2⟩))⟩⟩

/-- Signs of the corners from the sides that change sign. -/
theorem neg_of {p q : K} (hp : 0 < p) (hq : q ≠ 0) (h : p * q ≤ 0) : q < 0 := by
  rcases lt_or_gt_of_ne hq with h' | h'
  · exact h'
  · exact absurd (mul_pos hp h') (not_lt.mpr h)

theorem pos_of {p q : K} (hp : 0 < p) (h : 0 < p * q) : 0 < q := (mul_pos_iff_of_pos_left hp).mp h

theorem nonpos_of {p q : K} (hp : 0 < p) (h : p * q ≤ 0) : q ≤ 0 := by
  by_contra h'
  exact absurd (mul_pos hp (not_le.mp h')) (not_lt.mpr h)

/-- If the values on the border have both signs, the line through the two nodes separates the
positive from the negative ones. -/
theorem Two.separates {a b c d : K} {P Q : K × K} (h : Two a b c d P Q) {x y f x' y' f' : K}
    (hp : Bd a b c d x y f) (f0 : 0 < f) (hn : Bd a b c d x' y' f') (f0' : f' < 0) :
    ∃ σ : K, ∀ x y f, Bd a b c d x y f → f ≠ 0 → 0 < σ * ell P Q x y * f := by
  have pn : ∀ {a b c d x y f : K}, Bd a b c d x y f → f < 0 → ¬ (0 ≤ a ∧ 0 ≤ b ∧ 0 ≤ c ∧ 0 ≤ d) := by
    intro a b c d x y f hb hf ⟨h1, h2, h3, h4⟩
    exact absurd (hb.nonneg h1 h2 h3 h4) (not_le.mpr hf)
  -- for a positive value at the corner used
  have br : ∀ {a b c d s t x' y' f' : K}, P = (s, 0) → Q = (1, t) → s * (a - b) = a →
      t * (b - c) = b → a * b ≤ 0 → b * c ≤ 0 → 0 < c * d → 0 < d * a → 0 < a →
      Bd a b c d x' y' f' → f' < 0 →
      ∀ x y f, Bd a b c d x y f → f ≠ 0 → 0 < -1 * ell P Q x y * f := by
    intro a b c d s t x' y' f' hP hQ e1 e2 h1 h2 h3 h4 ha hb hf x y f g0 g1
    have hd : 0 < d := pos_of ha (by rw [mul_comm]; exact h4)
    have hc : 0 < c := pos_of hd (by rw [mul_comm]; exact h3)
    have hb0 : b ≠ 0 := fun e => pn hb hf ⟨ha.le, e.ge, hc.le, hd.le⟩
    rw [hP, hQ]
    exact ell_b ha (neg_of ha hb0 h1) hc hd e1 e2 g0 g1
  have rt : ∀ {a b c d s t x' y' f' : K}, P = (1, s) → Q = (t, 1) → s * (b - c) = b →
      t * (d - c) = d → 0 < a * b → b * c ≤ 0 → c * d ≤ 0 → 0 < d * a → 0 < a →
      Bd a b c d x' y' f' → f' < 0 →
      ∀ x y f, Bd a b c d x y f → f ≠ 0 → 0 < -1 * ell P Q x y * f := by
    intro a b c d s t x' y' f' hP hQ e1 e2 h1 h2 h3 h4 ha hb hf x y f g0 g1
    have hd : 0 < d := pos_of ha (by rw [mul_comm]; exact h4)
    have hB : 0 < b := pos_of ha h1
    have hc0 : c ≠ 0 := fun e => pn hb hf ⟨ha.le, hB.le, e.ge, hd.le⟩
    rw [hP, hQ]
    exact ell_c ha hB (neg_of hB hc0 h2) hd e1 e2 g0 g1
  have tl : ∀ {a b c d s t x' y' f' : K}, P = (s, 1) → Q = (0, t) → s * (d - c) = d →
      t * (a - d) = a → 0 < a * b → 0 < b * c → c * d ≤ 0 → d * a ≤ 0 → 0 < a →
      Bd a b c d x' y' f' → f' < 0 →
      ∀ x y f, Bd a b c d x y f → f ≠ 0 → 0 < -1 * ell P Q x y * f := by
    intro a b c d s t x' y' f' hP hQ e1 e2 h1 h2 h3 h4 ha hb hf x y f g0 g1
    have hB : 0 < b := pos_of ha h1
    have hc : 0 < c := pos_of hB h2
    have hd0 : d ≠ 0 := fun e => pn hb hf ⟨ha.le, hB.le, hc.le, e.ge⟩
    rw [hP, hQ]
    exact ell_d ha hB hc (neg_of hc hd0 h3) e1 e2 g0 g1
  have bl : ∀ {a b c d s t x' y' f' : K}, P = (s, 0) → Q = (0, t) → s * (a - b) = a →
      t * (a - d) = a → a * b ≤ 0 → 0 < b * c → 0 < c * d → d * a ≤ 0 → 0 < b →
      Bd a b c d x' y' f' → f' < 0 →
      ∀ x y f, Bd a b c d x y f → f ≠ 0 → 0 < 1 * ell P Q x y * f := by
    intro a b c d s t x' y' f' hP hQ e1 e2 h1 h2 h3 h4 hB hb hf x y f g0 g1
    have hc : 0 < c := pos_of hB h2
    have hd : 0 < d := pos_of hc h3
    have ha0 : a ≠ 0 := fun e => pn hb hf ⟨e.ge, hB.le, hc.le, hd.le⟩
    rw [hP, hQ]
    exact ell_a (neg_of hB ha0 (by rw [mul_comm]; exact h1)) hB hc hd e1 e2 g0 g1
  have bt : ∀ {a b c d s t : K}, P = (s, 0) → Q = (t, 1) → s * (a - b) = a →
      t * (d - c) = d → a * b ≤ 0 → 0 < b * c → c * d ≤ 0 → 0 < d * a → 0 < a →
      ∀ x y f, Bd a b c d x y f → f ≠ 0 → 0 < -1 * ell P Q x y * f := by
    intro a b c d s t hP hQ e1 e2 h1 h2 h3 h4 ha x y f g0 g1
    have hd : 0 < d := pos_of ha (by rw [mul_comm]; exact h4)
    have hB : b < 0 := neg_of ha (ne_of_mul_pos h2).1 h1
    have hc : c < 0 := neg_of hd (ne_of_mul_pos h2).2 (by rw [mul_comm]; exact h3)
    rw [hP, hQ]
    exact ell_ad ha hB hc hd e1 e2 g0 g1
  have rl : ∀ {a b c d s t : K}, P = (1, s) → Q = (0, t) → s * (b - c) = b →
      t * (a - d) = a → 0 < a * b → b * c ≤ 0 → 0 < c * d → d * a ≤ 0 → 0 < a →
      ∀ x y f, Bd a b c d x y f → f ≠ 0 → 0 < -1 * ell P Q x y * f := by
    intro a b c d s t hP hQ e1 e2 h1 h2 h3 h4 ha x y f g0 g1
    have hB : 0 < b := pos_of ha h1
    have hc : c < 0 := neg_of hB (ne_of_mul_pos h3).1 h2
    have hd : d < 0 := neg_of ha (ne_of_mul_pos h3).2 (by rw [mul_comm]; exact h4)
    rw [hP, hQ]
    exact ell_ab ha hB hc hd e1 e2 g0 g1
  -- the other sign follows by changing all signs
  have hpn := hp.neg
  have f0n : -f < 0 := by linarith
  have back : ∀ {σ : K}, (∀ x y f, Bd (-a) (-b) (-c) (-d) x y f → f ≠ 0 →
      0 < σ * ell P Q x y * f) → ∃ σ : K, ∀ x y f, Bd a b c d x y f → f ≠ 0 →
      0 < σ * ell P Q x y * f := by
    intro σ h
    refine ⟨-σ, fun x y f hb hf => ?_⟩
    have := h x y (-f) hb.neg (neg_ne_zero.mpr hf)
    linarith
  cases h with
  | br s t h1 h2 h3 h4 h5 h6 =>
    rcases lt_or_gt_of_ne (ne_of_mul_pos h6).2 with ha | ha
    · exact back (br rfl rfl (by linear_combination -h1) (by linear_combination -h2)
        (by rwa [neg_mul_neg]) (by rwa [neg_mul_neg]) (by rwa [neg_mul_neg]) (by rwa [neg_mul_neg])
        (neg_pos.mpr ha) hpn f0n)
    · exact ⟨_, br rfl rfl h1 h2 h3 h4 h5 h6 ha hn f0'⟩
  | bt s t h1 h2 h3 h4 h5 h6 =>
    rcases lt_or_gt_of_ne (ne_of_mul_pos h6).2 with ha | ha
    · exact back (bt rfl rfl (by linear_combination -h1) (by linear_combination -h2)
        (by rwa [neg_mul_neg]) (by rwa [neg_mul_neg]) (by rwa [neg_mul_neg]) (by rwa [neg_mul_neg])
        (neg_pos.mpr ha))
    · exact ⟨_, bt rfl rfl h1 h2 h3 h4 h5 h6 ha⟩
  | bl s t h1 h2 h3 h4 h5 h6 =>
    rcases lt_or_gt_of_ne (ne_of_mul_pos h4).1 with ha | ha
    · exact back (bl rfl rfl (by linear_combination -h1) (by linear_combination -h2)
        (by rwa [neg_mul_neg]) (by rwa [neg_mul_neg]) (by rwa [neg_mul_neg]) (by rwa [neg_mul_neg])
        (neg_pos.mpr ha) hpn f0n)
    · exact ⟨_, bl rfl rfl h1 h2 h3 h4 h5 h6 ha hn f0'⟩
  | rt s t h1 h2 h3 h4 h5 h6 =>
    rcases lt_or_gt_of_ne (ne_of_mul_pos h6).2 with ha | ha
    · exact back (rt rfl rfl (by linear_combination -h1) (by linear_combination -h2)
        (by rwa [neg_mul_neg]) (by rwa [neg_mul_neg]) (by rwa [neg_mul_neg]) (by rwa [neg_mul_neg])
        (neg_pos.mpr ha) hpn f0n)
    · exact ⟨_, rt rfl rfl h1 h2 h3 h4 h5 h6 ha hn f0'⟩
  | rl s t h1 h2 h3 h4 h5 h6 =>
    rcases lt_or_gt_of_ne (ne_of_mul_pos h3).1 with ha | ha
    · exact back (rl rfl rfl (by linear_combination -h1) (by linear_combination -h2)
        (by rwa [neg_mul_neg]) (by rwa [neg_mul_neg]) (by rwa [neg_mul_neg]) (by rwa [neg_mul_neg])
        (neg_pos.mpr ha))
    · exact ⟨_, rl rfl rfl h1 h2 h3 h4 h5 h6 ha⟩
  | tl s t h1 h2 h3 h4 h5 h6 =>
    rcases lt_or_gt_of_ne (ne_of_mul_pos h3).1 with ha | ha
    · exact back (tl rfl rfl (by linear_combination -h1) (by linear_combination -h2)
        (by rwa [neg_mul_neg]) (by rwa [neg_mul_neg]) (by rwa [neg_mul_neg]) (by rwa [neg_mul_neg])
        (neg_pos.mpr ha) hpn f0n)
    · exact ⟨_, tl rfl rfl h1 h2 h3 h4 h5 h6 ha hn f0'⟩

/-! ## The winding and the values of the real part -/

omit [IsStrictOrderedRing K] in
theorem side_zero {p q : Cx K} (h : 0 < p.im ↔ 0 < q.im) : side p q = 0 := by
  rcases side_cases p q with ⟨e, -⟩ | ⟨-, e, -⟩ | ⟨-, e, -⟩
  · exact e
  · exact absurd h e
  · exact absurd h e

theorem pair_neg {p q r w : Cx K} {f g dp dr : K} (hs : side p q + side r w ≠ 0)
    (h1 : ¬(0 < p.im ↔ 0 < q.im)) (h2 : ¬(0 < r.im ↔ 0 < w.im)) (a1 : Avoids p q)
    (a2 : Avoids r w) (e1 : f * dp = imMulConj p q) (e2 : g * dr = imMulConj r w)
    (hd : dp * dr < 0) : f * g < 0 := by
  have key : 0 < imMulConj p q * imMulConj r w := by
    rcases side_cases p q with ⟨-, e⟩ | ⟨e, -, e'⟩ | ⟨e, -, e'⟩
    · exact absurd e h1
    · rcases side_cases r w with ⟨-, g⟩ | ⟨g, -, g'⟩ | ⟨g, -, g'⟩
      · exact absurd g h2
      · exact mul_pos e' g'
      · exact absurd (by rw [e, g]; rfl) hs
    · rcases side_cases r w with ⟨-, g⟩ | ⟨g, -, g'⟩ | ⟨g, -, g'⟩
      · exact absurd g h2
      · exact absurd (by rw [e, g]; rfl) hs
      · exact mul_pos_of_neg_of_neg (lt_of_le_of_ne e' (cross_ne_zero a1 h1))
          (lt_of_le_of_ne g' (cross_ne_zero a2 h2))
  rw [← e1, ← e2] at key
  by_contra h
  have h := not_lt.mp h
  have := mul_nonneg h (neg_nonneg.mpr hd.le)
  linarith

theorem pos_iff {p q : K} (h : 0 < p * q) : 0 < p ↔ 0 < q :=
  ⟨fun hp => pos_of hp h, fun hq => pos_of hq (by rw [mul_comm]; exact h)⟩

/-- In a pierced plaquette the real part has opposite signs at the two nodes of the imaginary
part. -/
theorem Two.opposite {s1 s2 s3 s4 : Cx K} {P Q : K × K} (h : Two s1.im s2.im s3.im s4.im P Q)
    (ha : AvoidsAll s1 s2 s3 s4) (hh : stringHand s1 s2 s3 s4 ≠ 0) :
    ∃ f g, Bd s1.re s2.re s3.re s4.re P.1 P.2 f ∧ Bd s1.re s2.re s3.re s4.re Q.1 Q.2 g ∧
      f * g < 0 := by
  obtain ⟨a1, a2, a3, a4⟩ := ha
  obtain ⟨bP, bQ⟩ := h.bd
  rw [stringHand, zero_add] at hh
  -- an edge changes sign strictly, or is not counted
  have cr : ∀ {p q : K}, 0 < p → q ≤ 0 → ¬(0 < p ↔ 0 < q) := fun hp hq h =>
    absurd (h.mp hp) (not_lt.mpr hq)
  have cr' : ∀ {p q : K}, p ≤ 0 → 0 < q → ¬(0 < p ↔ 0 < q) := fun hp hq h =>
    absurd (h.mpr hq) (not_lt.mpr hp)
  obtain ⟨b1, b2, b3, b4, -⟩ := bP
  obtain ⟨c1, c2, c3, c4, -⟩ := bQ
  cases h with
  | br s t h1 h2 h3 h4 h5 h6 =>
    refine ⟨_, _, ⟨b1, b2, b3, b4, .inl ⟨rfl, rfl⟩⟩, ⟨c1, c2, c3, c4, .inr (.inl ⟨rfl, rfl⟩)⟩, ?_⟩
    rw [side_zero (pos_iff h5), side_zero (pos_iff h6), add_zero, add_zero] at hh
    have e1 : (s1.re + s * (s2.re - s1.re)) * (s1.im - s2.im) = imMulConj s1 s2 := by
      rw [imMulConj_eq]; linear_combination (s2.re - s1.re) * h1
    have e2 : (s2.re + t * (s3.re - s2.re)) * (s2.im - s3.im) = imMulConj s2 s3 := by
      rw [imMulConj_eq]; linear_combination (s3.re - s2.re) * h2
    rcases lt_or_gt_of_ne (ne_of_mul_pos h6).2 with ha | ha
    · have hc : s3.im < 0 := by
        have := pos_of (p := -s1.im) (q := -s4.im) (by linarith) (by linarith)
        have := pos_of (p := -s4.im) (q := -s3.im) this (by linarith)
        linarith
      have hb : 0 ≤ s2.im := by
        by_contra hb
        have hb := not_le.mp hb
        have := mul_pos_of_neg_of_neg ha hb
        linarith
      rcases eq_or_lt_of_le hb with hb | hb
      · refine absurd ?_ hh
        rw [side_zero, side_zero, add_zero]
        · rw [← hb]; simp [hc.le]
        · rw [← hb]; simp [ha.le]
      · refine pair_neg hh (cr' ha.le hb) (cr hb hc.le) a1 a2 e1 e2 ?_
        exact mul_neg_of_neg_of_pos (by linarith) (by linarith)
    · have hd : 0 < s4.im := pos_of ha (by rw [mul_comm]; exact h6)
      have hc : 0 < s3.im := pos_of hd (by rw [mul_comm]; exact h5)
      have hb := nonpos_of ha h3
      refine pair_neg hh (cr ha hb) (cr' hb hc) a1 a2 e1 e2 ?_
      exact mul_neg_of_pos_of_neg (by linarith) (by linarith)
  | bt s t h1 h2 h3 h4 h5 h6 =>
    refine ⟨_, _, ⟨b1, b2, b3, b4, .inl ⟨rfl, rfl⟩⟩,
      ⟨c1, c2, c3, c4, .inr (.inr (.inl ⟨rfl, rfl⟩))⟩, ?_⟩
    rw [side_zero (pos_iff h4), side_zero (pos_iff h6), add_zero, add_zero] at hh
    have e1 : (s1.re + s * (s2.re - s1.re)) * (s1.im - s2.im) = imMulConj s1 s2 := by
      rw [imMulConj_eq]; linear_combination (s2.re - s1.re) * h1
    have e2 : (s4.re + t * (s3.re - s4.re)) * (s3.im - s4.im) = imMulConj s3 s4 := by
      rw [imMulConj_eq]; linear_combination -(s3.re - s4.re) * h2
    rcases lt_or_gt_of_ne (ne_of_mul_pos h6).2 with ha | ha
    · have hd : s4.im < 0 := by
        have := pos_of (p := -s1.im) (q := -s4.im) (by linarith) (by linarith)
        linarith
      have hb : 0 < s2.im := by
        have := neg_of (p := -s1.im) (q := -s2.im) (by linarith)
          (neg_ne_zero.mpr (ne_of_mul_pos h4).1) (by linarith)
        linarith
      have hc : 0 < s3.im := pos_of hb h4
      refine pair_neg hh (cr' ha.le hb) (cr hc hd.le) a1 a3 e1 e2 ?_
      exact mul_neg_of_neg_of_pos (by linarith) (by linarith)
    · have hd : 0 < s4.im := pos_of ha (by rw [mul_comm]; exact h6)
      have hb : s2.im < 0 := neg_of ha (ne_of_mul_pos h4).1 h3
      have hc : s3.im < 0 := neg_of hd (ne_of_mul_pos h4).2 (by rw [mul_comm]; exact h5)
      refine pair_neg hh (cr ha hb.le) (cr' hc.le hd) a1 a3 e1 e2 ?_
      exact mul_neg_of_pos_of_neg (by linarith) (by linarith)
  | bl s t h1 h2 h3 h4 h5 h6 =>
    refine ⟨_, _, ⟨b1, b2, b3, b4, .inl ⟨rfl, rfl⟩⟩,
      ⟨c1, c2, c3, c4, .inr (.inr (.inr ⟨rfl, rfl⟩))⟩, ?_⟩
    rw [side_zero (pos_iff h4), side_zero (pos_iff h5), add_zero, add_zero] at hh
    have e1 : (s1.re + s * (s2.re - s1.re)) * (s1.im - s2.im) = imMulConj s1 s2 := by
      rw [imMulConj_eq]; linear_combination (s2.re - s1.re) * h1
    have e2 : (s1.re + t * (s4.re - s1.re)) * (s4.im - s1.im) = imMulConj s4 s1 := by
      rw [imMulConj_eq]; linear_combination -(s4.re - s1.re) * h2
    rcases lt_or_gt_of_ne (ne_of_mul_pos h4).1 with hb | hb
    · have hc : s3.im < 0 := by
        have := pos_of (p := -s2.im) (q := -s3.im) (by linarith) (by linarith)
        linarith
      have hd : s4.im < 0 := by
        have := pos_of (p := -s3.im) (q := -s4.im) (by linarith) (by linarith)
        linarith
      have ha : 0 ≤ s1.im := by
        by_contra ha
        have ha := not_le.mp ha
        have := mul_pos_of_neg_of_neg ha hb
        linarith
      rcases eq_or_lt_of_le ha with ha | ha
      · refine absurd ?_ hh
        rw [side_zero, side_zero, add_zero]
        · rw [← ha]; simp [hd.le]
        · rw [← ha]; simp [hb.le]
      · refine pair_neg hh (cr ha hb.le) (cr' hd.le ha) a1 a4 e1 e2 ?_
        exact mul_neg_of_pos_of_neg (by linarith) (by linarith)
    · have hc : 0 < s3.im := pos_of hb h4
      have hd : 0 < s4.im := pos_of hc h5
      have ha := nonpos_of hb (by rw [mul_comm]; exact h3)
      refine pair_neg hh (cr' ha hb) (cr hd ha) a1 a4 e1 e2 ?_
      exact mul_neg_of_neg_of_pos (by linarith) (by linarith)
  | rt s t h1 h2 h3 h4 h5 h6 =>
    refine ⟨_, _, ⟨b1, b2, b3, b4, .inr (.inl ⟨rfl, rfl⟩)⟩,
      ⟨c1, c2, c3, c4, .inr (.inr (.inl ⟨rfl, rfl⟩))⟩, ?_⟩
    rw [side_zero (pos_iff h3), side_zero (pos_iff h6), add_zero, zero_add] at hh
    have e1 : (s2.re + s * (s3.re - s2.re)) * (s2.im - s3.im) = imMulConj s2 s3 := by
      rw [imMulConj_eq]; linear_combination (s3.re - s2.re) * h1
    have e2 : (s4.re + t * (s3.re - s4.re)) * (s3.im - s4.im) = imMulConj s3 s4 := by
      rw [imMulConj_eq]; linear_combination -(s3.re - s4.re) * h2
    rcases lt_or_gt_of_ne (ne_of_mul_pos h3).1 with ha | ha
    · have hb : s2.im < 0 := by
        have := pos_of (p := -s1.im) (q := -s2.im) (by linarith) (by linarith)
        linarith
      have hd : s4.im < 0 := by
        have := pos_of (p := -s1.im) (q := -s4.im) (by linarith) (by linarith)
        linarith
      have hc : 0 ≤ s3.im := by
        by_contra hc
        have hc := not_le.mp hc
        have := mul_pos_of_neg_of_neg hb hc
        linarith
      rcases eq_or_lt_of_le hc with hc | hc
      · refine absurd ?_ hh
        rw [side_zero, side_zero, add_zero]
        · rw [← hc]; simp [hd.le]
        · rw [← hc]; simp [hb.le]
      · refine pair_neg hh (cr' hb.le hc) (cr hc hd.le) a2 a3 e1 e2 ?_
        exact mul_neg_of_neg_of_pos (by linarith) (by linarith)
    · have hb : 0 < s2.im := pos_of ha h3
      have hd : 0 < s4.im := pos_of ha (by rw [mul_comm]; exact h6)
      have hc := nonpos_of hb h4
      refine pair_neg hh (cr hb hc) (cr' hc hd) a2 a3 e1 e2 ?_
      exact mul_neg_of_pos_of_neg (by linarith) (by linarith)
  | rl s t h1 h2 h3 h4 h5 h6 =>
    refine ⟨_, _, ⟨b1, b2, b3, b4, .inr (.inl ⟨rfl, rfl⟩)⟩,
      ⟨c1, c2, c3, c4, .inr (.inr (.inr ⟨rfl, rfl⟩))⟩, ?_⟩
    rw [side_zero (pos_iff h3), side_zero (pos_iff h5), add_zero, zero_add] at hh
    have e1 : (s2.re + s * (s3.re - s2.re)) * (s2.im - s3.im) = imMulConj s2 s3 := by
      rw [imMulConj_eq]; linear_combination (s3.re - s2.re) * h1
    have e2 : (s1.re + t * (s4.re - s1.re)) * (s4.im - s1.im) = imMulConj s4 s1 := by
      rw [imMulConj_eq]; linear_combination -(s4.re - s1.re) * h2
    rcases lt_or_gt_of_ne (ne_of_mul_pos h3).1 with ha | ha
    · have hb : s2.im < 0 := by
        have := pos_of (p := -s1.im) (q := -s2.im) (by linarith) (by linarith)
        linarith
      have hc : 0 < s3.im := by
        have := neg_of (p := -s2.im) (q := -s3.im) (by linarith)
          (neg_ne_zero.mpr (ne_of_mul_pos h5).1) (by linarith)
        linarith
      have hd : 0 < s4.im := pos_of hc h5
      refine pair_neg hh (cr' hb.le hc) (cr hd ha.le) a2 a4 e1 e2 ?_
      exact mul_neg_of_neg_of_pos (by linarith) (by linarith)
    · have hb : 0 < s2.im := pos_of ha h3
      have hc : s3.im < 0 := neg_of hb (ne_of_mul_pos h5).1 h4
      have hd : s4.im < 0 := neg_of ha (ne_of_mul_pos h5).2 (by rw [mul_comm]; exact h6)
      refine pair_neg hh (cr hb hc.le) (cr' hd.le ha) a2 a4 e1 e2 ?_
      exact mul_neg_of_pos_of_neg (by linarith) (by linarith)
  | tl s t h1 h2 h3 h4 h5 h6 =>
    refine ⟨_, _, ⟨b1, b2, b3, b4, .inr (.inr (.inl ⟨rfl, rfl⟩))⟩,
      ⟨c1, c2, c3, c4, .inr (.inr (.inr ⟨rfl, rfl⟩))⟩, ?_⟩
    rw [side_zero (pos_iff h3), side_zero (pos_iff h4), zero_add, zero_add] at hh
    have e1 : (s4.re + s * (s3.re - s4.re)) * (s3.im - s4.im) = imMulConj s3 s4 := by
      rw [imMulConj_eq]; linear_combination -(s3.re - s4.re) * h1
    have e2 : (s1.re + t * (s4.re - s1.re)) * (s4.im - s1.im) = imMulConj s4 s1 := by
      rw [imMulConj_eq]; linear_combination -(s4.re - s1.re) * h2
    rcases lt_or_gt_of_ne (ne_of_mul_pos h3).1 with ha | ha
    · have hb : s2.im < 0 := by
        have := pos_of (p := -s1.im) (q := -s2.im) (by linarith) (by linarith)
        linarith
      have hc : s3.im < 0 := by
        have := pos_of (p := -s2.im) (q := -s3.im) (by linarith) (by linarith)
        linarith
      have hd : 0 ≤ s4.im := by
        by_contra hd
        have hd := not_le.mp hd
        have := mul_pos_of_neg_of_neg hd ha
        linarith
      rcases eq_or_lt_of_le hd with hd | hd
      · refine absurd ?_ hh
        rw [side_zero, side_zero, add_zero]
        · rw [← hd]; simp [ha.le]
        · rw [← hd]; simp [hc.le]
      · refine pair_neg hh (cr' hc.le hd) (cr hd ha.le) a3 a4 e1 e2 ?_
        exact mul_neg_of_neg_of_pos (by linarith) (by linarith)
    · have hb : 0 < s2.im := pos_of ha h3
      have hc : 0 < s3.im := pos_of hb h4
      have hd := nonpos_of hc h5
      refine pair_neg hh (cr hc hd) (cr' hd ha) a3 a4 e1 e2 ?_
      exact mul_neg_of_pos_of_neg (by linarith) (by linarith)

/-! ## The intersection -/

theorem meet_spec {r0 r1 i0 i1 : K × K} (h : ell r0 r1 i0.1 i0.2 * ell r0 r1 i1.1 i1.2 < 0) :
    ∃ t u v, 0 ≤ t ∧ t ≤ 1 ∧ u = i0.1 + t * (i1.1 - i0.1) ∧ v = i0.2 + t * (i1.2 - i0.2) ∧
      meet r0 r1 i0 i1 = some (u, v) ∧ ell r0 r1 u v = 0 := by
  have hd : ell r0 r1 i0.1 i0.2 - ell r0 r1 i1.1 i1.2 ≠ 0 := by
    intro e
    rw [sub_eq_zero.mp e] at h
    exact absurd h (not_lt.mpr (mul_self_nonneg _))
  have ht : 0 ≤ ell r0 r1 i0.1 i0.2 / (ell r0 r1 i0.1 i0.2 - ell r0 r1 i1.1 i1.2) ∧
      ell r0 r1 i0.1 i0.2 / (ell r0 r1 i0.1 i0.2 - ell r0 r1 i1.1 i1.2) ≤ 1 := by
    rcases mul_neg_iff.mp h with ⟨h1, h2⟩ | ⟨h1, h2⟩
    · have : 0 < ell r0 r1 i0.1 i0.2 - ell r0 r1 i1.1 i1.2 := by linarith
      exact ⟨div_nonneg h1.le this.le, (div_le_one this).mpr (by linarith)⟩
    · have : ell r0 r1 i0.1 i0.2 - ell r0 r1 i1.1 i1.2 < 0 := by linarith
      exact ⟨div_nonneg_of_nonpos h1.le this.le, (div_le_one_of_neg this).mpr (by linarith)⟩
  refine ⟨_, _, _, ht.1, ht.2, rfl, rfl, ?_, ?_⟩
  · have d1 : (r1.2 - r0.2) * (i0.1 - i1.1) - (i1.2 - i0.2) * (r0.1 - r1.1) =
        ell r0 r1 i0.1 i0.2 - ell r0 r1 i1.1 i1.2 := by simp only [ell]; ring
    have d2 : (r0.1 - r1.1) * (i1.2 - i0.2) - (i0.1 - i1.1) * (r1.2 - r0.2) =
        -(ell r0 r1 i0.1 i0.2 - ell r0 r1 i1.1 i1.2) := by simp only [ell]; ring
    simp only [meet, quo, d1, d2, neg_eq_zero, hd, if_false, Option.bind_eq_bind, Option.bind_some,
      Option.pure_def, Option.some.injEq, Prod.mk.injEq]
    constructor
    · field_simp
      simp only [ell]; ring
    · field_simp
      simp only [ell]; ring
  · have : ∀ t : K, ell r0 r1 (i0.1 + t * (i1.1 - i0.1)) (i0.2 + t * (i1.2 - i0.2)) =
        ell r0 r1 i0.1 i0.2 - t * (ell r0 r1 i0.1 i0.2 - ell r0 r1 i1.1 i1.2) := by
      intro t; simp only [ell]; ring
    rw [this, div_mul_cancel₀ _ hd, sub_self]

theorem mix_range {p q t : K} (hp : 0 ≤ p ∧ p ≤ 1) (hq : 0 ≤ q ∧ q ≤ 1) (h0 : 0 ≤ t) (h1 : t ≤ 1) :
    0 ≤ p + t * (q - p) ∧ p + t * (q - p) ≤ 1 := by
  refine ⟨mix_nonneg hp.1 hq.1 h0 h1, ?_⟩
  have := mix_nonneg (p := 1 - p) (q := 1 - q) (by linarith) (by linarith) h0 h1
  linarith

/-- The case in which both components vanish at two points of the border. -/
theorem setCross_two {m mu mv muv : Cx K} {r0 r1 i0 i1 : Option (K × K)}
    (hr : nodes m.re mu.re mv.re muv.re = [r0, r1]) (hi : nodes m.im mu.im mv.im muv.im = [i0, i1])
    (ha : AvoidsAll m mu muv mv) (hh : stringHand m mu muv mv ≠ 0) :
    ∃ P Q P' Q' t u v, Two m.re mu.re muv.re mv.re P Q ∧ Two m.im mu.im muv.im mv.im P' Q' ∧
      0 ≤ t ∧ t ≤ 1 ∧ u = P'.1 + t * (Q'.1 - P'.1) ∧ v = P'.2 + t * (Q'.2 - P'.2) ∧
      P' ≠ Q' ∧ P ≠ Q ∧ ell P Q u v = 0 ∧ setCross m mu mv muv = some (u, v) := by
  obtain ⟨P, Q, e1, e2, h⟩ := nodes_two hr
  obtain ⟨P', Q', e1', e2', h'⟩ := nodes_two hi
  obtain ⟨f, g, hf, hg, hfg⟩ := h'.opposite ha hh
  obtain ⟨σ, hσ⟩ : ∃ σ : K, ∀ x y f, Bd m.re mu.re muv.re mv.re x y f → f ≠ 0 →
      0 < σ * ell P Q x y * f := by
    rcases mul_neg_iff.mp hfg with ⟨h1, h2⟩ | ⟨h1, h2⟩
    · exact h.separates hf h1 hg h2
    · exact h.separates hg h2 hf h1
  have hf0 : f ≠ 0 := fun e => by rw [e] at hfg; simp at hfg
  have hg0 : g ≠ 0 := fun e => by rw [e] at hfg; simp at hfg
  have k1 := hσ _ _ _ hf hf0
  have k2 := hσ _ _ _ hg hg0
  have hneg : ell P Q P'.1 P'.2 * ell P Q Q'.1 Q'.2 < 0 := by
    have := mul_pos k1 k2
    by_contra hc
    have hc := not_lt.mp hc
    have : σ * ell P Q P'.1 P'.2 * f * (σ * ell P Q Q'.1 Q'.2 * g) =
        σ ^ 2 * (ell P Q P'.1 P'.2 * ell P Q Q'.1 Q'.2) * (f * g) := by ring
    have h3 : σ ^ 2 * (ell P Q P'.1 P'.2 * ell P Q Q'.1 Q'.2) * (f * g) ≤ 0 :=
      mul_nonpos_of_nonneg_of_nonpos (mul_nonneg (sq_nonneg _) hc) hfg.le
    linarith
  obtain ⟨t, u, v, t0, t1, eu, ev, em, el⟩ := meet_spec hneg
  refine ⟨P, Q, P', Q', t, u, v, h, h', t0, t1, eu, ev, ?_, ?_, el, ?_⟩
  · rintro rfl
    exact absurd hneg (not_lt.mpr (mul_self_nonneg _))
  · rintro rfl
    have : ∀ x y, ell P P x y = 0 := fun x y => by simp only [ell]; ring
    rw [this] at hneg; simp at hneg
  · rw [setCross, hr, hi, e1, e2, e1', e2']
    exact em

end StrLen
end Jaxions
