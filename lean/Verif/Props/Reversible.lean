import Verif.Model.Step
import Verif.Props.Integrator
import Mathlib.Tactic.Module
import Mathlib.Tactic.Abel
/-
C12: reversibility of the symmetric integrators, and steps of size zero.
-/
namespace Jaxions.Integrator

variable {K X : Type} [Field K] [AddCommGroup X] [Module K X]

/-! ### Elementary moves -/

/-- A kick or a drift. -/
inductive Move (K : Type) | kick (c : K) | drift (d : K)

/-- Effect of a move on (field, velocity, time), force evaluated at the time reached. -/
def Move.act (F : K → X → X) (dz : K) (s : X × X × K) : Move K → X × X × K
  | .kick c => (s.1, s.2.1 + (dz * c) • F s.2.2 s.1, s.2.2)
  | .drift d => (s.1 + (dz * d) • s.2.1, s.2.1, s.2.2 + dz * d)

def Act.moves : Act K → List (Move K)
  | .drift d => [.drift d]
  | .sub c d _ _ => [.kick c, .drift d]

theorem move_inverse (F : K → X → X) (dz : K) (s : X × X × K) (a : Move K) :
    Move.act F (-dz) (Move.act F dz s a) a = s := by
  cases a <;> simp [Move.act]

/-- Undoing a list of moves in reverse order. -/
theorem moves_inverse (F : K → X → X) (dz : K) (l : List (Move K)) (s : X × X × K) :
    l.reverse.foldl (Move.act F (-dz)) (l.foldl (Move.act F dz) s) = s := by
  induction l generalizing s with
  | nil => rfl
  | cons a l ih =>
    rw [List.foldl_cons, List.reverse_cons, List.foldl_append, ih, List.foldl_cons, List.foldl_nil,
      move_inverse]

theorem moves_time (F : K → X → X) (dz : K) (l : List (Act K)) (s : X × X × K) :
    ((l.flatMap Act.moves).foldl (Move.act F dz) s).2.2 = timeAfter s.2.2 dz l := by
  induction l generalizing s with
  | nil => simp [timeAfter]
  | cons a l ih =>
    rw [List.flatMap_cons, List.foldl_append, ih]
    cases a <;> simp only [timeAfter, Act.moves, Act.driftPart, Move.act, List.foldl_cons,
      List.foldl_nil, List.map_cons, List.sum_cons] <;> ring

/-- If all kicks are on time, the in place view of a list of kernel calls is the list of its
moves. -/
theorem inPlace_moves (F : K → K → X → X) (dz z : K) (l : List (Act K)) (m v : X)
    (h : KicksOnTime z dz l) :
    l.foldl (inPlace F dz) (m, v) =
      (((l.flatMap Act.moves).foldl (Move.act (fun t => F t t) dz) (m, v, z)).1,
       ((l.flatMap Act.moves).foldl (Move.act (fun t => F t t) dz) (m, v, z)).2.1) := by
  induction l generalizing z m v with
  | nil => rfl
  | cons a l ih =>
    cases a with
    | drift d =>
      rw [kicksOnTime_drift] at h
      simpa [Act.moves, Move.act, inPlace] using ih _ (m + (dz * d) • v) v h
    | sub c d zm zr =>
      rw [kicksOnTime_sub] at h
      obtain ⟨⟨rfl, rfl⟩, h⟩ := h
      simpa [Act.moves, Move.act, inPlace] using
        ih _ (m + (dz * d) • (v + (dz * c) • F zr zr m)) (v + (dz * c) • F zr zr m) h

/-- With a force that does not depend on time it does not matter whether they are. -/
theorem inPlace_moves_const (F : X → X) (dz z : K) (l : List (Act K)) (m v : X) :
    l.foldl (inPlace (fun _ _ => F) dz) (m, v) =
      (((l.flatMap Act.moves).foldl (Move.act (fun _ => F) dz) (m, v, z)).1,
       ((l.flatMap Act.moves).foldl (Move.act (fun _ => F) dz) (m, v, z)).2.1) := by
  induction l generalizing z m v with
  | nil => rfl
  | cons a l ih =>
    cases a with
    | drift d => simpa [Act.moves, Move.act, inPlace] using ih _ (m + (dz * d) • v) v
    | sub c d zm zr =>
      simpa [Act.moves, Move.act, inPlace] using
        ih _ (m + (dz * d) • (v + (dz * c) • F m)) (v + (dz * c) • F m)

/-- Two kernel calls, `m` to `m2` and back, are the same as two calls in place. -/
theorem runKernels_pairs (F : K → K → X → X) (dz : K) (T : Table K) (off p s : Nat) (z zf : K)
    (l post : List (Act K)) (h : sLoop T off dz p s z = some (l, zf)) (a : Arrays X) :
    ∃ m2, runKernels F dz true (l ++ post) a =
      runKernels F dz true post ⟨(l.foldl (inPlace F dz) (a.m, a.v)).1, m2,
        (l.foldl (inPlace F dz) (a.m, a.v)).2⟩ := by
  induction p generalizing s z l a with
  | zero =>
    simp only [sLoop, Option.some.injEq, Prod.mk.injEq] at h
    obtain ⟨rfl, rfl⟩ := h
    exact ⟨a.m2, rfl⟩
  | succ p ih =>
    simp only [sLoop, Option.bind_eq_bind, Option.bind_eq_some_iff, Option.pure_def,
      Option.some.injEq, Prod.mk.injEq] at h
    obtain ⟨c1, _, c2, _, d1, _, d2, _, ⟨l', zf'⟩, hl, rfl, rfl⟩ := h
    simp only [List.cons_append, runKernels, Bool.not_true, Bool.not_false]
    obtain ⟨m2, hm2⟩ := ih _ _ _ hl (kernel F dz false (kernel F dz true a (.sub c1 d1 z z))
      (.sub c2 d2 (z + dz * d1) (z + dz * d1)))
    exact ⟨m2, hm2⟩

theorem tLoop_pairs (F : K → K → X → X) (dz : K) (T : Table K) (off p s : Nat) (z zm zr : K)
    (r : K × K × K) (l post : List (Act K)) (h : tLoop T off dz p s z zm zr = some (l, r))
    (a : Arrays X) :
    ∃ m2, runKernels F dz true (l ++ post) a =
      runKernels F dz true post ⟨(l.foldl (inPlace F dz) (a.m, a.v)).1, m2,
        (l.foldl (inPlace F dz) (a.m, a.v)).2⟩ := by
  induction p generalizing s z zm zr l a with
  | zero =>
    simp only [tLoop, Option.some.injEq, Prod.mk.injEq] at h
    obtain ⟨rfl, rfl⟩ := h
    exact ⟨a.m2, rfl⟩
  | succ p ih =>
    simp only [tLoop, Option.bind_eq_bind, Option.bind_eq_some_iff, Option.pure_def,
      Option.some.injEq, Prod.mk.injEq] at h
    obtain ⟨c1, _, c2, _, d1, _, d2, _, ⟨l', zf'⟩, hl, rfl, rfl⟩ := h
    simp only [List.cons_append, runKernels, Bool.not_true, Bool.not_false]
    obtain ⟨m2, hm2⟩ := ih _ _ _ _ _ hl (kernel F dz false (kernel F dz true a (.sub c1 d1 zm zr))
      (.sub c2 d2 (z + dz * d1) (z + dz * d1)))
    exact ⟨m2, hm2⟩

/-- After a whole step of the Saxion propagator `m` and `v` hold what the kicks and drifts applied
one after the other in place give; for any table. -/
theorem sRunCpu_arrays (F : K → K → X → X) (T : Table K) (dz z0 zf : K) (acts : List (Act K))
    (h : sRunCpu T dz z0 = some (acts, zf)) (a : Arrays X) :
    (runKernels F dz true acts a).m = (acts.foldl (inPlace F dz) (a.m, a.v)).1 ∧
    (runKernels F dz true acts a).v = (acts.foldl (inPlace F dz) (a.m, a.v)).2 := by
  simp only [sRunCpu, Option.bind_eq_bind, Option.bind_eq_some_iff, Option.pure_def,
    Option.some.injEq, Prod.mk.injEq] at h
  obtain ⟨⟨pre, z, off⟩, hpre, ⟨l, z'⟩, hl, post, hpost, rfl, rfl⟩ := h
  have hpostcase : ∀ b : Arrays X,
      (runKernels F dz true post b).m = (post.foldl (inPlace F dz) (b.m, b.v)).1 ∧
      (runKernels F dz true post b).v = (post.foldl (inPlace F dz) (b.m, b.v)).2 := by
    intro b
    simp only [lastKick] at hpost
    split at hpost
    · simp only [Option.map_eq_some_iff] at hpost
      obtain ⟨c0, _, rfl⟩ := hpost
      simp [runKernels, kernel, inPlace]
    · cases hpost; exact ⟨rfl, rfl⟩
  have hmid : ∀ b : Arrays X,
      (runKernels F dz true (l ++ post) b).m = ((l ++ post).foldl (inPlace F dz) (b.m, b.v)).1 ∧
      (runKernels F dz true (l ++ post) b).v = ((l ++ post).foldl (inPlace F dz) (b.m, b.v)).2 := by
    intro b
    obtain ⟨m2, hm2⟩ := runKernels_pairs F dz T off _ _ _ _ l post hl b
    rw [hm2, List.foldl_append]
    exact hpostcase _
  simp only [firstDrift] at hpre
  split at hpre
  · simp only [Option.map_eq_some_iff, Prod.mk.injEq] at hpre
    obtain ⟨d0, _, rfl, rfl, rfl⟩ := hpre
    rw [List.append_assoc, List.singleton_append]
    simp only [runKernels, List.foldl_cons]
    exact hmid _
  · simp only [Option.some.injEq, Prod.mk.injEq] at hpre
    obtain ⟨rfl, rfl, rfl⟩ := hpre
    exact hmid a

/-- The same for the Axion propagator. -/
theorem tRunCpu_arrays (F : K → K → X → X) (T : Table K) (dz z0 zf : K) (acts : List (Act K))
    (h : tRunCpu T dz z0 = some (acts, zf)) (a : Arrays X) :
    (runKernels F dz true acts a).m = (acts.foldl (inPlace F dz) (a.m, a.v)).1 ∧
    (runKernels F dz true acts a).v = (acts.foldl (inPlace F dz) (a.m, a.v)).2 := by
  simp only [tRunCpu, Option.bind_eq_bind, Option.bind_eq_some_iff, Option.pure_def,
    Option.some.injEq, Prod.mk.injEq] at h
  obtain ⟨⟨pre, z, off⟩, hpre, ⟨l, z', zm', zr'⟩, hl, post, hpost, rfl, rfl⟩ := h
  have hpostcase : ∀ b : Arrays X,
      (runKernels F dz true post b).m = (post.foldl (inPlace F dz) (b.m, b.v)).1 ∧
      (runKernels F dz true post b).v = (post.foldl (inPlace F dz) (b.m, b.v)).2 := by
    intro b
    simp only [lastKick] at hpost
    split at hpost
    · simp only [Option.map_eq_some_iff] at hpost
      obtain ⟨c0, _, rfl⟩ := hpost
      simp [runKernels, kernel, inPlace]
    · cases hpost; exact ⟨rfl, rfl⟩
  have hmid : ∀ b : Arrays X,
      (runKernels F dz true (l ++ post) b).m = ((l ++ post).foldl (inPlace F dz) (b.m, b.v)).1 ∧
      (runKernels F dz true (l ++ post) b).v = ((l ++ post).foldl (inPlace F dz) (b.m, b.v)).2 := by
    intro b
    obtain ⟨m2, hm2⟩ := tLoop_pairs F dz T off _ _ _ _ _ _ l post hl b
    rw [hm2, List.foldl_append]
    exact hpostcase _
  simp only [firstDrift] at hpre
  split at hpre
  · simp only [Option.map_eq_some_iff, Prod.mk.injEq] at hpre
    obtain ⟨d0, _, rfl, rfl, rfl⟩ := hpre
    rw [List.append_assoc, List.singleton_append]
    simp only [runKernels, List.foldl_cons]
    exact hmid _
  · simp only [Option.some.injEq, Prod.mk.injEq] at hpre
    obtain ⟨rfl, rfl, rfl⟩ := hpre
    exact hmid a

/-- The kicks and drifts of a symmetric integrator are the same for all step sizes and times, and
read the same backwards. -/
theorem symmetric_moves (i : Name) (hi : i ≠ .rkn4) : ∃ L : List (Move K), L.reverse = L ∧
    ∀ dz z0 : K,
      (∃ acts, sRunCpu (table i) dz z0 = some (acts, timeAfter z0 dz acts) ∧
        acts.flatMap Act.moves = L) ∧
      (∃ acts, tRunCpu (table i) dz z0 = some (acts, timeAfter z0 dz acts) ∧
        acts.flatMap Act.moves = L) := by
  cases i with
  | rkn4 => exact absurd rfl hi
  | leap =>
    refine ⟨[.drift (1/4), .kick (1/2), .drift (1/2), .kick (1/2), .drift (1/4)], rfl, ?_⟩
    intro dz z0
    simp [table, leap, sRunCpu, tRunCpu, sLoop, tLoop, firstDrift, lastKick, timeAfter,
      Act.driftPart, Act.moves]
    ring
  | mleap =>
    refine ⟨[.drift (1/8), .kick (1/4), .drift (1/4), .kick (1/4), .drift (1/4), .kick (1/4),
      .drift (1/4), .kick (1/4), .drift (1/8)], rfl, ?_⟩
    intro dz z0
    simp [table, mleap, sRunCpu, tRunCpu, sLoop, tLoop, firstDrift, lastKick, timeAfter,
      Act.driftPart, Act.moves]
    ring
  | omelyan2 =>
    refine ⟨[.drift (19318332750378360 / 10^17), .kick (1/2),
      .drift (1 - 2*(19318332750378360 / 10^17)), .kick (1/2),
      .drift (19318332750378360 / 10^17)], rfl, ?_⟩
    intro dz z0
    simp [table, omelyan2, sRunCpu, tRunCpu, sLoop, tLoop, firstDrift, lastKick, timeAfter,
      Act.driftPart, Act.moves]
    ring
  | omelyan4 =>
    generalize hT : (table Name.omelyan4 : Table K) = T
    have hs : ∃ x l c y : K, T = ⟨4, .first, [x, l, l, x], [y, c, 1 - 2*(y + c), c, y]⟩ :=
      ⟨_, _, _, _, hT.symm⟩
    obtain ⟨x, l, c, y, rfl⟩ := hs
    refine ⟨[.drift y, .kick x, .drift c, .kick l, .drift (1 - 2*(y + c)), .kick l, .drift c,
      .kick x, .drift y], rfl, ?_⟩
    intro dz z0
    simp [sRunCpu, tRunCpu, sLoop, tLoop, firstDrift, lastKick, timeAfter,
      Act.driftPart, Act.moves]
    ring

/-! ### Whole steps -/

/-- One call of the propagator `run` on the arrays at time `s.2`. -/
def stepWith (run : Table K → K → K → Option (List (Act K) × K)) (T : Table K)
    (F : K → K → X → X) (dz : K) (s : Arrays X × K) : Option (Arrays X × K) :=
  (run T dz s.2).map fun r => (runKernels F dz true r.1 s.1, r.2)

/-- Consecutive calls with the given step sizes. -/
def stepsWith (run : Table K → K → K → Option (List (Act K) × K)) (T : Table K)
    (F : K → K → X → X) : List K → Arrays X × K → Option (Arrays X × K)
  | [], s => some s
  | dz :: l, s => (stepWith run T F dz s).bind (stepsWith run T F l)

/-- Same field, velocity and time (the scratch array `m2` may differ). -/
def SameState (s t : Arrays X × K) : Prop := s.1.m = t.1.m ∧ s.1.v = t.1.v ∧ s.2 = t.2

/-- A step is undone by the step of opposite size. -/
def Reverts (run : Table K → K → K → Option (List (Act K) × K)) (T : Table K)
    (F : K → K → X → X) : Prop :=
  ∀ dz : K, ∀ s s' : Arrays X × K, ∃ t, stepWith run T F dz s = some t ∧
    (SameState s' t → ∃ u, stepWith run T F (-dz) s' = some u ∧ SameState u s)

theorem stepsWith_append (run : Table K → K → K → Option (List (Act K) × K)) (T : Table K)
    (F : K → K → X → X) (l l' : List K) (s : Arrays X × K) :
    stepsWith run T F (l ++ l') s = (stepsWith run T F l s).bind (stepsWith run T F l') := by
  induction l generalizing s with
  | nil => rfl
  | cons a l ih =>
    simp only [List.cons_append, stepsWith]
    cases stepWith run T F a s with
    | none => rfl
    | some t => simp [ih]

/-- Any sequence of steps is undone by the opposite steps in reverse order. -/
theorem reverts_list (run : Table K → K → K → Option (List (Act K) × K)) (T : Table K)
    (F : K → K → X → X) (h : Reverts run T F) (l : List K) (s : Arrays X × K) :
    ∃ t, stepsWith run T F l s = some t ∧
      ∀ s', SameState s' t → ∃ u, stepsWith run T F ((l.map (fun x => -x)).reverse) s' = some u ∧
        SameState u s := by
  induction l generalizing s with
  | nil => exact ⟨s, rfl, fun s' hs => ⟨s', rfl, hs⟩⟩
  | cons dz l ih =>
    obtain ⟨t, ht, _⟩ := h dz s s
    obtain ⟨w, hw, hback⟩ := ih t
    refine ⟨w, by simp [stepsWith, ht, hw], ?_⟩
    intro s' hs'
    obtain ⟨u, hu, hut⟩ := hback s' hs'
    obtain ⟨t', ht', hb⟩ := h dz s u
    have : t' = t := by rw [ht] at ht'; exact (Option.some.inj ht').symm
    obtain ⟨u', hu', hsame⟩ := hb (this ▸ hut)
    refine ⟨u', ?_, hsame⟩
    rw [List.map_cons, List.reverse_cons, stepsWith_append, hu]
    simp [stepsWith, hu']

theorem reverts_saxion (i : Name) (hi : i ≠ .rkn4) (F : K → K → X → X) :
    Reverts sRunCpu (table i) F := by
  obtain ⟨L, hL, hrun⟩ := symmetric_moves (K := K) i hi
  rintro dz ⟨a, z⟩ ⟨a', z'⟩
  obtain ⟨acts, hacts, hm⟩ := (hrun dz z).1
  refine ⟨_, by simp only [stepWith, hacts, Option.map_some]; rfl, ?_⟩
  rintro ⟨h1, h2, h3⟩
  simp only at h1 h2 h3
  obtain ⟨acts', hacts', hm'⟩ := (hrun (-dz) z').1
  refine ⟨_, by simp only [stepWith, hacts', Option.map_some]; rfl, ?_⟩
  have f1 := sRunCpu_arrays F _ dz z _ acts hacts a
  rw [inPlace_moves F dz z acts a.m a.v (C45_saxion_on_time _ _ _ _ _ hacts), hm] at f1
  have f2 := sRunCpu_arrays F _ (-dz) z' _ acts' hacts' a'
  rw [inPlace_moves F (-dz) z' acts' a'.m a'.v (C45_saxion_on_time _ _ _ _ _ hacts'), hm'] at f2
  have inv := moves_inverse (fun t => F t t) dz L (a.m, a.v, z)
  have tm := moves_time (fun t => F t t) dz acts (a.m, a.v, z)
  have tm' := moves_time (fun t => F t t) (-dz) acts' (a'.m, a'.v, z')
  rw [hm] at tm
  rw [hm'] at tm'
  have e : (a'.m, a'.v, z') = L.foldl (Move.act (fun t => F t t) dz) (a.m, a.v, z) := by
    rw [h1, h2, h3, f1.1, f1.2]
    exact Prod.ext rfl (Prod.ext rfl tm.symm)
  rw [hL, ← e] at inv
  refine ⟨?_, ?_, ?_⟩
  · simp only [f2.1, inv]
  · simp only [f2.2, inv]
  · simp only [inv] at tm'
    exact tm'.symm

theorem reverts_axion (i : Name) (hi : i ≠ .rkn4) (F : X → X) :
    Reverts tRunCpu (table i : Table K) (fun _ _ => F) := by
  obtain ⟨L, hL, hrun⟩ := symmetric_moves (K := K) i hi
  rintro dz ⟨a, z⟩ ⟨a', z'⟩
  obtain ⟨acts, hacts, hm⟩ := (hrun dz z).2
  refine ⟨_, by simp only [stepWith, hacts, Option.map_some]; rfl, ?_⟩
  rintro ⟨h1, h2, h3⟩
  simp only at h1 h2 h3
  obtain ⟨acts', hacts', hm'⟩ := (hrun (-dz) z').2
  refine ⟨_, by simp only [stepWith, hacts', Option.map_some]; rfl, ?_⟩
  have f1 := tRunCpu_arrays (fun _ _ => F) _ dz z _ acts hacts a
  rw [inPlace_moves_const F dz z acts a.m a.v, hm] at f1
  have f2 := tRunCpu_arrays (fun _ _ => F) _ (-dz) z' _ acts' hacts' a'
  rw [inPlace_moves_const F (-dz) z' acts' a'.m a'.v, hm'] at f2
  have inv := moves_inverse (fun _ => F) dz L (a.m, a.v, z)
  have tm := moves_time (fun _ => F) dz acts (a.m, a.v, z)
  have tm' := moves_time (fun _ => F) (-dz) acts' (a'.m, a'.v, z')
  rw [hm] at tm
  rw [hm'] at tm'
  have e : (a'.m, a'.v, z') = L.foldl (Move.act (fun _ => F) dz) (a.m, a.v, z) := by
    rw [h1, h2, h3, f1.1, f1.2]
    exact Prod.ext rfl (Prod.ext rfl tm.symm)
  rw [hL, ← e] at inv
  refine ⟨?_, ?_, ?_⟩
  · simp only [f2.1, inv]
  · simp only [f2.2, inv]
  · simp only [inv] at tm'
    exact tm'.symm

/-- **C12** Saxion propagator with leapfrog, multiple leapfrog or either Omelyan integrator: after
any sequence of steps of any sizes, taking the opposite steps in reverse order gives back field,
velocity and time exactly, for every force, also one that depends on time through mass and scale
factor. -/
theorem C12_saxion_reversible (i : Name) (hi : i ≠ .rkn4) (F : K → K → X → X) (l : List K)
    (s : Arrays X × K) : ∃ t u, stepsWith sRunCpu (table i) F l s = some t ∧
      stepsWith sRunCpu (table i) F ((l.map (fun x => -x)).reverse) t = some u ∧ SameState u s := by
  obtain ⟨t, ht, hb⟩ := reverts_list _ _ F (reverts_saxion i hi F) l s
  obtain ⟨u, hu, hs⟩ := hb t ⟨rfl, rfl, rfl⟩
  exact ⟨t, u, ht, hu, hs⟩

/-- **C12** Axion propagator, same integrators: reversible when the force does not depend on time.
What is missing for the full statement: time dependent forces, for which it is false
(`C12_axion_time_dependent`). -/
theorem C12_axion_reversible_partial (i : Name) (hi : i ≠ .rkn4) (F : X → X) (l : List K)
    (s : Arrays X × K) : ∃ t u, stepsWith tRunCpu (table i) (fun _ _ => F) l s = some t ∧
      stepsWith tRunCpu (table i) (fun _ _ => F) ((l.map (fun x => -x)).reverse) t = some u ∧
      SameState u s := by
  obtain ⟨t, ht, hb⟩ := reverts_list _ _ _ (reverts_axion i hi F) l s
  obtain ⟨u, hu, hs⟩ := hb t ⟨rfl, rfl, rfl⟩
  exact ⟨t, u, ht, hu, hs⟩

/-- Finding: with a mass that depends on time the Axion propagator is not reversible, because the
first kick of each pair uses an old mass.  Force equal to the mass parameter, leapfrog, any nonzero
step. -/
theorem C12_axion_time_dependent (dz : Rat) (hdz : dz ≠ 0) (s : Arrays Rat × Rat) :
    ∃ t u, stepsWith tRunCpu (table .leap) (fun zm _ _ => zm) [dz] s = some t ∧
      stepsWith tRunCpu (table .leap) (fun zm _ _ => zm) [-dz] t = some u ∧ u.1.v ≠ s.1.v := by
  simp [stepsWith, stepWith, table, leap, tRunCpu, tLoop, firstDrift, lastKick, runKernels, kernel]
  intro h
  have : dz * dz = 0 := by linear_combination (-4) * h
  simp [hdz] at this

/-- RKN4 is not symmetric: an oscillator is not brought back by the opposite step. -/
theorem C12_rkn4_not_reversible : ∃ t u,
    stepsWith sRunCpu (table .rkn4) (fun _ _ m => -m) [1] (⟨1, 0, 0⟩, (0 : Rat)) = some t ∧
    stepsWith sRunCpu (table .rkn4) (fun _ _ m => -m) [-1] t = some u ∧ u.1.m ≠ (1 : Rat) := by
  simp [stepsWith, stepWith, table, rkn4, sRunCpu, sLoop, firstDrift, lastKick, runKernels, kernel]
  norm_num

/-! ### Steps of size zero -/

theorem inPlace_zero (F : K → K → X → X) (l : List (Act K)) (mv : X × X) :
    l.foldl (inPlace F 0) mv = mv := by
  induction l with
  | nil => rfl
  | cons a l ih => cases a <;> simp [inPlace, ih]

theorem sLoop_zero (T : Table K) (off p s : Nat) (z zf : K) (l : List (Act K))
    (h : sLoop T off 0 p s z = some (l, zf)) : zf = z := by
  induction p generalizing s l with
  | zero => simp [sLoop] at h; exact h.2.symm
  | succ p ih =>
    simp only [sLoop, Option.bind_eq_bind, Option.bind_eq_some_iff, Option.pure_def,
      Option.some.injEq, Prod.mk.injEq, zero_mul, add_zero] at h
    obtain ⟨c1, _, c2, _, d1, _, d2, _, ⟨l', zf'⟩, hl, rfl, rfl⟩ := h
    exact ih _ _ hl

theorem tLoop_zero (T : Table K) (off p s : Nat) (z zf zm zr : K) (r : K × K) (l : List (Act K))
    (h : tLoop T off 0 p s z zm zr = some (l, zf, r)) : zf = z := by
  induction p generalizing s l zm zr with
  | zero => simp [tLoop] at h; exact h.2.1.symm
  | succ p ih =>
    simp only [tLoop, Option.bind_eq_bind, Option.bind_eq_some_iff, Option.pure_def,
      Option.some.injEq, Prod.mk.injEq, zero_mul, add_zero] at h
    obtain ⟨c1, _, c2, _, d1, _, d2, _, ⟨l', zf'⟩, hl, rfl, rfl⟩ := h
    exact ih _ _ _ _ hl

theorem firstDrift_zero (T : Table K) (z0 z : K) (pre : List (Act K)) (off : Nat)
    (h : firstDrift T 0 z0 = some (pre, z, off)) : z = z0 := by
  simp only [firstDrift, zero_mul, add_zero] at h
  split at h
  · simp only [Option.map_eq_some_iff, Prod.mk.injEq] at h
    obtain ⟨_, _, _, h, _⟩ := h
    exact h.symm
  · simp only [Option.some.injEq, Prod.mk.injEq] at h
    exact h.2.1.symm

/-- **C12** A step of size zero (used by the tuner) changes neither field nor velocity nor time,
for every coefficient table for which the call is defined and every force. -/
theorem C12_zero_step (T : Table K) (F : K → K → X → X) (s t : Arrays X × K)
    (h : stepWith sRunCpu T F 0 s = some t ∨ stepWith tRunCpu T F 0 s = some t) :
    SameState t s := by
  rcases h with h | h
  · simp only [stepWith, Option.map_eq_some_iff] at h
    obtain ⟨⟨acts, zf⟩, hr, rfl⟩ := h
    have := sRunCpu_arrays F T 0 s.2 zf acts hr s.1
    rw [inPlace_zero] at this
    refine ⟨this.1, this.2, ?_⟩
    simp only [sRunCpu, Option.bind_eq_bind, Option.bind_eq_some_iff, Option.pure_def,
      Option.some.injEq, Prod.mk.injEq] at hr
    obtain ⟨⟨pre, z, off⟩, hpre, ⟨l, z'⟩, hl, post, hpost, rfl, rfl⟩ := hr
    exact (sLoop_zero _ _ _ _ _ _ _ hl).trans (firstDrift_zero _ _ _ _ _ hpre)
  · simp only [stepWith, Option.map_eq_some_iff] at h
    obtain ⟨⟨acts, zf⟩, hr, rfl⟩ := h
    have := tRunCpu_arrays F T 0 s.2 zf acts hr s.1
    rw [inPlace_zero] at this
    refine ⟨this.1, this.2, ?_⟩
    simp only [tRunCpu, Option.bind_eq_bind, Option.bind_eq_some_iff, Option.pure_def,
      Option.some.injEq, Prod.mk.injEq] at hr
    obtain ⟨⟨pre, z, off⟩, hpre, ⟨l, z', zm', zr'⟩, hl, post, hpost, rfl, rfl⟩ := hr
    exact (tLoop_zero _ _ _ _ _ _ _ _ _ _ hl).trans (firstDrift_zero _ _ _ _ _ hpre)

-- concrete: an oscillator with a time dependent frequency, two leapfrog steps of different size;
-- the field does move
example : ∃ t, stepsWith sRunCpu (table .leap) (fun zm _ m => -(zm * m)) [1, 2]
    (⟨1, 0, 0⟩, (1 : Rat)) = some t ∧ t.1.m ≠ (1 : Rat) ∧ t.2 = 4 := by
  simp [stepsWith, stepWith, table, leap, sRunCpu, sLoop, firstDrift, lastKick, runKernels, kernel]
  norm_num
-- zero steps are defined for all integrators
example (i : Name) (s : Arrays Rat × Rat) : ∃ t,
    stepWith sRunCpu (table i) (fun _ _ m => -m) 0 s = some t := by
  cases i <;> simp [stepWith, table, leap, mleap, omelyan2, omelyan4, rkn4, sRunCpu, sLoop, firstDrift, lastKick]

end Jaxions.Integrator
