import Verif.GFlow.BoundaryProps
import Mathlib.Analysis.Real.Sqrt
import Mathlib.Algebra.BigOperators.Group.Finset.Basic
import Mathlib.Algebra.BigOperators.Group.List.Basic

/-!
# The wall of the demon (C109)

Models `DemonWall::interact` and `turnOn` (`interactions/demon_wall.cpp:8-125`). Numbers are reals. The random numbers are a list of pairs of values of `drand48`; a run that needs more of them than
there are has not ended. `handler->getAllWithin` (`domains/domain.cpp:27-74`) sees a particle if the cell in which it was put at the last construction is in the searched window: that is the relation
`seen` between the searched position and the position `cell j` of the particle at that construction. `handler->construct()` after the loop (line 117) is not modelled here (it changes no particle).
-/

namespace Verif.DemonWall

open Verif.Boundary

/-- What the interaction reads and does not change: bounds and boundary conditions (lines 25-31), radii, inverse masses, types, the data `Side` (lines 20-22; `none` if there is no such entry),
`repulsion`, and the state of the domain: `max_small_sigma`, the window of cells and the positions at the last construction. -/
structure Cfg where
  bcx : BC
  bcy : BC
  lox : ℝ
  hix : ℝ
  loy : ℝ
  hiy : ℝ
  sg : ℕ → ℝ
  im : ℕ → ℝ
  type : ℕ → ℤ
  side : Option (ℕ → ℤ)
  rep : ℝ
  mss : ℝ
  number : ℕ
  seen : ℝ × ℝ → ℝ × ℝ → Prop
  cell : ℕ → ℝ × ℝ

/-- Positions, velocities and forces, `interactions/demon_wall.cpp:14-16`. -/
structure St where
  x : ℕ → ℝ × ℝ
  v : ℕ → ℝ × ℝ
  f : ℕ → ℝ × ℝ

/-- Ways in which a call does not return: an access through an empty accessor, or more random numbers are needed. -/
inductive Err where
  | null
  | draws
deriving DecidableEq

/-- The displacement with its correction for periodic boundaries, `interactions/demon_wall.cpp:48-58` (and `gflow->getDisplacement`, line 68 of `domains/domain.cpp`, which is the same formula). -/
noncomputable def disp (c : Cfg) (p q : ℝ × ℝ) : ℝ × ℝ :=
  (image1 c.bcx c.lox c.hix (p.1 - q.1), image1 c.bcy c.loy c.hiy (p.2 - q.2))

/-- `rsqr`, `interactions/demon_wall.cpp:60`. -/
noncomputable def rsqr (c : Cfg) (p q : ℝ × ℝ) : ℝ := (disp c p q).1 * (disp c p q).1 + (disp c p q).2 * (disp c p q).2

/-- The neighbours of a place are not empty: `getAllWithin(X, neighbors)` with the default distance, `domains/domain.cpp:27-74`. -/
def occupied (c : Cfg) (x : ℕ → ℝ × ℝ) (X : ℝ × ℝ) : Prop :=
  ∃ j, j < c.number ∧ c.seen X (c.cell j) ∧ Real.sqrt (rsqr c X (x j)) < 2 * c.mss

/-- The place for two random numbers; `off` is `0.025` or `0.525`, `interactions/demon_wall.cpp:73-74`, `88-89`. -/
noncomputable def spot (c : Cfg) (off : ℝ) (u : ℝ × ℝ) : ℝ × ℝ :=
  (c.lox + off * (c.hix - c.lox) + u.1 * (45/100) * (c.hix - c.lox), c.loy + u.2 * (c.hiy - c.loy))

open Classical in
/-- The loop that looks for a free place, `interactions/demon_wall.cpp:71-76`, `86-91`. -/
noncomputable def place (c : Cfg) (x : ℕ → ℝ × ℝ) (off : ℝ) : List (ℝ × ℝ) → Except Err ((ℝ × ℝ) × List (ℝ × ℝ))
  | [] => .error .draws
  | u :: us => if occupied c x (spot c off u) then place c x off us else .ok (spot c off u, us)

/-- Moving the particle, `interactions/demon_wall.cpp:78-81`, `93-96`. -/
noncomputable def put (s : St) (a : ℕ) (X : ℝ × ℝ) : St :=
  { s with x := Function.update s.x a X, v := Function.update s.v a (-(s.v a).1, (s.v a).2) }

open Classical in
/-- The branch `turn_on`, `interactions/demon_wall.cpp:68-98`. -/
noncomputable def moveAway (c : Cfg) (s : St) (us : List (ℝ × ℝ)) (a : ℕ) : Except Err (St × List (ℝ × ℝ)) :=
  match c.side with
  | none => .error .null
  | some side =>
    if side a = 0 ∧ 0 < c.im a then
      match place c s.x (25/1000) us with
      | .error e => .error e
      | .ok (X, us) => .ok (put s a X, us)
    else if side a = 1 ∧ 0 < c.im a then
      match place c s.x (525/1000) us with
      | .error e => .error e
      | .ok (X, us) => .ok (put s a X, us)
    else .ok (s, us)

/-- The normal interaction, `interactions/demon_wall.cpp:100-114`. -/
noncomputable def repel (c : Cfg) (s : St) (a b : ℕ) : St :=
  let d := disp c (s.x a) (s.x b)
  let r := Real.sqrt (rsqr c (s.x a) (s.x b))
  let n := (d.1 * (1 / r), d.2 * (1 / r))
  let m := c.rep * (c.sg a + c.sg b - r)
  let f := Function.update s.f a ((s.f a).1 + m * n.1, (s.f a).2)
  let f := Function.update f b ((f b).1 - m * n.1, (f b).2)
  let f := Function.update f a ((f a).1, (f a).2 + m * n.2)
  let f := Function.update f b ((f b).1, (f b).2 - m * n.2)
  { s with f := f }

open Classical in
/-- One turn of the loop over the pairs, `interactions/demon_wall.cpp:40-116`. -/
noncomputable def pairStep (c : Cfg) (on : Bool) (t : St × List (ℝ × ℝ)) (p : ℕ × ℕ) : Except Err (St × List (ℝ × ℝ)) :=
  if c.type p.1 < 0 ∨ c.type p.2 < 0 then .ok t
  else
    let q := if c.type p.2 < c.type p.1 then (p.2, p.1) else p
    let r2 := rsqr c (t.1.x q.1) (t.1.x q.2)
    if 0 < r2 ∧ r2 < (c.sg q.1 + c.sg q.2) ^ 2 then
      if on then moveAway c t.1 t.2 q.1 else .ok (repel c t.1 q.1 q.2, t.2)
    else .ok t

/-- The loop over the pairs, `interactions/demon_wall.cpp:39-116`. -/
noncomputable def sweep (c : Cfg) (on : Bool) : St × List (ℝ × ℝ) → List (ℕ × ℕ) → Except Err (St × List (ℝ × ℝ))
  | t, [] => .ok t
  | t, p :: ps =>
    match pairStep c on t p with
    | .error e => .error e
    | .ok t' => sweep c on t' ps

/-- `DemonWall::interact`, `interactions/demon_wall.cpp:8-121`: the state, the random numbers that are left and the flag. `verlet k` are the pairs of the list `k`. -/
noncomputable def interact (c : Cfg) (dims : ℕ) (verlet : ℕ → List (ℕ × ℕ)) (on : Bool) (s : St) (us : List (ℝ × ℝ)) : Except Err (St × List (ℝ × ℝ) × Bool) :=
  if dims ≠ 2 then .ok (s, us, on)
  else
    match sweep c on (s, us) (verlet 0) with
    | .error e => .error e
    | .ok t => .ok (t.1, t.2, false)

/-! ## Specification -/

/-- Two particles touch: their distance (of nearest images) is positive and less than the sum of the radii. -/
def Touch (c : Cfg) (x : ℕ → ℝ × ℝ) (i j : ℕ) : Prop := 0 < rsqr c (x i) (x j) ∧ rsqr c (x i) (x j) < (c.sg i + c.sg j) ^ 2

open Classical in
/-- The force of `j` on `i`: along the line between them, proportional to the overlap. -/
noncomputable def push (c : Cfg) (x : ℕ → ℝ × ℝ) (i j : ℕ) : ℝ × ℝ :=
  if Touch c x i j then
    (c.rep * (c.sg i + c.sg j - Real.sqrt (rsqr c (x i) (x j))) / Real.sqrt (rsqr c (x i) (x j))) • disp c (x i) (x j)
  else 0

/-- The force on `k` of the pair `p`. -/
noncomputable def pairForce (c : Cfg) (x : ℕ → ℝ × ℝ) (k : ℕ) (p : ℕ × ℕ) : ℝ × ℝ :=
  if c.type p.1 < 0 ∨ c.type p.2 < 0 then 0
  else (if k = p.1 then push c x p.1 p.2 else 0) + (if k = p.2 then push c x p.2 p.1 else 0)

/-! ## Lemmas -/

theorem image1_neg (bc : BC) (lo hi d : ℝ) (h : lo ≤ hi) : image1 bc lo hi (-d) = - image1 bc lo hi d := by
  unfold image1
  by_cases hb : bc = BC.wrap
  · rw [if_pos hb, if_pos hb]
    simp only [abs_neg]
    by_cases h1 : hi - lo - |d| < |d|
    · rw [if_pos h1, if_pos h1]
      have hd : d ≠ 0 := by
        rintro rfl
        simp only [abs_zero, sub_zero] at h1
        linarith
      rcases lt_or_gt_of_ne hd with h2 | h2
      · rw [if_pos (by linarith), if_neg (by linarith)]
      · rw [if_neg (by linarith), if_pos h2]; ring
    · rw [if_neg h1, if_neg h1]
  · rw [if_neg hb, if_neg hb]

theorem disp_neg (c : Cfg) (hx : c.lox ≤ c.hix) (hy : c.loy ≤ c.hiy) (p q : ℝ × ℝ) : disp c q p = - disp c p q := by
  unfold disp
  ext
  · show image1 _ _ _ (q.1 - p.1) = - image1 _ _ _ (p.1 - q.1)
    rw [← neg_sub p.1 q.1, image1_neg _ _ _ _ hx]
  · show image1 _ _ _ (q.2 - p.2) = - image1 _ _ _ (p.2 - q.2)
    rw [← neg_sub p.2 q.2, image1_neg _ _ _ _ hy]

theorem rsqr_comm (c : Cfg) (hx : c.lox ≤ c.hix) (hy : c.loy ≤ c.hiy) (p q : ℝ × ℝ) : rsqr c q p = rsqr c p q := by
  unfold rsqr
  rw [disp_neg c hx hy p q]
  simp

theorem touch_comm (c : Cfg) (hx : c.lox ≤ c.hix) (hy : c.loy ≤ c.hiy) (x : ℕ → ℝ × ℝ) (i j : ℕ) : Touch c x j i ↔ Touch c x i j := by
  unfold Touch
  rw [rsqr_comm c hx hy (x i) (x j), add_comm (c.sg j)]

theorem push_neg (c : Cfg) (hx : c.lox ≤ c.hix) (hy : c.loy ≤ c.hiy) (x : ℕ → ℝ × ℝ) (i j : ℕ) : push c x j i = - push c x i j := by
  unfold push
  by_cases h : Touch c x i j
  · rw [if_pos h, if_pos ((touch_comm c hx hy x i j).2 h), rsqr_comm c hx hy (x i) (x j), disp_neg c hx hy (x i) (x j), add_comm (c.sg j)]
    simp
  · rw [if_neg h, if_neg (fun h' => h ((touch_comm c hx hy x i j).1 h'))]
    simp

theorem repel_f (c : Cfg) (hx : c.lox ≤ c.hix) (hy : c.loy ≤ c.hiy) (s : St) (a b k : ℕ) (hab : a ≠ b) (h : Touch c s.x a b) :
    (repel c s a b).f k = s.f k + ((if k = a then push c s.x a b else 0) + (if k = b then push c s.x b a else 0)) := by
  rw [push_neg c hx hy s.x a b]
  unfold push
  rw [if_pos h]
  unfold repel
  by_cases h1 : k = a
  · subst h1
    rw [if_pos rfl, if_neg hab]
    simp [Function.update, hab]
    ext <;> simp <;> ring
  · by_cases h2 : k = b
    · subst h2
      rw [if_neg h1, if_pos rfl]
      simp [Function.update, Ne.symm hab, h1]
      ext <;> simp <;> ring
    · rw [if_neg h1, if_neg h2]
      simp [Function.update, h1, h2]

theorem pairStep_off (c : Cfg) (hx : c.lox ≤ c.hix) (hy : c.loy ≤ c.hiy) (t : St × List (ℝ × ℝ)) (p : ℕ × ℕ) (hp : p.1 ≠ p.2) :
    ∃ s', pairStep c false t p = .ok (s', t.2) ∧ s'.x = t.1.x ∧ s'.v = t.1.v ∧ ∀ k, s'.f k = t.1.f k + pairForce c t.1.x k p := by
  unfold pairStep
  by_cases h0 : c.type p.1 < 0 ∨ c.type p.2 < 0
  · rw [if_pos h0]
    refine ⟨t.1, rfl, rfl, rfl, fun k => ?_⟩
    unfold pairForce
    rw [if_pos h0]; simp
  · rw [if_neg h0]
    have hpf : ∀ k, pairForce c t.1.x k p = (if k = p.1 then push c t.1.x p.1 p.2 else 0) + (if k = p.2 then push c t.1.x p.2 p.1 else 0) := by
      intro k; unfold pairForce; rw [if_neg h0]
    have key : ∀ a b : ℕ, a ≠ b → (∀ k, pairForce c t.1.x k p = (if k = a then push c t.1.x a b else 0) + (if k = b then push c t.1.x b a else 0)) →
        ∃ s', (if 0 < rsqr c (t.1.x a) (t.1.x b) ∧ rsqr c (t.1.x a) (t.1.x b) < (c.sg a + c.sg b) ^ 2 then (.ok (repel c t.1 a b, t.2) : Except Err (St × List (ℝ × ℝ))) else .ok t) = .ok (s', t.2)
          ∧ s'.x = t.1.x ∧ s'.v = t.1.v ∧ ∀ k, s'.f k = t.1.f k + pairForce c t.1.x k p := by
      intro a b hab hk
      by_cases h1 : 0 < rsqr c (t.1.x a) (t.1.x b) ∧ rsqr c (t.1.x a) (t.1.x b) < (c.sg a + c.sg b) ^ 2
      · rw [if_pos h1]
        refine ⟨repel c t.1 a b, rfl, rfl, rfl, fun k => ?_⟩
        rw [hk k]
        exact repel_f c hx hy t.1 a b k hab h1
      · rw [if_neg h1]
        refine ⟨t.1, rfl, rfl, rfl, fun k => ?_⟩
        rw [hk k]
        have e1 : push c t.1.x a b = 0 := by
          unfold push; rw [if_neg (show ¬ Touch c t.1.x a b from h1)]
        have e2 : push c t.1.x b a = 0 := by rw [push_neg c hx hy, e1]; simp
        rw [e1, e2]; simp
    by_cases h2 : c.type p.2 < c.type p.1
    · simp only [h2, if_true, Bool.false_eq_true, if_false]
      exact key p.2 p.1 (Ne.symm hp) (fun k => by rw [hpf k, add_comm])
    · simp only [h2, Bool.false_eq_true, if_false]
      exact key p.1 p.2 hp hpf

theorem sweep_off (c : Cfg) (hx : c.lox ≤ c.hix) (hy : c.loy ≤ c.hiy) (ps : List (ℕ × ℕ)) : ∀ (t : St × List (ℝ × ℝ)), (∀ p ∈ ps, p.1 ≠ p.2) →
    ∃ s', sweep c false t ps = .ok (s', t.2) ∧ s'.x = t.1.x ∧ s'.v = t.1.v ∧ ∀ k, s'.f k = t.1.f k + (ps.map (pairForce c t.1.x k)).sum := by
  induction ps with
  | nil => intro t _; exact ⟨t.1, rfl, rfl, rfl, fun k => by simp⟩
  | cons p ps ih =>
    intro t h
    obtain ⟨s1, e1, ex, ev, ef⟩ := pairStep_off c hx hy t p (h p (by simp))
    obtain ⟨s2, e2, ex2, ev2, ef2⟩ := ih (s1, t.2) (fun q hq => h q (by simp [hq]))
    refine ⟨s2, ?_, ex2.trans ex, ev2.trans ev, fun k => ?_⟩
    · show (match pairStep c false t p with | .error e => _ | .ok t' => _) = _
      rw [e1]; exact e2
    · rw [ef2 k, List.map_cons, List.sum_cons]
      show s1.f k + (ps.map (pairForce c s1.x k)).sum = _
      rw [ef k, ex, add_assoc]

/-! ## Properties -/

/-- **C109, the closed wall.** In two dimensions the interaction ends, changes only forces, and the change of the force on each particle is the sum over the listed pairs of the repulsion of its partner. -/
theorem C109_force (c : Cfg) (hx : c.lox ≤ c.hix) (hy : c.loy ≤ c.hiy) (verlet : ℕ → List (ℕ × ℕ)) (hv : ∀ p ∈ verlet 0, p.1 ≠ p.2) (s : St) (us : List (ℝ × ℝ)) :
    ∃ s', interact c 2 verlet false s us = .ok (s', us, false) ∧ s'.x = s.x ∧ s'.v = s.v
      ∧ ∀ k, s'.f k = s.f k + ((verlet 0).map (pairForce c s.x k)).sum := by
  obtain ⟨s', e, ex, ev, ef⟩ := sweep_off c hx hy (verlet 0) (s, us) hv
  refine ⟨s', ?_, ex, ev, ef⟩
  unfold interact
  rw [if_neg (by simp), e]

/-- The force between two particles: nothing if they do not touch, otherwise a positive multiple of the displacement (they are pushed apart), the opposite on the partner. -/
theorem C109_repulsion (c : Cfg) (hx : c.lox ≤ c.hix) (hy : c.loy ≤ c.hiy) (hr : 0 < c.rep) (x : ℕ → ℝ × ℝ) (i j : ℕ) (hi : 0 ≤ c.sg i) (hj : 0 ≤ c.sg j) :
    (¬ Touch c x i j → push c x i j = 0) ∧ (Touch c x i j → ∃ m : ℝ, 0 < m ∧ push c x i j = m • disp c (x i) (x j)) ∧ push c x j i = - push c x i j := by
  refine ⟨fun h => by unfold push; rw [if_neg h], fun h => ?_, push_neg c hx hy x i j⟩
  refine ⟨c.rep * (c.sg i + c.sg j - Real.sqrt (rsqr c (x i) (x j))) / Real.sqrt (rsqr c (x i) (x j)), ?_, by unfold push; rw [if_pos h]⟩
  have h1 : 0 < Real.sqrt (rsqr c (x i) (x j)) := Real.sqrt_pos.2 h.1
  have h2 : Real.sqrt (rsqr c (x i) (x j)) < c.sg i + c.sg j := by
    rw [Real.sqrt_lt' (by
      rcases eq_or_lt_of_le (add_nonneg hi hj) with h0 | h0
      · have := h.2; rw [← h0] at this; have := h.1; linarith
      · exact h0)]
    exact h.2
  exact div_pos (mul_pos hr (by linarith)) h1

/-- The displacement in the force is one between images: it differs from the difference of the positions by a whole width at most, only along periodic directions, and is at most half of a width there for positions in the box. -/
theorem C109_nearest_image (c : Cfg) (p q : ℝ × ℝ) (hp : c.lox ≤ p.1 ∧ p.1 ≤ c.hix) (hq : c.lox ≤ q.1 ∧ q.1 ≤ c.hix) (hb : c.bcx = BC.wrap) :
    (∃ m : ℤ, (disp c p q).1 = p.1 - q.1 + m * (c.hix - c.lox)) ∧ |(disp c p q).1| ≤ (c.hix - c.lox) / 2 := by
  show (∃ m : ℤ, image1 _ _ _ _ = _) ∧ |image1 _ _ _ _| ≤ _
  unfold image1
  rw [if_pos hb]
  simp only
  by_cases h : c.hix - c.lox - |p.1 - q.1| < |p.1 - q.1|
  · rw [if_pos h]
    have hle : |p.1 - q.1| ≤ c.hix - c.lox := abs_le.2 ⟨by linarith, by linarith⟩
    by_cases h2 : 0 < p.1 - q.1
    · rw [if_pos h2, abs_of_pos h2]
      rw [abs_of_pos h2] at h hle
      refine ⟨⟨-1, by push_cast; ring⟩, ?_⟩
      rw [abs_neg, abs_of_nonneg (by linarith)]; linarith
    · rw [if_neg h2, abs_of_nonpos (by linarith)]
      rw [abs_of_nonpos (by linarith)] at h hle
      refine ⟨⟨1, by push_cast; ring⟩, ?_⟩
      rw [abs_of_nonneg (by linarith)]; linarith
  · rw [if_neg h]
    refine ⟨⟨0, by simp⟩, by linarith⟩

/-- **C109, momentum.** The forces of the closed wall are balanced: their sum over any set of particles that contains all listed ones is unchanged. -/
theorem C109_balanced (c : Cfg) (hx : c.lox ≤ c.hix) (hy : c.loy ≤ c.hiy) (verlet : ℕ → List (ℕ × ℕ)) (hv : ∀ p ∈ verlet 0, p.1 ≠ p.2) (s s' : St) (us us' : List (ℝ × ℝ)) (fl : Bool)
    (h : interact c 2 verlet false s us = .ok (s', us', fl)) (A : Finset ℕ) (hA : ∀ p ∈ verlet 0, p.1 ∈ A ∧ p.2 ∈ A) :
    ∑ k ∈ A, s'.f k = ∑ k ∈ A, s.f k := by
  obtain ⟨s'', e, _, _, ef⟩ := C109_force c hx hy verlet hv s us
  rw [e] at h
  injection h with h
  injection h with h _
  subst h
  rw [Finset.sum_congr rfl (fun k _ => ef k), Finset.sum_add_distrib]
  have key : ∀ ps : List (ℕ × ℕ), (∀ p ∈ ps, p.1 ∈ A ∧ p.2 ∈ A) → ∑ k ∈ A, (ps.map (pairForce c s.x k)).sum = 0 := by
    intro ps
    induction ps with
    | nil => intro _; simp
    | cons p ps ih =>
      intro hp
      simp only [List.map_cons, List.sum_cons, Finset.sum_add_distrib]
      rw [ih (fun q hq => hp q (by simp [hq])), add_zero]
      unfold pairForce
      by_cases h0 : c.type p.1 < 0 ∨ c.type p.2 < 0
      · simp [h0]
      · simp only [h0, if_false, Finset.sum_add_distrib]
        rw [Finset.sum_ite_eq' A p.1, Finset.sum_ite_eq' A p.2, if_pos (hp p (by simp)).1, if_pos (hp p (by simp)).2, push_neg c hx hy s.x p.1 p.2]
        simp
  rw [key _ hA, add_zero]

/-! ### Turning on -/

theorem place_ok (c : Cfg) (x : ℕ → ℝ × ℝ) (off : ℝ) : ∀ (us : List (ℝ × ℝ)) (X : ℝ × ℝ) (us' : List (ℝ × ℝ)), place c x off us = .ok (X, us') →
    ¬ occupied c x X ∧ (∃ u ∈ us, X = spot c off u) ∧ us' ⊆ us := by
  intro us
  induction us with
  | nil => intro X us' h; simp [place] at h
  | cons u us ih =>
    intro X us' h
    unfold place at h
    by_cases h0 : occupied c x (spot c off u)
    · rw [if_pos h0] at h
      obtain ⟨h1, ⟨w, hw, e⟩, h3⟩ := ih X us' h
      exact ⟨h1, ⟨w, by simp [hw], e⟩, fun z hz => by simp [h3 hz]⟩
    · rw [if_neg h0] at h
      injection h with h
      injection h with e1 e2
      subst e1; subst e2
      exact ⟨h0, ⟨u, by simp, rfl⟩, fun z hz => by simp [hz]⟩

/-- The strip of a side: `0.025` to `0.475` of the width for the left, `0.525` to `0.975` for the right one, and the whole height. -/
def InStrip (c : Cfg) (side : ℤ) (X : ℝ × ℝ) : Prop :=
  ((side = 0 ∧ c.lox + 25/1000 * (c.hix - c.lox) ≤ X.1 ∧ X.1 < c.lox + 475/1000 * (c.hix - c.lox))
    ∨ (side = 1 ∧ c.lox + 525/1000 * (c.hix - c.lox) ≤ X.1 ∧ X.1 < c.lox + 975/1000 * (c.hix - c.lox)))
  ∧ c.loy ≤ X.2 ∧ X.2 < c.hiy

/-- The values of `drand48` are in `[0, 1)`. -/
def Draws (us : List (ℝ × ℝ)) : Prop := ∀ u ∈ us, (0 ≤ u.1 ∧ u.1 < 1) ∧ (0 ≤ u.2 ∧ u.2 < 1)

/-- What one move does. -/
theorem moveAway_ok (c : Cfg) (side : ℕ → ℤ) (hs : c.side = some side) (hx : c.lox < c.hix) (hy : c.loy < c.hiy) (s s' : St) (us us' : List (ℝ × ℝ)) (hu : Draws us) (a : ℕ)
    (h : moveAway c s us a = .ok (s', us')) :
    Draws us' ∧ ((s' = s ∧ ¬ ((side a = 0 ∨ side a = 1) ∧ 0 < c.im a)) ∨ (∃ X, s' = put s a X ∧ 0 < c.im a ∧ InStrip c (side a) X ∧ ¬ occupied c s.x X)) := by
  unfold moveAway at h
  rw [hs] at h
  simp only at h
  by_cases h0 : side a = 0 ∧ 0 < c.im a
  · rw [if_pos h0] at h
    cases hp : place c s.x (25/1000) us with
    | error e => rw [hp] at h; simp at h
    | ok r =>
      obtain ⟨X, us2⟩ := r
      rw [hp] at h
      simp only at h
      injection h with h; injection h with e1 e2
      obtain ⟨h1, ⟨u, hum, e⟩, h3⟩ := place_ok c s.x _ us X us2 hp
      refine ⟨fun w hw => hu w (h3 (e2 ▸ hw)), Or.inr ⟨X, e1.symm, h0.2, ?_, h1⟩⟩
      obtain ⟨⟨a1, a2⟩, a3, a4⟩ := hu u hum
      rw [e]
      refine ⟨Or.inl ⟨h0.1, ?_, ?_⟩, ?_, ?_⟩ <;> simp only [spot] <;> nlinarith
  · rw [if_neg h0] at h
    by_cases h1 : side a = 1 ∧ 0 < c.im a
    · rw [if_pos h1] at h
      cases hp : place c s.x (525/1000) us with
      | error e => rw [hp] at h; simp at h
      | ok r =>
        obtain ⟨X, us2⟩ := r
        rw [hp] at h
        simp only at h
        injection h with h; injection h with e1 e2
        obtain ⟨h2, ⟨u, hum, e⟩, h3⟩ := place_ok c s.x _ us X us2 hp
        refine ⟨fun w hw => hu w (h3 (e2 ▸ hw)), Or.inr ⟨X, e1.symm, h1.2, ?_, h2⟩⟩
        obtain ⟨⟨a1, a2⟩, a3, a4⟩ := hu u hum
        rw [e]
        refine ⟨Or.inr ⟨h1.1, ?_, ?_⟩, ?_, ?_⟩ <;> simp only [spot] <;> nlinarith
    · rw [if_neg h1] at h
      injection h with h; injection h with e1 e2
      refine ⟨e2 ▸ hu, Or.inl ⟨e1.symm, ?_⟩⟩
      rintro ⟨h2 | h2, h3⟩
      · exact h0 ⟨h2, h3⟩
      · exact h1 ⟨h2, h3⟩

/-- The particle and the wall of a pair: the wall is the one of the larger type (the second one if the types are equal). -/
def roles (c : Cfg) (p : ℕ × ℕ) : ℕ × ℕ := if c.type p.2 < c.type p.1 then (p.2, p.1) else p

open Classical in
theorem pairStep_true (c : Cfg) (t : St × List (ℝ × ℝ)) (p : ℕ × ℕ) :
    pairStep c true t p = if c.type p.1 < 0 ∨ c.type p.2 < 0 then .ok t else if Touch c t.1.x (roles c p).1 (roles c p).2 then moveAway c t.1 t.2 (roles c p).1 else .ok t := by
  unfold pairStep
  by_cases h0 : c.type p.1 < 0 ∨ c.type p.2 < 0
  · rw [if_pos h0, if_pos h0]
  · rw [if_neg h0, if_neg h0]
    by_cases h1 : Touch c t.1.x (roles c p).1 (roles c p).2
    · rw [if_pos h1]
      exact if_pos h1
    · rw [if_neg h1]
      exact if_neg h1

/-- What one pair does while the wall is turned on. -/
theorem pairStep_on (c : Cfg) (side : ℕ → ℤ) (hs : c.side = some side) (hx : c.lox < c.hix) (hy : c.loy < c.hiy) (t t' : St × List (ℝ × ℝ)) (hu : Draws t.2) (p : ℕ × ℕ)
    (h : pairStep c true t p = .ok t') :
    Draws t'.2 ∧ ((t'.1 = t.1 ∧ ¬ (0 ≤ c.type p.1 ∧ 0 ≤ c.type p.2 ∧ Touch c t.1.x (roles c p).1 (roles c p).2 ∧ (side (roles c p).1 = 0 ∨ side (roles c p).1 = 1) ∧ 0 < c.im (roles c p).1))
      ∨ (∃ X, t'.1 = put t.1 (roles c p).1 X ∧ 0 < c.im (roles c p).1 ∧ InStrip c (side (roles c p).1) X ∧ ¬ occupied c t.1.x X)) := by
  unfold pairStep at h
  by_cases h0 : c.type p.1 < 0 ∨ c.type p.2 < 0
  · rw [if_pos h0] at h
    injection h with h
    subst h
    refine ⟨hu, Or.inl ⟨rfl, ?_⟩⟩
    rintro ⟨h1, h2, _⟩
    omega
  · rw [if_neg h0] at h
    change (if 0 < rsqr c (t.1.x (roles c p).1) (t.1.x (roles c p).2) ∧ rsqr c (t.1.x (roles c p).1) (t.1.x (roles c p).2) < (c.sg (roles c p).1 + c.sg (roles c p).2) ^ 2
      then (if true then moveAway c t.1 t.2 (roles c p).1 else .ok (repel c t.1 (roles c p).1 (roles c p).2, t.2)) else .ok t) = .ok t' at h
    by_cases h1 : 0 < rsqr c (t.1.x (roles c p).1) (t.1.x (roles c p).2) ∧ rsqr c (t.1.x (roles c p).1) (t.1.x (roles c p).2) < (c.sg (roles c p).1 + c.sg (roles c p).2) ^ 2
    · rw [if_pos h1] at h
      simp only [if_true] at h
      obtain ⟨h2, h3⟩ := moveAway_ok c side hs hx hy t.1 t'.1 t.2 t'.2 hu _ h
      refine ⟨h2, ?_⟩
      rcases h3 with ⟨h3, h4⟩ | h3
      · exact Or.inl ⟨h3, fun h5 => h4 h5.2.2.2⟩
      · exact Or.inr h3
    · rw [if_neg h1] at h
      injection h with h
      subst h
      exact ⟨hu, Or.inl ⟨rfl, fun h5 => h1 h5.2.2.1⟩⟩

/-- Induction over the pairs for a property of pairs of states that each move keeps. -/
theorem sweep_on_ind (c : Cfg) (side : ℕ → ℤ) (hs : c.side = some side) (hx : c.lox < c.hix) (hy : c.loy < c.hiy) (s0 : St) (I : St → Prop)
    (ps : List (ℕ × ℕ))
    (step : ∀ s p X, p ∈ ps → I s → 0 < c.im (roles c p).1 → InStrip c (side (roles c p).1) X → ¬ occupied c s.x X → I (put s (roles c p).1 X))
    (t' : St × List (ℝ × ℝ)) :
    ∀ (us : List (ℝ × ℝ)), Draws us → I s0 → sweep c true (s0, us) ps = .ok t' → I t'.1 := by
  suffices H : ∀ (qs : List (ℕ × ℕ)) (t : St × List (ℝ × ℝ)), (∀ q ∈ qs, q ∈ ps) → Draws t.2 → I t.1 → sweep c true t qs = .ok t' → I t'.1 from
    fun us hu h0 h => H ps (s0, us) (fun _ h => h) hu h0 h
  intro qs
  induction qs with
  | nil => intro t _ _ h0 h; injection h with h; subst h; exact h0
  | cons p qs ih =>
    intro t hq hu h0 h
    unfold sweep at h
    cases hp : pairStep c true t p with
    | error e => rw [hp] at h; simp at h
    | ok t1 =>
      rw [hp] at h
      simp only at h
      obtain ⟨h1, h2⟩ := pairStep_on c side hs hx hy t t1 hu p hp
      refine ih t1 (fun q hq' => hq q (by simp [hq'])) h1 ?_ h
      rcases h2 with ⟨h2, _⟩ | ⟨X, h2, h3, h4, h5⟩
      · rw [h2]; exact h0
      · rw [h2]; exact step t.1 p X (hq p (by simp)) h0 h3 h4 h5

/-- **C109, turning on.** When the wall is turned on no forces act. A particle either keeps its position and velocity up to the sign of `v_x` or, only if it is movable and the partner of a listed pair of at least
its type, is put in the strip of its side. Speeds never change, and the flag is reset. -/
theorem C109_turn_on (c : Cfg) (side : ℕ → ℤ) (hs : c.side = some side) (hx : c.lox < c.hix) (hy : c.loy < c.hiy) (verlet : ℕ → List (ℕ × ℕ)) (s s' : St) (us us' : List (ℝ × ℝ)) (fl : Bool)
    (hu : Draws us) (h : interact c 2 verlet true s us = .ok (s', us', fl)) :
    fl = false ∧ s'.f = s.f
      ∧ (∀ k, (s'.v k).2 = (s.v k).2 ∧ ((s'.v k).1 = (s.v k).1 ∨ (s'.v k).1 = - (s.v k).1))
      ∧ (∀ k, (s'.x k = s.x k ∧ s'.v k = s.v k) ∨ (0 < c.im k ∧ InStrip c (side k) (s'.x k) ∧ ∃ p ∈ verlet 0, (roles c p).1 = k)) := by
  unfold interact at h
  rw [if_neg (by simp)] at h
  cases hp : sweep c true (s, us) (verlet 0) with
  | error e => rw [hp] at h; simp at h
  | ok t =>
    rw [hp] at h
    simp only at h
    injection h with h; injection h with e1 e2; injection e2 with e2 e3
    subst e1
    refine ⟨e3.symm, ?_⟩
    have := sweep_on_ind c side hs hx hy s (fun r => r.f = s.f
      ∧ (∀ k, (r.v k).2 = (s.v k).2 ∧ ((r.v k).1 = (s.v k).1 ∨ (r.v k).1 = - (s.v k).1))
      ∧ (∀ k, (r.x k = s.x k ∧ r.v k = s.v k) ∨ (0 < c.im k ∧ InStrip c (side k) (r.x k) ∧ ∃ p ∈ verlet 0, (roles c p).1 = k))) (verlet 0) ?_ t us hu ⟨rfl, fun k => ⟨rfl, Or.inl rfl⟩, fun k => Or.inl ⟨rfl, rfl⟩⟩ hp
    · exact this
    · rintro r p X hpm ⟨f1, f2, f3⟩ him hst _
      refine ⟨f1, fun k => ?_, fun k => ?_⟩
      · by_cases hk : k = (roles c p).1
        · subst hk
          obtain ⟨g1, g2⟩ := f2 (roles c p).1
          simp only [put, Function.update_self]
          refine ⟨g1, ?_⟩
          rcases g2 with g2 | g2
          · right; rw [g2]
          · left; rw [g2]; ring
        · simp only [put, Function.update_of_ne hk]
          exact f2 k
      · by_cases hk : k = (roles c p).1
        · subst hk
          right
          refine ⟨him, ?_, p, hpm, rfl⟩
          simp only [put, Function.update_self]
          exact hst
        · simp only [put, Function.update_of_ne hk]
          exact f3 k

/-- The domain sees all particles that are near a place in the box at their position at the last construction, and its cells hold the present positions. -/
def Fresh (c : Cfg) (x : ℕ → ℝ × ℝ) : Prop :=
  ∀ X j, j < c.number → Real.sqrt (rsqr c X (x j)) < 2 * c.mss → c.seen X (c.cell j)

/-- **C109, partial: the wall is free.** If the cells are up to date, in each listed pair the one of the larger type is immovable, and the radii of the pairs add up to at most the distance of the search, then after the wall was turned on no movable
particle with a side touches its partner. Missing: walls of a smaller type, larger particles, pairs that are not in the first list, overlaps between moved particles (see below). -/
theorem C109_cleared_partial (c : Cfg) (side : ℕ → ℤ) (hs : c.side = some side) (hx : c.lox < c.hix) (hy : c.loy < c.hiy) (verlet : ℕ → List (ℕ × ℕ)) (s s' : St) (us us' : List (ℝ × ℝ)) (fl : Bool)
    (hu : Draws us) (hf : Fresh c s.x)
    (hw : ∀ p ∈ verlet 0, (roles c p).2 < c.number ∧ c.im (roles c p).2 = 0 ∧ 0 ≤ c.sg (roles c p).1 + c.sg (roles c p).2 ∧ c.sg (roles c p).1 + c.sg (roles c p).2 ≤ 2 * c.mss)
    (h : interact c 2 verlet true s us = .ok (s', us', fl)) :
    ∀ p ∈ verlet 0, 0 ≤ c.type p.1 → 0 ≤ c.type p.2 → (side (roles c p).1 = 0 ∨ side (roles c p).1 = 1) → 0 < c.im (roles c p).1 → ¬ Touch c s'.x (roles c p).1 (roles c p).2 := by
  unfold interact at h
  rw [if_neg (by simp)] at h
  cases hp : sweep c true (s, us) (verlet 0) with
  | error e => rw [hp] at h; simp at h
  | ok t =>
    rw [hp] at h
    simp only at h
    injection h with h; injection h with e1 e2
    subst e1
    -- a place that is not occupied does not touch a wall
    have free : ∀ (r : St) (X : ℝ × ℝ) (q : ℕ × ℕ), q ∈ verlet 0 → (∀ k, c.im k = 0 → r.x k = s.x k) → ¬ occupied c r.x X →
        ¬ rsqr c X (r.x (roles c q).2) < (c.sg (roles c q).1 + c.sg (roles c q).2) ^ 2 := by
      intro r X q hq hk ho hlt
      obtain ⟨w1, w2, w0, w3⟩ := hw q hq
      apply ho
      have hlt2 : Real.sqrt (rsqr c X (r.x (roles c q).2)) < 2 * c.mss := by
        have : Real.sqrt (rsqr c X (r.x (roles c q).2)) < c.sg (roles c q).1 + c.sg (roles c q).2 := by
          rw [Real.sqrt_lt' (by
            rcases eq_or_lt_of_le w0 with h0 | h0
            · rw [← h0] at hlt
              have : 0 ≤ rsqr c X (r.x (roles c q).2) := by unfold rsqr; nlinarith
              nlinarith
            · exact h0)]
          exact hlt
        linarith
      refine ⟨(roles c q).2, w1, ?_, hlt2⟩
      apply hf X _ w1
      rw [← hk _ w2]; exact hlt2
    -- the pairs that are done are clear and stay so
    suffices H : ∀ (qs ds : List (ℕ × ℕ)) (t : St × List (ℝ × ℝ)) (t' : St × List (ℝ × ℝ)), (∀ q ∈ qs, q ∈ verlet 0) → (∀ q ∈ ds, q ∈ verlet 0) → Draws t.2 → (∀ k, c.im k = 0 → t.1.x k = s.x k) →
        (∀ q ∈ ds, 0 ≤ c.type q.1 → 0 ≤ c.type q.2 → (side (roles c q).1 = 0 ∨ side (roles c q).1 = 1) → 0 < c.im (roles c q).1 → ¬ Touch c t.1.x (roles c q).1 (roles c q).2) →
        sweep c true t qs = .ok t' →
        ∀ q, q ∈ qs ∨ q ∈ ds → 0 ≤ c.type q.1 → 0 ≤ c.type q.2 → (side (roles c q).1 = 0 ∨ side (roles c q).1 = 1) → 0 < c.im (roles c q).1 → ¬ Touch c t'.1.x (roles c q).1 (roles c q).2 by
      intro p hpm
      exact H (verlet 0) [] (s, us) t (fun _ h => h) (by simp) hu (fun _ _ => rfl) (by simp) hp p (Or.inl hpm)
    intro qs
    induction qs with
    | nil =>
      intro ds t t' _ _ _ _ hd h q hq
      injection h with h; subst h
      exact hd q (by simpa using hq)
    | cons p qs ih =>
      intro ds t t' hq hds hu hk hd h
      unfold sweep at h
      cases hp : pairStep c true t p with
      | error e => rw [hp] at h; simp at h
      | ok t1 =>
        rw [hp] at h
        simp only at h
        obtain ⟨h1, h2⟩ := pairStep_on c side hs hx hy t t1 hu p hp
        have hk1 : ∀ k, c.im k = 0 → t1.1.x k = s.x k := by
          intro k hk0
          rcases h2 with ⟨h2, _⟩ | ⟨X, h2, h3, _⟩
          · rw [h2]; exact hk k hk0
          · have hne : k ≠ (roles c p).1 := by rintro rfl; linarith
            rw [h2]; simp only [put, Function.update_of_ne hne]; exact hk k hk0
        have hd1 : ∀ q ∈ p :: ds, 0 ≤ c.type q.1 → 0 ≤ c.type q.2 → (side (roles c q).1 = 0 ∨ side (roles c q).1 = 1) → 0 < c.im (roles c q).1 → ¬ Touch c t1.1.x (roles c q).1 (roles c q).2 := by
          intro q hqm t1p t2p hsd him
          rcases h2 with ⟨h2, h3⟩ | ⟨X, h2, h3, h4, h5⟩
          · rw [h2]
            rcases List.mem_cons.1 hqm with rfl | hqm
            · intro ht; exact h3 ⟨t1p, t2p, ht, hsd, him⟩
            · exact hd q hqm t1p t2p hsd him
          · have hqv : q ∈ verlet 0 := by
              rcases List.mem_cons.1 hqm with rfl | hqm
              · exact hq q (by simp)
              · exact hds q hqm
            by_cases hsame : (roles c q).1 = (roles c p).1
            · intro ht
              have hne : (roles c q).2 ≠ (roles c p).1 := by
                intro e
                have := (hw q hqv).2.1
                rw [e] at this; linarith
              have := ht.2
              rw [h2] at this
              simp only [put] at this
              rw [Function.update_of_ne hne, hsame, Function.update_self] at this
              have := free t.1 X q hqv hk h5
              rw [hsame] at this
              exact this ‹_›
            · have hqm' : q ∈ ds := by
                rcases List.mem_cons.1 hqm with rfl | hqm
                · exact absurd rfl hsame
                · exact hqm
              have hne : (roles c q).2 ≠ (roles c p).1 := by
                intro e
                have := (hw q hqv).2.1
                rw [e] at this; linarith
              have := hd q hqm' t1p t2p hsd him
              rw [h2]
              unfold Touch at this ⊢
              simp only [put]
              rw [Function.update_of_ne hne, Function.update_of_ne hsame]
              exact this
        have := ih (p :: ds) t1 t' (fun q hq' => hq q (by simp [hq'])) (fun q hq' => by
          rcases List.mem_cons.1 hq' with rfl | hq'
          · exact hq q (by simp)
          · exact hds q hq') h1 hk1 hd1 h
        intro q hqm
        apply this q
        rcases hqm with hqm | hqm
        · rcases List.mem_cons.1 hqm with rfl | hqm
          · right; simp
          · left; exact hqm
        · right; simp [hqm]

/-! ### Where the code does not do this -/

/-- **C109, negation: other lists.** Pairs that are listed as pairs across a boundary or with ghosts (lists 1 and 2) have no effect, whether they touch or not: for all states the result depends on the first list only. -/
theorem C109_negation_lists (c : Cfg) (verlet : ℕ → List (ℕ × ℕ)) (h0 : verlet 0 = []) (on : Bool) (s : St) (us : List (ℝ × ℝ)) :
    interact c 2 verlet on s us = .ok (s, us, false) := by
  unfold interact
  rw [if_neg (by simp), h0]
  rfl

/-- **C109, negation: other dimensions.** In any other dimension nothing happens and the flag stays set. -/
theorem C109_negation_dimensions (c : Cfg) (dims : ℕ) (hd : dims ≠ 2) (verlet : ℕ → List (ℕ × ℕ)) (s : St) (us : List (ℝ × ℝ)) :
    interact c dims verlet true s us = .ok (s, us, true) := by
  unfold interact
  rw [if_pos hd]

/-- **C109, negation: no sides.** If there is no data `Side`, turning on the wall while a particle touches it reads through a null pointer. -/
theorem C109_negation_no_side (c : Cfg) (hs : c.side = none) (verlet : ℕ → List (ℕ × ℕ)) (p : ℕ × ℕ) (hv : p ∈ verlet 0) (h1 : 0 ≤ c.type p.1) (h2 : 0 ≤ c.type p.2) (s : St)
    (ht : Touch c s.x (roles c p).1 (roles c p).2) (us : List (ℝ × ℝ)) : interact c 2 verlet true s us = .error .null := by
  have key : ∀ (ps : List (ℕ × ℕ)), p ∈ ps → sweep c true (s, us) ps = .error .null := by
    intro ps
    induction ps with
    | nil => intro h; simp at h
    | cons q ps ih =>
      intro h
      unfold sweep
      rw [pairStep_true]
      unfold moveAway
      rw [hs]
      rcases List.mem_cons.1 h with rfl | h
      · rw [if_neg (by omega), if_pos ht]
      · by_cases h3 : c.type q.1 < 0 ∨ c.type q.2 < 0
        · rw [if_pos h3]; exact ih h
        · rw [if_neg h3]
          by_cases h4 : Touch c s.x (roles c q).1 (roles c q).2
          · rw [if_pos h4]
          · rw [if_neg h4]; exact ih h
  unfold interact
  rw [if_neg (by simp), key _ hv]

/-- **C109, negation: a wall of a smaller type.** If the immovable one of a pair has the smaller type, the touching particle stays where it is. -/
theorem C109_negation_type (c : Cfg) (side : ℕ → ℤ) (hs : c.side = some side) (p : ℕ × ℕ) (him : c.im (roles c p).1 = 0) (verlet : ℕ → List (ℕ × ℕ)) (h0 : verlet 0 = [p]) (s : St) (us : List (ℝ × ℝ)) :
    interact c 2 verlet true s us = .ok (s, us, false) := by
  have e : pairStep c true (s, us) p = .ok (s, us) := by
    rw [pairStep_true]
    unfold moveAway
    rw [hs]
    simp only [him, lt_irrefl, and_false, if_false]
    split_ifs <;> rfl
  unfold interact
  rw [if_neg (by simp), h0]
  simp only [sweep, e]

/-- A box of width 10 with two particles of radius 1/2 on the left side that touch a wall particle. -/
noncomputable def wallCfg : Cfg :=
  { bcx := .wrap, bcy := .wrap, lox := 0, hix := 10, loy := 0, hiy := 10, sg := fun _ => 1/2, im := fun i => if i = 2 then 0 else 1, type := fun i => if i = 2 then 1 else 0,
    side := some (fun _ => 0), rep := 1, mss := 1/2, number := 3,
    seen := fun X Y => |image1 BC.wrap 0 10 (X.1 - Y.1)| ≤ 2 ∧ |image1 BC.wrap 0 10 (X.2 - Y.2)| ≤ 2,
    cell := fun i => if i = 0 then (22/5, 5) else if i = 1 then (5, 22/5) else (5, 5) }

/-- The state of the example. -/
noncomputable def wallSt : St :=
  { x := fun i => if i = 0 then (22/5, 5) else if i = 1 then (5, 22/5) else (5, 5), v := fun i => (1, i), f := fun _ => 0 }

theorem wallCfg_fresh : Fresh wallCfg wallSt.x := by
  intro X j hj h
  have hc : wallCfg.cell j = wallSt.x j := rfl
  rw [hc]
  have hm : 2 * wallCfg.mss = 1 := by norm_num [wallCfg]
  rw [hm, Real.sqrt_lt' one_pos] at h
  have e1 : (disp wallCfg X (wallSt.x j)).1 = image1 BC.wrap 0 10 (X.1 - (wallSt.x j).1) := rfl
  have e2 : (disp wallCfg X (wallSt.x j)).2 = image1 BC.wrap 0 10 (X.2 - (wallSt.x j).2) := rfl
  unfold rsqr at h
  rw [e1, e2] at h
  show |_| ≤ (2:ℝ) ∧ |_| ≤ (2:ℝ)
  constructor
  · apply abs_le_of_sq_le_sq _ (by norm_num)
    nlinarith [mul_self_nonneg (image1 BC.wrap 0 10 (X.2 - (wallSt.x j).2))]
  · apply abs_le_of_sq_le_sq _ (by norm_num)
    nlinarith [mul_self_nonneg (image1 BC.wrap 0 10 (X.1 - (wallSt.x j).1))]

theorem wall_not_occupied (x : ℕ → ℝ × ℝ) : ¬ occupied wallCfg x (spot wallCfg (25/1000) (0, 0)) := by
  rintro ⟨j, hj, ⟨h1, _⟩, _⟩
  have hj : j < 3 := hj
  interval_cases j
  · have e : (spot wallCfg (25/1000) (0,0)).1 - (wallCfg.cell 0).1 = -(83/20) := by norm_num [spot, wallCfg]
    rw [e] at h1
    norm_num [image1, abs_of_neg] at h1
  · have e : (spot wallCfg (25/1000) (0,0)).1 - (wallCfg.cell 1).1 = -(19/4) := by norm_num [spot, wallCfg]
    rw [e] at h1
    norm_num [image1, abs_of_neg] at h1
  · have e : (spot wallCfg (25/1000) (0,0)).1 - (wallCfg.cell 2).1 = -(19/4) := by norm_num [spot, wallCfg]
    rw [e] at h1
    norm_num [image1, abs_of_neg] at h1

theorem wall_place (x : ℕ → ℝ × ℝ) (us : List (ℝ × ℝ)) : place wallCfg x (25/1000) ((0, 0) :: us) = .ok ((1/4, 0), us) := by
  unfold place
  rw [if_neg (wall_not_occupied x)]
  have : spot wallCfg (25/1000) (0, 0) = (1/4, 0) := by
    ext <;> norm_num [spot, wallCfg]
  rw [this]

theorem wall_step (x v f : ℕ → ℝ × ℝ) (a : ℕ) (ha : a < 2) (hx : x a = wallSt.x a) (h2 : x 2 = wallSt.x 2) (us : List (ℝ × ℝ)) :
    pairStep wallCfg true (⟨x, v, f⟩, (0,0) :: us) (a, 2) = .ok (put ⟨x, v, f⟩ a (1/4, 0), us) := by
  have ht : Touch wallCfg x a 2 := by
    unfold Touch rsqr disp
    rw [hx, h2]
    interval_cases a <;> norm_num [wallSt, wallCfg, image1, abs_of_neg]
  have hta : wallCfg.type a = 0 := by interval_cases a <;> simp [wallCfg]
  have ht2 : wallCfg.type 2 = 1 := by simp [wallCfg]
  have hr : roles wallCfg (a, 2) = (a, 2) := by
    unfold roles
    rw [if_neg (by simp only [hta, ht2]; omega)]
  rw [pairStep_true, if_neg (by simp only [hta, ht2]; omega), hr, if_pos ht]
  have hs : wallCfg.side = some (fun _ => 0) := rfl
  have him : (0:ℝ) < wallCfg.im a := by interval_cases a <;> simp [wallCfg]
  unfold moveAway
  rw [hs]
  simp only [him, and_self, if_true]
  rw [wall_place]

/-- **C109, negation: the moved particles may overlap.** The search looks in the cells of the last construction, so it does not see particles that were moved in the same call: both particles of the example are put in the same place. -/
theorem C109_negation_overlap : ∃ s' us', interact wallCfg 2 (fun k => if k = 0 then [(0, 2), (1, 2)] else []) true wallSt [(0,0), (0,0)] = .ok (s', us', false)
    ∧ s'.x 0 = s'.x 1 := by
  refine ⟨put (put wallSt 0 (1/4, 0)) 1 (1/4, 0), [], ?_, by simp [put, Function.update]⟩
  unfold interact
  rw [if_neg (by simp)]
  have e1 : pairStep wallCfg true (wallSt, [(0,0), (0,0)]) (0, 2) = .ok (put wallSt 0 (1/4, 0), [(0,0)]) :=
    wall_step wallSt.x wallSt.v wallSt.f 0 (by omega) rfl rfl [(0,0)]
  have e2 : pairStep wallCfg true (put wallSt 0 (1/4, 0), [(0,0)]) (1, 2) = .ok (put (put wallSt 0 (1/4, 0)) 1 (1/4, 0), []) :=
    wall_step _ _ _ 1 (by omega) (by simp [put]) (by simp [put]) []
  simp only [if_true, sweep, e1, e2]

/-- The hypotheses of `C109_cleared_partial` and `C109_turn_on` are met by the example (which moves two particles). -/
example : wallCfg.side = some (fun _ => 0) ∧ wallCfg.lox < wallCfg.hix ∧ wallCfg.loy < wallCfg.hiy ∧ Draws [(0,0), (0,0)] ∧ Fresh wallCfg wallSt.x
    ∧ (∀ p ∈ [(0, 2), (1, 2)], (roles wallCfg p).2 < wallCfg.number ∧ wallCfg.im (roles wallCfg p).2 = 0 ∧ 0 ≤ wallCfg.sg (roles wallCfg p).1 + wallCfg.sg (roles wallCfg p).2
      ∧ wallCfg.sg (roles wallCfg p).1 + wallCfg.sg (roles wallCfg p).2 ≤ 2 * wallCfg.mss)
    ∧ ∃ s' us', interact wallCfg 2 (fun k => if k = 0 then [(0, 2), (1, 2)] else []) true wallSt [(0,0), (0,0)] = .ok (s', us', false) := by
  refine ⟨rfl, by norm_num [wallCfg], by norm_num [wallCfg], ?_, wallCfg_fresh, ?_, ?_⟩
  · intro u hu; simp at hu; rw [hu]; norm_num
  · intro p hp
    simp at hp
    rcases hp with rfl | rfl <;> norm_num [roles, wallCfg]
  · obtain ⟨s', us', h, _⟩ := C109_negation_overlap
    exact ⟨s', us', h⟩

/-- The hypotheses of the theorems on the closed wall are met, with a pair that touches. -/
example : wallCfg.lox ≤ wallCfg.hix ∧ wallCfg.loy ≤ wallCfg.hiy ∧ 0 < wallCfg.rep ∧ (∀ p ∈ [(0, 2), (1, 2)], (p : ℕ × ℕ).1 ≠ p.2) ∧ Touch wallCfg wallSt.x 0 2 := by
  refine ⟨by norm_num [wallCfg], by norm_num [wallCfg], by norm_num [wallCfg], by simp, ?_⟩
  unfold Touch rsqr disp
  norm_num [wallSt, wallCfg, image1, abs_of_neg]

end Verif.DemonWall
