import Verif.GFlow.Boundary
import Mathlib.Algebra.Order.Archimedean.Real.Basic
import Mathlib.Analysis.SpecialFunctions.Pow.Real
import Mathlib.Analysis.InnerProductSpace.PiL2
import Mathlib.Analysis.Calculus.Deriv.Pow
import Mathlib.Analysis.Calculus.Deriv.Add
import Mathlib.Analysis.Calculus.Deriv.Mul
import Mathlib.Tactic.NormNum

/-! # Boundary conditions: property theorems (C14–C19, C65) -/

namespace Verif.Boundary

variable {K : Type} [Field K] [LinearOrder K] [IsStrictOrderedRing K] [FloorRing K]

/-! ## Wrapping -/

/-- **C14.** `wrapPositions`: a coordinate of an owned particle in a periodic dimension ends up in `[min, max]`, moved by
an integer number of widths, and not at all if it was in `[min, max)`; velocities, forces, types, other
dimensions and other slots are not touched. -/
theorem C14_wrap (b : Box K) (s : State K) (hb : ∀ d < b.dims, b.lo d < b.hi d) :
    (∀ n < s.size, ∀ d < b.dims, b.bc d = .wrap →
      let x := (s.cell n d).x
      let x' := ((wrapPositions b s).cell n d).x
      b.lo d ≤ x' ∧ x' ≤ b.hi d ∧ (∃ k : ℤ, x' = x + k * (b.hi d - b.lo d)) ∧
        (b.lo d ≤ x → x < b.hi d → x' = x)) ∧
    (∀ n d, ((wrapPositions b s).cell n d).v = (s.cell n d).v ∧ ((wrapPositions b s).cell n d).f = (s.cell n d).f) ∧
    (∀ n d, (s.size ≤ n ∨ b.dims ≤ d ∨ b.bc d ≠ .wrap) → (wrapPositions b s).cell n d = s.cell n d) ∧
    (wrapPositions b s).type = s.type ∧ (wrapPositions b s).size = s.size := by
  rw [wrapPositions_eq]
  refine ⟨?_, ?_, ?_, rfl, rfl⟩
  · intro n hn d hd hw
    simp only [hn, hd, hw, and_self, if_true]
    exact ⟨(wrap1_range (hb d hd)).1, (wrap1_range (hb d hd)).2, wrap1_int _ _ _, fun h1 h2 => wrap1_fix h1 h2⟩
  · intro n d
    dsimp only
    split <;> simp
  · intro n d h
    dsimp only
    rw [if_neg]
    rintro ⟨h1, h2, h3⟩
    rcases h with h | h | h
    · omega
    · omega
    · exact h h3

/-- A box `[0,2)×[-1,1)` meets the hypothesis, and a particle is really moved. -/
example : (∀ d < 2, (fun d => if d = 0 then (0 : ℚ) else -1) d < (fun d => if d = 0 then (2 : ℚ) else 1) d) ∧
    wrap1 (0 : ℚ) 2 (-3) = 1 ∧ wrap1 (0 : ℚ) 2 5 = 1 := by
  refine ⟨?_, ?_, ?_⟩
  · intro d _; dsimp; split <;> norm_num
  · norm_num [wrap1, fmod, trunc]
  · norm_num [wrap1, fmod, trunc]

/-- **C15 (partial, exact).** The wrapped coordinate misses the half-open interval `[min, max)` exactly when the
particle was below `min` by a whole number of widths; then it is put on `max`. Otherwise it is in `[min, max)` and a
second call of `wrapPositions` does not move it again. -/
theorem C15_half_open_partial (b : Box K) (s : State K) (hb : ∀ d < b.dims, b.lo d < b.hi d)
    (n : ℕ) (hn : n < s.size) (d : ℕ) (hd : d < b.dims) (hw : b.bc d = .wrap) :
    (((s.cell n d).x < b.lo d ∧ ∃ k : ℕ, b.lo d - (s.cell n d).x = k * (b.hi d - b.lo d)) →
      ((wrapPositions b s).cell n d).x = b.hi d ∧
      ((wrapPositions b (wrapPositions b s)).cell n d).x = b.lo d) ∧
    (¬ ((s.cell n d).x < b.lo d ∧ ∃ k : ℕ, b.lo d - (s.cell n d).x = k * (b.hi d - b.lo d)) →
      b.lo d ≤ ((wrapPositions b s).cell n d).x ∧ ((wrapPositions b s).cell n d).x < b.hi d ∧
      ((wrapPositions b (wrapPositions b s)).cell n d).x = ((wrapPositions b s).cell n d).x) := by
  have e1 : ((wrapPositions b s).cell n d).x = wrap1 (b.lo d) (b.hi d) (s.cell n d).x := by
    rw [wrapPositions_eq]; simp [hn, hd, hw]
  have e2 : ((wrapPositions b (wrapPositions b s)).cell n d).x =
      wrap1 (b.lo d) (b.hi d) (wrap1 (b.lo d) (b.hi d) (s.cell n d).x) := by
    rw [wrapPositions_eq b (wrapPositions b s)]
    have : (wrapPositions b s).size = s.size := by rw [wrapPositions_eq]
    simp only [this, hn, hd, hw, and_self, if_true, e1]
  have hlt := hb d hd
  rw [e2, e1]
  constructor
  · intro h
    have := (wrap1_eq_hi_iff hlt).2 h
    refine ⟨this, ?_⟩
    rw [this]
    unfold wrap1
    rw [if_neg (not_lt.2 hlt.le), if_pos (le_refl _)]
    rw [(fmod_zero_iff (a := b.hi d - b.lo d) (by linarith) (by linarith)).2 ⟨1, by simp⟩]
    simp
  · intro h
    have hr := wrap1_range (x := (s.cell n d).x) hlt
    have hne : wrap1 (b.lo d) (b.hi d) (s.cell n d).x ≠ b.hi d := fun e => h ((wrap1_eq_hi_iff hlt).1 e)
    have h2 := lt_of_le_of_ne hr.2 hne
    exact ⟨hr.1, h2, wrap1_fix hr.1 h2⟩

/-- A one-dimensional periodic box `[0,1)` with one particle at `x`. -/
def one (bc : BC) (rep diss : K) (x v : K) : Box K × State K :=
  ({ dims := 1, lo := fun _ => 0, hi := fun _ => 1, bc := fun _ => bc, repulsion := rep, dissipation := diss },
   { cell := fun _ _ => ⟨x, v, 0⟩, type := fun _ => 0, size := 1, boundaryForce := 0, boundaryEnergy := 0 })

/-- **C15, negation.** In the periodic box `[0,1)` a particle at `-1` is put on `1`, which is not in `[0,1)`, and the
next call moves it to `0`. -/
theorem C15_negation : let p := one (K := ℚ) .wrap 0 0 (-1) 0
    ((wrapPositions p.1 p.2).cell 0 0).x = 1 ∧
    ((wrapPositions p.1 (wrapPositions p.1 p.2)).cell 0 0).x = 0 := by
  intro p
  exact (C15_half_open_partial p.1 p.2 (by intro d _; simp [p, one]) 0 (by simp [p, one]) 0 (by simp [p, one])
    (by simp [p, one])).1 ⟨by norm_num [p, one], 1, by norm_num [p, one]⟩

/-! ## Reflecting -/

/-- **C16.** `reflectPositions`, for every owned particle and reflecting dimension: inside nothing changes; outside
the position is mirrored at the wall it passed and the velocity component changes sign (so speed is
kept, and an outgoing particle is turned inward); it lands in the box exactly when it was outside by at most the width of
the box. Nothing else changes. -/
theorem C16_reflect (b : Box K) (s : State K) (hb : ∀ d < b.dims, b.lo d < b.hi d) :
    (∀ n < s.size, ∀ d < b.dims, b.bc d = .refl →
      let e := s.cell n d
      let e' := (reflectPositions b s).cell n d
      (b.lo d ≤ e.x → e.x ≤ b.hi d → e' = e) ∧
      (e.x < b.lo d → e'.x - b.lo d = b.lo d - e.x ∧ e'.v = -e.v ∧ b.lo d < e'.x ∧
        (e'.x ≤ b.hi d ↔ b.lo d - e.x ≤ b.hi d - b.lo d)) ∧
      (b.hi d < e.x → b.hi d - e'.x = e.x - b.hi d ∧ e'.v = -e.v ∧ e'.x < b.hi d ∧
        (b.lo d ≤ e'.x ↔ e.x - b.hi d ≤ b.hi d - b.lo d)) ∧
      e'.f = e.f ∧ e'.v ^ 2 = e.v ^ 2) ∧
    (∀ n d, (s.size ≤ n ∨ b.dims ≤ d ∨ b.bc d ≠ .refl) → (reflectPositions b s).cell n d = s.cell n d) := by
  rw [reflectPositions_eq]
  constructor
  · intro n hn d hd hr
    have hlt := hb d hd
    simp only [hn, hd, hr, and_self, if_true]
    refine ⟨?_, ?_, ?_, ?_, ?_⟩
    · intro h1 h2
      unfold reflect1; rw [if_neg (not_lt.2 h1), if_neg (not_lt.2 h2)]
    · intro h
      unfold reflect1; rw [if_pos h]
      refine ⟨by ring, rfl, by dsimp; linarith, ?_⟩
      constructor <;> intro h' <;> dsimp at * <;> linarith
    · intro h
      have h0 : ¬ (s.cell n d).x < b.lo d := by push Not; linarith
      unfold reflect1; rw [if_neg h0, if_pos h]
      refine ⟨by ring, rfl, by dsimp; linarith, ?_⟩
      constructor <;> intro h' <;> dsimp at * <;> linarith
    · unfold reflect1; split
      · rfl
      · split <;> rfl
    · unfold reflect1; split
      · simp
      · split <;> simp
  · intro n d h
    dsimp only
    rw [if_neg]
    rintro ⟨h1, h2, h3⟩
    rcases h with h | h | h
    · omega
    · omega
    · exact h h3

/-- A particle that left the reflecting box `[0,1]` is mirrored. -/
example : let p := one (K := ℚ) .refl 0 0 (-1/4) (-2)
    (∀ d < p.1.dims, p.1.lo d < p.1.hi d) ∧ ((reflectPositions p.1 p.2).cell 0 0).x = 1/4 ∧
    ((reflectPositions p.1 p.2).cell 0 0).v = 2 := by
  intro p
  refine ⟨by intro d _; simp [p, one], ?_, ?_⟩ <;> rw [reflectPositions_eq] <;>
    norm_num [p, one, reflect1]

/-! ## Repulsing -/

open Finset in
/-- **C17, forces and bookkeeping of `repulsePositions`**, for non-negative constants: inside there is no force; outside
there is an inward force `10·repulsion·depth` plus the damping of the outgoing velocity; positions and velocities
do not change; `boundaryForce` is the sum of the magnitudes of the added forces, and `boundaryEnergy` the sum of
`½·repulsion·depth²`.
Missing: the energy, see `C17_negation_energy` and `C17_negation_dead`. -/
theorem C17_repulse_partial (b : Box K) (s : State K) (hk : 0 ≤ b.repulsion) (hg : 0 ≤ b.dissipation)
    (hb : ∀ d < b.dims, b.lo d < b.hi d) :
    let t := repulsePositions b s
    (∀ n < s.size, ∀ d < b.dims, b.bc d = .repl →
      (b.lo d ≤ (s.cell n d).x → (s.cell n d).x ≤ b.hi d → t.cell n d = s.cell n d) ∧
      ((s.cell n d).x < b.lo d →
        (t.cell n d).f - (s.cell n d).f =
          10 * b.repulsion * (b.lo d - (s.cell n d).x) + b.dissipation * max 0 (-(s.cell n d).v) ∧
        0 ≤ (t.cell n d).f - (s.cell n d).f) ∧
      (b.hi d < (s.cell n d).x →
        (s.cell n d).f - (t.cell n d).f =
          10 * b.repulsion * ((s.cell n d).x - b.hi d) + b.dissipation * max 0 (s.cell n d).v ∧
        0 ≤ (s.cell n d).f - (t.cell n d).f)) ∧
    (∀ n d, (t.cell n d).x = (s.cell n d).x ∧ (t.cell n d).v = (s.cell n d).v) ∧
    (∀ n d, (s.size ≤ n ∨ b.dims ≤ d ∨ b.bc d ≠ .repl) → t.cell n d = s.cell n d) ∧
    t.boundaryForce = ∑ d ∈ range b.dims, ∑ n ∈ range s.size, |(t.cell n d).f - (s.cell n d).f| ∧
    t.boundaryEnergy = ∑ d ∈ range b.dims, if b.bc d = .repl then ∑ n ∈ range s.size,
      1 / 2 * b.repulsion * (max 0 (max (b.lo d - (s.cell n d).x) ((s.cell n d).x - b.hi d))) ^ 2 else 0 := by
  have hclamp : ∀ a : K, clamp a = max 0 a := by
    intro a; unfold clamp; split
    · next h => rw [max_eq_left h.le]
    · next h => rw [max_eq_right (not_lt.1 h)]
  have hpush : ∀ d e, 0 ≤ pushOf b d e := by
    intro d e
    unfold pushOf
    split
    · next h =>
      have : 0 ≤ b.lo d - e.x := by linarith
      rw [hclamp]; positivity
    · split
      · next h =>
        have : 0 ≤ e.x - b.hi d := by linarith
        rw [hclamp]; positivity
      · exact le_refl _
  intro t
  have ht : t = repulsePositions b s := rfl
  rw [repulsePositions_eq] at ht
  have hc : ∀ n < s.size, ∀ d < b.dims, b.bc d = .repl → t.cell n d = repulse1 b d (s.cell n d) := by
    intro n hn d hd hr; rw [ht]; simp [hn, hd, hr]
  have hother : ∀ n d, (s.size ≤ n ∨ b.dims ≤ d ∨ b.bc d ≠ .repl) → t.cell n d = s.cell n d := by
    intro n d h
    rw [ht]; dsimp only
    rw [if_neg]
    rintro ⟨h1, h2, h3⟩
    rcases h with h | h | h
    · omega
    · omega
    · exact h h3
  refine ⟨?_, ?_, hother, ?_, ?_⟩
  · intro n hn d hd hr
    rw [hc n hn d hd hr]
    have hlt := hb d hd
    have hp := hpush d (s.cell n d)
    refine ⟨?_, ?_, ?_⟩
    · intro h1 h2; unfold repulse1; rw [if_neg (not_lt.2 h1), if_neg (not_lt.2 h2)]
    · intro h
      unfold repulse1; rw [if_pos h]
      dsimp only
      refine ⟨?_, by linarith⟩
      unfold pushOf; rw [if_pos h, hclamp]; ring
    · intro h
      have h0 : ¬ (s.cell n d).x < b.lo d := by push Not; linarith
      unfold repulse1; rw [if_neg h0, if_pos h]
      dsimp only
      refine ⟨?_, by linarith⟩
      unfold pushOf; rw [if_neg h0, if_pos h, hclamp]; ring
  · intro n d
    by_cases h : n < s.size ∧ d < b.dims ∧ b.bc d = .repl
    · rw [hc n h.1 d h.2.1 h.2.2]
      unfold repulse1
      split
      · simp
      · split <;> simp
    · rw [hother n d (by
        by_contra hcon
        push Not at hcon
        exact h ⟨hcon.1, hcon.2.1, hcon.2.2⟩)]
      exact ⟨rfl, rfl⟩
  · have e : t.boundaryForce = ∑ d ∈ range b.dims, if b.bc d = .repl then
        ∑ n ∈ range s.size, pushOf b d (s.cell n d) else 0 := by rw [ht]
    rw [e]
    apply sum_congr rfl
    intro d hd
    rw [mem_range] at hd
    split
    · next hr =>
      apply sum_congr rfl
      intro n hn
      rw [mem_range] at hn
      rw [hc n hn d hd hr]
      have hp := hpush d (s.cell n d)
      unfold repulse1
      split
      · dsimp only; rw [add_sub_cancel_left, abs_of_nonneg hp]
      · split
        · dsimp only; rw [sub_sub_cancel_left, abs_neg, abs_of_nonneg hp]
        · next h1 h2 => simp [pushOf, h1, h2]
    · next hr =>
      symm
      apply sum_eq_zero
      intro n _
      rw [hother n d (Or.inr (Or.inr hr))]; simp
  · have e : t.boundaryEnergy = ∑ d ∈ range b.dims, if b.bc d = .repl then
          ∑ n ∈ range s.size, 1 / 2 * b.repulsion * (depthOf b d (s.cell n d) * depthOf b d (s.cell n d)) else 0 := by
      rw [ht]
    rw [e]
    apply sum_congr rfl
    intro d hd
    rw [mem_range] at hd
    have hlt := hb d hd
    split
    · apply sum_congr rfl
      intro n _
      have : depthOf b d (s.cell n d) = max 0 (max (b.lo d - (s.cell n d).x) ((s.cell n d).x - b.hi d)) := by
        unfold depthOf
        split
        · rw [max_eq_left (by linarith : (s.cell n d).x - b.hi d ≤ b.lo d - (s.cell n d).x), max_eq_right (by linarith)]
        · next h1 =>
          split
          · rw [max_eq_right (by linarith : b.lo d - (s.cell n d).x ≤ (s.cell n d).x - b.hi d), max_eq_right (by linarith)]
          · rw [max_eq_left]; apply max_le <;> linarith
      rw [this]; ring
    · rfl

example : let p := one (K := ℚ) .repl 3 2 (-1/4) (-2)
    0 ≤ p.1.repulsion ∧ 0 ≤ p.1.dissipation ∧ (∀ d < p.1.dims, p.1.lo d < p.1.hi d) := by
  intro p; refine ⟨by norm_num [p, one], by norm_num [p, one], by intro d _; simp [p, one]⟩

/-- **C17, negation (energy bookkeeping).** Without damping, the boundary force on a particle outside the box is *ten
times* the (negative) derivative of the accumulated `boundaryEnergy` with respect to its position; so unless the
repulsion is zero, force and energy do not belong together. -/
theorem C17_negation_energy (k : ℝ) (x : ℝ) (hx : x < 0) :
    let F := fun x : ℝ => ((repulsePositions (one BC.repl k 0 x 0).1 (one BC.repl k 0 x 0).2).cell 0 0).f
    let E := fun x : ℝ => (repulsePositions (one BC.repl k 0 x 0).1 (one BC.repl k 0 x 0).2).boundaryEnergy
    HasDerivAt E (-(F x) / 10) x ∧ (k ≠ 0 → F x ≠ -(deriv E x)) := by
  intro F E
  have hF : F x = 10 * k * (0 - x) := by
    simp only [F, repulsePositions_eq]
    simp [one, repulse1, pushOf, hx]
  have hE : ∀ y, y < 0 → E y = 1 / 2 * k * ((0 - y) * (0 - y)) := by
    intro y hy
    simp only [E, repulsePositions_eq]
    simp [one, depthOf, hy]
  have hd : HasDerivAt (fun y : ℝ => 1 / 2 * k * ((0 - y) * (0 - y))) (-(F x) / 10) x := by
    have h1 : HasDerivAt (fun y : ℝ => 0 - y) (-1) x := by
      simpa using (hasDerivAt_id x).const_sub 0
    have h2 := (h1.mul h1).const_mul (1 / 2 * k)
    have hv : -(F x) / 10 = 1 / 2 * k * (-1 * (0 - x) + (0 - x) * -1) := by rw [hF]; ring
    rw [hv]; exact h2
  have hD : HasDerivAt E (-(F x) / 10) x :=
    hd.congr_of_eventuallyEq (Filter.eventuallyEq_of_mem (Iio_mem_nhds hx) (fun y hy => hE y hy))
  refine ⟨hD, fun hk h => ?_⟩
  rw [hD.deriv, hF] at h
  have : k * x = 0 := by linarith
  rcases mul_eq_zero.1 this with h | h
  · exact hk h
  · linarith

/-- **C17, negation (dead particles).** The functions do not look at the type: a particle already marked for
removal (type -1, first coordinate -1000000) still contributes to boundary force and energy. -/
theorem C17_negation_dead : ∃ (b : Box ℚ) (s : State ℚ), s.size = 1 ∧ s.type 0 = -1 ∧
    (s.cell 0 0).x = -1000000 ∧ (repulsePositions b s).boundaryForce = 10000000 := by
  refine ⟨(one .repl 1 0 (-1000000) 0).1, { (one .repl 1 0 (-1000000) 0).2 with type := fun _ => -1 }, rfl, rfl, rfl, ?_⟩
  rw [repulsePositions_eq]
  norm_num [one, pushOf, clamp]

/-! ## Minimum image -/

omit [FloorRing K] in
/-- The correction adds -1, 0 or 1 widths. -/
theorem image1_int {lo hi dis : K} : ∃ k : ℤ, (k = -1 ∨ k = 0 ∨ k = 1) ∧
    image1 .wrap lo hi dis = dis + k * (hi - lo) := by
  unfold image1
  simp only [if_true]
  split
  · split
    · next h => exact ⟨-1, by simp, by rw [abs_of_pos h]; push_cast; ring⟩
    · next h => exact ⟨1, by simp, by rw [abs_of_nonpos (not_lt.1 h)]; push_cast; ring⟩
  · exact ⟨0, by simp, by simp⟩

omit [FloorRing K] in
theorem image1_half {lo hi dis : K} (hd : |dis| ≤ hi - lo) :
    |image1 .wrap lo hi dis| ≤ (hi - lo) / 2 := by
  unfold image1
  simp only [if_true]
  split
  · next h =>
    have : |(if 0 < dis then -(hi - lo - |dis|) else hi - lo - |dis|)| = hi - lo - |dis| := by
      split
      · rw [abs_neg, abs_of_nonneg (by linarith)]
      · rw [abs_of_nonneg (by linarith)]
    rw [this]; linarith
  · next h => linarith [not_lt.1 h]

omit [FloorRing K] in
/-- Among all numbers that differ from `a` by multiples of `w`, one with `|a| ≤ w/2` is smallest. -/
theorem half_minimal {a w : K} (ha : |a| ≤ w / 2) (k : ℤ) : |a| ≤ |a + k * w| := by
  rcases eq_or_ne k 0 with rfl | hk
  · simp
  · have hw : 0 ≤ w := by linarith [abs_nonneg a]
    have h1 : (1 : K) ≤ |(k : K)| := by
      rw [← Int.cast_abs]; exact_mod_cast Int.one_le_abs hk
    have h2 : w ≤ |(k : K) * w| := by
      rw [abs_mul, abs_of_nonneg hw]; nlinarith
    have h3 : |(k : K) * w| ≤ |a + k * w| + |a| := by
      have := abs_sub (a + k * w) a
      rwa [add_sub_cancel_left] at this
    linarith

omit [FloorRing K] in
/-- **C18.** `getDisplacement(x, y)` is `x - y` in every non-periodic dimension; in a periodic one it differs from it by
an integer multiple of the width. If the two points are in the (closed) box, it is at most half the width long and no
periodic image of the difference is shorter. `minimumImage` applied to `x - y` gives the same. -/
theorem C18_displacement (b : Box K) (x y : ℕ → K) (d : ℕ) :
    (b.bc d ≠ .wrap → getDisplacement b x y d = x d - y d) ∧
    (b.bc d = .wrap → (∃ k : ℤ, getDisplacement b x y d = x d - y d + k * (b.hi d - b.lo d)) ∧
      (b.lo d ≤ x d → x d ≤ b.hi d → b.lo d ≤ y d → y d ≤ b.hi d →
        |getDisplacement b x y d| ≤ (b.hi d - b.lo d) / 2 ∧
        ∀ k : ℤ, |getDisplacement b x y d| ≤ |x d - y d + k * (b.hi d - b.lo d)|)) ∧
    getDisplacement b x y d = minimumImage b (fun d => x d - y d) d := by
  refine ⟨fun h => by simp [getDisplacement, image1, h], ?_, rfl⟩
  intro hw
  unfold getDisplacement
  rw [hw]
  obtain ⟨k, _, hk⟩ := image1_int (lo := b.lo d) (hi := b.hi d) (dis := x d - y d)
  refine ⟨⟨k, hk⟩, fun h1 h2 h3 h4 => ?_⟩
  have hh := image1_half (lo := b.lo d) (hi := b.hi d) (dis := x d - y d) (by
    rw [abs_le]; constructor <;> linarith)
  refine ⟨hh, fun m => ?_⟩
  have := half_minimal hh (m - k)
  refine le_trans this (le_of_eq ?_)
  rw [hk]; push_cast; ring_nf

/-- Two points of the periodic box `[0,10]` at 1 and 9 are 2 apart. -/
example : image1 .wrap (0 : ℚ) 10 (1 - 9) = 2 := by norm_num [image1]

/-- **C18, limits.** For points further apart than the width only one width is taken off: the result is not the
shortest image. -/
theorem C18_one_wrap_only : image1 .wrap (0 : ℚ) 1 (7 / 2) = 5 / 2 := by norm_num [image1, abs_of_pos]

/-! ## Distance -/

omit [FloorRing K] [IsStrictOrderedRing K] in
open Finset in
theorem getDistanceSqr_eq (b : Box K) (x y : ℕ → K) :
    getDistanceSqr b x y = ∑ d ∈ range b.dims, (getDisplacement b x y d) ^ 2 := by
  unfold getDistanceSqr getDisplacement
  have : ∀ (m : ℕ) (f : ℕ → K), (List.range m).foldl (fun a d => a + f d) 0 = ∑ d ∈ range m, f d := by
    intro m f
    induction m with
    | zero => simp
    | succ m ih => rw [List.range_succ, List.foldl_append, ih, sum_range_succ]; simp
  rw [this b.dims (fun d => image1 (b.bc d) (b.lo d) (b.hi d) (x d - y d) * image1 (b.bc d) (b.lo d) (b.hi d) (x d - y d))]
  simp only [pow_two]

/-- `getDistance(x, y)`, `gflow.cpp:444-446`. -/
noncomputable def getDistance (b : Box ℝ) (x y : ℕ → ℝ) : ℝ := Real.sqrt (getDistanceSqr b x y)

omit [FloorRing K] in
theorem image1_neg (bc : BC) (lo hi dis : K) (hle : lo ≤ hi) :
    image1 bc lo hi (-dis) = -image1 bc lo hi dis := by
  unfold image1
  split
  · simp only [abs_neg]
    split
    · next h =>
      rcases lt_trichotomy dis 0 with h1 | h1 | h1
      · have h2 : ¬ 0 < dis := by linarith
        have h3 : 0 < -dis := by linarith
        simp [h2, h3]
      · subst h1; simp at h ⊢; exfalso; linarith
      · have h2 : ¬ 0 < -dis := by linarith
        rw [if_neg h2, if_pos h1]; ring
    · rfl
  · rfl

/-- **C19.** For every boundary condition and box with `min ≤ max`, `getDistance` is symmetric, non-negative, zero on
equal points, and for points in the box it satisfies the triangle inequality. -/
theorem C19_distance (b : Box ℝ) (hb : ∀ d < b.dims, b.lo d ≤ b.hi d) (x y z : ℕ → ℝ) :
    getDistance b x y = getDistance b y x ∧ 0 ≤ getDistance b x y ∧ getDistance b x x = 0 ∧
    ((∀ d < b.dims, b.lo d ≤ x d ∧ x d ≤ b.hi d) → (∀ d < b.dims, b.lo d ≤ y d ∧ y d ≤ b.hi d) →
      (∀ d < b.dims, b.lo d ≤ z d ∧ z d ≤ b.hi d) → getDistance b x z ≤ getDistance b x y + getDistance b y z) := by
  refine ⟨?_, Real.sqrt_nonneg _, ?_, ?_⟩
  · unfold getDistance
    rw [getDistanceSqr_eq, getDistanceSqr_eq]
    congr 1
    apply Finset.sum_congr rfl
    intro d hd
    have hneg : getDisplacement b x y d = -getDisplacement b y x d := by
      unfold getDisplacement
      rw [show x d - y d = -(y d - x d) by ring]
      exact image1_neg _ _ _ _ (hb d (Finset.mem_range.1 hd))
    rw [hneg]; ring
  · unfold getDistance
    rw [getDistanceSqr_eq, Finset.sum_eq_zero, Real.sqrt_zero]
    intro d hd
    have := hb d (Finset.mem_range.1 hd)
    unfold getDisplacement image1
    simp
    intro _ h; linarith
  · intro hx hy hz
    -- Euclidean norm of a displacement
    have hnorm : ∀ u v, getDistance b u v = ‖(WithLp.toLp 2 (fun i : Fin b.dims => getDisplacement b u v i) : EuclideanSpace ℝ (Fin b.dims))‖ := by
      intro u v
      rw [EuclideanSpace.norm_eq]
      unfold getDistance
      rw [getDistanceSqr_eq, Finset.sum_range]
      congr 1
      apply Finset.sum_congr rfl
      intro i _
      simp
    rw [hnorm x y, hnorm y z]
    refine le_trans ?_ (norm_add_le _ _)
    rw [EuclideanSpace.norm_eq]
    unfold getDistance
    rw [getDistanceSqr_eq, Finset.sum_range]
    apply Real.sqrt_le_sqrt
    apply Finset.sum_le_sum
    intro i _
    have hi := i.2
    simp only [PiLp.add_apply, Real.norm_eq_abs, sq_abs]
    apply sq_le_sq.2
    by_cases hw : b.bc i = .wrap
    · obtain ⟨k1, h1⟩ := ((C18_displacement b x y i).2.1 hw).1
      obtain ⟨k2, h2⟩ := ((C18_displacement b y z i).2.1 hw).1
      have := (((C18_displacement b x z i).2.1 hw).2 (hx i hi).1 (hx i hi).2 (hz i hi).1 (hz i hi).2).2 (k1 + k2)
      refine le_trans this (le_of_eq ?_)
      rw [h1, h2]; push_cast; ring_nf
    · rw [(C18_displacement b x z i).1 hw, (C18_displacement b x y i).1 hw, (C18_displacement b y z i).1 hw]
      apply le_of_eq; ring_nf

example : let b : Box ℝ := { dims := 2, lo := fun _ => 0, hi := fun _ => 1, bc := fun d => if d = 0 then .wrap else .repl,
                             repulsion := 1, dissipation := 0 }
    ∀ d < b.dims, b.lo d ≤ b.hi d := by intro b d _; simp [b]

/-! ## Attraction to the centre -/

/-- `normalizeVec`, `utility/vectormath.hpp:150-155`. -/
noncomputable def normalizeVec (dims : ℕ) (w : ℕ → ℝ) (d : ℕ) : ℝ :=
  let mag := (List.range dims).foldl (fun m d => m + w d * w d) 0
  (if 0 < mag then 1 / Real.sqrt mag else 0) * w d

/-- Force added to one particle by `attractPositions()`, `gflow.cpp:643-674`; `g` is `center_attraction`, `im` the inverse
mass. `none`: division by `im = 0`. A particle of type `< 0` is skipped. -/
noncomputable def attract1 (b : Box ℝ) (g : ℝ) (type : ℤ) (im : ℝ) (x : ℕ → ℝ) : Option (ℕ → ℝ) :=
  if g = 0 then some fun _ => 0
  else if type < 0 then some fun _ => 0
  else if im = 0 then none
  else some fun d => g / im * normalizeVec b.dims (fun d => (b.lo d + b.hi d) / 2 - x d) d

open Finset in
/-- **C65.** A live particle of finite mass that is not exactly at the centre of the box gets a force with acceleration
(force times inverse mass) of magnitude `|g|`, whatever its mass and position, parallel to the line to the centre, and
directed to the centre for `g > 0`; dead particles get none. -/
theorem C65_attraction (b : Box ℝ) (g : ℝ) (im : ℝ) (him : 0 < im) (x : ℕ → ℝ)
    (hx : ∃ d < b.dims, x d ≠ (b.lo d + b.hi d) / 2) :
    (∀ type : ℤ, type < 0 → attract1 b g type im x = some fun _ => 0) ∧
    ∀ type : ℤ, 0 ≤ type → ∃ F, attract1 b g type im x = some F ∧
      Real.sqrt (∑ d ∈ range b.dims, (im * F d) ^ 2) = |g| ∧
      ∃ c : ℝ, (0 ≤ g → 0 ≤ c) ∧ ∀ d, F d = c * ((b.lo d + b.hi d) / 2 - x d) := by
  constructor
  · intro type ht
    unfold attract1
    rw [if_pos ht, ite_self]
  · intro type ht
    by_cases hg : g = 0
    · refine ⟨fun _ => 0, by simp [attract1, hg], by simp [hg], 0, by simp, by simp⟩
    · refine ⟨_, by rw [attract1, if_neg hg, if_neg (not_lt.2 ht), if_neg him.ne'], ?_, ?_⟩
      · set w := fun d => (b.lo d + b.hi d) / 2 - x d with hw
        have hm : (List.range b.dims).foldl (fun m d => m + w d * w d) 0 = ∑ d ∈ range b.dims, w d * w d := by
          have : ∀ m, (List.range m).foldl (fun m d => m + w d * w d) 0 = ∑ d ∈ range m, w d * w d := by
            intro m
            induction m with
            | zero => simp
            | succ m ih => rw [List.range_succ, List.foldl_append, ih, sum_range_succ]; simp
          exact this _
        have hpos : 0 < ∑ d ∈ range b.dims, w d * w d := by
          obtain ⟨d, hd, hne⟩ := hx
          refine sum_pos' (fun i _ => mul_self_nonneg _) ⟨d, mem_range.2 hd, ?_⟩
          have : w d ≠ 0 := fun h => hne (by simp only [hw] at h; linarith)
          exact mul_self_pos.2 this
        have hs : ∀ d, im * (g / im * normalizeVec b.dims w d) = g / Real.sqrt (∑ d ∈ range b.dims, w d * w d) * w d := by
          intro d
          unfold normalizeVec
          simp only [hm, if_pos hpos]
          field_simp
        simp only [hs]
        simp only [mul_pow, div_pow, Real.sq_sqrt hpos.le]
        rw [← mul_sum]
        have : ∑ d ∈ range b.dims, w d ^ 2 = ∑ d ∈ range b.dims, w d * w d := by simp only [pow_two]
        rw [this, div_mul_cancel₀ _ hpos.ne', Real.sqrt_sq_eq_abs]
      · refine ⟨g / im * (if 0 < (List.range b.dims).foldl (fun m d => m + ((b.lo d + b.hi d) / 2 - x d) * ((b.lo d + b.hi d) / 2 - x d)) 0
            then 1 / Real.sqrt ((List.range b.dims).foldl (fun m d => m + ((b.lo d + b.hi d) / 2 - x d) * ((b.lo d + b.hi d) / 2 - x d)) 0) else 0), ?_, ?_⟩
        · intro hg'
          refine mul_nonneg (div_nonneg hg' him.le) ?_
          split
          · positivity
          · exact le_refl _
        · intro d; unfold normalizeVec; ring

example : ∃ (b : Box ℝ) (x : ℕ → ℝ), ∃ d < b.dims, x d ≠ (b.lo d + b.hi d) / 2 :=
  ⟨{ dims := 1, lo := fun _ => 0, hi := fun _ => 1, bc := fun _ => .wrap, repulsion := 0, dissipation := 0 }, fun _ => 0, 0,
    by simp, by norm_num⟩

/-- **C65, limit.** For an immovable particle (`im = 0`) the attraction divides by zero. -/
theorem C65_immovable_undefined (b : Box ℝ) (g : ℝ) (hg : g ≠ 0) (x : ℕ → ℝ) : attract1 b g 0 0 x = none := by
  simp [attract1, hg]

end Verif.Boundary
