import Verif.Parallel.ParallelMotion
import Verif.GFlow.TrueMotion

/-!
# C169: a parallel simulation follows Newton's equations

Processors that exchange particles and ghosts, with velocity Verlet (`Verif.Parallel.ParallelMotion`, C155), compared with an
exact solution of Newton's equations for the sums of all forces (`Verif.Integrators.Convergence`, C156), in which there are no
processors, boundaries, lists or time steps.
-/

set_option linter.unusedSectionVars false
set_option linter.unusedVariables false

namespace Verif.ParallelTrue
open Verif.ParallelRun Verif.Convergence Verif.Bounds Verif.KDTree

variable {n : ℕ}

/-! ## Specification -/

/-- Spec: the acceleration of each particle by all forces of all others, from nearest images. -/
noncomputable def newton (sys : Sys) (w : Fin (n + 1) → Option ℝ) (y u : ℕ × Fin (n + 1) → ℝ) : ℕ × Fin (n + 1) → ℝ := fun j =>
  sys.im j.1 * total sys w ⟨fun i k => y (i, k), fun i k => u (i, k)⟩ j.1 j.2

/-- Spec: the coordinates of the particles. -/
def Coord (sys : Sys) : ℕ × Fin (n + 1) → Prop := fun j => j.1 < sys.N

/-- Spec: the first half kick and move of a run with stored forces `f` (`integrators/velocityverlet.cpp:11-37`). -/
noncomputable def launch (sys : Sys) (dt : ℝ) (x v f : ℕ → Fin (n + 1) → ℝ) : Motion n :=
  ⟨fun a k => x a k + dt * (v a k + dt / 2 * sys.im a * f a k), fun a k => v a k + dt / 2 * sys.im a * f a k⟩

/-- Spec: the time after `t` steps and the move of the next. -/
noncomputable def clock (dts : ℕ → ℝ) (t : ℕ) : ℝ := ((List.range (t + 1)).map dts).sum

/-- Spec: the processors hold each particle once, at positions (up to whole widths in wrapping dimensions) within `ε` of `x`, and
their velocities are, after the kick of the rest of the step `dt`, within `ε` of `v`. -/
def Near (S : Setup n) (sys : Sys) (dt : ℝ) (w : ℕ → List (Pa n)) (x v : ℕ × Fin (n + 1) → ℝ) (ε : ℝ) : Prop :=
  ∃ M : Motion n, Follows S sys M w ∧ ∀ a < sys.N, ∀ k, |M.x a k - x (a, k)| ≤ ε ∧
    |M.v a k + dt / 2 * sys.im a * total sys (widths S.b S.wrap) M a k - v (a, k)| ≤ ε

/-! ## Proofs -/

/-- A motion, with velocities of the ends of steps and with accelerations. -/
noncomputable def point (sys : Sys) (w : Fin (n + 1) → Option ℝ) (dt : ℝ) (M : Motion n) : Pt (ℕ × Fin (n + 1)) :=
  ⟨fun j => M.x j.1 j.2, fun j => M.v j.1 j.2 + dt / 2 * sys.im j.1 * total sys w M j.1 j.2, fun j => sys.im j.1 * total sys w M j.1 j.2⟩

theorem first_step (sys : Sys) (w : Fin (n + 1) → Option ℝ) (dt : ℝ) (x v f : ℕ → Fin (n + 1) → ℝ) :
    IsStep (Coord sys) (newton sys w) dt ⟨fun j => x j.1 j.2, fun j => v j.1 j.2, fun j => sys.im j.1 * f j.1 j.2⟩
      (point sys w dt (launch sys dt x v f)) := by
  refine ⟨fun j => v j.1 j.2 + dt / 2 * sys.im j.1 * f j.1 j.2, fun j hj => ⟨?_, ?_, ?_, ?_⟩⟩
  · simp only; ring
  · simp only [point, launch]
  · simp only [point, launch, newton]
  · simp only [point, launch]; ring

theorem next_step (sys : Sys) (w : Fin (n + 1) → Option ℝ) (dt dt' : ℝ) (M : Motion n) :
    IsStep (Coord sys) (newton sys w) dt' (point sys w dt M) (point sys w dt' (next sys w dt dt' M)) := by
  refine ⟨fun j => (next sys w dt dt' M).v j.1 j.2, fun j hj => ⟨?_, ?_, ?_, ?_⟩⟩
  · simp only [point, next]; ring
  · simp only [point, next]
  · simp only [point, newton]
  · simp only [point]; ring

theorem chain_snoc {ι : Type*} {S : ι → Prop} {a : (ι → ℝ) → (ι → ℝ) → ι → ℝ} {l : List ℝ} {dt : ℝ} {p q r : Pt ι} (h : Chain S a l p q) (hs : IsStep S a dt q r) :
    Chain S a (l ++ [dt]) p r := by
  induction h with
  | nil p => exact .cons hs (.nil _)
  | cons h1 _ ih => exact .cons h1 (ih hs)

theorem orbit_chain (sys : Sys) (w : Fin (n + 1) → Option ℝ) (dts : ℕ → ℝ) (x v f : ℕ → Fin (n + 1) → ℝ) (t : ℕ) :
    Chain (Coord sys) (newton sys w) ((List.range (t + 1)).map dts) ⟨fun j => x j.1 j.2, fun j => v j.1 j.2, fun j => sys.im j.1 * f j.1 j.2⟩
      (point sys w (dts t) (orbit sys w dts (launch sys (dts 0) x v f) t)) := by
  induction t with
  | zero => exact .cons (first_step sys w (dts 0) x v f) (.nil _)
  | succ t ih =>
    rw [List.range_succ, List.map_append]
    exact chain_snoc ih (next_step sys w (dts t) (dts (t + 1)) _)

section main

variable (S : Setup n) (sys : Sys) (hf : Fits S sys) (x v f : ℕ → Fin (n + 1) → ℝ) (X V : ℝ → ℕ × Fin (n + 1) → ℝ) (time : ℝ)
  {A B L ρ : ℝ} (hs : Solves (Coord sys) (newton sys (widths S.b S.wrap)) time X V)
  (hm : Mild (Coord sys) (newton sys (widths S.b S.wrap)) time X V A B)
  (hl : Tame (Coord sys) (newton sys (widths S.b S.wrap)) time X V ρ L) (hA : 0 ≤ A) (hB : 0 ≤ B) (hL : 0 ≤ L) (hρ : 0 < ρ)
  (h0 : ∀ a < sys.N, ∀ k, x a k = X 0 (a, k) ∧ v a k = V 0 (a, k))
include hf hs hm hl hB hL hρ h0

/-- **C169, second order** (partial). If forces do not depend on velocities, the acceleration is smooth along the motion and the
stored forces at the start are those of the initial positions, then the errors of a simulation on any number of processors, with
any order of the events of their messages, are at most a constant times the square of the largest time step. Missing: as in
`C169_first_order_partial`; the first run of a simulation, whose stored forces are zero. -/
theorem C169_second_order_partial (J : ℝ → ℕ × Fin (n + 1) → ℝ) {K : ℝ} (hK : 0 ≤ K)
    (hsm : Smooth (Coord sys) (newton sys (widths S.b S.wrap)) time X V J K)
    (hpos : ∀ T ∈ sys.forces, VelocityFree T.1)
    (hfc : ∀ a < sys.N, ∀ k, sys.im a * f a k = newton sys (widths S.b S.wrap) (X 0) (V 0) (a, k)) :
    ∃ C H₀ : ℝ, 0 < H₀ ∧ ∀ H : ℝ, 0 < H → H ≤ H₀ → ∀ dts : ℕ → ℝ, (∀ t, 0 ≤ dts t ∧ dts t ≤ H) →
      ∀ (l : List ℕ) (w0 w : ℕ → List (Pa n)), clock dts l.sum ≤ time →
      Follows S sys (launch sys (dts 0) x v f) w0 → Runs S sys dts w0 l w →
      Timely sys S.skin (orbit sys (widths S.b S.wrap) dts (launch sys (dts 0) x v f)) l →
      Separate sys (widths S.b S.wrap) (orbit sys (widths S.b S.wrap) dts (launch sys (dts 0) x v f)) l.sum →
      Near S sys (dts l.sum) w (X (clock dts l.sum)) (V (clock dts l.sum)) (C * H ^ 2) := by
  have hp : ∀ y u u', newton sys (widths S.b S.wrap) y u = newton sys (widths S.b S.wrap) y u' := by
    intro y u u'
    funext j
    unfold newton total
    congr 2
    refine List.map_congr_left fun T hT => Finset.sum_congr rfl fun b _ => ?_
    have hm := hpos T hT (n + 1) ⟨fun i k => y (i, k), fun i k => u (i, k), sys.rd, sys.im⟩
      ⟨fun i k => y (i, k), fun i k => u' (i, k), sys.rd, sys.im⟩ j.1 b
    unfold push
    simp only [hm _ _ rfl rfl]
  obtain ⟨C, H₀, hH₀, key⟩ := second_order hs hm hsm hl hp hB hK hL hρ
  refine ⟨C, H₀, hH₀, fun H hH hle dts hd l w0 w hc hw0 hrun ht hsep => ⟨_, C155_motion_partial S sys hf dts _ w0 w l hw0 hrun ht hsep, fun a ha k => ?_⟩⟩
  refine key H hH hle _ ?_ hc _ _ ?_ (orbit_chain sys (widths S.b S.wrap) dts x v f l.sum) (a, k) ha
  · intro dt hdt
    obtain ⟨t, _, rfl⟩ := List.mem_map.mp hdt
    exact hd t
  · rintro ⟨i, k⟩ hi
    exact ⟨(h0 i hi k).1, (h0 i hi k).2, hfc i hi k⟩

include hA

/-- **C169, first order** (partial). For all systems of particles and forces, boxes with wrapping or open dimensions, numbers of
dimensions and of processors, initial states (also with stored forces zero or old), and exact motions along which the
acceleration is bounded and Lipschitz and near which forces are Lipschitz: there is a constant such that every parallel
simulation, for every choice of time steps (which may vary), distribution of particles at the start, order of the events of
messages, and timely constructions, ends within the constant times the largest time step of the exact motion. So parallel
simulations converge to it. Missing: as in C155 (the first step, late constructions, incomplete lists), other boundaries,
modifiers, rounding. -/
theorem C169_first_order_partial :
    ∃ C H₀ : ℝ, 0 < H₀ ∧ ∀ H : ℝ, 0 < H → H ≤ H₀ → ∀ dts : ℕ → ℝ, (∀ t, 0 ≤ dts t ∧ dts t ≤ H) →
      ∀ (l : List ℕ) (w0 w : ℕ → List (Pa n)), clock dts l.sum ≤ time →
      Follows S sys (launch sys (dts 0) x v f) w0 → Runs S sys dts w0 l w →
      Timely sys S.skin (orbit sys (widths S.b S.wrap) dts (launch sys (dts 0) x v f)) l →
      Separate sys (widths S.b S.wrap) (orbit sys (widths S.b S.wrap) dts (launch sys (dts 0) x v f)) l.sum →
      Near S sys (dts l.sum) w (X (clock dts l.sum)) (V (clock dts l.sum)) (C * H) := by
  have hfin : ∃ R : ℝ, 0 ≤ R ∧ ∀ j : ℕ × Fin (n + 1), Coord sys j → |sys.im j.1 * f j.1 j.2 - newton sys (widths S.b S.wrap) (X 0) (V 0) j| ≤ R := by
    refine ⟨∑ i ∈ Finset.range sys.N, ∑ k : Fin (n + 1), |sys.im i * f i k - newton sys (widths S.b S.wrap) (X 0) (V 0) (i, k)|,
      Finset.sum_nonneg fun _ _ => Finset.sum_nonneg fun _ _ => abs_nonneg _, ?_⟩
    rintro ⟨i, k⟩ hi
    have h1 := Finset.single_le_sum (f := fun k => |sys.im i * f i k - newton sys (widths S.b S.wrap) (X 0) (V 0) (i, k)|)
      (fun _ _ => abs_nonneg _) (Finset.mem_univ k)
    have h2 := Finset.single_le_sum
      (f := fun i => ∑ k : Fin (n + 1), |sys.im i * f i k - newton sys (widths S.b S.wrap) (X 0) (V 0) (i, k)|)
      (fun _ _ => Finset.sum_nonneg fun _ _ => abs_nonneg _) (Finset.mem_range.mpr hi)
    exact h1.trans h2
  obtain ⟨R, hR, hR'⟩ := hfin
  obtain ⟨C, H₀, hH₀, key⟩ := first_order hs hm hl hA hB hL hρ R hR
  refine ⟨C, H₀, hH₀, fun H hH hle dts hd l w0 w hc hw0 hrun ht hsep => ⟨_, C155_motion_partial S sys hf dts _ w0 w l hw0 hrun ht hsep, fun a ha k => ?_⟩⟩
  refine key H hH hle _ ?_ hc _ _ ?_ (orbit_chain sys (widths S.b S.wrap) dts x v f l.sum) (a, k) ha
  · intro dt hdt
    obtain ⟨t, _, rfl⟩ := List.mem_map.mp hdt
    exact hd t
  · rintro ⟨i, k⟩ hi
    exact ⟨(h0 i hi k).1, (h0 i hi k).2, hR' (i, k) hi⟩

end main

/-! ## Example: the two spheres of C155, on two processors, which push each other apart -/

/-- The overlap over time. -/
noncomputable def squeeze (t : ℝ) : ℝ := 2/10 * Real.cos (Real.sqrt 2 * t)

/-- Its derivative. -/
noncomputable def squeeze' (t : ℝ) : ℝ := -(2/10 * Real.sqrt 2 * Real.sin (Real.sqrt 2 * t))

/-- The exact motion. -/
noncomputable def exX (t : ℝ) (j : ℕ × Fin 1) : ℝ := if j.1 = 0 then 1 - (4/10 - squeeze t) / 2 else 1 + (4/10 - squeeze t) / 2

/-- The velocities. -/
noncomputable def exV (t : ℝ) (j : ℕ × Fin 1) : ℝ := if j.1 = 0 then squeeze' t / 2 else -(squeeze' t / 2)

theorem hasDeriv_squeeze (t : ℝ) : HasDerivAt squeeze (squeeze' t) t := by
  have h := ((Real.hasDerivAt_cos (Real.sqrt 2 * t)).comp t ((hasDerivAt_id t).const_mul (Real.sqrt 2))).const_mul (2/10 : ℝ)
  refine h.congr_deriv ?_
  simp only [squeeze', mul_one]
  ring

theorem hasDeriv_squeeze' (t : ℝ) : HasDerivAt squeeze' (-(2 * squeeze t)) t := by
  have h := (((Real.hasDerivAt_sin (Real.sqrt 2 * t)).comp t ((hasDerivAt_id t).const_mul (Real.sqrt 2))).const_mul
    (2/10 * Real.sqrt 2 : ℝ)).neg
  refine h.congr_deriv ?_
  have h2 : Real.sqrt 2 * Real.sqrt 2 = 2 := Real.mul_self_sqrt (by norm_num)
  simp only [squeeze, mul_one]
  calc _ = -(2/10 * (Real.sqrt 2 * Real.sqrt 2) * Real.cos (Real.sqrt 2 * t)) := by ring
    _ = _ := by rw [h2]; ring

theorem squeeze_le (t : ℝ) : |squeeze t| ≤ 2/10 := by
  rw [squeeze, abs_mul, abs_of_pos (by norm_num : (0 : ℝ) < 2/10)]
  nlinarith [Real.abs_cos_le_one (Real.sqrt 2 * t)]

theorem squeeze'_le (t : ℝ) : |squeeze' t| ≤ 1 := by
  have h2 : Real.sqrt 2 ≤ 2 := by rw [Real.sqrt_le_left (by norm_num)]; norm_num
  rw [squeeze', abs_neg, abs_mul, abs_mul, abs_of_pos (by norm_num : (0 : ℝ) < 2/10), abs_of_nonneg (Real.sqrt_nonneg 2)]
  have h1 := Real.abs_sin_le_one (Real.sqrt 2 * t)
  have h4 : 2/10 * Real.sqrt 2 ≤ 4/10 := by linarith
  calc _ ≤ 4/10 * 1 := mul_le_mul h4 h1 (abs_nonneg _) (by norm_num)
    _ ≤ 1 := by norm_num

theorem squeeze_ge (t : ℝ) (h0 : 0 ≤ t) (h1 : t ≤ 1/10) : 19/100 ≤ squeeze t := by
  have h := Real.one_sub_sq_div_two_le_cos (x := Real.sqrt 2 * t)
  rw [mul_pow, Real.sq_sqrt (by norm_num)] at h
  unfold squeeze
  nlinarith

theorem ex_newton (y u : ℕ × Fin 1 → ℝ) (h1 : y (0, 0) < y (1, 0)) (h2 : y (1, 0) - y (0, 0) < 4/10) (k : Fin 1) :
    newton exSys (widths exSetup.b exSetup.wrap) y u (0, k) = -(4/10 - (y (1, 0) - y (0, 0))) ∧
    newton exSys (widths exSetup.b exSetup.wrap) y u (1, k) = 4/10 - (y (1, 0) - y (0, 0)) := by
  have hk : k = 0 := Subsingleton.elim _ _
  subst hk
  have h := ex_total ⟨fun i k => y (i, k), fun i k => u (i, k)⟩ (y (0, 0)) (y (1, 0)) rfl rfl h1 h2
  unfold newton
  rw [h.1, h.2]
  simp only [exSys, one_mul, and_self]

theorem ex_gap (t : ℝ) : exX t (1, 0) - exX t (0, 0) = 4/10 - squeeze t := by
  simp only [exX, if_true, if_neg (by norm_num : ¬ (1 : ℕ) = 0)]; ring

theorem ex_tube (t : ℝ) (h0 : 0 ≤ t) (h1 : t ≤ 1/10) (y u : ℕ × Fin 1 → ℝ) (hy : ∀ j, Coord exSys j → |y j - exX t j| ≤ 1/100) (k : Fin 1) :
    newton exSys (widths exSetup.b exSetup.wrap) y u (0, k) = -(4/10 - (y (1, 0) - y (0, 0))) ∧
    newton exSys (widths exSetup.b exSetup.wrap) y u (1, k) = 4/10 - (y (1, 0) - y (0, 0)) := by
  have y0 := abs_le.mp (hy (0, 0) (by norm_num [Coord, exSys]))
  have y1 := abs_le.mp (hy (1, 0) (by norm_num [Coord, exSys]))
  have q1 := squeeze_ge t h0 h1
  have q2 := abs_le.mp (squeeze_le t)
  have g := ex_gap t
  apply ex_newton <;> linarith [y0.1, y0.2, y1.1, y1.2, q2.1, q2.2]

theorem ex_along (t : ℝ) (h0 : 0 ≤ t) (h1 : t ≤ 1/10) (k : Fin 1) :
    newton exSys (widths exSetup.b exSetup.wrap) (exX t) (exV t) (0, k) = -squeeze t ∧
    newton exSys (widths exSetup.b exSetup.wrap) (exX t) (exV t) (1, k) = squeeze t := by
  have h := ex_tube t h0 h1 (exX t) (exV t) (fun j _ => by rw [sub_self, abs_zero]; norm_num) k
  rw [ex_gap] at h
  exact ⟨h.1.trans (by ring), h.2.trans (by ring)⟩

theorem ex_cases (i : ℕ) (k : Fin 1) (h : Coord exSys (i, k)) : i = 0 ∨ i = 1 := by
  have : i < 2 := h
  omega

/-- All hypotheses of C169 on the motion hold for the spheres; the others are in the example of C155. -/
example : Solves (Coord exSys) (newton exSys (widths exSetup.b exSetup.wrap)) (1/10) exX exV ∧
    Mild (Coord exSys) (newton exSys (widths exSetup.b exSetup.wrap)) (1/10) exX exV 1 1 ∧
    Tame (Coord exSys) (newton exSys (widths exSetup.b exSetup.wrap)) (1/10) exX exV (1/100) 2 ∧
    Smooth (Coord exSys) (newton exSys (widths exSetup.b exSetup.wrap)) (1/10) exX exV
      (fun t j => if j.1 = 0 then -squeeze' t else squeeze' t) 1 ∧
    (∀ a < exSys.N, ∀ k, (exM (9/10) (11/10) 0).x a k = exX 0 (a, k) ∧ (exM (9/10) (11/10) 0).v a k = exV 0 (a, k)) ∧
    (∀ T ∈ exSys.forces, VelocityFree T.1) ∧ Fits exSetup exSys ∧
    Follows exSetup exSys (launch exSys 0 (exM (9/10) (11/10) 0).x (exM (9/10) (11/10) 0).v fun _ _ => 0) (exW 0) := by
  have n10 : ¬ (1 : ℕ) = 0 := by norm_num
  have lip1 := TrueMotion.lip_of squeeze squeeze' hasDeriv_squeeze squeeze'_le
  have lip2 := TrueMotion.lip_of squeeze' _ hasDeriv_squeeze' (C := 1) (fun t => by
    rw [abs_neg, abs_mul, abs_of_pos (by norm_num : (0 : ℝ) < 2)]; linarith [squeeze_le t])
  refine ⟨⟨?_, ?_⟩, ⟨?_, ?_⟩, ?_, ⟨?_, ?_⟩, ?_, ?_, ex_fits, ?_⟩
  · rintro t ht ⟨i, k⟩ hi
    apply HasDerivAt.hasDerivWithinAt
    rcases ex_cases i k hi with rfl | rfl
    · simp only [exX, exV, if_true]
      exact ((((hasDeriv_squeeze t).const_sub _).div_const 2).const_sub _).congr_deriv (by ring)
    · simp only [exX, exV, if_neg n10]
      exact ((((hasDeriv_squeeze t).const_sub _).div_const 2).const_add _).congr_deriv (by ring)
  · rintro t ht ⟨i, k⟩ hi
    obtain ⟨e0, e1⟩ := ex_along t ht.1 ht.2 k
    apply HasDerivAt.hasDerivWithinAt
    rcases ex_cases i k hi with rfl | rfl
    · rw [e0]
      simp only [exV, if_true]
      exact ((hasDeriv_squeeze' t).div_const 2).congr_deriv (by ring)
    · rw [e1]
      simp only [exV, if_neg n10]
      exact ((hasDeriv_squeeze' t).div_const 2).neg.congr_deriv (by ring)
  · rintro t ht ⟨i, k⟩ hi
    obtain ⟨e0, e1⟩ := ex_along t ht.1 ht.2 k
    rcases ex_cases i k hi with rfl | rfl
    · rw [e0, abs_neg]; linarith [squeeze_le t]
    · rw [e1]; linarith [squeeze_le t]
  · rintro s hs t ht ⟨i, k⟩ hi
    obtain ⟨e0, e1⟩ := ex_along t ht.1 ht.2 k
    obtain ⟨f0, f1⟩ := ex_along s hs.1 hs.2 k
    have := lip1 s t
    rcases ex_cases i k hi with rfl | rfl
    · rw [e0, f0, show -squeeze t - -squeeze s = -(squeeze t - squeeze s) by ring, abs_neg]; exact this
    · rw [e1, f1]; exact this
  · rintro t ht y w ε hε hy ⟨i, k⟩ hi
    have y0 := abs_le.mp (hy (0, 0) (by norm_num [Coord, exSys])).1
    have y1 := abs_le.mp (hy (1, 0) (by norm_num [Coord, exSys])).1
    obtain ⟨e0, e1⟩ := ex_along t ht.1 ht.2 k
    obtain ⟨f0, f1⟩ := ex_tube t ht.1 ht.2 y w (fun j hj => (hy j hj).1.trans hε) k
    have g := ex_gap t
    rcases ex_cases i k hi with rfl | rfl
    · rw [e0, f0, abs_le]; constructor <;> linarith [y0.1, y0.2, y1.1, y1.2]
    · rw [e1, f1, abs_le]; constructor <;> linarith [y0.1, y0.2, y1.1, y1.2]
  · rintro t ht ⟨i, k⟩ hi
    have hw : ∀ (g : ℝ → ℝ) (g' : ℝ), HasDerivAt g g' t → (∀ u ∈ Set.Icc (0 : ℝ) (1/10),
        newton exSys (widths exSetup.b exSetup.wrap) (exX u) (exV u) (i, k) = g u) →
        HasDerivWithinAt (fun u => newton exSys (widths exSetup.b exSetup.wrap) (exX u) (exV u) (i, k)) g' (Set.Icc 0 (1/10)) t :=
      fun g g' hg h => hg.hasDerivWithinAt.congr h (h t ht)
    rcases ex_cases i k hi with rfl | rfl
    · rw [if_pos rfl]
      exact hw _ _ (hasDeriv_squeeze t).neg fun u hu => (ex_along u hu.1 hu.2 k).1
    · rw [if_neg n10]
      exact hw _ _ (hasDeriv_squeeze t) fun u hu => (ex_along u hu.1 hu.2 k).2
  · rintro s hs t ht ⟨i, k⟩ hi
    have := lip2 s t
    rcases ex_cases i k hi with rfl | rfl
    · simp only [if_true]
      rw [show -squeeze' t - -squeeze' s = -(squeeze' t - squeeze' s) by ring, abs_neg]; exact this
    · simp only [if_neg n10]; exact this
  · intro i hi k
    rcases ex_cases i k hi with rfl | rfl <;> norm_num [exM, exX, exV, squeeze, squeeze']
  · intro T hT
    simp only [exSys, List.mem_singleton] at hT
    subst hT
    intro d P Q i j m r h1 h2
    simp only [PairForces.Force.mag, h1]
  · have : launch exSys 0 (exM (9/10) (11/10) 0).x (exM (9/10) (11/10) 0).v (fun _ _ => 0) = exM (9/10) (11/10) 0 := by
      simp [launch, exM]
    rw [this]
    exact ex_follows _ _ _

end Verif.ParallelTrue
