import Verif.Integrators.Convergence
import Verif.Forces.ForceMaster
import Mathlib.Analysis.Real.Pi.Bounds

/-!
# C159, C160: the energy of a run

Modelled code: `integrators/velocity-verlet.tpp:11-105` (through `Verif.Integrators.Verlet`) with forces that have a potential.
C159: over a given time the energy is kept up to the order of the integrator. C160: contacts are stable for ever with time steps
below the limit of `ForceMaster::pre_integrate` (`base/forcemaster.cpp:26-37,188-209`, `base/forcemaster.hpp:101-102`,
`interactions/generic-forces.hpp:56-58`). Exact arithmetic.
-/

namespace Verif.Energy

open Verif.Verlet Verif.Convergence Finset

/-! ## Specification -/

/-- Spec: kinetic energy and potential. -/
noncomputable def energy (d N : ℕ) (im : Arr) (U : Arr → ℝ) (x v : Arr) : ℝ :=
  (∑ j ∈ range N, 1 / 2 * (1 / im (j / d)) * v j ^ 2) + U x

/-- Spec: along the motion the potential changes by the work of the forces. -/
def Works (N : ℕ) (U : Arr → ℝ) (F : Arr → Arr) (T : ℝ) (x v : ℝ → Arr) : Prop :=
  ∀ t ∈ Set.Icc 0 T, HasDerivWithinAt (fun u => U (x u)) (-∑ j ∈ range N, F (x t) j * v t j) (Set.Icc 0 T) t

/-- Spec: near the motion the potential changes by at most `L` times the distance. -/
def TameU (N : ℕ) (U : Arr → ℝ) (T : ℝ) (x : ℝ → Arr) (ρ L : ℝ) : Prop :=
  ∀ t ∈ Set.Icc 0 T, ∀ (y : Arr) (ε : ℝ), ε ≤ ρ → (∀ j < N, |y j - x t j| ≤ ε) → |U y - U (x t)| ≤ L * ε

/-- Spec: the energy of runs from `s` with time steps of at most `H` differs from that of `s` by at most `C H^k`. -/
def EnergyOrder (k : ℕ) (m : Mode) (d n : ℕ) (im : Arr) (F : Arr → Arr) (U : Arr → ℝ) (T : ℝ) (s : PS) : Prop :=
  ∃ C H₀ : ℝ, 0 < H₀ ∧ ∀ H : ℝ, 0 < H → H ≤ H₀ → ∀ dts : List ℝ, (∀ dt ∈ dts, 0 ≤ dt ∧ dt ≤ H) → dts.sum ≤ T →
    |energy d (n * d) im U (vvRun m d n im F dts s).x (vvRun m d n im F dts s).v - energy d (n * d) im U s.x s.v| ≤ C * H ^ k

/-! ## C159 -/

theorem exact_energy (d N : ℕ) (im : Arr) (F : Arr → Arr) (U : Arr → ℝ) (T : ℝ) (x v : ℝ → Arr)
    (hs : Solves (fun j => j < N) (acc d im F) T x v) (hw : Works N U F T x v) (him : ∀ j < N, im (j / d) ≠ 0)
    (t : ℝ) (h0 : 0 ≤ t) (hT : t ≤ T) : energy d N im U (x t) (v t) = energy d N im U (x 0) (v 0) := by
  have h := grow_pow (T := T) (t := 0) (h := t) (c := 0) 0
    (fun u => energy d N im U (x u) (v u) - energy d N im U (x 0) (v 0)) (fun _ => 0) le_rfl h0 (by linarith) (by simp)
    (fun u hu => ?_) (fun u _ _ => by simp)
  · simp only [zero_add, zero_mul] at h
    have := abs_nonpos_iff.mp h
    linarith
  · have h1 : HasDerivWithinAt (fun u => ∑ j ∈ range N, 1 / 2 * (1 / im (j / d)) * v u j ^ 2)
        (∑ j ∈ range N, F (x u) j * v u j) (Set.Icc 0 T) u := by
      have := HasDerivWithinAt.fun_sum (u := range N) (A := fun j u => 1 / 2 * (1 / im (j / d)) * v u j ^ 2)
        (A' := fun j => F (x u) j * v u j) (s := Set.Icc 0 T) (x := u) (fun j hj => ?_)
      · exact this
      · have hj' := mem_range.mp hj
        have := ((hs.vel u hu j hj').fun_pow 2).const_mul (1 / 2 * (1 / im (j / d)))
        refine this.congr_deriv ?_
        have hi := him j hj'
        simp only [acc]
        field_simp
        push_cast
        ring
    have h2 := (h1.add (hw u hu)).sub_const (energy d N im U (x 0) (v 0))
    exact h2.congr_deriv (by ring)

/-- **C159.** If runs follow a motion with errors of order `k` (C156), the potential belongs to the forces and particles are
movable, then the energy of runs is that of the start up to order `k`. -/
theorem C159_order (k : ℕ) (m : Mode) (d n : ℕ) (im : Arr) (F : Arr → Arr) (U : Arr → ℝ) (T : ℝ) (x v : ℝ → Arr)
    (s : PS) {A B ρ L : ℝ} (hρ : 0 < ρ) (_hL : 0 ≤ L) (hk : 0 < k) (him : ∀ j < n * d, im (j / d) ≠ 0)
    (hs : Solves (fun j => j < n * d) (acc d im F) T x v) (hm' : Mild (fun j => j < n * d) (acc d im F) T x v A B)
    (hw : Works (n * d) U F T x v) (hU : TameU (n * d) U T x ρ L) (h0 : Begins (n * d) x v s)
    (he : ErrorOrder k m d n im F T x v s) : EnergyOrder k m d n im F U T s := by
  obtain ⟨C, H₀, hH₀, h⟩ := he
  by_cases hT : 0 ≤ T
  swap
  · refine ⟨0, 1, one_pos, fun H _ _ dts hd hsum => ?_⟩
    exact absurd ((List.sum_nonneg fun y hy => (hd y hy).1).trans hsum) hT
  -- bounds on velocities
  obtain ⟨V, hV0, hV⟩ : ∃ V : ℝ, 0 ≤ V ∧ ∀ t ∈ Set.Icc 0 T, ∀ j < n * d, |v t j| ≤ V := by
    refine ⟨(∑ j ∈ range (n * d), |v 0 j|) + |A| * T, by positivity, fun t ht j hj => ?_⟩
    have h1 := vel_one hs hm' (t := 0) (h := t) le_rfl ht.1 (by linarith [ht.2]) hj
    rw [zero_add] at h1
    have h2 := single_le_sum (f := fun j => |v 0 j|) (fun _ _ => abs_nonneg _) (mem_range.mpr hj)
    have h3 : |v t j| ≤ |v 0 j| + |v t j - v 0 j| := by
      have := abs_add_le (v 0 j) (v t j - v 0 j)
      rwa [add_sub_cancel] at this
    have h4 : A * t ≤ |A| * T := by
      calc A * t ≤ |A| * t := mul_le_mul_of_nonneg_right (le_abs_self A) ht.1
        _ ≤ |A| * T := mul_le_mul_of_nonneg_left ht.2 (abs_nonneg A)
    linarith
  set D := |C| with hD
  set W := ∑ j ∈ range (n * d), 1 / 2 * |1 / im (j / d)| with hWdef
  have hW : 0 ≤ W := sum_nonneg fun _ _ => by positivity
  refine ⟨W * (D * (D + 2 * V)) + L * D, min H₀ (min 1 (ρ / (D + 1))), by positivity, fun H hH hle dts hd hsum => ?_⟩
  have hl1 : H ≤ H₀ := hle.trans (min_le_left _ _)
  have hl2 : H ≤ 1 := (hle.trans (min_le_right _ _)).trans (min_le_left _ _)
  have hl3 : H ≤ ρ / (D + 1) := (hle.trans (min_le_right _ _)).trans (min_le_right _ _)
  rw [le_div_iff₀ (by positivity)] at hl3
  have hHk : H ^ k ≤ H := by
    calc H ^ k ≤ H ^ 1 := pow_le_pow_of_le_one hH.le hl2 hk
      _ = H := pow_one H
  have hHk0 : 0 ≤ H ^ k := by positivity
  set ε := D * H ^ k with hε
  have hε0 : 0 ≤ ε := by positivity
  have hερ : ε ≤ ρ := by
    have := mul_le_mul_of_nonneg_left hHk (abs_nonneg C)
    rw [← hD] at this
    nlinarith
  have hε1 : ε ≤ D := mul_le_of_le_one_right (abs_nonneg C) (hHk.trans hl2)
  have hsum0 : 0 ≤ dts.sum := List.sum_nonneg fun y hy => (hd y hy).1
  have hin : dts.sum ∈ Set.Icc 0 T := ⟨hsum0, hsum⟩
  have herr : ∀ j < n * d, |(vvRun m d n im F dts s).x j - x dts.sum j| ≤ ε ∧ |(vvRun m d n im F dts s).v j - v dts.sum j| ≤ ε := by
    intro j hj
    obtain ⟨e1, e2⟩ := h H hH hl1 dts hd hsum j hj
    have : C * H ^ k ≤ ε := mul_le_mul_of_nonneg_right (le_abs_self C) hHk0
    exact ⟨e1.trans this, e2.trans this⟩
  -- the start
  have hstart : energy d (n * d) im U s.x s.v = energy d (n * d) im U (x 0) (v 0) := by
    unfold energy
    have e1 : U s.x = U (x 0) := by
      have := hU 0 ⟨le_rfl, hT⟩ s.x 0 hρ.le (fun j hj => by rw [(h0 j hj).1]; simp)
      rw [mul_zero] at this
      linarith [abs_nonpos_iff.mp this]
    rw [e1, sum_congr rfl fun j hj => by rw [(h0 j (mem_range.mp hj)).2]]
  rw [hstart, ← exact_energy d (n * d) im F U T x v hs hw him dts.sum hsum0 hsum]
  have k1 : |(∑ j ∈ range (n * d), 1 / 2 * (1 / im (j / d)) * (vvRun m d n im F dts s).v j ^ 2) -
      ∑ j ∈ range (n * d), 1 / 2 * (1 / im (j / d)) * v dts.sum j ^ 2| ≤ W * (ε * (D + 2 * V)) := by
    rw [← sum_sub_distrib, hWdef, sum_mul]
    refine (abs_sum_le_sum_abs _ _).trans (sum_le_sum fun j hj => ?_)
    have hj' := mem_range.mp hj
    obtain ⟨_, e2⟩ := herr j hj'
    have e3 := hV dts.sum hin j hj'
    rw [show 1 / 2 * (1 / im (j / d)) * (vvRun m d n im F dts s).v j ^ 2 - 1 / 2 * (1 / im (j / d)) * v dts.sum j ^ 2 =
      1 / 2 * (1 / im (j / d)) * (((vvRun m d n im F dts s).v j - v dts.sum j) *
        (((vvRun m d n im F dts s).v j - v dts.sum j) + 2 * v dts.sum j)) by ring, abs_mul, abs_mul, abs_mul,
      abs_of_pos (by norm_num : (0 : ℝ) < 1 / 2)]
    refine mul_le_mul_of_nonneg_left ?_ (by positivity)
    refine mul_le_mul e2 ?_ (abs_nonneg _) hε0
    refine (abs_add_le _ _).trans ?_
    rw [abs_mul, abs_of_pos (by norm_num : (0 : ℝ) < 2)]
    linarith
  have k2 := hU dts.sum hin (vvRun m d n im F dts s).x ε hερ fun j hj => (herr j hj).1
  unfold energy
  calc _ ≤ W * (ε * (D + 2 * V)) + L * ε := by
        refine tri k1 k2 ?_
        ring
    _ = (W * (D * (D + 2 * V)) + L * D) * H ^ k := by rw [hε]; ring

section main

variable (m : Mode) (hm : m.OK) (d n : ℕ) (im : Arr) (F : Arr → Arr) (U : Arr → ℝ) (T : ℝ) (x v : ℝ → Arr)
  {A B K L ρ Lu : ℝ} (J : ℝ → Arr) (hs : Solves (fun j => j < n * d) (acc d im F) T x v)
  (hm' : Mild (fun j => j < n * d) (acc d im F) T x v A B) (ht : Tame (fun j => j < n * d) (acc d im F) T x v ρ L)
  (hA : 0 ≤ A) (hB : 0 ≤ B) (hL : 0 ≤ L) (hρ : 0 < ρ) (hLu : 0 ≤ Lu) (him : ∀ j < n * d, im (j / d) ≠ 0)
  (hw : Works (n * d) U F T x v) (hU : TameU (n * d) U T x ρ Lu)
include hm hs hm' ht hB hL hρ hLu him hw hU

/-- **C159, second order** (partial). The energy of a continued run is kept up to the square of the largest time step.
Missing: fresh simulations (`C159_negation_fresh`), velocity dependent forces, immovable particles that move. -/
theorem C159_second_order_partial (hK : 0 ≤ K) (hsm : Smooth (fun j => j < n * d) (acc d im F) T x v J K) (s : PS)
    (h0 : Begins (n * d) x v s) (hf : ∀ j < n * d, s.f j = F (x 0) j) : EnergyOrder 2 m d n im F U T s :=
  C159_order 2 m d n im F U T x v s hρ hLu (by norm_num) him hs hm' hw hU h0
    (C156_second_order_partial m hm d n im F T x v J hs hm' ht hB hL hρ hK hsm s h0 hf)

include hA

/-- **C159, first order.** The energy of every run is kept up to the largest time step, whatever the stored forces are. -/
theorem C159_first_order (s : PS) (h0 : Begins (n * d) x v s) : EnergyOrder 1 m d n im F U T s :=
  C159_order 1 m d n im F U T x v s hρ hLu (by norm_num) him hs hm' hw hU h0
    (C156_first_order m hm d n im F T x v hs hm' ht hA hB hL hρ s h0)

end main

/-- A particle on a spring meets the hypotheses, with `U = y²/2` (the others are shown beside `C156_second_order_partial`). -/
example : let F : Arr → Arr := fun y j => -y j
    let U : Arr → ℝ := fun y => y 0 ^ 2 / 2
    let x : ℝ → Arr := fun t _ => Real.cos t
    let v : ℝ → Arr := fun t _ => -Real.sin t
    Works (1 * 1) U F 10 x v ∧ TameU (1 * 1) U 10 x 1 (3 / 2) := by
  refine ⟨fun t _ => ?_, fun t _ y ε hε h => ?_⟩
  · have := (((Real.hasDerivAt_cos t).fun_pow 2).div_const 2).hasDerivWithinAt (s := Set.Icc 0 10)
    refine this.congr_deriv ?_
    simp
    ring
  · have h0 := h 0 (by norm_num)
    have hε0 : 0 ≤ ε := (abs_nonneg _).trans h0
    have hc := Real.abs_cos_le_one t
    rw [show y 0 ^ 2 / 2 - Real.cos t ^ 2 / 2 = (y 0 - Real.cos t) * ((y 0 - Real.cos t) + 2 * Real.cos t) / 2 by ring,
      abs_div, abs_mul, abs_of_pos (by norm_num : (0 : ℝ) < 2)]
    have h1 : |(y 0 - Real.cos t) + 2 * Real.cos t| ≤ 3 := by
      refine (abs_add_le _ _).trans ?_
      rw [abs_mul, abs_of_pos (by norm_num : (0 : ℝ) < 2)]
      linarith
    have := mul_le_mul h0 h1 (abs_nonneg _) hε0
    linarith

/-! ## Steps with a quadratic potential -/

/-- Spec: between any two positions the potential changes by the work of the mean of the forces (so for springs). -/
def Quadratic (N : ℕ) (U : Arr → ℝ) (F : Arr → Arr) : Prop :=
  ∀ y y' : Arr, U y' - U y = -∑ j ∈ range N, 1 / 2 * (F y j + F y' j) * (y' j - y j)

theorem step_energy (m : Mode) (hm : m.OK) (d n : ℕ) (im : Arr) (F : Arr → Arr) (U : Arr → ℝ) (hq : Quadratic (n * d) U F)
    (him : ∀ j < n * d, im (j / d) ≠ 0) (h : ℝ) (s : PS) (hf : ∀ j < n * d, s.f j = F s.x j) :
    let s' := vvStep m d n im F h s
    energy d (n * d) im U s'.x s'.v - energy d (n * d) im U s.x s.v =
      h ^ 2 / 8 * ∑ j ∈ range (n * d), im (j / d) * (F s'.x j ^ 2 - F s.x j ^ 2) := by
  intro s'
  have hx : ∀ j < n * d, s'.x j = s.x j + h * (s.v j + h / 2 * im (j / d) * F s.x j) := by
    intro j hj
    simp only [s', vvStep, C41_positions m hm, C41_velocities m hm, if_pos hj, hf j hj]
  have hv : ∀ j < n * d, s'.v j = s.v j + h / 2 * im (j / d) * F s.x j + h / 2 * im (j / d) * F s'.x j := by
    intro j hj
    have : s'.v j = s.v j + h / 2 * im (j / d) * s.f j + h / 2 * im (j / d) * F s'.x j := by
      simp only [s', vvStep, C41_velocities m hm, if_pos hj]
    rw [this, hf j hj]
  have hU := hq s.x s'.x
  unfold energy
  rw [add_sub_add_comm, hU, ← sub_eq_add_neg, ← sum_sub_distrib, ← sum_sub_distrib, mul_sum]
  refine sum_congr rfl fun j hj => ?_
  have hj' := mem_range.mp hj
  have hi := him j hj'
  rw [hv j hj', show s'.x j - s.x j = h * (s.v j + h / 2 * im (j / d) * F s.x j) by rw [hx j hj']; ring]
  field_simp
  ring

theorem step_forces (m : Mode) (d n : ℕ) (im : Arr) (F : Arr → Arr) (h : ℝ) (s : PS) (j : ℕ) :
    (vvStep m d n im F h s).f j = F (vvStep m d n im F h s).x j := rfl

/-- With a constant force the energy is kept exactly by every step after the first. -/
theorem constant_force (m : Mode) (hm : m.OK) (d n : ℕ) (im g : Arr) (him : ∀ j < n * d, im (j / d) ≠ 0) (dts : List ℝ) (s : PS)
    (hf : ∀ j < n * d, s.f j = g j) :
    let U : Arr → ℝ := fun y => -∑ j ∈ range (n * d), g j * y j
    let s' := vvRun m d n im (fun _ => g) dts s
    energy d (n * d) im U s'.x s'.v = energy d (n * d) im U s.x s.v := by
  intro U s'
  have hq : Quadratic (n * d) U fun _ => g := by
    intro y y'
    simp only [U]
    rw [neg_sub_neg, ← sum_sub_distrib, ← sum_neg_distrib]
    exact sum_congr rfl fun j _ => by ring
  induction dts generalizing s with
  | nil => rfl
  | cons h l ih =>
    have h1 := step_energy m hm d n im (fun _ => g) U hq him h s hf
    have h2 := ih (vvStep m d n im (fun _ => g) h s) (fun j _ => rfl)
    simp only [sub_self, mul_zero, sum_const_zero] at h1
    rw [← sub_eq_zero.mp h1]
    exact h2

/-- **C159, negation for fresh simulations.** A particle in free fall: in a fresh simulation the first step changes the energy
by `-h/2 + h²/8` and no later step corrects it, however long the run. So the error of the energy is of first order only. -/
theorem C159_negation_fresh (m : Mode) (hm : m.OK) :
    let F : Arr → Arr := fun _ _ => 1
    let U : Arr → ℝ := fun y => -∑ j ∈ range (1 * 1), 1 * y j
    let s : PS := Convergence.fresh (fun _ => 0) fun _ => 1
    (∀ (h : ℝ) (dts : List ℝ),
      energy 1 (1 * 1) (fun _ => 1) U (vvRun m 1 1 (fun _ => 1) F (h :: dts) s).x (vvRun m 1 1 (fun _ => 1) F (h :: dts) s).v -
        energy 1 (1 * 1) (fun _ => 1) U s.x s.v = -h / 2 + h ^ 2 / 8) ∧
    ∀ T : ℝ, 0 < T → ¬ EnergyOrder 2 m 1 1 (fun _ => 1) F U T s := by
  intro F U s
  have key : ∀ (h : ℝ) (dts : List ℝ),
      energy 1 (1 * 1) (fun _ => 1) U (vvRun m 1 1 (fun _ => 1) F (h :: dts) s).x (vvRun m 1 1 (fun _ => 1) F (h :: dts) s).v -
        energy 1 (1 * 1) (fun _ => 1) U s.x s.v = -h / 2 + h ^ 2 / 8 := by
    intro h dts
    have h1 := constant_force m hm 1 1 (fun _ => 1) (fun _ => 1) (by simp) dts (vvStep m 1 1 (fun _ => 1) F h s) (fun j _ => rfl)
    have h2 : vvRun m 1 1 (fun _ => 1) F (h :: dts) s = vvRun m 1 1 (fun _ => 1) F dts (vvStep m 1 1 (fun _ => 1) F h s) := rfl
    rw [h2]
    have hx : (vvStep m 1 1 (fun _ => 1) F h s).x 0 = h := by
      simp [vvStep, C41_positions m hm, C41_velocities m hm, s, Convergence.fresh]
    have hv : (vvStep m 1 1 (fun _ => 1) F h s).v 0 = 1 + h / 2 := by
      simp [vvStep, C41_velocities m hm, s, F, Convergence.fresh]
    refine (congrArg (· - _) h1).trans ?_
    simp only [energy, mul_one, sum_range_one, one_mul]
    rw [hx, hv, show U s.x = 0 by simp [U, s, Convergence.fresh], show s.v 0 = 1 from rfl]
    ring
  refine ⟨key, fun T hT ⟨C, H₀, hH₀, hC⟩ => ?_⟩
  set h := min (min T H₀) (1 / (|C| + 1) / 4) with hh
  have h0 : 0 < h := by positivity
  have e1 : h ≤ T := (min_le_left _ _).trans (min_le_left _ _)
  have e2 : h ≤ H₀ := (min_le_left _ _).trans (min_le_right _ _)
  have e3 : h ≤ 1 / (|C| + 1) / 4 := min_le_right _ _
  have e4 : (|C| + 1) * h ≤ 1 / 4 := by
    have := mul_le_mul_of_nonneg_left e3 (by positivity : (0 : ℝ) ≤ |C| + 1)
    calc _ ≤ _ := this
      _ = 1 / 4 := by field_simp
  have := hC h h0 e2 [h] (by simpa using h0.le) (by simpa using e1)
  rw [key h []] at this
  have h5 := (neg_le_abs _).trans this
  have h6 : C * h ^ 2 ≤ |C| * h * h := by
    have := mul_le_mul_of_nonneg_right (le_abs_self C) (by positivity : (0 : ℝ) ≤ h ^ 2)
    linarith
  have h7 : (|C| * h + h) * h ≤ 1 / 4 * h := by
    refine mul_le_mul_of_nonneg_right ?_ h0.le
    linarith
  have h8 : h ^ 2 = h * h := by ring
  have h9 : 0 ≤ h * h := by positivity
  rw [h8] at h5 h6
  linarith

/-! ## C160 -/

/-- Spec: spheres on a line that stay in contact, with stiffness `k i j` and `a i j` the signed sum of the radii: the force
`repulsion (R1 + R2 - r)` of `interactions/generic-forces.hpp:33-54` along the line, on each of `n` particles. -/
def netForce (n : ℕ) (k a : ℕ → ℕ → ℝ) : Arr → Arr := fun y i => -∑ j ∈ range n, k i j * (y i - y j - a i j)

/-- Spec: the potential `0.5 repulsion (r - R1 - R2)²`, `interactions/generic-forces.hpp:48-50`, of every pair once. -/
noncomputable def netPot (n : ℕ) (k a : ℕ → ℕ → ℝ) (y : Arr) : ℝ :=
  1 / 2 * ∑ i ∈ range n, ∑ j ∈ range n, 1 / 2 * k i j * (y i - y j - a i j) ^ 2

/-- Spec: contacts are mutual, of stiffness at most `κ`, and the stiffnesses at each particle add up to at most that of `z`
contacts. -/
structure Net (n : ℕ) (k a : ℕ → ℕ → ℝ) (κ z : ℝ) : Prop where
  symm : ∀ i j, k i j = k j i
  anti : ∀ i j, a i j = -a j i
  pos : ∀ i j, 0 ≤ k i j
  deg : ∀ i < n, ∑ j ∈ range n, k i j ≤ z * κ

/-- `suggest_timescale` of the hard sphere forces, `interactions/generic-forces.hpp:56-58`. -/
noncomputable def suggest (κ mass : ℝ) : ℝ := 2 * Real.pi / Real.sqrt (2 * κ / mass)

theorem net_quadratic (n : ℕ) (k a : ℕ → ℕ → ℝ) (hs : ∀ i j, k i j = k j i) (ha : ∀ i j, a i j = -a j i) :
    Quadratic (n * 1) (netPot n k a) (netForce n k a) := by
  intro y y'
  rw [mul_one]
  set g : ℕ → ℕ → ℝ := fun i j => 1 / 4 * k i j * ((y i - y j - a i j) + (y' i - y' j - a i j)) with hg
  have e1 : netPot n k a y' - netPot n k a y =
      (∑ i ∈ range n, ∑ j ∈ range n, g i j * (y' i - y i)) - ∑ i ∈ range n, ∑ j ∈ range n, g i j * (y' j - y j) := by
    unfold netPot
    rw [← mul_sub, ← sum_sub_distrib, ← sum_sub_distrib, mul_sum]
    refine sum_congr rfl fun i _ => ?_
    rw [← sum_sub_distrib, ← sum_sub_distrib, mul_sum]
    exact sum_congr rfl fun j _ => by simp only [hg]; ring
  have e2 : ∑ i ∈ range n, ∑ j ∈ range n, g i j * (y' j - y j) = -∑ i ∈ range n, ∑ j ∈ range n, g i j * (y' i - y i) := by
    rw [sum_comm, ← sum_neg_distrib]
    refine sum_congr rfl fun i _ => ?_
    rw [← sum_neg_distrib]
    refine sum_congr rfl fun j _ => ?_
    simp only [hg]
    rw [hs j i, ha j i]
    ring
  rw [e1, e2, sub_neg_eq_add, ← sum_add_distrib, ← sum_neg_distrib]
  refine sum_congr rfl fun i _ => ?_
  unfold netForce
  rw [← sum_add_distrib, ← neg_add, ← sum_add_distrib, mul_neg, neg_mul, neg_neg, mul_sum, sum_mul]
  exact sum_congr rfl fun j _ => by simp only [hg]; ring

theorem net_force_sq (n : ℕ) (k a : ℕ → ℕ → ℝ) {κ z : ℝ} (hk : Net n k a κ z) (im : Arr) (M : ℝ) (hM : ∀ i < n, 0 ≤ im i ∧ im i ≤ M)
    (y : Arr) : ∑ i ∈ range n, im i * netForce n k a y i ^ 2 ≤ M * (z * κ) * (4 * netPot n k a y) := by
  have e : M * (z * κ) * (4 * netPot n k a y) =
      ∑ i ∈ range n, M * ((z * κ) * ∑ j ∈ range n, k i j * (y i - y j - a i j) ^ 2) := by
    unfold netPot
    rw [show ∀ S : ℝ, M * (z * κ) * (4 * (1 / 2 * S)) = M * (z * κ) * 2 * S by intro S; ring, mul_sum]
    refine sum_congr rfl fun i _ => ?_
    rw [mul_sum, mul_sum, mul_sum]
    exact sum_congr rfl fun j _ => by ring
  rw [e]
  refine sum_le_sum fun i hi => ?_
  have hi' := mem_range.mp hi
  obtain ⟨h0, h1⟩ := hM i hi'
  have hc : netForce n k a y i ^ 2 ≤ (∑ j ∈ range n, k i j) * ∑ j ∈ range n, k i j * (y i - y j - a i j) ^ 2 := by
    have := sum_mul_sq_le_sq_mul_sq (range n) (fun j => Real.sqrt (k i j)) fun j => Real.sqrt (k i j) * (y i - y j - a i j)
    unfold netForce
    rw [neg_sq]
    calc _ = (∑ j ∈ range n, Real.sqrt (k i j) * (Real.sqrt (k i j) * (y i - y j - a i j))) ^ 2 := by
          congr 1
          exact sum_congr rfl fun j _ => by rw [← mul_assoc, Real.mul_self_sqrt (hk.pos i j)]
      _ ≤ _ := this
      _ = _ := by
          congr 1
          · exact sum_congr rfl fun j _ => Real.sq_sqrt (hk.pos i j)
          · exact sum_congr rfl fun j _ => by rw [mul_pow, Real.sq_sqrt (hk.pos i j)]
  have hs0 : 0 ≤ ∑ j ∈ range n, k i j * (y i - y j - a i j) ^ 2 :=
    sum_nonneg fun j _ => mul_nonneg (hk.pos i j) (sq_nonneg _)
  have h2 := hc.trans (mul_le_mul_of_nonneg_right (hk.deg i hi') hs0)
  calc im i * netForce n k a y i ^ 2 ≤ M * netForce n k a y i ^ 2 := mul_le_mul_of_nonneg_right h1 (sq_nonneg _)
    _ ≤ _ := mul_le_mul_of_nonneg_left h2 (h0.trans h1)

theorem netPot_nonneg (n : ℕ) (k a : ℕ → ℕ → ℝ) (hp : ∀ i j, 0 ≤ k i j) (y : Arr) : 0 ≤ netPot n k a y := by
  unfold netPot
  have : 0 ≤ ∑ i ∈ range n, ∑ j ∈ range n, 1 / 2 * k i j * (y i - y j - a i j) ^ 2 :=
    sum_nonneg fun i _ => sum_nonneg fun j _ => by
      have := hp i j
      positivity
  linarith

/-- Steps of one size keep the energy minus `h²/8` times the squared forces exactly. -/
theorem shadow (m : Mode) (hm : m.OK) (d n : ℕ) (im : Arr) (F : Arr → Arr) (U : Arr → ℝ) (hq : Quadratic (n * d) U F)
    (him : ∀ j < n * d, im (j / d) ≠ 0) (h : ℝ) (N : ℕ) (s : PS) (hf : ∀ j < n * d, s.f j = F s.x j) :
    let s' := vvRun m d n im F (List.replicate N h) s
    energy d (n * d) im U s'.x s'.v - h ^ 2 / 8 * ∑ j ∈ range (n * d), im (j / d) * F s'.x j ^ 2 =
      energy d (n * d) im U s.x s.v - h ^ 2 / 8 * ∑ j ∈ range (n * d), im (j / d) * F s.x j ^ 2 := by
  induction N generalizing s with
  | zero => rfl
  | succ N ih =>
    have h1 := step_energy m hm d n im F U hq him h s hf
    have h2 := ih (vvStep m d n im F h s) fun j _ => rfl
    intro s'
    refine Eq.trans h2 ?_
    simp only [mul_sub, sum_sub_distrib] at h1
    linarith

/-- **C160** (partial). Spheres on a line in contact, of any number, masses, radii and stiffnesses (at most that of `z` contacts
at each): with the time step to which the forces limit the integrator, the energy after any number of steps is at most that
of the start divided by `1 - z (π/50)²`, which is positive for up to 250 contacts. So contacts never blow up.
Missing: time steps that change during the run, contacts that open and close, other dimensions, fresh simulations; false for
integrators with a fixed step (`C160_negation_fixed_step`). -/
theorem C160_stable_partial (m : Mode) (hm : m.OK) (n : ℕ) (k a : ℕ → ℕ → ℝ) (κ z : ℝ) (hκ : 0 < κ) (hz : 0 ≤ z)
    (hk : Net n k a κ z) (im : Arr) (him : ∀ i < n, 0 < im i) (hn : 0 < n) (old maxDT : ℝ) (hmax : 0 < maxDT)
    (others : ℝ → List ℝ) (h : ℝ)
    (hh : h = (Verif.ForceMaster.preIntegrate 0.02 old maxDT ((List.range n).map im) fun mass => suggest κ mass :: others mass).2)
    (N : ℕ) (s : PS) (hf : ∀ j < n, s.f j = netForce n k a s.x j) :
    let s' := vvRun m 1 n im (netForce n k a) (List.replicate N h) s
    (1 - z * (Real.pi / 50) ^ 2) * energy 1 n im (netPot n k a) s'.x s'.v ≤ energy 1 n im (netPot n k a) s.x s.v := by
  intro s'
  -- the lightest particle
  obtain ⟨i0, hi0, hmaxi⟩ := exists_max_image (range n) im ⟨0, mem_range.mpr hn⟩
  have hi0' := mem_range.mp hi0
  have hpos := him i0 hi0'
  obtain ⟨r0, _, r2, _⟩ := Verif.ForceMaster.C67_max_step (K := ℝ) 0.02 old maxDT (by norm_num) hmax ((List.range n).map im)
    (fun mass => suggest κ mass :: others mass) (im i0) (List.mem_map.mpr ⟨i0, List.mem_range.mpr hi0', rfl⟩) hpos
    (fun x hx => by
      obtain ⟨i, hi, rfl⟩ := List.mem_map.mp hx
      exact hmaxi i (mem_range.mpr (List.mem_range.mp hi)))
  rw [← hh] at r0 r2
  have hq0 : 0 < 2 * κ / (1 / im i0) := by positivity
  have hsq : 0 < Real.sqrt (2 * κ / (1 / im i0)) := Real.sqrt_pos.mpr hq0
  have hle := r2 (suggest κ (1 / im i0)) (List.mem_cons_self ..) (by unfold suggest; have := Real.pi_pos; positivity)
  have hh2 : h ^ 2 * (2 * κ * im i0) ≤ (Real.pi / 25) ^ 2 := by
    have h1 : h * Real.sqrt (2 * κ / (1 / im i0)) ≤ Real.pi / 25 := by
      have := mul_le_mul_of_nonneg_right hle hsq.le
      unfold suggest at this
      calc _ ≤ _ := this
        _ = Real.pi / 25 := by field_simp; norm_num
    have h2 := pow_le_pow_left₀ (by positivity) h1 2
    rw [mul_pow, Real.sq_sqrt hq0.le] at h2
    calc _ = h ^ 2 * (2 * κ / (1 / im i0)) := by field_simp
      _ ≤ _ := h2
  have hq := net_quadratic n k a hk.symm hk.anti
  have hsh := shadow m hm 1 n im (netForce n k a) (netPot n k a) hq (fun j hj => by
    rw [Nat.div_one]; exact (him j (by omega)).ne') h N s (fun j hj => hf j (by omega))
  simp only [mul_one, Nat.div_one] at hsh
  change energy 1 n im (netPot n k a) s'.x s'.v - h ^ 2 / 8 * ∑ j ∈ range n, im j * netForce n k a s'.x j ^ 2 = _ at hsh
  have hsq' := net_force_sq n k a hk im (im i0) (fun i hi => ⟨(him i hi).le, hmaxi i (mem_range.mpr hi)⟩) s'.x
  have hs0 : 0 ≤ h ^ 2 / 8 * ∑ j ∈ range n, im j * netForce n k a s.x j ^ 2 :=
    mul_nonneg (by positivity) (sum_nonneg fun j hj => mul_nonneg (him j (mem_range.mp hj)).le (sq_nonneg _))
  have hp := netPot_nonneg n k a hk.pos s'.x
  have hkin : 0 ≤ energy 1 n im (netPot n k a) s'.x s'.v - netPot n k a s'.x := by
    unfold energy
    rw [add_sub_cancel_right]
    refine sum_nonneg fun j hj => ?_
    have := him j (mem_range.mp hj)
    rw [Nat.div_one]
    positivity
  have hθ : h ^ 2 / 8 * ∑ j ∈ range n, im j * netForce n k a s'.x j ^ 2 ≤ z * (Real.pi / 50) ^ 2 * netPot n k a s'.x := by
    have h1 := mul_le_mul_of_nonneg_left hsq' (by positivity : (0 : ℝ) ≤ h ^ 2 / 8)
    have h2 := mul_le_mul_of_nonneg_left hh2 (mul_nonneg hz hp)
    calc _ ≤ _ := h1
      _ = z * netPot n k a s'.x * (h ^ 2 * (2 * κ * im i0)) / 4 := by ring
      _ ≤ z * netPot n k a s'.x * (Real.pi / 25) ^ 2 / 4 := by linarith
      _ = _ := by ring
  have hz' : 0 ≤ z * (Real.pi / 50) ^ 2 := by positivity
  have h3 := mul_nonneg hz' hkin
  linarith

/-- The bound is useful for up to 250 contacts at each particle. -/
theorem C160_contacts (z : ℝ) (hz : z ≤ 250) : 0 < 1 - z * (Real.pi / 50) ^ 2 := by
  have h1 := Real.pi_lt_d2
  have h2 := Real.pi_pos
  have h3 : (Real.pi / 50) ^ 2 < (3.15 / 50) ^ 2 := by
    apply pow_lt_pow_left₀ _ (by positivity) (by norm_num)
    linarith
  have h4 : z * (Real.pi / 50) ^ 2 ≤ 250 * (Real.pi / 50) ^ 2 := mul_le_mul_of_nonneg_right hz (sq_nonneg _)
  have : (3.15 / 50 : ℝ) ^ 2 < 1 / 250 := by norm_num
  linarith

/-- A chain of three spheres of unit radius and different masses meets the hypotheses with at most two contacts each. -/
example : Net 3 (fun i j => if i + 1 = j ∨ j + 1 = i then 7 else 0) (fun i j => 2 * ((i : ℝ) - j)) 7 2 := by
  refine ⟨fun i j => ?_, fun i j => by ring, fun i j => by split_ifs <;> norm_num, fun i hi => ?_⟩
  · simp only [or_comm]
  · obtain rfl | rfl | rfl : i = 0 ∨ i = 1 ∨ i = 2 := by omega
    all_goals norm_num [sum_range_succ]

/-- Spec: two hard spheres of radius one on a line, `interactions/generic-forces.hpp:33-54`: they repel if they overlap. -/
noncomputable def twoSpheres (κ : ℝ) : Arr → Arr := fun y i =>
  let ov := max 0 (2 - (y 1 - y 0))
  if i = 0 then -(κ * ov) else if i = 1 then κ * ov else 0

/-- Spec: their potential, `interactions/generic-forces.hpp:48-50`. -/
noncomputable def twoPot (κ : ℝ) (y : Arr) : ℝ := 1 / 2 * κ * max 0 (2 - (y 1 - y 0)) ^ 2

/-- **C160, negation for fixed time steps.** The limit applies only to integrators that adjust their step. For every stiffness
and every factor there is a time step such that two spheres at rest that overlap have, after one step, separated with more
than this factor times the energy that they had. -/
theorem C160_negation_fixed_step (m : Mode) (hm : m.OK) (κ R : ℝ) (hκ : 0 < κ) :
    ∃ h > 0, ∀ (δ : ℝ), 0 < δ →
      let s : PS := ⟨fun i => if i = 0 then 0 else 2 - δ, fun _ => 0, twoSpheres κ (fun i => if i = 0 then 0 else 2 - δ)⟩
      let s' := vvStep m 1 2 (fun _ => 1) (twoSpheres κ) h s
      2 ≤ s'.x 1 - s'.x 0 ∧
      R * energy 1 2 (fun _ => 1) (twoPot κ) s.x s.v < energy 1 2 (fun _ => 1) (twoPot κ) s'.x s'.v := by
  refine ⟨2 * (1 + |R|) * (1 + 1 / κ), by positivity, fun δ hδ => ?_⟩
  set h := 2 * (1 + |R|) * (1 + 1 / κ) with hh
  intro s s'
  have hκh : 2 * (1 + |R|) ≤ κ * h := by
    rw [hh, show κ * (2 * (1 + |R|) * (1 + 1 / κ)) = 2 * (1 + |R|) * (κ + κ * (1 / κ)) by ring, mul_one_div_cancel hκ.ne']
    exact le_mul_of_one_le_right (by positivity) (by linarith)
  have hh1 : 2 ≤ h := by
    have h1 : 0 ≤ 1 / κ := by positivity
    have h2 : 2 ≤ 2 * (1 + |R|) := by linarith [abs_nonneg R]
    calc (2 : ℝ) ≤ 2 * (1 + |R|) := h2
      _ ≤ h := by rw [hh]; exact le_mul_of_one_le_right (by positivity) (by linarith)
  have hov : max 0 (2 - (2 - δ - 0)) = δ := by rw [max_eq_right (by linarith)]; ring
  have f0 : s.f 0 = -(κ * δ) := by simp only [s, twoSpheres]; simp [hδ.le]
  have f1 : s.f 1 = κ * δ := by simp only [s, twoSpheres]; simp [hδ.le]
  have x0 : s'.x 0 = 0 + h * (0 + h / 2 * 1 * -(κ * δ)) := by
    rw [← f0]
    simp [s', vvStep, C41_positions m hm, C41_velocities m hm, s]
  have x1 : s'.x 1 = (2 - δ) + h * (0 + h / 2 * 1 * (κ * δ)) := by
    rw [← f1]
    simp [s', vvStep, C41_positions m hm, C41_velocities m hm, s]
  have hkh2 : 2 * (1 + |R|) * 2 ≤ κ * h * h := mul_le_mul hκh hh1 (by norm_num) (by positivity)
  have hsep : 2 ≤ s'.x 1 - s'.x 0 := by
    rw [x0, x1]
    have : 1 ≤ κ * h * h := by linarith [abs_nonneg R]
    have := mul_le_mul_of_nonneg_right this hδ.le
    linarith
  have hov' : max 0 (2 - (s'.x 1 - s'.x 0)) = 0 := max_eq_left (by linarith)
  have v0 : s'.v 0 = h / 2 * -(κ * δ) := by
    have : s'.v 0 = s.v 0 + h / 2 * 1 * s.f 0 + h / 2 * 1 * twoSpheres κ s'.x 0 := by
      simp only [s', vvStep, C41_velocities m hm]; simp
    rw [this, f0]
    simp only [twoSpheres, hov', s]
    simp
  have v1 : s'.v 1 = h / 2 * (κ * δ) := by
    have : s'.v 1 = s.v 1 + h / 2 * 1 * s.f 1 + h / 2 * 1 * twoSpheres κ s'.x 1 := by
      simp only [s', vvStep, C41_velocities m hm]; simp
    rw [this, f1]
    simp only [twoSpheres, hov', s]
    simp
  refine ⟨hsep, ?_⟩
  have e0 : energy 1 2 (fun _ => 1) (twoPot κ) s.x s.v = 1 / 2 * κ * δ ^ 2 := by
    simp only [energy, twoPot, s, sum_range_succ, sum_range_zero]
    simp [hδ.le]
  have e1 : energy 1 2 (fun _ => 1) (twoPot κ) s'.x s'.v = 1 / 2 * κ * δ ^ 2 * (κ * h * h / 2) := by
    simp only [energy, twoPot, hov', sum_range_succ, sum_range_zero, v0, v1]
    ring
  rw [e0, e1, mul_comm R]
  refine mul_lt_mul_of_pos_left ?_ (by positivity)
  have := le_abs_self R
  have := abs_nonneg R
  linarith

end Verif.Energy
