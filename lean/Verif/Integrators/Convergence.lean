import Verif.Integrators.Verlet
import Mathlib.Analysis.Calculus.MeanValue
import Mathlib.Analysis.Calculus.Deriv.Pow
import Mathlib.Analysis.SpecialFunctions.ExpDeriv
import Mathlib.Analysis.SpecialFunctions.Trigonometric.Deriv

/-!
# C156: runs converge to the true motion as the time step goes to zero

The velocity Verlet integrator is compared with an exact solution of Newton's equations. Modelled code:
`integrators/velocity-verlet.tpp:11-105` (through `Verif.Integrators.Verlet`), in the loop of `gflow.cpp:153-268`, in which the
first half kick of a run reads the force array that is there when the run begins: nothing calculates forces before it
(`gflow.cpp:97-147`), and creators leave zeros (`base/creator.cpp:84-85`, `base/simdata.cpp:315-320`). Exact arithmetic.
-/

namespace Verif.Convergence

open Verif.Verlet Set

variable {ι : Type*}

/-! ## Specification -/

/-- Spec: `x` and `v` solve Newton's equations with acceleration `a` for times in `[0,T]`, in the coordinates `S`. -/
structure Solves (S : ι → Prop) (a : (ι → ℝ) → (ι → ℝ) → ι → ℝ) (T : ℝ) (x v : ℝ → ι → ℝ) : Prop where
  pos : ∀ t ∈ Icc 0 T, ∀ j, S j → HasDerivWithinAt (fun u => x u j) (v t j) (Icc 0 T) t
  vel : ∀ t ∈ Icc 0 T, ∀ j, S j → HasDerivWithinAt (fun u => v u j) (a (x t) (v t) j) (Icc 0 T) t

/-- Spec: accelerations change by at most `L` times the distance, for positions and velocities within `ρ` of the motion. -/
def Tame (S : ι → Prop) (a : (ι → ℝ) → (ι → ℝ) → ι → ℝ) (T : ℝ) (x v : ℝ → ι → ℝ) (ρ L : ℝ) : Prop :=
  ∀ t ∈ Icc 0 T, ∀ (y w : ι → ℝ) (ε : ℝ), ε ≤ ρ → (∀ j, S j → |y j - x t j| ≤ ε ∧ |w j - v t j| ≤ ε) →
    ∀ j, S j → |a y w j - a (x t) (v t) j| ≤ L * ε

/-- Spec: the acceleration along the motion is at most `A` and changes by at most `B` in unit time. -/
structure Mild (S : ι → Prop) (a : (ι → ℝ) → (ι → ℝ) → ι → ℝ) (T : ℝ) (x v : ℝ → ι → ℝ) (A B : ℝ) : Prop where
  bound : ∀ t ∈ Icc 0 T, ∀ j, S j → |a (x t) (v t) j| ≤ A
  lip : ∀ s ∈ Icc 0 T, ∀ t ∈ Icc 0 T, ∀ j, S j → |a (x t) (v t) j - a (x s) (v s) j| ≤ B * |t - s|

/-- Spec: the acceleration along the motion has the derivative `J`, which changes by at most `K` in unit time. -/
structure Smooth (S : ι → Prop) (a : (ι → ℝ) → (ι → ℝ) → ι → ℝ) (T : ℝ) (x v : ℝ → ι → ℝ) (J : ℝ → ι → ℝ) (K : ℝ) : Prop where
  deriv : ∀ t ∈ Icc 0 T, ∀ j, S j → HasDerivWithinAt (fun u => a (x u) (v u) j) (J t j) (Icc 0 T) t
  lip : ∀ s ∈ Icc 0 T, ∀ t ∈ Icc 0 T, ∀ j, S j → |J t j - J s j| ≤ K * |t - s|

/-! ## Taylor estimates -/

theorem right {T t : ℝ} {f : ℝ → ℝ} {f' : ℝ} (h : HasDerivWithinAt f f' (Icc 0 T) t) (h0 : 0 ≤ t) (hT : t < T) :
    HasDerivWithinAt f f' (Ici t) t :=
  (h.mono (Icc_subset_Icc_left h0)).mono_of_mem_nhdsWithin (Icc_mem_nhdsGE hT)

/-- A function that grows no faster than `g` grows no more than `g`. -/
theorem grow {a b : ℝ} (hab : a ≤ b) (f g f' g' : ℝ → ℝ) (hf : ContinuousOn f (Icc a b)) (hg : ContinuousOn g (Icc a b))
    (hf' : ∀ t ∈ Ico a b, HasDerivWithinAt f (f' t) (Ici t) t) (hg' : ∀ t ∈ Ico a b, HasDerivWithinAt g (g' t) (Ici t) t)
    (h : ∀ t ∈ Ico a b, |f' t| ≤ g' t) (ha : |f a| ≤ g a) : |f b| ≤ g b :=
  image_norm_le_of_norm_deriv_right_le_deriv_boundary' hf hf' ha hg hg' h (right_mem_Icc.mpr hab)

theorem pow_deriv (c t u : ℝ) (n : ℕ) :
    HasDerivAt (fun u => c * (u - t) ^ (n + 1)) (c * ((n + 1) * (u - t) ^ n)) u := by
  have h := ((hasDerivAt_id u).sub_const t).pow (n + 1)
  have h2 := h.const_mul c
  simp only [id, Nat.add_sub_cancel, mul_one, Nat.cast_add, Nat.cast_one] at h2
  exact h2

/-- Integrating the bound `c (u-t)^n` on the derivative. -/
theorem grow_pow {T t h c : ℝ} (n : ℕ) (f f' : ℝ → ℝ) (h0 : 0 ≤ t) (hh : 0 ≤ h) (hT : t + h ≤ T) (ha : f t = 0)
    (hf : ∀ u ∈ Icc 0 T, HasDerivWithinAt f (f' u) (Icc 0 T) u)
    (hb : ∀ u, t ≤ u → u ≤ t + h → |f' u| ≤ c * ((n + 1) * (u - t) ^ n)) : |f (t + h)| ≤ c * h ^ (n + 1) := by
  have := grow (by linarith : t ≤ t + h) f (fun u => c * (u - t) ^ (n + 1)) f' (fun u => c * ((n + 1) * (u - t) ^ n))
    (fun u hu => (hf u ⟨by linarith [hu.1], by linarith [hu.2]⟩).continuousWithinAt.mono
      (Icc_subset_Icc h0 hT)) (fun u _ => (pow_deriv c t u n).continuousAt.continuousWithinAt)
    (fun u hu => right (hf u ⟨by linarith [hu.1], by linarith [hu.2]⟩) (by linarith [hu.1]) (by linarith [hu.2]))
    (fun u _ => (pow_deriv c t u n).hasDerivWithinAt) (fun u hu => hb u hu.1 hu.2.le) (by simp [ha])
  simpa using this

section taylor

variable {S : ι → Prop} {a : (ι → ℝ) → (ι → ℝ) → ι → ℝ} {T : ℝ} {x v : ℝ → ι → ℝ} {A B K : ℝ} {J : ℝ → ι → ℝ}

theorem vel_one (hs : Solves S a T x v) (hm : Mild S a T x v A B) {t h : ℝ} (h0 : 0 ≤ t) (hh : 0 ≤ h) (hT : t + h ≤ T)
    {j : ι} (hj : S j) : |v (t + h) j - v t j| ≤ A * h := by
  have := grow_pow (T := T) (c := A) 0 (fun u => v u j - v t j) (fun u => a (x u) (v u) j) h0 hh hT (by simp)
    (fun u hu => (hs.vel u hu j hj).sub_const _)
    (fun u h1 h2 => by simpa using hm.bound u ⟨by linarith, by linarith⟩ j hj)
  simpa using this

theorem vel_two (hs : Solves S a T x v) (hm : Mild S a T x v A B) {t h : ℝ} (h0 : 0 ≤ t) (hh : 0 ≤ h) (hT : t + h ≤ T)
    {j : ι} (hj : S j) : |v (t + h) j - v t j - h * a (x t) (v t) j| ≤ B / 2 * h ^ 2 := by
  have := grow_pow (T := T) (c := B / 2) 1 (fun u => v u j - v t j - (u - t) * a (x t) (v t) j)
    (fun u => a (x u) (v u) j - 1 * a (x t) (v t) j) h0 hh hT (by simp)
    (fun u hu => ((hs.vel u hu j hj).sub_const _).sub
      ((((hasDerivAt_id u).sub_const t).mul_const (a (x t) (v t) j)).hasDerivWithinAt))
    (fun u h1 h2 => by
      have := hm.lip t ⟨h0, by linarith⟩ u ⟨by linarith, by linarith⟩ j hj
      rw [abs_of_nonneg (by linarith : (0 : ℝ) ≤ u - t)] at this
      rw [one_mul]
      refine this.trans (le_of_eq ?_)
      push_cast; ring)
  simpa using this

theorem pos_three (hs : Solves S a T x v) (hm : Mild S a T x v A B) {t h : ℝ} (h0 : 0 ≤ t) (hh : 0 ≤ h) (hT : t + h ≤ T)
    {j : ι} (hj : S j) : |x (t + h) j - x t j - h * v t j - h ^ 2 / 2 * a (x t) (v t) j| ≤ B / 6 * h ^ 3 := by
  have := grow_pow (T := T) (c := B / 6) 2
    (fun u => x u j - x t j - (u - t) * v t j - (a (x t) (v t) j / 2) * (u - t) ^ 2)
    (fun u => v u j - 1 * v t j - a (x t) (v t) j / 2 * ((((1 : ℕ) : ℝ) + 1) * (u - t) ^ 1)) h0 hh hT (by simp)
    (fun u hu => (((hs.pos u hu j hj).sub_const _).sub
      ((((hasDerivAt_id u).sub_const t).mul_const (v t j)).hasDerivWithinAt)).sub
        ((pow_deriv (a (x t) (v t) j / 2) t u 1).hasDerivWithinAt))
    (fun u h1 h2 => by
      have := vel_two hs hm (h := u - t) h0 (by linarith) (by linarith) hj
      rw [show t + (u - t) = u by ring] at this
      rw [show v u j - 1 * v t j - a (x t) (v t) j / 2 * ((((1 : ℕ) : ℝ) + 1) * (u - t) ^ 1) =
        v u j - v t j - (u - t) * a (x t) (v t) j by push_cast; ring]
      refine this.trans (le_of_eq ?_)
      push_cast; ring)
  simp only [add_sub_cancel_left] at this
  rw [show x (t + h) j - x t j - h * v t j - h ^ 2 / 2 * a (x t) (v t) j =
    x (t + h) j - x t j - h * v t j - a (x t) (v t) j / 2 * h ^ 2 by ring]
  simpa using this

/-- The trapezoidal rule. -/
theorem trapezoid (hs : Solves S a T x v) (hm : Smooth S a T x v J K) {t h : ℝ} (h0 : 0 ≤ t) (hh : 0 ≤ h)
    (hT : t + h ≤ T) {j : ι} (hj : S j) :
    |v (t + h) j - v t j - h / 2 * (a (x t) (v t) j + a (x (t + h)) (v (t + h)) j)| ≤ K / 2 * h ^ 3 := by
  have hacc : ∀ u, t ≤ u → u ≤ t + h →
      |a (x u) (v u) j - a (x t) (v t) j - (u - t) * J t j| ≤ K / 2 * (u - t) ^ 2 := by
    intro u h1 h2
    have := grow_pow (T := T) (h := u - t) (c := K / 2) 1 (fun u => a (x u) (v u) j - a (x t) (v t) j - (u - t) * J t j)
      (fun u => J u j - 1 * J t j) h0 (by linarith) (by linarith) (by simp)
      (fun u hu => ((hm.deriv u hu j hj).sub_const _).sub ((((hasDerivAt_id u).sub_const t).mul_const (J t j)).hasDerivWithinAt))
      (fun u h1 h2 => by
        have := hm.lip t ⟨h0, by linarith⟩ u ⟨by linarith, by linarith⟩ j hj
        rw [abs_of_nonneg (by linarith : (0 : ℝ) ≤ u - t)] at this
        rw [one_mul]
        refine this.trans (le_of_eq ?_)
        push_cast; ring)
    simpa using this
  have hv : |v (t + h) j - v t j - h * a (x t) (v t) j - h ^ 2 / 2 * J t j| ≤ K / 6 * h ^ 3 := by
    have := grow_pow (T := T) (c := K / 6) 2
      (fun u => v u j - v t j - (u - t) * a (x t) (v t) j - (J t j / 2) * (u - t) ^ 2)
      (fun u => a (x u) (v u) j - 1 * a (x t) (v t) j - J t j / 2 * ((((1 : ℕ) : ℝ) + 1) * (u - t) ^ 1)) h0 hh hT (by simp)
      (fun u hu => (((hs.vel u hu j hj).sub_const _).sub
        ((((hasDerivAt_id u).sub_const t).mul_const (a (x t) (v t) j)).hasDerivWithinAt)).sub
          ((pow_deriv (J t j / 2) t u 1).hasDerivWithinAt))
      (fun u h1 h2 => by
        have := hacc u h1 h2
        rw [show a (x u) (v u) j - 1 * a (x t) (v t) j - J t j / 2 * ((((1 : ℕ) : ℝ) + 1) * (u - t) ^ 1) =
          a (x u) (v u) j - a (x t) (v t) j - (u - t) * J t j by push_cast; ring]
        refine this.trans (le_of_eq ?_)
        push_cast; ring)
    simp only [add_sub_cancel_left] at this
    rw [show v (t + h) j - v t j - h * a (x t) (v t) j - h ^ 2 / 2 * J t j =
      v (t + h) j - v t j - h * a (x t) (v t) j - J t j / 2 * h ^ 2 by ring]
    simpa using this
  have h2 := hacc (t + h) (by linarith) le_rfl
  rw [add_sub_cancel_left] at h2
  have h3 : |h / 2 * (a (x (t + h)) (v (t + h)) j - a (x t) (v t) j - h * J t j)| ≤ h / 2 * (K / 2 * h ^ 2) := by
    rw [abs_mul, abs_of_nonneg (by linarith : (0 : ℝ) ≤ h / 2)]
    exact mul_le_mul_of_nonneg_left h2 (by linarith)
  have hK : 0 ≤ K * h ^ 3 := by
    have := (abs_nonneg _).trans hv
    nlinarith
  rw [abs_le] at *
  constructor <;> nlinarith [hv.1, hv.2, h3.1, h3.2]

end taylor

/-! ## Steps and errors -/

/-- Positions, velocities and the accelerations that belong to the stored forces. -/
structure Pt (ι : Type*) where
  x : ι → ℝ
  v : ι → ℝ
  c : ι → ℝ

/-- A step of velocity Verlet in the coordinates `S`: half kick with the stored accelerations, drift, new accelerations from the
new positions and the half kicked velocities `w`, half kick. -/
def IsStep (S : ι → Prop) (a : (ι → ℝ) → (ι → ℝ) → ι → ℝ) (dt : ℝ) (p q : Pt ι) : Prop :=
  ∃ w : ι → ℝ, ∀ j, S j → w j = p.v j + dt / 2 * p.c j ∧ q.x j = p.x j + dt * w j ∧ q.c j = a q.x w j ∧
    q.v j = w j + dt / 2 * q.c j

/-- A run. -/
inductive Chain (S : ι → Prop) (a : (ι → ℝ) → (ι → ℝ) → ι → ℝ) : List ℝ → Pt ι → Pt ι → Prop
  | nil (p : Pt ι) : Chain S a [] p p
  | cons {dt : ℝ} {l : List ℝ} {p q r : Pt ι} : IsStep S a dt p q → Chain S a l q r → Chain S a (dt :: l) p r

/-- Errors at time `t` are at most `E`, those of the stored accelerations at most `Φ`. -/
def Near (S : ι → Prop) (a : (ι → ℝ) → (ι → ℝ) → ι → ℝ) (x v : ℝ → ι → ℝ) (t E Φ : ℝ) (p : Pt ι) : Prop :=
  ∀ j, S j → |p.x j - x t j| ≤ E ∧ |p.v j - v t j| ≤ E ∧ |p.c j - a (x t) (v t) j| ≤ Φ

/-- Growth of errors: `E' ≤ (1 + M dt) E + D dt` in each step gives `exp(M t)(E + D t)`. -/
theorem gronwall (S : ι → Prop) (a : (ι → ℝ) → (ι → ℝ) → ι → ℝ) (P : ℝ → ℝ → Pt ι → Prop) (T H M D E₀ Em : ℝ)
    (hM : 0 ≤ M) (hD : 0 ≤ D) (hE : 0 ≤ E₀) (hEm : Real.exp (M * T) * (E₀ + D * T) ≤ Em)
    (mono : ∀ t E E' p, E ≤ E' → P t E p → P t E' p)
    (hstep : ∀ t E dt p q, 0 ≤ t → 0 ≤ dt → dt ≤ H → t + dt ≤ T → 0 ≤ E → E ≤ Em → IsStep S a dt p q → P t E p →
      P (t + dt) ((1 + M * dt) * E + D * dt) q)
    (l : List ℝ) (hl : ∀ dt ∈ l, 0 ≤ dt ∧ dt ≤ H) (t : ℝ) (h0 : 0 ≤ t) (hT : t + l.sum ≤ T) (p q : Pt ι)
    (hc : Chain S a l p q) (hp : P t (Real.exp (M * t) * (E₀ + D * t)) p) :
    P (t + l.sum) (Real.exp (M * (t + l.sum)) * (E₀ + D * (t + l.sum))) q := by
  induction hc generalizing t with
  | nil p => simpa using hp
  | @cons dt l p q r h1 h2 ih =>
    obtain ⟨hd0, hdH⟩ := hl dt (by simp)
    have hsum : 0 ≤ l.sum := List.sum_nonneg fun x hx => (hl x (by simp [hx])).1
    rw [List.sum_cons] at hT ⊢
    have hEt : 0 ≤ E₀ + D * t := by positivity
    have hle : Real.exp (M * t) * (E₀ + D * t) ≤ Em := by
      refine le_trans ?_ hEm
      have : E₀ + D * t ≤ E₀ + D * T := by nlinarith
      have h3 : Real.exp (M * t) ≤ Real.exp (M * T) := Real.exp_le_exp.mpr (by nlinarith)
      exact mul_le_mul h3 this hEt (Real.exp_pos _).le
    have h4 := hstep t _ dt p q h0 hd0 hdH (by linarith) (by positivity) hle h1 hp
    have h5 := ih (fun x hx => hl x (by simp [hx])) (t + dt) (by linarith) (by linarith) (mono _ _ _ _ ?_ h4)
    · rw [show t + (dt + l.sum) = t + dt + l.sum by ring]; exact h5
    · have h6 : 1 + M * dt ≤ Real.exp (M * dt) := by linarith [Real.add_one_le_exp (M * dt)]
      have h7 : Real.exp (M * (t + dt)) = Real.exp (M * t) * Real.exp (M * dt) := by rw [← Real.exp_add]; ring_nf
      have h8 : 1 ≤ Real.exp (M * (t + dt)) := Real.one_le_exp (by positivity)
      have h9 : (1 + M * dt) * (Real.exp (M * t) * (E₀ + D * t)) ≤ Real.exp (M * (t + dt)) * (E₀ + D * t) := by
        rw [h7, mul_comm (Real.exp (M * t)) (Real.exp (M * dt)), mul_assoc]
        exact mul_le_mul_of_nonneg_right h6 (by positivity)
      have h10 : D * dt ≤ Real.exp (M * (t + dt)) * (D * dt) := le_mul_of_one_le_left (by positivity) h8
      calc _ ≤ Real.exp (M * (t + dt)) * (E₀ + D * t) + Real.exp (M * (t + dt)) * (D * dt) := add_le_add h9 h10
        _ = _ := by ring

section steps

variable {S : ι → Prop} {a : (ι → ℝ) → (ι → ℝ) → ι → ℝ} {T : ℝ} {x v : ℝ → ι → ℝ} {A B K L ρ : ℝ} {J : ℝ → ι → ℝ}

theorem tri {p q r P Q : ℝ} (h1 : |p| ≤ P) (h2 : |q| ≤ Q) (hr : r = p + q) : |r| ≤ P + Q := by
  rw [hr]; exact (abs_add_le p q).trans (add_le_add h1 h2)

theorem scale {c p P : ℝ} (hc : 0 ≤ c) (h : |p| ≤ P) : |c * p| ≤ c * P := by
  rw [abs_mul, abs_of_nonneg hc]; exact mul_le_mul_of_nonneg_left h hc

/-- One step with forces that may depend on velocities. -/
theorem step_one (hs : Solves S a T x v) (hm : Mild S a T x v A B) (ht : Tame S a T x v ρ L) (hA : 0 ≤ A) (hB : 0 ≤ B)
    (hL : 0 ≤ L) {H : ℝ} (hH : H ≤ 1) (hHL : H * L ≤ 1) {t E h : ℝ} {p q : Pt ι} (h0 : 0 ≤ t) (hh : 0 ≤ h) (hhH : h ≤ H)
    (hT : t + h ≤ T) (hE : 0 ≤ E) (hρ : 3 * E + (3 * A + B) * H ≤ ρ) (hstep : IsStep S a h p q)
    (hp : Near S a x v t E (L * (2 * E + (3 * A + B) * H)) p) :
    Near S a x v (t + h) ((1 + (2 + 3 * L) * h) * E + ((3 * A + B) * (1 + L) + B) * H * h)
      (L * (2 * ((1 + (2 + 3 * L) * h) * E + ((3 * A + B) * (1 + L) + B) * H * h) + (3 * A + B) * H)) q := by
  obtain ⟨w, hw⟩ := hstep
  have hhL : h * L ≤ 1 := (mul_le_mul_of_nonneg_right hhH hL).trans hHL
  have hH0 : 0 ≤ H := hh.trans hhH
  set c := 3 * A + B with hc
  have hc0 : 0 ≤ c := by positivity
  have hΦ : h * (L * (2 * E + c * H)) ≤ 2 * E + c * H := by
    rw [← mul_assoc]; exact mul_le_of_le_one_left (by positivity) hhL
  -- positions
  have ex : ∀ j, S j → |q.x j - x (t + h) j| ≤ E + h * E + h * (E + c * H / 2) + B / 6 * h ^ 3 := by
    intro j hj
    obtain ⟨e1, e2, e3, e4⟩ := hw j hj
    obtain ⟨p1, p2, p3⟩ := hp j hj
    have t1 := pos_three hs hm h0 hh hT hj
    rw [abs_sub_comm] at t1
    have s1 := scale hh p2
    have s2 := scale (by positivity : 0 ≤ h ^ 2 / 2) p3
    have s3 := tri p1 s1 rfl
    have s4 := tri s3 s2 rfl
    have t2 : |x t j + h * v t j + h ^ 2 / 2 * a (x t) (v t) j - x (t + h) j| ≤ B / 6 * h ^ 3 := by
      rw [abs_sub_comm]; convert pos_three hs hm h0 hh hT hj using 2; ring
    have s5 := tri s4 t2 (r := q.x j - x (t + h) j) (by rw [e2, e1]; ring)
    refine s5.trans ?_
    have : h ^ 2 / 2 * (L * (2 * E + c * H)) ≤ h * (E + c * H / 2) := by
      have := mul_le_mul_of_nonneg_left hΦ (by positivity : 0 ≤ h / 2)
      have hex : h ^ 2 / 2 * (L * (2 * E + c * H)) = h / 2 * (h * (L * (2 * E + c * H))) := by ring
      rw [hex]
      refine this.trans (le_of_eq ?_)
      ring
    linarith
  -- half kicked velocities
  have ew : ∀ j, S j → |w j - v (t + h) j| ≤ E + (E + c * H / 2) + 3 / 2 * A * h := by
    intro j hj
    obtain ⟨e1, e2, e3, e4⟩ := hw j hj
    obtain ⟨p1, p2, p3⟩ := hp j hj
    have t1 := vel_one hs hm h0 hh hT hj
    rw [abs_sub_comm] at t1
    have s2 := scale (by positivity : 0 ≤ h / 2) p3
    have s3 := scale (by positivity : 0 ≤ h / 2) (hm.bound t ⟨h0, by linarith⟩ j hj)
    have s5 := tri (tri (tri p2 s2 rfl) s3 rfl) t1 (r := w j - v (t + h) j) (by rw [e1]; ring)
    refine s5.trans ?_
    have hex : E + h / 2 * (L * (2 * E + c * H)) + h / 2 * A + A * h =
      E + 1 / 2 * (h * (L * (2 * E + c * H))) + 3 / 2 * A * h := by ring
    rw [hex]
    linarith
  have h3 : h ^ 3 ≤ h := by
    have : h ≤ 1 := hhH.trans hH
    have h2 : h ^ 2 ≤ 1 := by nlinarith
    calc h ^ 3 = h * h ^ 2 := by ring
      _ ≤ h * 1 := mul_le_mul_of_nonneg_left h2 hh
      _ = h := mul_one h
  have hhE : h * E ≤ E := mul_le_of_le_one_left hE (hhH.trans hH)
  have hAh : A * h ≤ A * H := mul_le_mul_of_nonneg_left hhH hA
  have hBh : B * h ≤ B * H := mul_le_mul_of_nonneg_left hhH hB
  have hBh3 : B / 6 * h ^ 3 ≤ B / 6 * h := mul_le_mul_of_nonneg_left h3 (by positivity)
  have hcH : c * H = 3 * A * H + B * H := by rw [hc]; ring
  have hcH0 : 0 ≤ c * H := by positivity
  have hBH0 : 0 ≤ B * H := by positivity
  have hAH0 : 0 ≤ A * H := by positivity
  have hhcH : h * (c * H) ≤ c * H := mul_le_of_le_one_left hcH0 (hhH.trans hH)
  -- forces
  have ef : ∀ j, S j → |q.c j - a (x (t + h)) (v (t + h)) j| ≤ L * ((2 + h) * E + c * H) := by
    intro j hj
    rw [(hw j hj).2.2.1]
    refine ht (t + h) ⟨by linarith, hT⟩ q.x w ((2 + h) * E + c * H) (by linarith [show (2 + h) * E = 2 * E + h * E by ring]) (fun j hj => ⟨(ex j hj).trans ?_, (ew j hj).trans ?_⟩) j hj
    · linarith [show (2 + h) * E = 2 * E + h * E by ring, show h * (E + c * H / 2) = h * E + h * (c * H) / 2 by ring]
    · linarith [show (2 + h) * E = 2 * E + h * E by ring, mul_nonneg hh hE]
  have hM : (1 + (2 + 3 * L) * h) * E = E + 2 * (h * E) + 3 * (h * (L * E)) := by ring
  have hLE : 0 ≤ h * (L * E) := by positivity
  have hhE0 : 0 ≤ h * E := by positivity
  have hD : (c * (1 + L) + B) * H * h = h * (c * H) + h * (L * (c * H)) + h * (B * H) := by ring
  have hx1 : 0 ≤ h * (c * H) := by positivity
  have hx2 : 0 ≤ h * (L * (c * H)) := by positivity
  have hx3 : 0 ≤ h * (B * H) := by positivity
  intro j hj
  refine ⟨(ex j hj).trans ?_, ?_, (ef j hj).trans ?_⟩
  · rw [hM, hD]
    have : B / 6 * h ^ 3 ≤ h * (B * H) := by
      have h4 : h ^ 2 ≤ H := by nlinarith
      have : B / 6 * h ^ 3 = h * (B / 6 * h ^ 2) := by ring
      rw [this]
      refine mul_le_mul_of_nonneg_left ?_ hh
      have := mul_le_mul_of_nonneg_left h4 (by positivity : 0 ≤ B / 6)
      linarith [show B / 6 * H = (B * H) / 6 by ring]
    linarith [show h * (E + c * H / 2) = h * E + h * (c * H) / 2 by ring]
  · obtain ⟨e1, e2, e3, e4⟩ := hw j hj
    obtain ⟨p1, p2, p3⟩ := hp j hj
    have t1 : |v t j + h * a (x t) (v t) j - v (t + h) j| ≤ B / 2 * h ^ 2 := by
      rw [abs_sub_comm]; convert vel_two hs hm h0 hh hT hj using 2; ring
    have t2 : |a (x (t + h)) (v (t + h)) j - a (x t) (v t) j| ≤ B * h := by
      have := hm.lip t ⟨h0, by linarith⟩ (t + h) ⟨by linarith, hT⟩ j hj
      rwa [add_sub_cancel_left, abs_of_nonneg hh] at this
    have s1 := scale (by positivity : 0 ≤ h / 2) p3
    have s2 := scale (by positivity : 0 ≤ h / 2) (ef j hj)
    have s3 := scale (by positivity : 0 ≤ h / 2) t2
    have s5 := tri (tri (tri (tri p2 s1 rfl) s2 rfl) s3 rfl) t1 (r := q.v j - v (t + h) j) (by rw [e4, e1]; ring)
    refine s5.trans ?_
    rw [hM, hD]
    have hh2 : B * h ^ 2 ≤ h * (B * H) := by
      have : B * h ^ 2 = h * (B * h) := by ring
      rw [this]; exact mul_le_mul_of_nonneg_left hBh hh
    have hh3 : h * (h * (L * E)) ≤ h * (L * E) := mul_le_of_le_one_left hLE (hhH.trans hH)
    have hex : E + h / 2 * (L * (2 * E + c * H)) + h / 2 * (L * ((2 + h) * E + c * H)) + h / 2 * (B * h) + B / 2 * h ^ 2 =
        E + 2 * (h * (L * E)) + 1 / 2 * (h * (h * (L * E))) + h * (L * (c * H)) + B * h ^ 2 := by ring
    rw [hex]
    linarith
  · refine mul_le_mul_of_nonneg_left ?_ hL
    rw [hM, hD]
    have hex : (2 + h) * E + c * H = 2 * E + h * E + c * H := by ring
    rw [hex]
    linarith

/-- One step with forces that depend on positions only. -/
theorem step_two (hs : Solves S a T x v) (hm : Mild S a T x v A B) (hsm : Smooth S a T x v J K) (ht : Tame S a T x v ρ L)
    (hpos : ∀ y w w', a y w = a y w') (hB : 0 ≤ B) (hK : 0 ≤ K)
    (hL : 0 ≤ L) {H : ℝ} (hH : H ≤ 1) (hHL : H * L ≤ 1) {t E h : ℝ} {p q : Pt ι} (h0 : 0 ≤ t) (hh : 0 ≤ h) (hhH : h ≤ H)
    (hT : t + h ≤ T) (hE : 0 ≤ E) (hρ : 3 * E + B * H ≤ ρ) (hstep : IsStep S a h p q)
    (hp : Near S a x v t E (L * E) p) :
    Near S a x v (t + h) ((1 + (2 + 2 * L) * h) * E + (B + K) * H ^ 2 * h)
      (L * ((1 + (2 + 2 * L) * h) * E + (B + K) * H ^ 2 * h)) q := by
  obtain ⟨w, hw⟩ := hstep
  have hhL : h * L ≤ 1 := (mul_le_mul_of_nonneg_right hhH hL).trans hHL
  have hH0 : 0 ≤ H := hh.trans hhH
  have hh2 : h ^ 2 ≤ H ^ 2 := pow_le_pow_left₀ hh hhH 2
  have h2 : h ^ 2 ≤ 1 := by nlinarith
  have hLE : h * (L * E) ≤ E := by rw [← mul_assoc]; exact mul_le_of_le_one_left hE hhL
  have hBh3 : B * h ^ 3 ≤ B * H ^ 2 * h := by
    have : B * h ^ 3 = B * h ^ 2 * h := by ring
    rw [this]; exact mul_le_mul_of_nonneg_right (mul_le_mul_of_nonneg_left hh2 hB) hh
  have hKh3 : K * h ^ 3 ≤ K * H ^ 2 * h := by
    have : K * h ^ 3 = K * h ^ 2 * h := by ring
    rw [this]; exact mul_le_mul_of_nonneg_right (mul_le_mul_of_nonneg_left hh2 hK) hh
  have ex : ∀ j, S j → |q.x j - x (t + h) j| ≤ E + 3 / 2 * (h * E) + B / 6 * h ^ 3 := by
    intro j hj
    obtain ⟨e1, e2, e3, e4⟩ := hw j hj
    obtain ⟨p1, p2, p3⟩ := hp j hj
    have t2 : |x t j + h * v t j + h ^ 2 / 2 * a (x t) (v t) j - x (t + h) j| ≤ B / 6 * h ^ 3 := by
      rw [abs_sub_comm]; convert pos_three hs hm h0 hh hT hj using 2; ring
    have s5 := tri (tri (tri p1 (scale hh p2) rfl) (scale (by positivity : 0 ≤ h ^ 2 / 2) p3) rfl) t2
      (r := q.x j - x (t + h) j) (by rw [e2, e1]; ring)
    refine s5.trans ?_
    have := mul_le_mul_of_nonneg_left hLE (by positivity : 0 ≤ h / 2)
    nlinarith
  have hB0 : 0 ≤ B * h ^ 3 := by positivity
  have hhE0 : 0 ≤ h * E := by positivity
  have hhE : h * E ≤ E := mul_le_of_le_one_left hE (hhH.trans hH)
  have hLE0 : 0 ≤ h * (L * E) := by positivity
  have hBH : B * H ^ 2 * h ≤ B * H := by
    have : B * H ^ 2 * h = B * H * (H * h) := by ring
    rw [this]
    refine mul_le_of_le_one_right (by positivity) ?_
    nlinarith
  have ef : ∀ j, S j → |q.c j - a (x (t + h)) (v (t + h)) j| ≤ L * (E + 3 / 2 * (h * E) + B / 6 * h ^ 3) := by
    intro j hj
    rw [(hw j hj).2.2.1, hpos q.x w (v (t + h))]
    refine ht (t + h) ⟨by linarith, hT⟩ q.x _ _ (by nlinarith) (fun j hj => ⟨ex j hj, ?_⟩) j hj
    rw [sub_self, abs_zero]; positivity
  have hM : (1 + (2 + 2 * L) * h) * E = E + 2 * (h * E) + 2 * (h * (L * E)) := by ring
  have hD : (B + K) * H ^ 2 * h = B * H ^ 2 * h + K * H ^ 2 * h := by ring
  have hx1 : 0 ≤ K * H ^ 2 * h := by positivity
  intro j hj
  refine ⟨(ex j hj).trans ?_, ?_, (ef j hj).trans ?_⟩
  · rw [hM, hD]; nlinarith
  · obtain ⟨e1, e2, e3, e4⟩ := hw j hj
    obtain ⟨p1, p2, p3⟩ := hp j hj
    have t1 : |v t j + h / 2 * (a (x t) (v t) j + a (x (t + h)) (v (t + h)) j) - v (t + h) j| ≤ K / 2 * h ^ 3 := by
      rw [abs_sub_comm]; convert trapezoid hs hsm h0 hh hT hj using 2; ring
    have s1 := scale (by positivity : 0 ≤ h / 2) p3
    have s2 := scale (by positivity : 0 ≤ h / 2) (ef j hj)
    have s5 := tri (tri (tri p2 s1 rfl) s2 rfl) t1 (r := q.v j - v (t + h) j) (by rw [e4, e1]; ring)
    refine s5.trans ?_
    rw [hM, hD]
    have k1 : h * (L * (h * E)) ≤ h * E := by
      have : h * (L * (h * E)) = h * L * (h * E) := by ring
      rw [this]; exact mul_le_of_le_one_left hhE0 hhL
    have k2 : h * (L * (B * h ^ 3)) ≤ B * h ^ 3 := by
      rw [← mul_assoc]; exact mul_le_of_le_one_left hB0 hhL
    nlinarith
  · refine mul_le_mul_of_nonneg_left ?_ hL
    rw [hM, hD]; nlinarith

end steps

/-! ## Errors of whole runs -/

section runs

variable {S : ι → Prop} {a : (ι → ℝ) → (ι → ℝ) → ι → ℝ} {T : ℝ} {x v : ℝ → ι → ℝ} {A B K L ρ : ℝ} {J : ℝ → ι → ℝ}

theorem near_mono {t E E' Φ Φ' : ℝ} {p : Pt ι} (hE : E ≤ E') (hΦ : Φ ≤ Φ') (h : Near S a x v t E Φ p) :
    Near S a x v t E' Φ' p := fun j hj => ⟨(h j hj).1.trans hE, (h j hj).2.1.trans hE, (h j hj).2.2.trans hΦ⟩

/-- Small enough steps: `k H` can be made at most `ρ`. -/
theorem small_exists {k ρ : ℝ} (hk : 0 ≤ k) (hρ : 0 < ρ) (L : ℝ) (hL : 0 ≤ L) :
    ∃ H₀ : ℝ, 0 < H₀ ∧ ∀ H : ℝ, 0 ≤ H → H ≤ H₀ → H ≤ 1 ∧ H * L ≤ 1 ∧ k * H ≤ ρ := by
  refine ⟨min 1 (min (1 / (L + 1)) (ρ / (k + 1))), by positivity, fun H h0 hH => ?_⟩
  have h1 := hH.trans (min_le_left _ _)
  have h2 := (hH.trans (min_le_right _ _)).trans (min_le_left _ _)
  have h3 := (hH.trans (min_le_right _ _)).trans (min_le_right _ _)
  rw [le_div_iff₀ (by positivity)] at h2 h3
  exact ⟨h1, by linarith, by linarith⟩

theorem chain_cons {dt : ℝ} {l : List ℝ} {p r : Pt ι} (h : Chain S a (dt :: l) p r) :
    ∃ q, IsStep S a dt p q ∧ Chain S a l q r := by
  cases h with
  | cons h1 h2 => exact ⟨_, h1, h2⟩

/-- The first half kick with other accelerations is the same as the one with the right ones from other velocities. -/
theorem chain_start {l : List ℝ} {dt : ℝ} {p r : Pt ι} (c : ι → ℝ) (h : Chain S a (dt :: l) p r) :
    Chain S a (dt :: l) ⟨p.x, fun j => p.v j + dt / 2 * (p.c j - c j), c⟩ r := by
  obtain ⟨q, ⟨w, hw⟩, h2⟩ := chain_cons h
  exact .cons ⟨w, fun j hj => ⟨by rw [(hw j hj).1]; ring, (hw j hj).2⟩⟩ h2

/-- First order, for accelerations of positions and velocities and any stored accelerations at the start. -/
theorem first_order (hs : Solves S a T x v) (hm : Mild S a T x v A B) (ht : Tame S a T x v ρ L) (hA : 0 ≤ A) (hB : 0 ≤ B)
    (hL : 0 ≤ L) (hρ : 0 < ρ) (R : ℝ) (hR : 0 ≤ R) : ∃ C H₀ : ℝ, 0 < H₀ ∧
    ∀ H : ℝ, 0 < H → H ≤ H₀ → ∀ l : List ℝ, (∀ dt ∈ l, 0 ≤ dt ∧ dt ≤ H) → l.sum ≤ T → ∀ p q : Pt ι,
      (∀ j, S j → p.x j = x 0 j ∧ p.v j = v 0 j ∧ |p.c j - a (x 0) (v 0) j| ≤ R) → Chain S a l p q →
      ∀ j, S j → |q.x j - x l.sum j| ≤ C * H ∧ |q.v j - v l.sum j| ≤ C * H := by
  by_cases hT : 0 ≤ T
  swap
  · refine ⟨0, 1, one_pos, fun H _ _ l hl hsum => ?_⟩
    exact absurd ((List.sum_nonneg fun y hy => (hl y hy).1).trans hsum) hT
  set D := (3 * A + B) * (1 + L) + B with hD
  have hD0 : 0 ≤ D := by positivity
  set C := Real.exp ((2 + 3 * L) * T) * (R / 2 + D * T) with hC
  have hC0 : 0 ≤ C := by positivity
  obtain ⟨H₀, hH₀, hsmall⟩ := small_exists (k := 3 * C + (3 * A + B)) (by positivity) hρ L hL
  refine ⟨C, H₀, hH₀, fun H hH0 hH l hl hsum p q hp hc j hj => ?_⟩
  cases l with
  | nil =>
    cases hc
    obtain ⟨e1, e2, _⟩ := hp j hj
    simp [e1, e2]; positivity
  | cons dt l =>
    obtain ⟨s1, s2, s3⟩ := hsmall H hH0.le hH
    have hc' := chain_start (fun j => a (x 0) (v 0) j) hc
    have hcH : 0 ≤ (3 * A + B) * H := by positivity
    have hdt := hl dt (by simp)
    have key := gronwall S a (fun t E p => Near S a x v t E (L * (2 * E + (3 * A + B) * H)) p) T H (2 + 3 * L) (D * H)
      (R / 2 * H) (C * H) (by positivity) (by positivity) (by positivity) (by rw [hC]; apply le_of_eq; ring)
      (fun t E E' p h hp => near_mono h (mul_le_mul_of_nonneg_left (by linarith) hL) hp)
      (fun t E h p q h0 hh hhH hT' hE hEm hstep hp => by
        refine step_one hs hm ht hA hB hL s1 s2 h0 hh hhH hT' hE ?_ hstep hp
        linarith)
      (dt :: l) hl 0 le_rfl (by rw [zero_add]; exact hsum) _ q hc' ?_
    · rw [zero_add] at key
      have hle : Real.exp ((2 + 3 * L) * (dt :: l).sum) * (R / 2 * H + D * H * (dt :: l).sum) ≤ C * H := by
        have h0 : 0 ≤ (dt :: l).sum := List.sum_nonneg fun y hy => (hl y hy).1
        have h1 : Real.exp ((2 + 3 * L) * (dt :: l).sum) ≤ Real.exp ((2 + 3 * L) * T) :=
          Real.exp_le_exp.mpr (mul_le_mul_of_nonneg_left hsum (by positivity))
        have h2 : R / 2 * H + D * H * (dt :: l).sum ≤ R / 2 * H + D * H * T := by
          have := mul_le_mul_of_nonneg_left hsum (by positivity : 0 ≤ D * H)
          linarith
        calc _ ≤ Real.exp ((2 + 3 * L) * T) * (R / 2 * H + D * H * T) :=
              mul_le_mul h1 h2 (by positivity) (Real.exp_pos _).le
          _ = C * H := by rw [hC]; ring
      exact ⟨(key j hj).1.trans hle, (key j hj).2.1.trans hle⟩
    · intro j hj
      obtain ⟨e1, e2, e3⟩ := hp j hj
      have hq : (0 : ℝ) ≤ Real.exp ((2 + 3 * L) * 0) * (R / 2 * H + D * H * 0) := by positivity
      refine ⟨?_, ?_, ?_⟩
      · simp only [e1, sub_self, abs_zero]; exact hq
      · simp only [e2, add_sub_cancel_left]
        refine (scale (by linarith [hdt.1] : 0 ≤ dt / 2) e3).trans ?_
        rw [mul_zero, Real.exp_zero, mul_zero, add_zero, one_mul]
        have := mul_le_mul_of_nonneg_right hdt.2 hR
        linarith
      · rw [sub_self, abs_zero]; positivity

/-- Second order, for accelerations of positions that are up to date at the start. -/
theorem second_order (hs : Solves S a T x v) (hm : Mild S a T x v A B) (hsm : Smooth S a T x v J K)
    (ht : Tame S a T x v ρ L) (hpos : ∀ y w w', a y w = a y w') (hB : 0 ≤ B) (hK : 0 ≤ K)
    (hL : 0 ≤ L) (hρ : 0 < ρ) : ∃ C H₀ : ℝ, 0 < H₀ ∧
    ∀ H : ℝ, 0 < H → H ≤ H₀ → ∀ l : List ℝ, (∀ dt ∈ l, 0 ≤ dt ∧ dt ≤ H) → l.sum ≤ T → ∀ p q : Pt ι,
      (∀ j, S j → p.x j = x 0 j ∧ p.v j = v 0 j ∧ p.c j = a (x 0) (v 0) j) → Chain S a l p q →
      ∀ j, S j → |q.x j - x l.sum j| ≤ C * H ^ 2 ∧ |q.v j - v l.sum j| ≤ C * H ^ 2 := by
  by_cases hT : 0 ≤ T
  swap
  · refine ⟨0, 1, one_pos, fun H _ _ l hl hsum => ?_⟩
    exact absurd ((List.sum_nonneg fun y hy => (hl y hy).1).trans hsum) hT
  set C := Real.exp ((2 + 2 * L) * T) * ((B + K) * T) with hC
  have hC0 : 0 ≤ C := by positivity
  obtain ⟨H₀, hH₀, hsmall⟩ := small_exists (k := 3 * C + B) (by positivity) hρ L hL
  refine ⟨C, H₀, hH₀, fun H hH0 hH l hl hsum p q hp hc j hj => ?_⟩
  obtain ⟨s1, s2, s3⟩ := hsmall H hH0.le hH
  have hHH : C * H ^ 2 ≤ C * H := by
    refine mul_le_mul_of_nonneg_left ?_ hC0
    nlinarith
  have key := gronwall S a (fun t E p => Near S a x v t E (L * E) p) T H (2 + 2 * L) ((B + K) * H ^ 2)
    0 (C * H ^ 2) (by positivity) (by positivity) le_rfl (by rw [hC]; apply le_of_eq; ring)
    (fun t E E' p h hp => near_mono h (mul_le_mul_of_nonneg_left h hL) hp)
    (fun t E h p q h0 hh hhH hT' hE hEm hstep hp => by
      refine step_two hs hm hsm ht hpos hB hK hL s1 s2 h0 hh hhH hT' hE ?_ hstep hp
      linarith)
    l hl 0 le_rfl (by rw [zero_add]; exact hsum) p q hc ?_
  · rw [zero_add] at key
    have hle : Real.exp ((2 + 2 * L) * l.sum) * (0 + (B + K) * H ^ 2 * l.sum) ≤ C * H ^ 2 := by
      have h0 : 0 ≤ l.sum := List.sum_nonneg fun y hy => (hl y hy).1
      have h1 : Real.exp ((2 + 2 * L) * l.sum) ≤ Real.exp ((2 + 2 * L) * T) :=
        Real.exp_le_exp.mpr (mul_le_mul_of_nonneg_left hsum (by positivity))
      have h2 : 0 + (B + K) * H ^ 2 * l.sum ≤ (B + K) * H ^ 2 * T := by
        have := mul_le_mul_of_nonneg_left hsum (by positivity : 0 ≤ (B + K) * H ^ 2)
        linarith
      calc _ ≤ Real.exp ((2 + 2 * L) * T) * ((B + K) * H ^ 2 * T) :=
            mul_le_mul h1 h2 (by positivity) (Real.exp_pos _).le
        _ = C * H ^ 2 := by rw [hC]; ring
    exact ⟨(key j hj).1.trans hle, (key j hj).2.1.trans hle⟩
  · intro j hj
    obtain ⟨e1, e2, e3⟩ := hp j hj
    refine ⟨?_, ?_, ?_⟩
    · rw [e1]; simp
    · rw [e2]; simp
    · rw [e3]; simp

end runs

/-! ## C156: runs of the integrator -/

/-- Spec: the accelerations from forces `F` of positions, in the arrays of the simulation. -/
def acc (d : ℕ) (im : Arr) (F : Arr → Arr) : Arr → Arr → Arr := fun y _ j => im (j / d) * F y j

/-- Spec: the state begins with the positions and velocities of the motion. -/
def Begins (N : ℕ) (x v : ℝ → Arr) (s : PS) : Prop := ∀ j < N, s.x j = x 0 j ∧ s.v j = v 0 j

/-- Spec: with time steps of at most `H` the errors of positions and velocities at all times up to `T` are at most `C H^k`,
with one constant `C` for all `H` that are small enough, for runs from `s`. -/
def ErrorOrder (k : ℕ) (m : Mode) (d n : ℕ) (im : Arr) (F : Arr → Arr) (T : ℝ) (x v : ℝ → Arr) (s : PS) : Prop :=
  ∃ C H₀ : ℝ, 0 < H₀ ∧ ∀ H : ℝ, 0 < H → H ≤ H₀ → ∀ dts : List ℝ, (∀ dt ∈ dts, 0 ≤ dt ∧ dt ≤ H) → dts.sum ≤ T →
    ∀ j < n * d, |(vvRun m d n im F dts s).x j - x dts.sum j| ≤ C * H ^ k ∧ |(vvRun m d n im F dts s).v j - v dts.sum j| ≤ C * H ^ k

theorem vv_chain (m : Mode) (hm : m.OK) (d n : ℕ) (im : Arr) (F : Arr → Arr) (dts : List ℝ) (s : PS) :
    Chain (fun j => j < n * d) (acc d im F) dts ⟨s.x, s.v, fun j => im (j / d) * s.f j⟩
      ⟨(vvRun m d n im F dts s).x, (vvRun m d n im F dts s).v, fun j => im (j / d) * (vvRun m d n im F dts s).f j⟩ := by
  induction dts generalizing s with
  | nil => exact .nil _
  | cons dt l ih =>
    refine .cons ?_ (ih (vvStep m d n im F dt s))
    refine ⟨updateVelocities m d (n * d) dt im s.f s.v, fun j hj => ?_⟩
    simp only [vvStep, acc, C41_positions m hm, C41_velocities m hm, if_pos hj]
    refine ⟨by ring, trivial, trivial, by ring⟩

section main

variable (m : Mode) (hm : m.OK) (d n : ℕ) (im : Arr) (F : Arr → Arr) (T : ℝ) (x v : ℝ → Arr) {A B K L ρ : ℝ} (J : ℝ → Arr)
  (hs : Solves (fun j => j < n * d) (acc d im F) T x v) (hm' : Mild (fun j => j < n * d) (acc d im F) T x v A B)
  (ht : Tame (fun j => j < n * d) (acc d im F) T x v ρ L) (hA : 0 ≤ A) (hB : 0 ≤ B) (hL : 0 ≤ L) (hρ : 0 < ρ)
include hm hs hm' ht hB hL hρ

/-- **C156, second order** (partial). For every system, exact motion with a smooth acceleration and force that is Lipschitz
near the motion: runs whose stored forces are those of the initial positions (a continued run) have errors of at most a
constant times the square of the largest time step; time steps may vary. Missing: the first run of a simulation, which begins
with forces zero (`C156_negation_order`), and forces that are not smooth or depend on velocities (`C156_first_order`). -/
theorem C156_second_order_partial (hK : 0 ≤ K) (hsm : Smooth (fun j => j < n * d) (acc d im F) T x v J K) (s : PS)
    (h0 : Begins (n * d) x v s) (hf : ∀ j < n * d, s.f j = F (x 0) j) : ErrorOrder 2 m d n im F T x v s := by
  obtain ⟨C, H₀, hH₀, h⟩ := second_order hs hm' hsm ht (fun _ _ _ => rfl) hB hK hL hρ
  refine ⟨C, H₀, hH₀, fun H hH hle dts hd hT j hj => ?_⟩
  exact h H hH hle dts hd hT _ _ (fun j hj => ⟨(h0 j hj).1, (h0 j hj).2, by simp only [acc, hf j hj]⟩)
    (vv_chain m hm d n im F dts s) j hj

include hA

/-- **C156, first order.** For every system, exact motion whose acceleration is bounded and Lipschitz in time, and force that is
Lipschitz near the motion: whatever the force array contains when the run begins, the errors of positions and velocities are at
most a constant times the largest time step; so runs converge to the exact motion. Time steps may vary. -/
theorem C156_first_order (s : PS) (h0 : Begins (n * d) x v s) : ErrorOrder 1 m d n im F T x v s := by
  obtain ⟨R, hR0, hR⟩ : ∃ R : ℝ, 0 ≤ R ∧ ∀ j < n * d, |im (j / d) * s.f j - acc d im F (x 0) (v 0) j| ≤ R := by
    refine ⟨∑ j ∈ Finset.range (n * d), |im (j / d) * s.f j - acc d im F (x 0) (v 0) j|,
      Finset.sum_nonneg fun _ _ => abs_nonneg _, fun j hj => ?_⟩
    exact Finset.single_le_sum (f := fun j => |im (j / d) * s.f j - acc d im F (x 0) (v 0) j|) (fun _ _ => abs_nonneg _)
      (Finset.mem_range.mpr hj)
  obtain ⟨C, H₀, hH₀, h⟩ := first_order hs hm' ht hA hB hL hρ R hR0
  refine ⟨C, H₀, hH₀, fun H hH hle dts hd hT j hj => ?_⟩
  rw [pow_one]
  exact h H hH hle dts hd hT _ _ (fun j hj => ⟨(h0 j hj).1, (h0 j hj).2, hR j hj⟩)
    (vv_chain m hm d n im F dts s) j hj

end main

/-! ## The first kick -/

/-- A simulation as creators leave it: forces are zero, `base/creator.cpp:84-85`, `base/simdata.cpp:315-320`. -/
def fresh (x v : Arr) : PS := ⟨x, v, fun _ => 0⟩

/-- **C156, first kick.** Under a constant force the velocity of a fresh simulation is behind the true one by half of the first
time step times the acceleration, at all later times. -/
theorem C156_negation_first_kick (m : Mode) (hm : m.OK) (d n : ℕ) (im g : Arr) (x v : Arr) (h : ℝ) (dts : List ℝ) (j : ℕ)
    (hj : j < n * d) : (vvRun m d n im (fun _ => g) (h :: dts) (fresh x v)).v j =
      v j + im (j / d) * g j * (h :: dts).sum - im (j / d) * g j * (h / 2) := by
  have hall : ∀ (dts : List ℝ) (s : PS), s.f j = g j →
      (vvRun m d n im (fun _ => g) dts s).v j = s.v j + im (j / d) * g j * dts.sum := by
    intro dts
    induction dts with
    | nil => intro s _; simp [vvRun]
    | cons dt l ih =>
      intro s hs
      have := ih (vvStep m d n im (fun _ => g) dt s) rfl
      simp only [vvRun, List.foldl_cons] at this ⊢
      rw [this]
      simp only [vvStep, C41_velocities m hm, if_pos hj, hs, List.sum_cons]
      ring
  have := hall dts (vvStep m d n im (fun _ => g) h (fresh x v)) rfl
  simp only [vvRun, List.foldl_cons] at this ⊢
  rw [this]
  simp only [vvStep, fresh, C41_velocities m hm, if_pos hj, List.sum_cons]
  ring

/-- The exact motion under constant force. -/
noncomputable def fall (d : ℕ) (im g x0 v0 : Arr) : (ℝ → Arr) × (ℝ → Arr) :=
  (fun t j => x0 j + v0 j * t + im (j / d) * g j / 2 * t ^ 2, fun t j => v0 j + im (j / d) * g j * t)

/-- **C156, negation.** Every simulation with a constant force on some movable particle, although all hypotheses of
`C156_second_order_partial` on motion and forces hold, has errors of first order only, if it is fresh. -/
theorem C156_negation_order (m : Mode) (hm : m.OK) (d n : ℕ) (im g x0 v0 : Arr) (T : ℝ) (hT : 0 < T) (j : ℕ) (hj : j < n * d)
    (hg : im (j / d) * g j ≠ 0) :
    ¬ ErrorOrder 2 m d n im (fun _ => g) T (fall d im g x0 v0).1 (fall d im g x0 v0).2 (fresh x0 v0) ∧
    Begins (n * d) (fall d im g x0 v0).1 (fall d im g x0 v0).2 (fresh x0 v0) ∧
    Solves (fun j => j < n * d) (acc d im fun _ => g) T (fall d im g x0 v0).1 (fall d im g x0 v0).2 ∧
    Tame (fun j => j < n * d) (acc d im fun _ => g) T (fall d im g x0 v0).1 (fall d im g x0 v0).2 1 0 ∧
    Smooth (fun j => j < n * d) (acc d im fun _ => g) T (fall d im g x0 v0).1 (fall d im g x0 v0).2 (fun _ _ => 0) 0 := by
  refine ⟨?_, fun j _ => by simp [fall, fresh], ⟨fun t _ j _ => ?_, fun t _ j _ => ?_⟩, fun t _ y w ε _ _ j _ => by simp [acc],
    ⟨fun t _ j _ => by simpa [acc] using hasDerivWithinAt_const t (Icc 0 T) (im (j / d) * g j), fun _ _ _ _ _ _ => by simp⟩⟩
  · rintro ⟨C, H₀, hH₀, h⟩
    set e := |im (j / d) * g j| with he
    have he0 : 0 < e := abs_pos.mpr hg
    have hC : 0 < |C| + 1 := by positivity
    set H := min (min H₀ T) (e / (4 * (|C| + 1))) with hH
    have hHpos : 0 < H := by positivity
    have h1 := h H hHpos ((min_le_left _ _).trans (min_le_left _ _)) [H] (by simp [hHpos.le])
      (by rw [List.sum_cons, List.sum_nil, add_zero]; exact (min_le_left _ _).trans (min_le_right _ _)) j hj
    have h2 := h1.2
    rw [C156_negation_first_kick m hm d n im g x0 v0 H [] j hj] at h2
    simp only [fall, List.sum_cons, List.sum_nil, add_zero] at h2
    rw [show v0 j + im (j / d) * g j * H - im (j / d) * g j * (H / 2) - (v0 j + im (j / d) * g j * H) =
      -(H / 2 * (im (j / d) * g j)) by ring, abs_neg, abs_mul, abs_of_pos (by positivity : 0 < H / 2), ← he] at h2
    have h3 : H ≤ e / (4 * (|C| + 1)) := min_le_right _ _
    rw [le_div_iff₀ (by positivity)] at h3
    have h4 : C ≤ |C| + 1 := (le_abs_self C).trans (by linarith)
    have h5 : C * H ^ 2 ≤ (|C| + 1) * H ^ 2 := mul_le_mul_of_nonneg_right h4 (by positivity)
    have h6 : (|C| + 1) * H ^ 2 ≤ H * (e / 4) := by nlinarith
    nlinarith
  · have h1 := ((hasDerivAt_id t).const_mul (v0 j)).const_add (x0 j)
    have h2 := (hasDerivAt_pow 2 t).const_mul (im (j / d) * g j / 2)
    have h3 := (h1.add h2).hasDerivWithinAt (s := Icc 0 T)
    refine h3.congr_deriv ?_
    simp only [fall]
    push_cast
    ring
  · have h1 := (((hasDerivAt_id t).const_mul (im (j / d) * g j)).const_add (v0 j)).hasDerivWithinAt (s := Icc 0 T)
    refine h1.congr_deriv ?_
    simp only [acc, mul_one]

/-- A particle on a spring, in one dimension: all hypotheses of `C156_second_order_partial` and `C156_first_order` hold. -/
example : let F : Arr → Arr := fun y j => -y j
    let x : ℝ → Arr := fun t _ => Real.cos t
    let v : ℝ → Arr := fun t _ => -Real.sin t
    Solves (fun j => j < 1 * 1) (acc 1 (fun _ => 1) F) 10 x v ∧ Mild (fun j => j < 1 * 1) (acc 1 (fun _ => 1) F) 10 x v 1 1 ∧
    Tame (fun j => j < 1 * 1) (acc 1 (fun _ => 1) F) 10 x v 1 1 ∧
    Smooth (fun j => j < 1 * 1) (acc 1 (fun _ => 1) F) 10 x v (fun t _ => Real.sin t) 1 ∧
    Begins (1 * 1) x v ⟨fun _ => 1, fun _ => 0, fun _ => -1⟩ ∧ ∀ j < 1 * 1, (fun _ => -1 : Arr) j = F (x 0) j := by
  have hcos : ∀ s t : ℝ, |Real.cos t - Real.cos s| ≤ 1 * |t - s| := by
    intro s t
    have := Convex.norm_image_sub_le_of_norm_hasDerivWithin_le (f := Real.cos) (f' := fun u => -Real.sin u) (C := 1)
      (s := univ) (x := s) (y := t) (fun u _ => (Real.hasDerivAt_cos u).hasDerivWithinAt)
      (fun u _ => by simpa using Real.abs_sin_le_one u) convex_univ trivial trivial
    simpa using this
  have hsin : ∀ s t : ℝ, |Real.sin t - Real.sin s| ≤ 1 * |t - s| := by
    intro s t
    have := Convex.norm_image_sub_le_of_norm_hasDerivWithin_le (f := Real.sin) (f' := fun u => Real.cos u) (C := 1)
      (s := univ) (x := s) (y := t) (fun u _ => (Real.hasDerivAt_sin u).hasDerivWithinAt)
      (fun u _ => by simpa using Real.abs_cos_le_one u) convex_univ trivial trivial
    simpa using this
  refine ⟨⟨fun t _ j _ => (Real.hasDerivAt_cos t).hasDerivWithinAt, fun t _ j _ => ?_⟩, ⟨fun t _ j _ => ?_, fun s _ t _ j _ => ?_⟩,
    fun t _ y w ε _ hy j hj => ?_, ⟨fun t _ j _ => ?_, fun s _ t _ j _ => hsin s t⟩, ?_, ?_⟩
  · simp only [acc, one_mul]; exact (Real.hasDerivAt_sin t).neg.hasDerivWithinAt
  · simp only [acc, one_mul, abs_neg]; exact Real.abs_cos_le_one t
  · simp only [acc, one_mul]
    have := hcos s t
    rw [show -Real.cos t - -Real.cos s = -(Real.cos t - Real.cos s) by ring, abs_neg]
    linarith
  · simp only [acc, one_mul]
    rw [show -y j - -Real.cos t = -(y j - Real.cos t) by ring, abs_neg]
    exact (hy j hj).1
  · simp only [acc, one_mul]
    exact ((Real.hasDerivAt_cos t).neg.hasDerivWithinAt (s := Icc (0 : ℝ) 10)).congr_deriv (neg_neg _)
  · intro j _; simp
  · intro j _; simp

end Verif.Convergence
