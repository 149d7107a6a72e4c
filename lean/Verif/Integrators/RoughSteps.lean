import Verif.Integrators.Convergence

/-!
# Methods that are close to velocity Verlet

Convergence of first order for steps that are velocity Verlet up to errors of one order more. This is used for drag (C175), whose
kicks are not symmetric.
-/

namespace Verif.RoughSteps
open Verif.Convergence Set

variable {ι α : Type*}

/-- Spec: a step with half kicked velocities `w`, whose kicks, accelerations and velocities may be wrong a little. -/
def Rough (S : ι → Prop) (a : (ι → ℝ) → (ι → ℝ) → ι → ℝ) (K dt : ℝ) (p q : Pt ι) : Prop :=
  ∃ w : ι → ℝ, ∀ j, S j → |w j - p.v j| ≤ K * dt ∧ q.x j = p.x j + dt * w j ∧ |q.c j - a q.x w j| ≤ K * dt ∧
    |q.v j - p.v j - dt / 2 * (p.c j + q.c j)| ≤ K * dt ^ 2

/-- Growth of errors, as `Convergence.gronwall`, for any sequence of states. -/
theorem gronwall (P : ℝ → ℝ → α → Prop) (F : ℝ → α → α) (T H M D E₀ Em : ℝ)
    (hM : 0 ≤ M) (hD : 0 ≤ D) (hE : 0 ≤ E₀) (hEm : Real.exp (M * T) * (E₀ + D * T) ≤ Em)
    (mono : ∀ t E E' p, E ≤ E' → P t E p → P t E' p)
    (hstep : ∀ t E dt p, 0 ≤ t → 0 ≤ dt → dt ≤ H → t + dt ≤ T → 0 ≤ E → E ≤ Em → P t E p →
      P (t + dt) ((1 + M * dt) * E + D * dt) (F dt p))
    (l : List ℝ) (hl : ∀ dt ∈ l, 0 ≤ dt ∧ dt ≤ H) (t : ℝ) (h0 : 0 ≤ t) (hT : t + l.sum ≤ T) (p : α)
    (hp : P t (Real.exp (M * t) * (E₀ + D * t)) p) :
    P (t + l.sum) (Real.exp (M * (t + l.sum)) * (E₀ + D * (t + l.sum))) (l.foldl (fun p dt => F dt p) p) := by
  induction l generalizing t p with
  | nil => simpa using hp
  | cons dt l ih =>
    obtain ⟨hd0, hdH⟩ := hl dt (by simp)
    have hsum : 0 ≤ l.sum := List.sum_nonneg fun x hx => (hl x (by simp [hx])).1
    rw [List.sum_cons] at hT ⊢
    have hEt : 0 ≤ E₀ + D * t := by positivity
    have hle : Real.exp (M * t) * (E₀ + D * t) ≤ Em := by
      refine le_trans ?_ hEm
      have : E₀ + D * t ≤ E₀ + D * T := by nlinarith
      have h3 : Real.exp (M * t) ≤ Real.exp (M * T) := Real.exp_le_exp.mpr (by nlinarith)
      exact mul_le_mul h3 this hEt (Real.exp_pos _).le
    have h4 := hstep t _ dt p h0 hd0 hdH (by linarith) (by positivity) hle hp
    have h5 := ih (fun x hx => hl x (by simp [hx])) (t + dt) (by linarith) (by linarith) _ (mono _ _ _ _ ?_ h4)
    · rw [show t + (dt + l.sum) = t + dt + l.sum by ring, List.foldl_cons]; exact h5
    · have h6 : 1 + M * dt ≤ Real.exp (M * dt) := by linarith [Real.add_one_le_exp (M * dt)]
      have h7 : Real.exp (M * (t + dt)) = Real.exp (M * t) * Real.exp (M * dt) := by rw [← Real.exp_add]; ring_nf
      have h8 : 1 ≤ Real.exp (M * (t + dt)) := Real.one_le_exp (by positivity)
      have h9 : (1 + M * dt) * (Real.exp (M * t) * (E₀ + D * t)) ≤ Real.exp (M * (t + dt)) * (E₀ + D * t) := by
        rw [h7, mul_comm (Real.exp (M * t)) (Real.exp (M * dt)), mul_assoc]
        exact mul_le_mul_of_nonneg_right h6 (by positivity)
      have h10 : D * dt ≤ Real.exp (M * (t + dt)) * (D * dt) := le_mul_of_one_le_left (by positivity) h8
      calc _ ≤ Real.exp (M * (t + dt)) * (E₀ + D * t) + Real.exp (M * (t + dt)) * (D * dt) := add_le_add h9 h10
        _ = _ := by ring

variable {S : ι → Prop} {a : (ι → ℝ) → (ι → ℝ) → ι → ℝ} {T : ℝ} {x v : ℝ → ι → ℝ} {A B L ρ : ℝ}

theorem pos_two (hs : Solves S a T x v) (hm : Mild S a T x v A B) {t h : ℝ} (h0 : 0 ≤ t) (hh : 0 ≤ h) (hT : t + h ≤ T)
    {j : ι} (hj : S j) : |x (t + h) j - x t j - h * v t j| ≤ A / 2 * h ^ 2 := by
  have := grow_pow (T := T) (c := A / 2) 1 (fun u => x u j - x t j - (u - t) * v t j)
    (fun u => v u j - 1 * v t j) h0 hh hT (by simp)
    (fun u hu => ((hs.pos u hu j hj).sub_const _).sub
      ((((hasDerivAt_id u).sub_const t).mul_const (v t j)).hasDerivWithinAt))
    (fun u h1 h2 => by
      have := vel_one hs hm (h := u - t) h0 (by linarith) (by linarith) hj
      rw [show t + (u - t) = u by ring] at this
      rw [one_mul]
      refine this.trans (le_of_eq ?_)
      push_cast; ring)
  simpa using this

/-- Errors after a rough step. -/
theorem rough_step (hs : Solves S a T x v) (hm : Mild S a T x v A B) (ht : Tame S a T x v ρ L) (hA : 0 ≤ A) (hB : 0 ≤ B)
    (hL : 0 ≤ L) {K : ℝ} (hK : 0 ≤ K) {H : ℝ} (hH : H ≤ 1) {t E Φ h : ℝ} {p q : Pt ι} (h0 : 0 ≤ t) (hh : 0 ≤ h) (hhH : h ≤ H)
    (hT : t + h ≤ T) (hE : 0 ≤ E) (hρ : 2 * E + (K + A) * H ≤ ρ) (hstep : Rough S a K h p q) (hp : Near S a x v t E Φ p) :
    Near S a x v (t + h) (E + h * E + h * (Φ / 2 + L * E) + (2 * K + A + B + L * (K + A)) * H * h)
      (L * (2 * E + (K + A) * H) + K * H) q := by
  obtain ⟨w, hw⟩ := hstep
  have hH0 : 0 ≤ H := hh.trans hhH
  have hhh : h ^ 2 ≤ H * h := by nlinarith
  have h1 : h ≤ 1 := hhH.trans hH
  have ex : ∀ j, S j → |q.x j - x (t + h) j| ≤ E + h * E + K * h ^ 2 + A / 2 * h ^ 2 := by
    intro j hj
    obtain ⟨e1, e2, e3, e4⟩ := hw j hj
    obtain ⟨p1, p2, p3⟩ := hp j hj
    have t1 : |x t j + h * v t j - x (t + h) j| ≤ A / 2 * h ^ 2 := by
      rw [abs_sub_comm]; convert pos_two hs hm h0 hh hT hj using 2; ring
    have s5 := tri (tri (tri p1 (scale hh p2) rfl) (scale hh e1) rfl) t1 (r := q.x j - x (t + h) j) (by rw [e2]; ring)
    refine s5.trans (le_of_eq ?_)
    ring
  have ew : ∀ j, S j → |w j - v (t + h) j| ≤ K * h + E + A * h := by
    intro j hj
    obtain ⟨e1, e2, e3, e4⟩ := hw j hj
    obtain ⟨p1, p2, p3⟩ := hp j hj
    have t1 := vel_one hs hm h0 hh hT hj
    rw [abs_sub_comm] at t1
    exact tri (tri e1 p2 rfl) t1 (r := w j - v (t + h) j) (by ring)
  have hKh : K * h ≤ K * H := mul_le_mul_of_nonneg_left hhH hK
  have hAh : A * h ≤ A * H := mul_le_mul_of_nonneg_left hhH hA
  have hhE : h * E ≤ E := mul_le_of_le_one_left hE h1
  have hKA : (K + A) * H = K * H + A * H := by ring
  have hh2 : h ^ 2 ≤ H := by nlinarith
  have hK2 : K * h ^ 2 ≤ K * H := mul_le_mul_of_nonneg_left hh2 hK
  have hA2 : A / 2 * h ^ 2 ≤ A * H := by
    have := mul_le_mul_of_nonneg_left hh2 hA
    have h3 : 0 ≤ A * h ^ 2 := by positivity
    linarith
  have ec : ∀ j, S j → |q.c j - a (x (t + h)) (v (t + h)) j| ≤ L * (2 * E + (K + A) * H) + K * H := by
    intro j hj
    have s1 := ht (t + h) ⟨by linarith, hT⟩ q.x w (2 * E + (K + A) * H) hρ
      (fun j hj => ⟨(ex j hj).trans (by linarith), (ew j hj).trans (by linarith)⟩) j hj
    have s2 := tri (hw j hj).2.2.1 s1 (r := q.c j - a (x (t + h)) (v (t + h)) j) (by ring)
    linarith
  intro j hj
  refine ⟨(ex j hj).trans ?_, ?_, ec j hj⟩
  · have g1 : K * h ^ 2 ≤ K * (H * h) := mul_le_mul_of_nonneg_left hhh hK
    have g2 : A * h ^ 2 ≤ A * (H * h) := mul_le_mul_of_nonneg_left hhh hA
    have g3 : 0 ≤ A * h ^ 2 := by positivity
    have hΦ : 0 ≤ Φ := (abs_nonneg _).trans (hp j hj).2.2
    have g4 : 0 ≤ h * (Φ / 2 + L * E) := by positivity
    have g5 : 0 ≤ B * (H * h) := by positivity
    have g6 : 0 ≤ L * (K + A) * (H * h) := by positivity
    have g7 : 0 ≤ K * (H * h) := by positivity
    rw [show (2 * K + A + B + L * (K + A)) * H * h = 2 * (K * (H * h)) + A * (H * h) + B * (H * h) + L * (K + A) * (H * h) by ring]
    linarith
  · obtain ⟨e1, e2, e3, e4⟩ := hw j hj
    obtain ⟨p1, p2, p3⟩ := hp j hj
    have t1 : |v t j + h * a (x t) (v t) j - v (t + h) j| ≤ B / 2 * h ^ 2 := by
      rw [abs_sub_comm]; convert vel_two hs hm h0 hh hT hj using 2; ring
    have t2 : |a (x (t + h)) (v (t + h)) j - a (x t) (v t) j| ≤ B * h := by
      have := hm.lip t ⟨h0, by linarith⟩ (t + h) ⟨by linarith, hT⟩ j hj
      rwa [add_sub_cancel_left, abs_of_nonneg hh] at this
    have hh2 : 0 ≤ h / 2 := by linarith
    have s5 := tri (tri (tri (tri (tri p2 e4 rfl) (scale hh2 p3) rfl) (scale hh2 (ec j hj)) rfl) (scale hh2 t2) rfl) t1
      (r := q.v j - v (t + h) j) (by ring)
    refine s5.trans ?_
    have g1 : K * h ^ 2 ≤ K * (H * h) := mul_le_mul_of_nonneg_left hhh hK
    have g2 : B * h ^ 2 ≤ B * (H * h) := mul_le_mul_of_nonneg_left hhh hB
    have g3 : 0 ≤ A * (H * h) := by positivity
    have g4 : 0 ≤ h * E := by positivity
    have g6 : 0 ≤ L * (K + A) * (H * h) := by positivity
    have g7 : 0 ≤ K * (H * h) := by positivity
    rw [show (2 * K + A + B + L * (K + A)) * H * h = 2 * (K * (H * h)) + A * (H * h) + B * (H * h) + L * (K + A) * (H * h) by ring,
      show h / 2 * (L * (2 * E + (K + A) * H) + K * H) = h * (L * E) + (L * (K + A) * (H * h)) / 2 + K * (H * h) / 2 by ring,
      show h / 2 * (B * h) = B * h ^ 2 / 2 by ring, show h * (Φ / 2 + L * E) = h / 2 * Φ + h * (L * E) by ring]
    linarith

/-- First order for rough steps. -/
theorem rough_order (pt : α → Pt ι) (F : ℝ → α → α) (hs : Solves S a T x v) (hm : Mild S a T x v A B)
    (ht : Tame S a T x v ρ L) (hA : 0 ≤ A) (hB : 0 ≤ B) (hL : 0 ≤ L) (hρ : 0 < ρ) (R : ℝ) (hR : 0 ≤ R) (K : ℝ) (hK : 0 ≤ K)
    (h₁ : ℝ) (hh₁ : 0 < h₁)
    (hrough : ∀ t ∈ Icc 0 T, ∀ dt, 0 ≤ dt → dt ≤ h₁ → t + dt ≤ T → ∀ p : α,
      Near S a x v t (ρ / 2) (R + L * ρ + 1) (pt p) → Rough S a K dt (pt p) (pt (F dt p))) :
    ∃ C H₀ : ℝ, 0 < H₀ ∧ ∀ H : ℝ, 0 < H → H ≤ H₀ → ∀ l : List ℝ, (∀ dt ∈ l, 0 ≤ dt ∧ dt ≤ H) → l.sum ≤ T → ∀ p : α,
      (∀ j, S j → (pt p).x j = x 0 j ∧ (pt p).v j = v 0 j ∧ |(pt p).c j - a (x 0) (v 0) j| ≤ R) →
      ∀ j, S j → |(pt (l.foldl (fun p dt => F dt p) p)).x j - x l.sum j| ≤ C * H ∧
        |(pt (l.foldl (fun p dt => F dt p) p)).v j - v l.sum j| ≤ C * H := by
  by_cases hT : 0 ≤ T
  swap
  · refine ⟨0, 1, one_pos, fun H _ _ l hl hsum => ?_⟩
    exact absurd ((List.sum_nonneg fun y hy => (hl y hy).1).trans hsum) hT
  set D := 2 * K + A + B + L * (K + A) with hD
  have hD0 : 0 ≤ D := by positivity
  set M := 1 + 2 * L with hM
  have hM0 : 0 ≤ M := by positivity
  set D' := D + L * (K + A) + K with hD'
  have hD'0 : 0 ≤ D' := by positivity
  set C := Real.exp (M * T) * (R / 2 + D' + D' * T) with hC
  have hC0 : 0 ≤ C := by positivity
  set H₀ := min (min 1 h₁) (ρ / (4 * (C + K + A + 1) + 4 * ρ * (K + 1))) with hH₀
  have hH₀p : 0 < H₀ := by
    rw [hH₀]; positivity
  refine ⟨C, H₀, hH₀p, fun H hH0 hHle l hl hsum p hp => ?_⟩
  have hH1 : H ≤ 1 := hHle.trans ((min_le_left _ _).trans (min_le_left _ _))
  have hHh : H ≤ h₁ := hHle.trans ((min_le_left _ _).trans (min_le_right _ _))
  have hHρ : H * (4 * (C + K + A + 1) + 4 * ρ * (K + 1)) ≤ ρ := by
    have h2 : H ≤ ρ / (4 * (C + K + A + 1) + 4 * ρ * (K + 1)) := hHle.trans (min_le_right _ _)
    rwa [le_div_iff₀ (by positivity)] at h2
  have hCH : 0 ≤ C * H := by positivity
  have hKH : 0 ≤ K * H := by positivity
  have hAH : 0 ≤ A * H := by positivity
  have hexp : H * (4 * (C + K + A + 1) + 4 * ρ * (K + 1)) = 4 * (C * H) + 4 * (K * H) + 4 * (A * H) + 4 * H + 4 * ρ * (K * H) + 4 * ρ * H := by
    ring
  rw [hexp] at hHρ
  have hρKH : 0 ≤ ρ * (K * H) := by positivity
  have hρH : 0 ≤ ρ * H := by positivity
  have hsm : 2 * (C * H) + (K + A) * H ≤ ρ / 2 := by
    rw [show (K + A) * H = K * H + A * H by ring]
    linarith
  have hKH1 : K * H ≤ 1 := by
    have : ρ * (4 * (K * H)) ≤ ρ * 1 := by linarith
    have := le_of_mul_le_mul_left this hρ
    linarith
  -- one step
  have one : ∀ t E Φ dt p, 0 ≤ t → 0 ≤ dt → dt ≤ H → t + dt ≤ T → 0 ≤ E → E ≤ C * H → Φ ≤ R + L * ρ + 1 →
      Near S a x v t E Φ (pt p) →
      Near S a x v (t + dt) (E + dt * E + dt * (Φ / 2 + L * E) + D * H * dt) (L * (2 * E + (K + A) * H) + K * H) (pt (F dt p)) := by
    intro t E Φ dt p h0 hdt hdtH hT' hE hEC hΦ hp
    refine rough_step hs hm ht hA hB hL hK hH1 h0 hdt hdtH hT' hE (by linarith) ?_ hp
    refine hrough t ⟨h0, by linarith⟩ dt hdt (by linarith) hT' p fun j hj => ?_
    obtain ⟨q1, q2, q3⟩ := hp j hj
    have hEρ : E ≤ ρ / 2 := by
      rw [show (K + A) * H = K * H + A * H by ring] at hsm
      linarith
    exact ⟨q1.trans hEρ, q2.trans hEρ, q3.trans hΦ⟩
  cases l with
  | nil =>
    intro j hj
    obtain ⟨e1, e2, _⟩ := hp j hj
    simp [e1, e2]; exact hCH
  | cons dt l =>
    obtain ⟨hdt0, hdtH⟩ := hl dt (by simp)
    rw [List.sum_cons] at hsum
    have hl0 : 0 ≤ l.sum := List.sum_nonneg fun y hy => (hl y (by simp [hy])).1
    have hLρ : 0 ≤ L * ρ := by positivity
    have first := one 0 0 R dt p le_rfl hdt0 hdtH (by linarith) le_rfl hCH (by linarith)
      (fun j hj => by obtain ⟨e1, e2, e3⟩ := hp j hj; rw [e1, e2]; simp; exact e3)
    rw [zero_add] at first
    have key := gronwall (fun t E p => Near S a x v t E (L * (2 * E + (K + A) * H) + K * H) (pt p)) F T H M (D' * H)
      ((R / 2 + D') * H) (C * H) hM0 (by positivity) (by positivity) (by rw [hC]; apply le_of_eq; ring)
      (fun t E E' p h hp => near_mono h (by
        have := mul_le_mul_of_nonneg_left h hL
        linarith [show L * (2 * E + (K + A) * H) = 2 * (L * E) + L * ((K + A) * H) by ring,
          show L * (2 * E' + (K + A) * H) = 2 * (L * E') + L * ((K + A) * H) by ring]) hp)
      (fun t E h p h0 hh hhH hT' hE hEm hp => by
        have hΦ : L * (2 * E + (K + A) * H) + K * H ≤ R + L * ρ + 1 := by
          have := mul_le_mul_of_nonneg_left (show 2 * E + (K + A) * H ≤ ρ by linarith) hL
          linarith
        have hn := one t E _ h p h0 hh hhH hT' hE hEm hΦ hp
        have hLE : 0 ≤ L * E := by positivity
        have hKA : 0 ≤ L * (K + A) * (H * h) := by positivity
        have hKHh : 0 ≤ K * (H * h) := by positivity
        have hle : E + h * E + h * ((L * (2 * E + (K + A) * H) + K * H) / 2 + L * E) + D * H * h ≤ (1 + M * h) * E + D' * H * h := by
          rw [hM, hD']
          have hx : (1 + (1 + 2 * L) * h) * E + (D + L * (K + A) + K) * H * h -
            (E + h * E + h * ((L * (2 * E + (K + A) * H) + K * H) / 2 + L * E) + D * H * h) =
            L * (K + A) * (H * h) / 2 + K * (H * h) / 2 := by ring
          linarith
        have hmono : E ≤ (1 + M * h) * E + D' * H * h := by
          have g1 : 0 ≤ M * h * E := by positivity
          have g2 : 0 ≤ D' * H * h := by positivity
          linarith [show (1 + M * h) * E = E + M * h * E by ring]
        refine near_mono hle ?_ hn
        have := mul_le_mul_of_nonneg_left hmono hL
        linarith [show L * (2 * E + (K + A) * H) = 2 * (L * E) + L * ((K + A) * H) by ring,
          show L * (2 * ((1 + M * h) * E + D' * H * h) + (K + A) * H) =
            2 * (L * ((1 + M * h) * E + D' * H * h)) + L * ((K + A) * H) by ring])
      l (fun y hy => hl y (by simp [hy])) dt hdt0 hsum (F dt p) ?_
    · intro j hj
      have hle : Real.exp (M * (dt + l.sum)) * ((R / 2 + D') * H + D' * H * (dt + l.sum)) ≤ C * H := by
        have h1 : Real.exp (M * (dt + l.sum)) ≤ Real.exp (M * T) := Real.exp_le_exp.mpr (mul_le_mul_of_nonneg_left hsum hM0)
        have h2 : (R / 2 + D') * H + D' * H * (dt + l.sum) ≤ (R / 2 + D') * H + D' * H * T := by
          have := mul_le_mul_of_nonneg_left hsum (by positivity : 0 ≤ D' * H)
          linarith
        calc _ ≤ Real.exp (M * T) * ((R / 2 + D') * H + D' * H * T) := mul_le_mul h1 h2 (by positivity) (Real.exp_pos _).le
          _ = C * H := by rw [hC]; ring
      rw [List.foldl_cons, List.sum_cons]
      exact ⟨(key j hj).1.trans hle, (key j hj).2.1.trans hle⟩
    · have h8 : 1 ≤ Real.exp (M * dt) := Real.one_le_exp (by positivity)
      have hdt1 : dt ≤ 1 := hdtH.trans hH1
      have g1 : (0:ℝ) + dt * 0 + dt * (R / 2 + L * 0) + D * H * dt ≤ Real.exp (M * dt) * ((R / 2 + D') * H + D' * H * dt) := by
        have q1 : dt * (R / 2) ≤ H * (R / 2) := mul_le_mul_of_nonneg_right hdtH (by positivity)
        have q2 : D * H * dt ≤ D * H := mul_le_of_le_one_right (by positivity) hdt1
        have q3 : D * H ≤ D' * H := mul_le_mul_of_nonneg_right (by rw [hD']; linarith [mul_nonneg hL (add_nonneg hK hA)]) hH0.le
        have q4 : 0 ≤ D' * H * dt := by positivity
        have q5 : (R / 2 + D') * H + D' * H * dt ≤ Real.exp (M * dt) * ((R / 2 + D') * H + D' * H * dt) :=
          le_mul_of_one_le_left (by positivity) h8
        have q6 : (R / 2 + D') * H = H * (R / 2) + D' * H := by ring
        linarith
      refine near_mono g1 ?_ first
      have g2 : (0 : ℝ) ≤ Real.exp (M * dt) * ((R / 2 + D') * H + D' * H * dt) := by positivity
      have := mul_nonneg hL g2
      linarith [show L * (2 * (0:ℝ) + (K + A) * H) = L * ((K + A) * H) by ring,
        show L * (2 * (Real.exp (M * dt) * ((R / 2 + D') * H + D' * H * dt)) + (K + A) * H) =
          2 * (L * (Real.exp (M * dt) * ((R / 2 + D') * H + D' * H * dt))) + L * ((K + A) * H) by ring]

/-- Spec: a step of velocity Verlet in which the first half kick has the whole drag `g v` and the second none, for accelerations
`a` without drag. Stored accelerations include half of the drag. -/
def DragStep (S : ι → Prop) (a : (ι → ℝ) → (ι → ℝ) → ι → ℝ) (g : ι → ℝ) (dt : ℝ) (p q : Pt ι) : Prop :=
  let u := fun j => p.v j + dt / 2 * (p.c j - 1/2 * g j * p.v j)
  ∀ j, S j → q.x j = p.x j + dt * u j ∧ q.v j = u j + dt / 2 * a q.x u j ∧ q.c j = a q.x u j - 1/2 * g j * q.v j

/-- A step with drag near the motion is a rough step for half of the drag. -/
theorem drag_rough (g : ι → ℝ) (a0 : (ι → ℝ) → (ι → ℝ) → ι → ℝ) (h0 : ∀ y u j, S j → a y u j = a0 y u j - 1/2 * g j * u j)
    (hs : Solves S a T x v) (hm : Mild S a T x v A B) (hl : Tame S a T x v ρ L) (hA : 0 ≤ A) (hL : 0 ≤ L) (hρ : 0 < ρ)
    (R : ℝ) (hR : 0 ≤ R) (V0 : ℝ) (hV0 : 0 ≤ V0) (bV0 : ∀ j, S j → |v 0 j| ≤ V0) (G : ℝ) (hG : 0 ≤ G) (bG : ∀ j, S j → |g j| ≤ G) :
    ∃ K h₁ : ℝ, 0 ≤ K ∧ 0 < h₁ ∧ ∀ t ∈ Icc 0 T, ∀ dt, 0 ≤ dt → dt ≤ h₁ → t + dt ≤ T → ∀ p q : Pt ι, DragStep S a0 g dt p q →
      Near S a x v t (ρ / 2) (R + L * ρ + 1) p → Rough S a K dt p q := by
  by_cases hT : 0 ≤ T
  swap
  · refine ⟨0, 1, le_rfl, one_pos, fun t ht => ?_⟩
    exact absurd (ht.1.trans ht.2) hT
  set V' := V0 + A * T + ρ / 2 with hV'
  have hV'0 : 0 ≤ V' := by positivity
  set Φ := A + R + L * ρ + 1 with hΦ
  have hΦ0 : 0 ≤ Φ := by positivity
  set K₁ := Φ + G * V' with hK₁
  have hK₁0 : 0 ≤ K₁ := by positivity
  set F := A + L * ρ + G * (V' + K₁) with hF
  have hF0 : 0 ≤ F := by positivity
  refine ⟨K₁ + G * (K₁ + F), min (1/4) (ρ / (4 * (K₁ + A + 1))), by positivity, by positivity, ?_⟩
  intro t ht dt hdt hdt1 hT' p q hstep hn
  have hd4 : dt ≤ 1/4 := hdt1.trans (min_le_left _ _)
  have hdρ : (K₁ + A) * dt ≤ ρ / 4 := by
    have h2 : dt ≤ ρ / (4 * (K₁ + A + 1)) := hdt1.trans (min_le_right _ _)
    rw [le_div_iff₀ (by positivity)] at h2
    nlinarith
  set u := fun j => p.v j + dt / 2 * (p.c j - 1/2 * g j * p.v j) with hu
  -- bounds
  have bv : ∀ j, S j → |p.v j| ≤ V' := by
    intro j hj
    have h1 := vel_one hs hm (t := 0) (h := t) le_rfl ht.1 (by linarith [ht.2]) hj
    rw [zero_add] at h1
    have h2 := tri (tri (bV0 j hj) h1 rfl) (hn j hj).2.1 (r := p.v j) (by ring)
    have h3 : A * t ≤ A * T := mul_le_mul_of_nonneg_left ht.2 hA
    linarith
  have bc : ∀ j, S j → |p.c j| ≤ Φ := by
    intro j hj
    have h2 := tri (hm.bound t ht j hj) (hn j hj).2.2 (r := p.c j) (by ring)
    linarith
  have prod : ∀ {a b P Q : ℝ}, |a| ≤ P → |b| ≤ Q → |a * b| ≤ P * Q := by
    intro a b P Q h1 h2
    rw [abs_mul]
    exact mul_le_mul h1 h2 (abs_nonneg _) ((abs_nonneg _).trans h1)
  have bw : ∀ j, S j → |u j - p.v j| ≤ K₁ * dt := by
    intro j hj
    have h1 := prod (bG j hj) (bv j hj)
    have h2 := tri (bc j hj) (scale (by norm_num : (0:ℝ) ≤ 1/2) (by rw [abs_neg]; exact h1 : |-(g j * p.v j)| ≤ G * V'))
      (r := p.c j - 1/2 * g j * p.v j) (by ring)
    have h3 := scale (by linarith : 0 ≤ dt / 2) h2
    have h4 : u j - p.v j = dt / 2 * (p.c j - 1/2 * g j * p.v j) := by simp only [hu]; ring
    rw [h4]
    refine h3.trans ?_
    have : 0 ≤ G * V' := by positivity
    have h5 : dt / 2 * (Φ + 1/2 * (G * V')) ≤ dt * (Φ + G * V') := by
      have g1 : 0 ≤ dt * Φ := by positivity
      have g2 : 0 ≤ dt * (G * V') := by positivity
      linarith [show dt / 2 * (Φ + 1/2 * (G * V')) = dt * Φ / 2 + dt * (G * V') / 4 by ring,
        show dt * (Φ + G * V') = dt * Φ + dt * (G * V') by ring]
    rw [hK₁]
    linarith
  have hKA : (K₁ + A) * dt = K₁ * dt + A * dt := by ring
  have hK1d : 0 ≤ K₁ * dt := by positivity
  have hAd : 0 ≤ A * dt := by positivity
  have ew : ∀ j, S j → |u j - v (t + dt) j| ≤ ρ := by
    intro j hj
    have t1 := vel_one hs hm ht.1 hdt hT' hj
    rw [abs_sub_comm] at t1
    have := tri (tri (bw j hj) (hn j hj).2.1 rfl) t1 (r := u j - v (t + dt) j) (by ring)
    linarith
  have ex : ∀ j, S j → |q.x j - x (t + dt) j| ≤ ρ := by
    intro j hj
    have t1 : |x t j + dt * v t j - x (t + dt) j| ≤ A / 2 * dt ^ 2 := by
      rw [abs_sub_comm]; convert pos_two hs hm ht.1 hdt hT' hj using 2; ring
    have s5 := tri (tri (tri (hn j hj).1 (scale hdt (hn j hj).2.1) rfl) (scale hdt (bw j hj)) rfl) t1
      (r := q.x j - x (t + dt) j) (by rw [(hstep j hj).1]; ring)
    refine s5.trans ?_
    have g1 : dt * (ρ / 2) ≤ 1/4 * (ρ / 2) := mul_le_mul_of_nonneg_right hd4 (by linarith)
    have g2 : dt * (K₁ * dt) ≤ 1/4 * (K₁ * dt) := mul_le_mul_of_nonneg_right hd4 hK1d
    have g3 : A / 2 * dt ^ 2 ≤ 1/4 * (A * dt) := by
      have := mul_le_mul_of_nonneg_right hd4 hAd
      have h0 : 0 ≤ dt * (A * dt) := by positivity
      linarith [show A / 2 * dt ^ 2 = dt * (A * dt) / 2 by ring]
    linarith
  have bf : ∀ j, S j → |a0 q.x u j| ≤ F := by
    intro j hj
    have h1 := hl (t + dt) ⟨by linarith [ht.1], hT'⟩ q.x u ρ le_rfl (fun j hj => ⟨ex j hj, ew j hj⟩) j hj
    have h2 := hm.bound (t + dt) ⟨by linarith [ht.1], hT'⟩ j hj
    have h3 : |u j| ≤ V' + K₁ := by
      have := tri (bv j hj) (bw j hj) (r := u j) (by ring)
      have : K₁ * dt ≤ K₁ := mul_le_of_le_one_right hK₁0 (by linarith)
      linarith
    have h4 := prod (bG j hj) h3
    have h5 := tri (tri h2 h1 rfl) (scale (by norm_num : (0:ℝ) ≤ 1/2) h4) (r := a0 q.x u j)
      (by rw [h0 q.x u j hj]; ring)
    have : 0 ≤ G * (V' + K₁) := by positivity
    linarith
  refine ⟨u, fun j hj => ?_⟩
  obtain ⟨e1, e2, e3⟩ := hstep j hj
  have hGK : 0 ≤ G * (K₁ + F) * dt := by positivity
  have hv : |q.v j - p.v j| ≤ (K₁ + F) * dt := by
    have := tri (bw j hj) (scale (by linarith : 0 ≤ dt / 2) (bf j hj)) (r := q.v j - p.v j) (by rw [e2]; ring)
    have : 0 ≤ dt * F := by positivity
    linarith [show (K₁ + F) * dt = K₁ * dt + dt * F by ring, show dt / 2 * F = dt * F / 2 by ring]
  refine ⟨?_, e1, ?_, ?_⟩
  · refine (bw j hj).trans ?_
    linarith [show (K₁ + G * (K₁ + F)) * dt = K₁ * dt + G * (K₁ + F) * dt by ring]
  · have h1 : q.c j - a q.x u j = -(dt / 4 * (g j * a0 q.x u j)) := by
      rw [h0 q.x u j hj, e3, e2]; ring
    rw [h1, abs_neg]
    refine (scale (by linarith : 0 ≤ dt / 4) (prod (bG j hj) (bf j hj))).trans ?_
    have g1 : 0 ≤ G * F * dt := by positivity
    have g2 : 0 ≤ G * K₁ * dt := by positivity
    linarith [show (K₁ + G * (K₁ + F)) * dt = K₁ * dt + G * K₁ * dt + G * F * dt by ring, show dt / 4 * (G * F) = G * F * dt / 4 by ring]
  · have h1 : q.v j - p.v j - dt / 2 * (p.c j + q.c j) = dt / 4 * (g j * (q.v j - p.v j)) := by
      rw [e3]
      have : a0 q.x u j * (dt / 2) = q.v j - u j := by rw [e2]; ring
      have h2 : u j = p.v j + dt / 2 * (p.c j - 1/2 * g j * p.v j) := rfl
      linear_combination (-1) * this + h2
    rw [h1]
    refine (scale (by linarith : 0 ≤ dt / 4) (prod (bG j hj) hv)).trans ?_
    have g1 : 0 ≤ G * (K₁ + F) * dt ^ 2 := by positivity
    have g2 : 0 ≤ K₁ * dt ^ 2 := by positivity
    linarith [show dt / 4 * (G * ((K₁ + F) * dt)) = G * (K₁ + F) * dt ^ 2 / 4 by ring,
      show (K₁ + G * (K₁ + F)) * dt ^ 2 = K₁ * dt ^ 2 + G * (K₁ + F) * dt ^ 2 by ring]

end Verif.RoughSteps
