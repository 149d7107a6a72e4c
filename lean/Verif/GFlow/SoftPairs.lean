import Verif.GFlow.Symmetry
import Verif.GFlow.TrueMotion
import Mathlib.Analysis.ODE.PicardLindelof

/-!
# Pairs of soft spheres (for C171)

The spheres of `HardSphere` (`interactions/generic-forces.hpp:15-79`) push each other like springs while they overlap. This file has the potential and the force of a pair as functions of the displacement between the centres, in a
box that wraps, and what is needed about them: the force is minus the gradient of the potential, and it is Lipschitz away from coincident centres. The properties are in `Verif.GFlow.SoftSpheres`.
-/

set_option linter.unusedSectionVars false
set_option linter.unusedVariables false

namespace Verif.SoftSpheres
open Verif.Cells Verif.Grid Verif.Stencil Verif.ForceMaster Verif.PairForces Verif.Handlers Verif.ForceSum Verif.Verlet
open Verif.Trajectory Verif.Convergence Verif.Symmetry

variable {d : ℕ}

/-! ## Specification of the systems -/

/-- Spec: every pair of particles with an interaction has a `HardSphere` interaction (`interactions/generic-forces.hpp:15-79`) with positive repulsion and the cutoff of touching spheres. -/
def Soft (s : Setup d) (h : List Call) : Prop :=
  ∀ i j, s.Alive i → s.Alive j → i ≠ j → ∀ p, lastSet h (s.type i) (s.type j) = some p → s.cut p = 1 ∧ ∃ κ, 0 < κ ∧ s.force p = .hardSphere κ

/-- Spec: the repulsion of a pair of particles, 0 if they do not interact. -/
noncomputable def stiff (s : Setup d) (h : List Call) (i j : ℕ) : ℝ :=
  match lastSet h (s.type i) (s.type j) with
  | none => 0
  | some p => match s.force p with
    | .hardSphere κ => κ
    | _ => 0

/-! ## Lengths -/

theorem len_zero_iff (X : Fin d → ℝ) : len X = 0 ↔ X = 0 := by
  rw [len_norm, norm_eq_zero]
  constructor
  · intro h; funext k; have := congrArg (fun Y : EuclideanSpace ℝ (Fin d) => Y k) h; simpa using this
  · rintro rfl; rfl

theorem len_sub_le (X Y : Fin d → ℝ) : |len X - len Y| ≤ len (X - Y) := by
  rw [abs_le]
  constructor
  · have := len_add (X) (Y - X)
    have e : len (Y - X) = len (X - Y) := by rw [← len_neg]; congr 1; abel
    rw [add_sub_cancel, e] at this; linarith
  · have := len_add Y (X - Y)
    rw [add_sub_cancel] at this; linarith

theorem len_mono {X Y : Fin d → ℝ} (h : ∀ k, |X k| ≤ |Y k|) : len X ≤ len Y := by
  unfold len dot
  apply Real.sqrt_le_sqrt
  refine Finset.sum_le_sum fun k _ => ?_
  have := mul_self_le_mul_self (abs_nonneg _) (h k)
  simpa [abs_mul_abs_self] using this

theorem len_le_of {X : Fin d → ℝ} {ε : ℝ} (h : ∀ k, |X k| ≤ ε) : len X ≤ d * ε := by
  rcases Nat.eq_zero_or_pos d with rfl | hd
  · simp [len, dot]
  have hε : 0 ≤ ε := (abs_nonneg _).trans (h ⟨0, hd⟩)
  unfold len dot
  rw [Real.sqrt_le_left (by positivity)]
  calc ∑ k, X k * X k ≤ ∑ _k : Fin d, ε * ε := Finset.sum_le_sum fun k _ => by
        have := mul_self_le_mul_self (abs_nonneg _) (h k)
        simpa [abs_mul_abs_self] using this
    _ = d * (ε * ε) := by simp
    _ ≤ (d * ε) ^ 2 := by
        have : (1 : ℝ) ≤ d := by exact_mod_cast hd
        nlinarith [mul_nonneg hε hε]

/-! ## Nearest images -/

theorem nearest_rest (s : Setup d) (hv : ∀ k, (s.g k).Valid) (Z : Fin d → ℝ) : Lattice s (Z - nearest s.g Z) := by
  intro k
  by_cases hk : (s.g k).per = true
  · refine ⟨round (Z k / ((s.g k).hi - (s.g k).lo)), (fun e => by rw [hk] at e; cases e), ?_⟩
    simp only [Pi.sub_apply, nearest, if_pos hk]; ring
  · exact ⟨0, fun _ => rfl, by simp [nearest, hk]⟩

theorem nearest_self (s : Setup d) (hv : ∀ k, (s.g k).Valid) {Z : Fin d → ℝ} (h : ∀ k, (s.g k).per = true → |Z k| < ((s.g k).hi - (s.g k).lo) / 2) : nearest s.g Z = Z := by
  funext k
  unfold nearest
  by_cases hk : (s.g k).per = true
  · rw [if_pos hk, round_zero (sub_pos.mpr (hv k).lohi) (h k hk)]; simp
  · rw [if_neg hk]

/-- The nearest image is the shortest. -/
theorem nearest_min (s : Setup d) (hv : ∀ k, (s.g k).Valid) {Z L : Fin d → ℝ} (hL : Lattice s L) : len (nearest s.g Z) ≤ len (Z - L) := by
  refine len_mono fun k => ?_
  obtain ⟨z, hz, e⟩ := hL k
  rw [Pi.sub_apply, e]
  unfold nearest
  by_cases hk : (s.g k).per = true
  · rw [if_pos hk]
    have hW : 0 < (s.g k).hi - (s.g k).lo := sub_pos.mpr (hv k).lohi
    generalize (s.g k).hi - (s.g k).lo = W at *
    have h1 := round_le (Z k / W) z
    have e1 : Z k - W * round (Z k / W) = W * (Z k / W - round (Z k / W)) := by field_simp
    have e2 : Z k - z * W = W * (Z k / W - z) := by field_simp
    rw [e1, e2, abs_mul, abs_mul]
    exact mul_le_mul_of_nonneg_left h1 (abs_nonneg _)
  · rw [if_neg hk, hz (by simpa using hk)]; simp

theorem near_lip (s : Setup d) (hv : ∀ k, (s.g k).Valid) (Y Z : Fin d → ℝ) : |len (nearest s.g Y) - len (nearest s.g Z)| ≤ len (Y - Z) := by
  have key : ∀ Y Z : Fin d → ℝ, len (nearest s.g Y) ≤ len (nearest s.g Z) + len (Y - Z) := by
    intro Y Z
    have h1 := nearest_min s hv (Z := Y) (nearest_rest s hv Z)
    have h2 := len_add (nearest s.g Z) (Y - Z)
    have e : Y - (Z - nearest s.g Z) = nearest s.g Z + (Y - Z) := by abel
    rw [e] at h1
    linarith
  rw [abs_le]
  have e : len (Z - Y) = len (Y - Z) := by rw [← len_neg]; congr 1; abel
  constructor
  · have := key Z Y; rw [e] at this; linarith
  · have := key Y Z; linarith

/-- Near a displacement that is short compared with the box, nearest images move with the displacement. -/
theorem nearest_move (s : Setup d) (hv : ∀ k, (s.g k).Valid) {R η : ℝ} (hη : ∀ k, (s.g k).per = true → R + η ≤ ((s.g k).hi - (s.g k).lo) / 2) {Y Z : Fin d → ℝ}
    (h1 : len (nearest s.g Z) < R + η / 2) (h2 : len (Y - Z) ≤ η / 2) : nearest s.g Y = nearest s.g Z + (Y - Z) := by
  have e : nearest s.g Y = nearest s.g (nearest s.g Z + (Y - Z)) := by
    refine nearest_lattice s hv ?_
    have := nearest_rest s hv Z
    convert this using 1
    abel
  rw [e]
  refine nearest_self s hv fun k hk => ?_
  have a1 := abs_le_len (nearest s.g Z) k
  have a2 := abs_le_len (Y - Z) k
  have a3 := abs_add_le (nearest s.g Z k) ((Y - Z) k)
  have a4 := hη k hk
  rw [Pi.add_apply]
  linarith

/-! ## The spring of a pair -/

/-- The potential at a distance, `interactions/generic-forces.hpp:15-79`. -/
noncomputable def bump (κ R r : ℝ) : ℝ := 1 / 2 * κ * max 0 (R - r) ^ 2

/-- The force for a displacement of the centres; with `δ > 0` it is changed for distances below `δ`, so that it is Lipschitz, `interactions/generic-forces.hpp:15-79`. -/
noncomputable def spring (κ R δ : ℝ) (Y : Fin d → ℝ) : Fin d → ℝ := fun k => κ * max 0 (R - len Y) / max (len Y) δ * Y k

theorem bump_nonneg {κ R r : ℝ} (hκ : 0 ≤ κ) : 0 ≤ bump κ R r := by unfold bump; positivity

theorem hasDeriv_bump (κ R r : ℝ) : HasDerivAt (bump κ R) (-(κ * max 0 (R - r))) r := by
  have key : ∀ x : ℝ, HasDerivAt (fun y : ℝ => max 0 y ^ 2) (2 * max 0 x) x := by
    intro x
    rcases lt_trichotomy x 0 with hx | hx | hx
    · have : (fun y : ℝ => max 0 y ^ 2) =ᶠ[nhds x] fun _ => 0 := by
        filter_upwards [gt_mem_nhds hx] with y hy
        rw [max_eq_left hy.le]; simp
      rw [max_eq_left hx.le, mul_zero]
      exact (hasDerivAt_const x (0 : ℝ)).congr_of_eventuallyEq this
    · subst hx
      rw [max_self, mul_zero]
      rw [hasDerivAt_iff_isLittleO]
      have h2 : (fun y : ℝ => y ^ 2) =o[nhds 0] fun y => y := by
        have := (hasDerivAt_pow 2 (0 : ℝ)).isLittleO
        simpa using this
      refine Asymptotics.IsBigO.trans_isLittleO ?_ (by simpa using h2)
      refine Asymptotics.isBigO_of_le _ fun y => ?_
      simp only [max_self, sub_zero, smul_zero, Real.norm_eq_abs, ne_eq, OfNat.ofNat_ne_zero, not_false_eq_true, zero_pow, abs_pow, sq_abs]
      rcases le_total y 0 with hy | hy
      · rw [max_eq_left hy]; nlinarith [sq_nonneg y]
      · rw [max_eq_right hy]
    · have : (fun y : ℝ => max 0 y ^ 2) =ᶠ[nhds x] fun y => y ^ 2 := by
        filter_upwards [lt_mem_nhds hx] with y hy
        rw [max_eq_right hy.le]
      rw [max_eq_right hx.le]
      have h := (hasDerivAt_pow 2 x).congr_of_eventuallyEq this
      simpa using h
  have h1 := ((key (R - r)).comp r ((hasDerivAt_id r).const_sub R)).const_mul (1 / 2 * κ)
  refine h1.congr_deriv ?_
  ring

theorem bump_lip {κ R : ℝ} (hκ : 0 ≤ κ) (hR : 0 ≤ R) {r r' : ℝ} (h : 0 ≤ r) (h' : 0 ≤ r') : |bump κ R r - bump κ R r'| ≤ κ * R * |r - r'| := by
  have a : |max 0 (R - r) - max 0 (R - r')| ≤ |r - r'| := by
    have := abs_max_sub_max_le_abs (R - r) (R - r') (0 : ℝ)
    rw [max_comm, max_comm 0 (R - r')]
    refine this.trans (le_of_eq ?_)
    rw [← abs_neg]; congr 1; ring
  have b : 0 ≤ max 0 (R - r) + max 0 (R - r') ∧ max 0 (R - r) + max 0 (R - r') ≤ 2 * R := by
    have h1 : max 0 (R - r) ≤ R := max_le hR (by linarith)
    have h2 : max 0 (R - r') ≤ R := max_le hR (by linarith)
    exact ⟨by positivity, by linarith⟩
  have e : bump κ R r - bump κ R r' = 1 / 2 * κ * (max 0 (R - r) + max 0 (R - r')) * (max 0 (R - r) - max 0 (R - r')) := by
    unfold bump; ring
  rw [e, abs_mul, abs_of_nonneg (by have := b.1; positivity)]
  calc _ ≤ 1 / 2 * κ * (2 * R) * |r - r'| := by
        refine mul_le_mul ?_ a (abs_nonneg _) (by positivity)
        exact mul_le_mul_of_nonneg_left b.2 (by positivity)
    _ = _ := by ring

theorem spring_bound {κ R δ : ℝ} (hκ : 0 ≤ κ) (hR : 0 ≤ R) (hδ : 0 < δ) (Y : Fin d → ℝ) (k : Fin d) : |spring κ R δ Y k| ≤ κ * R := by
  unfold spring
  have h0 := len_nonneg Y
  have hm : 0 < max (len Y) δ := lt_max_of_lt_right hδ
  rw [abs_mul, abs_of_nonneg (by positivity)]
  have h1 : |Y k| ≤ max (len Y) δ := (abs_le_len Y k).trans (le_max_left _ _)
  have h2 : max 0 (R - len Y) ≤ R := max_le hR (by linarith)
  calc κ * max 0 (R - len Y) / max (len Y) δ * |Y k| ≤ κ * max 0 (R - len Y) / max (len Y) δ * max (len Y) δ :=
        mul_le_mul_of_nonneg_left h1 (by positivity)
    _ = κ * max 0 (R - len Y) := div_mul_cancel₀ _ hm.ne'
    _ ≤ κ * R := mul_le_mul_of_nonneg_left h2 hκ

theorem spring_far {κ R δ : ℝ} {Y : Fin d → ℝ} (h : R ≤ len Y) : spring κ R δ Y = 0 := by
  funext k
  unfold spring
  rw [max_eq_left (by linarith)]; simp

theorem spring_lip {κ R δ : ℝ} (hκ : 0 ≤ κ) (hR : 0 ≤ R) (hδ : 0 < δ) (Y Z : Fin d → ℝ) (k : Fin d) :
    |spring κ R δ Y k - spring κ R δ Z k| ≤ κ * (1 + 2 * R / δ) * len (Y - Z) := by
  set r := len Z with hr
  set r' := len Y with hr'
  have r0 : 0 ≤ r := len_nonneg _
  have r0' : 0 ≤ r' := len_nonneg _
  set m := max r δ with hm
  set m' := max r' δ with hm'
  have m0 : 0 < m := lt_max_of_lt_right hδ
  have m0' : 0 < m' := lt_max_of_lt_right hδ
  have md : δ ≤ m := le_max_right _ _
  have md' : δ ≤ m' := le_max_right _ _
  set q := max 0 (R - r) with hq
  set q' := max 0 (R - r') with hq'
  have q0 : 0 ≤ q := le_max_left _ _
  have q0' : 0 ≤ q' := le_max_left _ _
  have qR : q ≤ R := max_le hR (by linarith)
  have qR' : q' ≤ R := max_le hR (by linarith)
  set E := len (Y - Z) with hE
  have hE0 : 0 ≤ E := len_nonneg _
  have hrr : |r' - r| ≤ E := len_sub_le Y Z
  have hmm : |m' - m| ≤ E := (abs_max_sub_max_le_abs r' r δ).trans hrr
  have hqq : |q' - q| ≤ E := by
    have := abs_max_sub_max_le_abs (R - r') (R - r) (0 : ℝ)
    rw [max_comm (R - r'), max_comm (R - r)] at this
    refine this.trans (le_trans (le_of_eq ?_) hrr)
    rw [← abs_neg]; congr 1; ring
  have hYZ : |Y k - Z k| ≤ E := abs_le_len (Y - Z) k
  have hZ : |Z k| ≤ m := (abs_le_len Z k).trans (le_max_left _ _)
  have e : spring κ R δ Y k - spring κ R δ Z k = κ * (q' / m' * (Y k - Z k) + ((q' - q) / m + q' * (m - m') / (m * m')) * Z k) := by
    unfold spring
    rw [← hr, ← hr', ← hm, ← hm', ← hq, ← hq']
    field_simp
    ring
  rw [e, abs_mul, abs_of_nonneg hκ, mul_assoc]
  refine mul_le_mul_of_nonneg_left ?_ hκ
  have t1 : |q' / m' * (Y k - Z k)| ≤ R / δ * E := by
    rw [abs_mul, abs_of_nonneg (by positivity)]
    exact mul_le_mul (div_le_div₀ hR qR' hδ md') hYZ (abs_nonneg _) (by positivity)
  have t2 : |(q' - q) / m * Z k| ≤ E := by
    rw [abs_mul, abs_div, abs_of_pos m0]
    calc |q' - q| / m * |Z k| ≤ E / m * m := mul_le_mul (div_le_div_of_nonneg_right hqq m0.le) hZ (abs_nonneg _) (by positivity)
      _ = E := div_mul_cancel₀ _ m0.ne'
  have t3 : |q' * (m - m') / (m * m') * Z k| ≤ R / δ * E := by
    have e3 : q' * (m - m') / (m * m') * Z k = q' / m' * (m - m') * (Z k / m) := by field_simp
    rw [e3, abs_mul, abs_mul, abs_of_nonneg (by positivity : 0 ≤ q' / m')]
    have h1 : |Z k / m| ≤ 1 := by rw [abs_div, abs_of_pos m0]; exact (div_le_one m0).mpr hZ
    have h2 : |m - m'| ≤ E := by rw [abs_sub_comm]; exact hmm
    calc q' / m' * |m - m'| * |Z k / m| ≤ R / δ * E * 1 := by
          refine mul_le_mul ?_ h1 (abs_nonneg _) (by positivity)
          exact mul_le_mul (div_le_div₀ hR qR' hδ md') h2 (abs_nonneg _) (by positivity)
      _ = _ := mul_one _
  calc |q' / m' * (Y k - Z k) + ((q' - q) / m + q' * (m - m') / (m * m')) * Z k|
      = |q' / m' * (Y k - Z k) + ((q' - q) / m * Z k + q' * (m - m') / (m * m') * Z k)| := by congr 1; ring
    _ ≤ |q' / m' * (Y k - Z k)| + (|(q' - q) / m * Z k| + |q' * (m - m') / (m * m') * Z k|) :=
        (abs_add_le _ _).trans (add_le_add le_rfl (abs_add_le _ _))
    _ ≤ R / δ * E + (E + R / δ * E) := add_le_add t1 (add_le_add t2 t3)
    _ = (1 + 2 * R / δ) * E := by ring

/-- The changed force of nearest images is Lipschitz everywhere, also where images change. -/
theorem spring_near_lip (s : Setup d) (hv : ∀ k, (s.g k).Valid) {κ R δ η : ℝ} (hκ : 0 ≤ κ) (hR : 0 ≤ R) (hδ : 0 < δ) (hη0 : 0 < η)
    (hη : κ ≠ 0 → ∀ k, (s.g k).per = true → R + η ≤ ((s.g k).hi - (s.g k).lo) / 2) (Y Z : Fin d → ℝ) (k : Fin d) :
    |spring κ R δ (nearest s.g Y) k - spring κ R δ (nearest s.g Z) k| ≤ κ * (1 + 2 * R / δ + 4 * R / η) * len (Y - Z) := by
  have hE := len_nonneg (Y - Z)
  by_cases hκ0 : κ = 0
  · subst hκ0; simp [spring]
  by_cases h1 : len (Y - Z) ≤ η / 2
  · have hle : κ * (1 + 2 * R / δ) * len (Y - Z) ≤ κ * (1 + 2 * R / δ + 4 * R / η) * len (Y - Z) := by
      refine mul_le_mul_of_nonneg_right (mul_le_mul_of_nonneg_left ?_ hκ) hE
      have : 0 ≤ 4 * R / η := by positivity
      linarith
    by_cases h2 : len (nearest s.g Z) < R + η / 2
    · rw [nearest_move s hv (hη hκ0) h2 h1]
      have := spring_lip hκ hR hδ (nearest s.g Z + (Y - Z)) (nearest s.g Z) k
      rw [add_sub_cancel_left] at this
      exact this.trans hle
    · have h3 := (abs_le.mp (near_lip s hv Y Z)).1
      rw [spring_far (by linarith), spring_far (by linarith)]
      simp only [Pi.zero_apply, sub_self, abs_zero]
      positivity
  · push Not at h1
    have b1 := spring_bound hκ hR hδ (nearest s.g Y) k
    have b2 := spring_bound hκ hR hδ (nearest s.g Z) k
    calc _ ≤ κ * R + κ * R := (abs_sub _ _).trans (add_le_add b1 b2)
      _ = κ * (4 * R / η) * (η / 2) := by field_simp; ring
      _ ≤ κ * (4 * R / η) * len (Y - Z) := mul_le_mul_of_nonneg_left h1.le (by positivity)
      _ ≤ _ := by
        refine mul_le_mul_of_nonneg_right (mul_le_mul_of_nonneg_left ?_ hκ) hE
        have : 0 ≤ 2 * R / δ := by positivity
        linarith

/-- Along a path the potential of a pair falls by the work of the force. -/
theorem bump_work (s : Setup d) (hv : ∀ k, (s.g k).Valid) {κ R δ η : ℝ} (hκ : 0 ≤ κ) (hη0 : 0 < η)
    (hη : κ ≠ 0 → ∀ k, (s.g k).per = true → R + η ≤ ((s.g k).hi - (s.g k).lo) / 2) {S : Set ℝ} {t : ℝ} (Z : ℝ → Fin d → ℝ) (Z' : Fin d → ℝ)
    (hZ : ∀ k, HasDerivWithinAt (fun u => Z u k) (Z' k) S t) (h0 : κ ≠ 0 → 0 < len (nearest s.g (Z t)) ∧ δ ≤ len (nearest s.g (Z t))) :
    HasDerivWithinAt (fun u => bump κ R (len (nearest s.g (Z u)))) (-∑ k, spring κ R δ (nearest s.g (Z t)) k * Z' k) S t := by
  by_cases hκ0 : κ = 0
  · subst hκ0
    simp only [bump, spring, mul_zero, zero_mul, zero_div, Finset.sum_const_zero, neg_zero]
    exact hasDerivWithinAt_const _ _ _
  obtain ⟨hpos, hδ⟩ := h0 hκ0
  have hcont : ContinuousWithinAt (fun u => len (Z u - Z t)) S t := by
    have h1 : ContinuousWithinAt (fun u => Real.sqrt (∑ k, (Z u k - Z t k) * (Z u k - Z t k))) S t := by
      apply ContinuousWithinAt.sqrt
      refine tendsto_finsetSum _ fun k _ => ?_
      exact ((hZ k).continuousWithinAt.sub continuousWithinAt_const).mul ((hZ k).continuousWithinAt.sub continuousWithinAt_const)
    exact h1
  have hsmall : ∀ᶠ u in nhdsWithin t S, len (Z u - Z t) < η / 2 := by
    have h1 := hcont.eventually (gt_mem_nhds (show len (Z t - Z t) < η / 2 by rw [sub_self]; simp [len, dot]; positivity))
    exact h1
  by_cases hfar : R + η / 2 ≤ len (nearest s.g (Z t))
  · have e : (fun u => bump κ R (len (nearest s.g (Z u)))) =ᶠ[nhdsWithin t S] fun _ => 0 := by
      filter_upwards [hsmall] with u hu
      have := (abs_le.mp (near_lip s hv (Z u) (Z t))).1
      unfold bump
      rw [max_eq_left (by linarith)]; simp
    rw [spring_far (by linarith)]
    simp only [Pi.zero_apply, zero_mul, Finset.sum_const_zero, neg_zero]
    refine (hasDerivWithinAt_const t S (0 : ℝ)).congr_of_eventuallyEq e ?_
    unfold bump
    rw [max_eq_left (by linarith)]; simp
  · push Not at hfar
    set N := nearest s.g (Z t) with hN
    have e : (fun u => bump κ R (len (nearest s.g (Z u)))) =ᶠ[nhdsWithin t S] fun u => bump κ R (len (N + (Z u - Z t))) := by
      filter_upwards [hsmall] with u hu
      rw [nearest_move s hv (hη hκ0) hfar hu.le]
    have hsq : HasDerivWithinAt (fun u => ∑ k, (N k + (Z u k - Z t k)) * (N k + (Z u k - Z t k))) (∑ k, 2 * (N k * Z' k)) S t := by
      refine (HasDerivWithinAt.fun_sum (A := fun k u => (N k + (Z u k - Z t k)) * (N k + (Z u k - Z t k))) (A' := fun k => 2 * (N k * Z' k)) fun k _ => ?_)
      have h1 := ((hZ k).sub_const (Z t k)).const_add (N k)
      refine (h1.mul h1).congr_deriv ?_
      simp only [sub_self, add_zero]
      ring
    have hdot : ∑ k, (N k + (Z t k - Z t k)) * (N k + (Z t k - Z t k)) = dot N N := by simp [dot]
    have hne : dot N N ≠ 0 := by
      rw [← len_sq]; positivity
    have hlen : HasDerivWithinAt (fun u => len (N + (Z u - Z t))) ((∑ k, N k * Z' k) / len N) S t := by
      have h1 := hsq.sqrt (by rw [hdot]; exact hne)
      refine h1.congr_deriv ?_
      rw [hdot, ← Finset.mul_sum]
      show 2 * _ / (2 * len N) = _
      rw [mul_div_mul_left _ _ two_ne_zero]
    have hl0 : len (N + (Z t - Z t)) = len N := by rw [sub_self, add_zero]
    have h2 := (hasDeriv_bump κ R (len (N + (Z t - Z t)))).comp_hasDerivWithinAt t hlen
    refine (h2.congr_of_eventuallyEq e (by simp [hN])).congr_deriv ?_
    rw [hl0]
    simp only [spring, max_eq_left hδ]
    rw [mul_div_assoc', neg_mul, Finset.mul_sum, neg_div, Finset.sum_div]
    congr 1
    refine Finset.sum_congr rfl fun k _ => ?_
    ring

end Verif.SoftSpheres
