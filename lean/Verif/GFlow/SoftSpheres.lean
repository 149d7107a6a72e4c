import Verif.GFlow.SoftPairs

/-!
# C171: soft spheres move for all times and keep their energy

Systems whose interactions are those of `HardSphere` (`Verif.GFlow.SoftPairs`), in boxes of any dimension with wrapping or open sides. This file is about exact motions, those of Newton's equations without time steps; the simulation is in `Verif.GFlow.SoftRun`.
-/

set_option linter.unusedSectionVars false
set_option linter.unusedVariables false

namespace Verif.SoftSpheres
open Verif.Cells Verif.Grid Verif.Stencil Verif.ForceMaster Verif.PairForces Verif.Handlers Verif.ForceSum Verif.Verlet
open Verif.Trajectory Verif.Convergence Verif.Symmetry Verif.TrueMotion
open Set (Icc Ico Ioc Ioi)

variable {d : ℕ}

/-! ## Specification -/

/-- Spec: the distance of the nearest images of two particles. -/
noncomputable def gap (s : Setup d) (y : ℕ × Fin d → ℝ) (i j : ℕ) : ℝ := len (nearest s.g fun k => y (i, k) - y (j, k))

/-- Spec: the kinetic energy of all particles. -/
noncomputable def kinetic (s : Setup d) (im : ℕ → ℝ) (w : ℕ × Fin d → ℝ) : ℝ := ∑ i ∈ live s, ∑ k, 1 / 2 * (1 / im i) * w (i, k) ^ 2

/-- Spec: the potential energy: each pair (twice in the sum) has the energy `½ κ (R - r)²` of a compressed spring. -/
noncomputable def potential (s : Setup d) (h : List Call) (y : ℕ × Fin d → ℝ) : ℝ :=
  1 / 2 * ∑ i ∈ live s, ∑ j ∈ (live s).filter (· ≠ i), bump (stiff s h i j) (s.rd i + s.rd j) (gap s y i j)

/-- Spec: the energy. -/
noncomputable def energy (s : Setup d) (h : List Call) (im : ℕ → ℝ) (y w : ℕ × Fin d → ℝ) : ℝ := kinetic s im w + potential s h y

/-- Spec: the energy is too low to press two interacting particles into each other until their centres coincide. -/
def Below (s : Setup d) (h : List Call) (E : ℝ) : Prop :=
  ∀ i j, s.Alive i → s.Alive j → i ≠ j → stiff s h i j ≠ 0 → E < 1 / 2 * stiff s h i j * (s.rd i + s.rd j) ^ 2

/-- Spec: centres of interacting particles are at least `δ` apart. -/
def Clear (s : Setup d) (h : List Call) (δ : ℝ) (y : ℕ × Fin d → ℝ) : Prop :=
  ∀ i j, s.Alive i → s.Alive j → i ≠ j → stiff s h i j ≠ 0 → δ ≤ gap s y i j

/-! ## Forces -/

section forces
variable {s : Setup d} {h : List Call} {x0 : ℕ → Fin d → ℝ}

theorem stiff_nonneg (hs : Soft s h) {i j : ℕ} (hi : s.Alive i) (hj : s.Alive j) (hij : i ≠ j) : 0 ≤ stiff s h i j := by
  unfold stiff
  cases hp : lastSet h (s.type i) (s.type j) with
  | none => simp
  | some p =>
    obtain ⟨_, κ, h1, h2⟩ := hs i j hi hj hij p hp
    simp only [h2]; exact h1.le

theorem stiff_symm (href : AllReflexive h) (i j : ℕ) : stiff s h j i = stiff s h i j := by
  unfold stiff
  rw [lastSet_symm href (s.type j)]

theorem stiff_ne (hs : Soft s h) {i j : ℕ} (hi : s.Alive i) (hj : s.Alive j) (hij : i ≠ j) (hp : lastSet h (s.type i) (s.type j) ≠ none) : stiff s h i j ≠ 0 := by
  unfold stiff
  cases hp' : lastSet h (s.type i) (s.type j) with
  | none => exact absurd hp' hp
  | some p =>
    obtain ⟨_, κ, h1, h2⟩ := hs i j hi hj hij p hp'
    simp only [h2]; exact h1.ne'

theorem gap_symm (hv : ∀ k, (s.g k).Valid) (y : ℕ × Fin d → ℝ) (i j : ℕ) : gap s y j i = gap s y i j := by
  have key : ∀ Z : Fin d → ℝ, len (nearest s.g (-Z)) ≤ len (nearest s.g Z) := by
    intro Z
    have h1 := nearest_min s hv (Z := -Z) (nearest_rest s hv Z).neg
    have e : -Z - -(Z - nearest s.g Z) = -nearest s.g Z := by abel
    rw [e, len_neg] at h1
    exact h1
  have e : (fun k => y (j, k) - y (i, k)) = -fun k => y (i, k) - y (j, k) := by funext k; simp
  unfold gap
  refine le_antisymm ?_ ?_
  · rw [e]; exact key _
  · have := key (fun k => y (j, k) - y (i, k))
    rw [e, neg_neg] at this
    rw [e]; exact this

theorem gap_lip (hv : ∀ k, (s.g k).Valid) (y y' : ℕ × Fin d → ℝ) {ε : ℝ} {i j : ℕ} (h1 : ∀ k, |y (i, k) - y' (i, k)| ≤ ε) (h2 : ∀ k, |y (j, k) - y' (j, k)| ≤ ε) :
    |gap s y i j - gap s y' i j| ≤ d * (2 * ε) := by
  refine (near_lip s hv _ _).trans (len_le_of fun k => ?_)
  simp only [Pi.sub_apply]
  have a1 := abs_le.mp (h1 k)
  have a2 := abs_le.mp (h2 k)
  rw [abs_le]
  constructor <;> linarith [a1.1, a1.2, a2.1, a2.2]

theorem gap_nonneg (y : ℕ × Fin d → ℝ) (i j : ℕ) : 0 ≤ gap s y i j := len_nonneg _

theorem soft_direct (hs : Soft s h) {δ : ℝ} (hδ : 0 < δ) (P : Parts d) (hrd : P.rd = s.rd) {i j : ℕ} (hi : s.Alive i) (hj : s.Alive j) (hij : i ≠ j)
    (hc : stiff s h i j ≠ 0 → δ ≤ len (nearest s.g (P.x i - P.x j))) (k : Fin d) :
    s.direct h P i j k = spring (stiff s h i j) (s.rd i + s.rd j) δ (nearest s.g (P.x i - P.x j)) k := by
  unfold Setup.direct
  have hst : stiff s h i j = match lastSet h (s.type i) (s.type j) with
    | none => 0
    | some p => match s.force p with
      | .hardSphere κ => κ
      | _ => 0 := rfl
  cases hp : lastSet h (s.type i) (s.type j) with
  | none =>
    rw [hp] at hst
    simp only at hst ⊢
    rw [hst]; simp [spring]
  | some p =>
    obtain ⟨h1, κ, h2, h3⟩ := hs i j hi hj hij p hp
    rw [hp] at hst
    simp only [h3] at hst ⊢
    rw [hst] at hc ⊢
    have hc' := hc h2.ne'
    unfold pushed spring
    rw [h1, mul_one, hrd]
    by_cases hl : len (nearest s.g (P.x i - P.x j)) < s.rd i + s.rd j
    · rw [if_pos hl, max_eq_left hc', max_eq_right (by linarith)]
      simp only [Force.mag, hrd]
      ring
    · rw [if_neg hl, max_eq_left (by linarith)]; simp

theorem soft_pot (hs : Soft s h) (P : Parts d) (hrd : P.rd = s.rd) {i j : ℕ} (hi : s.Alive i) (hj : s.Alive j) (hij : i ≠ j) :
    s.directPot h P i j = bump (stiff s h i j) (s.rd i + s.rd j) (len (nearest s.g (P.x i - P.x j))) := by
  unfold Setup.directPot
  have hst : stiff s h i j = match lastSet h (s.type i) (s.type j) with
    | none => 0
    | some p => match s.force p with
      | .hardSphere κ => κ
      | _ => 0 := rfl
  cases hp : lastSet h (s.type i) (s.type j) with
  | none =>
    rw [hp] at hst
    simp only at hst ⊢
    rw [hst]; simp [bump]
  | some p =>
    obtain ⟨h1, κ, h2, h3⟩ := hs i j hi hj hij p hp
    rw [hp] at hst
    simp only [h3] at hst ⊢
    rw [hst]
    unfold bump
    rw [h1, mul_one, hrd]
    by_cases hl : len (nearest s.g (P.x i - P.x j)) < s.rd i + s.rd j
    · rw [if_pos hl, max_eq_right (by linarith)]
      simp only [Force.pot, hrd]
      ring
    · rw [if_neg hl, max_eq_left (by linarith)]; simp

theorem live_filter (s : Setup d) (i : ℕ) : (Finset.range s.number).filter (fun b => b ≠ i ∧ 0 ≤ s.type b) = (live s).filter (· ≠ i) := by
  ext j
  simp only [live, Finset.mem_filter]
  tauto

theorem margin (hok : s.OK h x0) (href : AllReflexive h) (hs : Soft s h) : ∃ η, 0 < η ∧ ∀ i j, s.Alive i → s.Alive j → i ≠ j → stiff s h i j ≠ 0 → ∀ k, (s.g k).per = true →
    s.rd i + s.rd j + η ≤ ((s.g k).hi - (s.g k).lo) / 2 := by
  obtain ⟨η, h0, h1⟩ : ∃ η, 0 < η ∧ ∀ k, η ≤ (s.g k).w / 2 := by
    have : ∀ᶠ η in nhdsWithin (0 : ℝ) (Ioi 0), ∀ k, η ≤ (s.g k).w / 2 := by
      rw [Filter.eventually_all]
      intro k
      have hw := (hok.valid k).wpos
      filter_upwards [mem_nhdsWithin_of_mem_nhds (gt_mem_nhds (show (0 : ℝ) < (s.g k).w / 2 by positivity))] with x hx using le_of_lt hx
    obtain ⟨η, h1, h2⟩ := (this.and self_mem_nhdsWithin).exists
    exact ⟨η, h2, h1⟩
  refine ⟨η, h0, fun i j hi hj hij hst k hk => ?_⟩
  unfold stiff at hst
  cases hp : lastSet h (s.type i) (s.type j) with
  | none => rw [hp] at hst; simp at hst
  | some p =>
    obtain ⟨c1, _⟩ := hs i j hi hj hij p hp
    have hr := (reach_le hok hi hj href hp).2
    rw [c1, mul_one] at hr
    have hw := width_ge hok hk
    have := hok.skin_nonneg
    linarith [h1 k]

end forces

/-! ## A field that is Lipschitz everywhere -/

/-- The accelerations of springs that are changed below the distance `δ`. -/
noncomputable def gentle (s : Setup d) (h : List Call) (im : ℕ → ℝ) (δ : ℝ) (y : ℕ × Fin d → ℝ) : ℕ × Fin d → ℝ := fun j =>
  im j.1 * ∑ b ∈ (live s).filter (· ≠ j.1), spring (stiff s h j.1 b) (s.rd j.1 + s.rd b) δ (nearest s.g fun k => y (j.1, k) - y (b, k)) j.2

section field
variable {s : Setup d} {h : List Call} {x0 : ℕ → Fin d → ℝ} (hok : s.OK h x0) (href : AllReflexive h) (hs : Soft s h) (im : ℕ → ℝ)
include hok href hs

theorem newton_gentle {δ : ℝ} (hδ : 0 < δ) {y : ℕ × Fin d → ℝ} (hc : Clear s h δ y) (w : ℕ × Fin d → ℝ) (j : ℕ × Fin d) (hj : Coord s j) :
    newton s h im y w j = gentle s h im δ y j := by
  unfold newton gentle
  congr 1
  refine Finset.sum_congr ?_ fun b hb => ?_
  · rw [← live_filter]
  · obtain ⟨hb1, hb2⟩ := Finset.mem_filter.mp hb
    have hb3 := mem_live.mp hb1
    exact soft_direct hs hδ ⟨fun i k => y (i, k), fun i k => w (i, k), s.rd, im⟩ rfl hj hb3 (Ne.symm hb2)
      (fun hst => hc j.1 b hj hb3 (Ne.symm hb2) hst) j.2

theorem rd_sum {i j : ℕ} (hi : s.Alive i) (hj : s.Alive j) : 0 ≤ s.rd i + s.rd j := add_nonneg (hok.rd_nonneg i hi) (hok.rd_nonneg j hj)

theorem gentle_bound {δ : ℝ} (hδ : 0 < δ) : ∃ A, 0 ≤ A ∧ ∀ y j, Coord s j → |gentle s h im δ y j| ≤ A := by
  refine ⟨(∑ i ∈ live s, |im i|) * ∑ i ∈ live s, ∑ b ∈ (live s).filter (· ≠ i), stiff s h i b * (s.rd i + s.rd b), ?_, fun y j hj => ?_⟩
  · refine mul_nonneg (Finset.sum_nonneg fun _ _ => abs_nonneg _) (Finset.sum_nonneg fun i hi => Finset.sum_nonneg fun b hb => ?_)
    obtain ⟨b1, b2⟩ := Finset.mem_filter.mp hb
    exact mul_nonneg (stiff_nonneg hs (mem_live.mp hi) (mem_live.mp b1) (Ne.symm b2)) (rd_sum hok href hs (mem_live.mp hi) (mem_live.mp b1))
  · unfold gentle
    rw [abs_mul]
    refine mul_le_mul ?_ ?_ (abs_nonneg _) (Finset.sum_nonneg fun _ _ => abs_nonneg _)
    · exact Finset.single_le_sum (f := fun i => |im i|) (fun _ _ => abs_nonneg _) (mem_live.mpr hj)
    · have h1 : |∑ b ∈ (live s).filter (· ≠ j.1), spring (stiff s h j.1 b) (s.rd j.1 + s.rd b) δ (nearest s.g fun k => y (j.1, k) - y (b, k)) j.2| ≤
          ∑ b ∈ (live s).filter (· ≠ j.1), stiff s h j.1 b * (s.rd j.1 + s.rd b) := by
        refine (Finset.abs_sum_le_sum_abs _ _).trans (Finset.sum_le_sum fun b hb => ?_)
        obtain ⟨b1, b2⟩ := Finset.mem_filter.mp hb
        exact spring_bound (stiff_nonneg hs hj (mem_live.mp b1) (Ne.symm b2)) (rd_sum hok href hs hj (mem_live.mp b1)) hδ _ _
      refine h1.trans (Finset.single_le_sum (f := fun i => ∑ b ∈ (live s).filter (· ≠ i), stiff s h i b * (s.rd i + s.rd b)) (fun i hi => ?_) (mem_live.mpr hj))
      refine Finset.sum_nonneg fun b hb => ?_
      obtain ⟨b1, b2⟩ := Finset.mem_filter.mp hb
      exact mul_nonneg (stiff_nonneg hs (mem_live.mp hi) (mem_live.mp b1) (Ne.symm b2)) (rd_sum hok href hs (mem_live.mp hi) (mem_live.mp b1))

theorem gentle_lip {δ : ℝ} (hδ : 0 < δ) : ∃ L, 0 ≤ L ∧ ∀ y y' ε, 0 ≤ ε → (∀ j, Coord s j → |y j - y' j| ≤ ε) → ∀ j, Coord s j → |gentle s h im δ y j - gentle s h im δ y' j| ≤ L * ε := by
  obtain ⟨η, hη0, hη⟩ := margin hok href hs
  set Λ : ℕ → ℕ → ℝ := fun i b => stiff s h i b * (1 + 2 * (s.rd i + s.rd b) / δ + 4 * (s.rd i + s.rd b) / η) with hΛ
  have hΛ0 : ∀ i ∈ live s, ∀ b ∈ (live s).filter (· ≠ i), 0 ≤ Λ i b := by
    intro i hi b hb
    obtain ⟨b1, b2⟩ := Finset.mem_filter.mp hb
    have r := rd_sum hok href hs (mem_live.mp hi) (mem_live.mp b1)
    have k := stiff_nonneg hs (mem_live.mp hi) (mem_live.mp b1) (Ne.symm b2)
    simp only [hΛ]
    positivity
  refine ⟨(∑ i ∈ live s, |im i|) * ((∑ i ∈ live s, ∑ b ∈ (live s).filter (· ≠ i), Λ i b) * (d * 2)), ?_, fun y y' ε hε hy j hj => ?_⟩
  · refine mul_nonneg (Finset.sum_nonneg fun _ _ => abs_nonneg _) (mul_nonneg (Finset.sum_nonneg fun i hi => Finset.sum_nonneg fun b hb => hΛ0 i hi b hb) (by positivity))
  · unfold gentle
    rw [← mul_sub, abs_mul, mul_assoc]
    refine mul_le_mul ?_ ?_ (abs_nonneg _) (Finset.sum_nonneg fun _ _ => abs_nonneg _)
    · exact Finset.single_le_sum (f := fun i => |im i|) (fun _ _ => abs_nonneg _) (mem_live.mpr hj)
    · rw [← Finset.sum_sub_distrib]
      have h1 : |∑ b ∈ (live s).filter (· ≠ j.1), (spring (stiff s h j.1 b) (s.rd j.1 + s.rd b) δ (nearest s.g fun k => y (j.1, k) - y (b, k)) j.2 -
          spring (stiff s h j.1 b) (s.rd j.1 + s.rd b) δ (nearest s.g fun k => y' (j.1, k) - y' (b, k)) j.2)| ≤ ∑ b ∈ (live s).filter (· ≠ j.1), Λ j.1 b * (d * 2 * ε) := by
        refine (Finset.abs_sum_le_sum_abs _ _).trans (Finset.sum_le_sum fun b hb => ?_)
        obtain ⟨b1, b2⟩ := Finset.mem_filter.mp hb
        refine (spring_near_lip s hok.valid (stiff_nonneg hs hj (mem_live.mp b1) (Ne.symm b2)) (rd_sum hok href hs hj (mem_live.mp b1)) hδ hη0
          (hη j.1 b hj (mem_live.mp b1) (Ne.symm b2)) _ _ _).trans ?_
        refine mul_le_mul_of_nonneg_left ?_ (hΛ0 j.1 (mem_live.mpr hj) b hb)
        have := len_le_of (X := (fun k => y (j.1, k) - y (b, k)) - fun k => y' (j.1, k) - y' (b, k)) (ε := 2 * ε) fun k => by
          simp only [Pi.sub_apply]
          have a1 := abs_le.mp (hy (j.1, k) hj)
          have a2 := abs_le.mp (hy (b, k) (mem_live.mp b1))
          rw [abs_le]
          constructor <;> linarith [a1.1, a1.2, a2.1, a2.2]
        linarith
      refine h1.trans ?_
      rw [← Finset.sum_mul]
      have h2 : ∑ b ∈ (live s).filter (· ≠ j.1), Λ j.1 b ≤ ∑ i ∈ live s, ∑ b ∈ (live s).filter (· ≠ i), Λ i b :=
        Finset.single_le_sum (f := fun i => ∑ b ∈ (live s).filter (· ≠ i), Λ i b) (fun i hi => Finset.sum_nonneg fun b hb => hΛ0 i hi b hb) (mem_live.mpr hj)
      calc _ ≤ (∑ i ∈ live s, ∑ b ∈ (live s).filter (· ≠ i), Λ i b) * (d * 2 * ε) := mul_le_mul_of_nonneg_right h2 (by positivity)
        _ = _ := by ring

/-! ## Energy -/

theorem spring_anti {δ : ℝ} (hδ : 0 < δ) {y : ℕ × Fin d → ℝ} (hc : Clear s h δ y) {i j : ℕ} (hi : s.Alive i) (hj : s.Alive j) (hij : i ≠ j) (k : Fin d) :
    spring (stiff s h j i) (s.rd j + s.rd i) δ (nearest s.g fun k => y (j, k) - y (i, k)) k =
      -spring (stiff s h i j) (s.rd i + s.rd j) δ (nearest s.g fun k => y (i, k) - y (j, k)) k := by
  have h1 := soft_direct hs hδ ⟨fun i k => y (i, k), fun _ _ => 0, s.rd, fun _ => 0⟩ rfl hi hj hij (fun hst => hc i j hi hj hij hst) k
  have h2 := soft_direct hs hδ ⟨fun i k => y (i, k), fun _ _ => 0, s.rd, fun _ => 0⟩ rfl hj hi (Ne.symm hij) (fun hst => hc j i hj hi (Ne.symm hij) hst) k
  have h3 := direct_anti hok href (P := ⟨fun i k => y (i, k), fun _ _ => 0, s.rd, fun _ => 0⟩) rfl hi hj k
  rw [h1, h2] at h3
  exact h3

theorem energy_deriv (him : ∀ i, s.Alive i → im i ≠ 0) {δ : ℝ} (hδ : 0 < δ) {S : Set ℝ} {t : ℝ} (X V : ℝ → ℕ × Fin d → ℝ) (hc : Clear s h δ (X t))
    (hX : ∀ j, Coord s j → HasDerivWithinAt (fun u => X u j) (V t j) S t)
    (hV : ∀ j, Coord s j → HasDerivWithinAt (fun u => V u j) (gentle s h im δ (X t) j) S t) :
    HasDerivWithinAt (fun u => energy s h im (X u) (V u)) 0 S t := by
  obtain ⟨η, hη0, hη⟩ := margin hok href hs
  set f : ℕ → ℕ → Fin d → ℝ := fun i j k => spring (stiff s h i j) (s.rd i + s.rd j) δ (nearest s.g fun k => X t (i, k) - X t (j, k)) k with hf
  have hkin : HasDerivWithinAt (fun u => kinetic s im (V u)) (∑ i ∈ live s, ∑ k, V t (i, k) * ∑ j ∈ (live s).filter (· ≠ i), f i j k) S t := by
    unfold kinetic
    refine HasDerivWithinAt.fun_sum fun i hi => HasDerivWithinAt.fun_sum fun k _ => ?_
    have h1 := ((hV (i, k) (mem_live.mp hi)).fun_pow 2).const_mul (1 / 2 * (1 / im i))
    refine h1.congr_deriv ?_
    have := him i (mem_live.mp hi)
    simp only [gentle, hf]
    field_simp
    ring
  have hpot : HasDerivWithinAt (fun u => potential s h (X u)) (1 / 2 * ∑ i ∈ live s, ∑ j ∈ (live s).filter (· ≠ i), -∑ k, f i j k * (V t (i, k) - V t (j, k))) S t := by
    unfold potential
    refine HasDerivWithinAt.const_mul _ (HasDerivWithinAt.fun_sum fun i hi => HasDerivWithinAt.fun_sum fun j hj => ?_)
    obtain ⟨j1, j2⟩ := Finset.mem_filter.mp hj
    refine bump_work s hok.valid (stiff_nonneg hs (mem_live.mp hi) (mem_live.mp j1) (Ne.symm j2)) hη0 (hη i j (mem_live.mp hi) (mem_live.mp j1) (Ne.symm j2))
      (fun u k => X u (i, k) - X u (j, k)) (fun k => V t (i, k) - V t (j, k)) (fun k => (hX (i, k) (mem_live.mp hi)).sub (hX (j, k) (mem_live.mp j1))) fun hst => ?_
    have := hc i j (mem_live.mp hi) (mem_live.mp j1) (Ne.symm j2) hst
    exact ⟨hδ.trans_le this, this⟩
  refine (hkin.add hpot).congr_deriv ?_
  have hG := sum_pairs (live s) (fun i j => if i = j then 0 else ∑ k, f i j k * (V t (i, k) + V t (j, k))) fun i hi j hj => by
    by_cases hij : i = j
    · subst hij; simp
    · rw [if_neg hij, if_neg (Ne.symm hij), ← Finset.sum_neg_distrib]
      refine Finset.sum_congr rfl fun k _ => ?_
      have := spring_anti hok href hs hδ hc (mem_live.mp hi) (mem_live.mp hj) hij k
      change f j i k = -f i j k at this
      rw [this]; ring
  have e : (∑ i ∈ live s, ∑ k, V t (i, k) * ∑ j ∈ (live s).filter (· ≠ i), f i j k) + 1 / 2 * ∑ i ∈ live s, ∑ j ∈ (live s).filter (· ≠ i), -∑ k, f i j k * (V t (i, k) - V t (j, k)) =
      1 / 2 * ∑ i ∈ live s, ∑ j ∈ (live s).filter (· ≠ i), if i = j then 0 else ∑ k, f i j k * (V t (i, k) + V t (j, k)) := by
    rw [Finset.mul_sum, Finset.mul_sum, ← Finset.sum_add_distrib]
    refine Finset.sum_congr rfl fun i _ => ?_
    have e1 : ∑ k, V t (i, k) * ∑ j ∈ (live s).filter (· ≠ i), f i j k = ∑ j ∈ (live s).filter (· ≠ i), ∑ k, V t (i, k) * f i j k := by
      rw [Finset.sum_comm]
      exact Finset.sum_congr rfl fun k _ => Finset.mul_sum _ _ _
    rw [e1, Finset.mul_sum, Finset.mul_sum, ← Finset.sum_add_distrib]
    refine Finset.sum_congr rfl fun j hj => ?_
    rw [if_neg (Ne.symm (Finset.mem_filter.mp hj).2), mul_neg, Finset.mul_sum, Finset.mul_sum, ← sub_eq_add_neg, ← Finset.sum_sub_distrib]
    refine Finset.sum_congr rfl fun k _ => ?_
    ring
  rw [e, hG, mul_zero]

end field

end Verif.SoftSpheres
