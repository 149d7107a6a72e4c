import Verif.GFlow.SoftSpheres
import Mathlib.Analysis.ODE.ExistUnique

/-!
# C171: exact motions of soft spheres

Continues `Verif.GFlow.SoftSpheres`: with an energy below that which presses two centres together, an exact motion exists for all times, it keeps its energy, and it satisfies the hypotheses of C157.
-/

set_option linter.unusedSectionVars false
set_option linter.unusedVariables false

namespace Verif.SoftSpheres
open Verif.Cells Verif.Grid Verif.Stencil Verif.ForceMaster Verif.PairForces Verif.Handlers Verif.ForceSum Verif.Verlet
open Verif.Trajectory Verif.Convergence Verif.Symmetry Verif.TrueMotion
open Set (Icc Ico Ioc Ioi)

variable {d : ℕ}

section motion
variable {s : Setup d} {h : List Call} {x0 : ℕ → Fin d → ℝ} (hok : s.OK h x0) (href : AllReflexive h) (hs : Soft s h) (im : ℕ → ℝ)
include hok href hs

theorem near_cont : Continuous fun Z : Fin d → ℝ => len (nearest s.g Z) := by
  refine (LipschitzWith.of_dist_le_mul (K := (d : NNReal)) fun Y Z => ?_).continuous
  rw [Real.dist_eq, dist_eq_norm]
  refine (near_lip s hok.valid Y Z).trans (len_le_of fun k => ?_)
  exact norm_le_pi_norm (Y - Z) k

theorem gap_cont {S : Set ℝ} (X : ℝ → ℕ × Fin d → ℝ) {i j : ℕ} (hi : ∀ k, ContinuousOn (fun u => X u (i, k)) S) (hj : ∀ k, ContinuousOn (fun u => X u (j, k)) S) :
    ContinuousOn (fun u => gap s (X u) i j) S :=
  (near_cont hok href hs).comp_continuousOn (f := fun u => fun k => X u (i, k) - X u (j, k)) (continuousOn_pi.mpr fun k => (hi k).sub (hj k))

theorem energy_cont {S : Set ℝ} (X V : ℝ → ℕ × Fin d → ℝ) (hX : ∀ j, Coord s j → ContinuousOn (fun u => X u j) S) (hV : ∀ j, Coord s j → ContinuousOn (fun u => V u j) S) :
    ContinuousOn (fun u => energy s h im (X u) (V u)) S := by
  unfold energy kinetic potential
  refine ContinuousOn.add ?_ (ContinuousOn.mul continuousOn_const ?_)
  · refine continuousOn_finsetSum _ fun i hi => continuousOn_finsetSum _ fun k _ => ContinuousOn.mul continuousOn_const ((hV (i, k) (mem_live.mp hi)).pow 2)
  · refine continuousOn_finsetSum _ fun i hi => continuousOn_finsetSum _ fun j hj => ?_
    have hb : Continuous (bump (stiff s h i j) (s.rd i + s.rd j)) := continuous_iff_continuousAt.mpr fun r => (hasDeriv_bump _ _ r).continuousAt
    exact hb.comp_continuousOn (gap_cont hok href hs X (fun k => hX (i, k) (mem_live.mp hi)) fun k => hX (j, k) (mem_live.mp (Finset.mem_filter.mp hj).1))

theorem energy_congr {y y' w w' : ℕ × Fin d → ℝ} (hy : ∀ j, Coord s j → y j = y' j) (hw : ∀ j, Coord s j → w j = w' j) : energy s h im y w = energy s h im y' w' := by
  unfold energy kinetic potential
  congr 1
  · refine Finset.sum_congr rfl fun i hi => Finset.sum_congr rfl fun k _ => ?_
    rw [hw (i, k) (mem_live.mp hi)]
  · congr 1
    refine Finset.sum_congr rfl fun i hi => Finset.sum_congr rfl fun j hj => ?_
    unfold gap
    congr 3
    funext k
    rw [hy (i, k) (mem_live.mp hi), hy (j, k) (mem_live.mp (Finset.mem_filter.mp hj).1)]

theorem kinetic_nonneg (him : ∀ i, s.Alive i → 0 < im i) (w : ℕ × Fin d → ℝ) : 0 ≤ kinetic s im w := by
  refine Finset.sum_nonneg fun i hi => Finset.sum_nonneg fun k _ => ?_
  have := him i (mem_live.mp hi)
  positivity

theorem bumps_nonneg (y : ℕ × Fin d → ℝ) {i j : ℕ} (hi : i ∈ live s) (hj : j ∈ (live s).filter (· ≠ i)) : 0 ≤ bump (stiff s h i j) (s.rd i + s.rd j) (gap s y i j) := by
  obtain ⟨j1, j2⟩ := Finset.mem_filter.mp hj
  exact bump_nonneg (stiff_nonneg hs (mem_live.mp hi) (mem_live.mp j1) (Ne.symm j2))

theorem potential_nonneg (y : ℕ × Fin d → ℝ) : 0 ≤ potential s h y :=
  mul_nonneg (by norm_num) (Finset.sum_nonneg fun i hi => Finset.sum_nonneg fun j hj => bumps_nonneg hok href hs y hi hj)

theorem bump_le_potential (y : ℕ × Fin d → ℝ) {i j : ℕ} (hi : s.Alive i) (hj : s.Alive j) (hij : i ≠ j) :
    bump (stiff s h i j) (s.rd i + s.rd j) (gap s y i j) ≤ potential s h y := by
  have li := mem_live.mpr hi
  have lj := mem_live.mpr hj
  have h1 : ∑ a ∈ ({i, j} : Finset ℕ), ∑ b ∈ (live s).filter (· ≠ a), bump (stiff s h a b) (s.rd a + s.rd b) (gap s y a b) ≤
      ∑ a ∈ live s, ∑ b ∈ (live s).filter (· ≠ a), bump (stiff s h a b) (s.rd a + s.rd b) (gap s y a b) := by
    refine Finset.sum_le_sum_of_subset_of_nonneg ?_ fun a ha _ => Finset.sum_nonneg fun b hb => bumps_nonneg hok href hs y ha hb
    intro a ha
    rw [Finset.mem_insert, Finset.mem_singleton] at ha
    rcases ha with rfl | rfl <;> assumption
  rw [Finset.sum_pair hij] at h1
  have h2 := Finset.single_le_sum (f := fun b => bump (stiff s h i b) (s.rd i + s.rd b) (gap s y i b)) (fun b hb => bumps_nonneg hok href hs y li hb) (Finset.mem_filter.mpr ⟨lj, Ne.symm hij⟩)
  have h3 := Finset.single_le_sum (f := fun b => bump (stiff s h j b) (s.rd j + s.rd b) (gap s y j b)) (fun b hb => bumps_nonneg hok href hs y lj hb) (Finset.mem_filter.mpr ⟨li, hij⟩)
  simp only [stiff_symm href i j, gap_symm hok.valid y i j, add_comm (s.rd j) (s.rd i)] at h3
  unfold potential
  linarith

/-- An energy below the threshold keeps centres apart and bounds velocities. -/
theorem threshold (him : ∀ i, s.Alive i → 0 < im i) {E : ℝ} (hE : Below s h E) : ∃ δ vm : ℝ, 0 < δ ∧ 0 < vm ∧ ∀ y w, energy s h im y w = E →
    Clear s h (2 * δ) y ∧ ∀ j, Coord s j → |w j| ≤ vm := by
  by_cases hE0 : 0 ≤ E
  swap
  · refine ⟨1, 1, one_pos, one_pos, fun y w hy => absurd ?_ hE0⟩
    rw [← hy]
    exact add_nonneg (kinetic_nonneg hok href hs im him w) (potential_nonneg hok href hs y)
  have hδ : ∃ δ : ℝ, 0 < δ ∧ ∀ i ∈ live s, ∀ j ∈ live s, i ≠ j → stiff s h i j ≠ 0 → 2 * δ ≤ s.rd i + s.rd j ∧ E < 1 / 2 * stiff s h i j * (s.rd i + s.rd j - 2 * δ) ^ 2 := by
    have : ∀ᶠ δ in nhdsWithin (0 : ℝ) (Ioi 0), ∀ i ∈ live s, ∀ j ∈ live s, i ≠ j → stiff s h i j ≠ 0 → 2 * δ ≤ s.rd i + s.rd j ∧ E < 1 / 2 * stiff s h i j * (s.rd i + s.rd j - 2 * δ) ^ 2 := by
      rw [Filter.eventually_all_finset]
      intro i hi
      rw [Filter.eventually_all_finset]
      intro j hj
      by_cases hc : i ≠ j ∧ stiff s h i j ≠ 0
      swap
      · exact Filter.Eventually.of_forall fun δ h1 h2 => absurd ⟨h1, h2⟩ hc
      have hb := hE i j (mem_live.mp hi) (mem_live.mp hj) hc.1 hc.2
      have hR : 0 < s.rd i + s.rd j := by
        rcases (rd_sum hok href hs (mem_live.mp hi) (mem_live.mp hj)).lt_or_eq with h' | h'
        · exact h'
        · rw [← h'] at hb; norm_num at hb; linarith
      have c1 : ∀ᶠ δ in nhds (0 : ℝ), δ < (s.rd i + s.rd j) / 2 := gt_mem_nhds (by linarith)
      have c2 : ∀ᶠ δ in nhds (0 : ℝ), E < 1 / 2 * stiff s h i j * (s.rd i + s.rd j - 2 * δ) ^ 2 := by
        have hc : Continuous fun δ : ℝ => 1 / 2 * stiff s h i j * (s.rd i + s.rd j - 2 * δ) ^ 2 := by fun_prop
        exact hc.continuousAt.eventually (lt_mem_nhds (by simpa using hb))
      filter_upwards [mem_nhdsWithin_of_mem_nhds c1, mem_nhdsWithin_of_mem_nhds c2] with δ h1 h2 _ _ using ⟨by linarith, h2⟩
    obtain ⟨δ, h1, h2⟩ := (this.and self_mem_nhdsWithin).exists
    exact ⟨δ, h2, h1⟩
  obtain ⟨δ, hδ0, hδ⟩ := hδ
  refine ⟨δ, Real.sqrt (2 * E * ∑ i ∈ live s, im i) + 1, hδ0, by positivity, fun y w hy => ⟨fun i j hi hj hij hst => ?_, fun j hj => ?_⟩⟩
  · by_contra hlt
    push Not at hlt
    obtain ⟨c1, c2⟩ := hδ i (mem_live.mpr hi) j (mem_live.mpr hj) hij hst
    have hb := bump_le_potential hok href hs y hi hj hij
    have hk := kinetic_nonneg hok href hs im him w
    have hκ := stiff_nonneg hs hi hj hij
    unfold energy at hy
    unfold bump at hb
    rw [max_eq_right (by linarith)] at hb
    have : (s.rd i + s.rd j - 2 * δ) ^ 2 ≤ (s.rd i + s.rd j - gap s y i j) ^ 2 := pow_le_pow_left₀ (by linarith) (by linarith) 2
    have := mul_le_mul_of_nonneg_left this (by positivity : 0 ≤ 1 / 2 * stiff s h i j)
    linarith
  · have hp := potential_nonneg hok href hs y
    have hj' := mem_live.mpr hj
    have him' := him j.1 hj
    have h1 : 1 / 2 * (1 / im j.1) * w j ^ 2 ≤ kinetic s im w := by
      have a1 := Finset.single_le_sum (f := fun k => 1 / 2 * (1 / im j.1) * w (j.1, k) ^ 2) (fun k _ => by positivity) (Finset.mem_univ j.2)
      have a2 := Finset.single_le_sum (f := fun i => ∑ k, 1 / 2 * (1 / im i) * w (i, k) ^ 2)
        (fun i hi => Finset.sum_nonneg fun k _ => by have := him i (mem_live.mp hi); positivity) hj'
      exact a1.trans a2
    have h2 : 1 / 2 * (1 / im j.1) * w j ^ 2 ≤ E := by unfold energy at hy; linarith
    have h3 : w j ^ 2 ≤ 2 * E * im j.1 := by
      have := mul_le_mul_of_nonneg_left h2 (by positivity : 0 ≤ 2 * im j.1)
      have e : 2 * im j.1 * (1 / 2 * (1 / im j.1) * w j ^ 2) = w j ^ 2 := by field_simp
      rw [e] at this; linarith
    have h4 : im j.1 ≤ ∑ i ∈ live s, im i := Finset.single_le_sum (f := im) (fun i hi => (him i (mem_live.mp hi)).le) hj'
    have h5 : |w j| ≤ Real.sqrt (2 * E * ∑ i ∈ live s, im i) := by
      apply Real.abs_le_sqrt
      exact h3.trans (mul_le_mul_of_nonneg_left h4 (by linarith))
    linarith

/-- Energy is kept, by continuous induction: as long as it is kept, centres stay apart and forces are those of the field. -/
theorem keeps (him : ∀ i, s.Alive i → im i ≠ 0) {δ vm T : ℝ} (hδ : 0 < δ) (hvm : 0 < vm) (X V : ℝ → ℕ × Fin d → ℝ)
    (cX : ∀ j, Coord s j → ContinuousOn (fun u => X u j) (Icc 0 T)) (cV : ∀ j, Coord s j → ContinuousOn (fun u => V u j) (Icc 0 T))
    (hX : ∀ t ∈ Icc 0 T, Clear s h δ (X t) → (∀ j, Coord s j → |V t j| ≤ 2 * vm) → ∀ j, Coord s j → HasDerivWithinAt (fun u => X u j) (V t j) (Icc 0 T) t)
    (hV : ∀ t ∈ Icc 0 T, Clear s h δ (X t) → (∀ j, Coord s j → |V t j| ≤ 2 * vm) → ∀ j, Coord s j → HasDerivWithinAt (fun u => V u j) (gentle s h im δ (X t) j) (Icc 0 T) t)
    (hE : ∀ y w, energy s h im y w = energy s h im (X 0) (V 0) → Clear s h (2 * δ) y ∧ ∀ j, Coord s j → |w j| ≤ vm) :
    ∀ t ∈ Icc 0 T, energy s h im (X t) (V t) = energy s h im (X 0) (V 0) := by
  have hc := energy_cont hok href hs im X V cX cV
  have hcl : IsClosed ({t | energy s h im (X t) (V t) = energy s h im (X 0) (V 0)} ∩ Icc 0 T) := by
    rw [Set.inter_comm]
    exact hc.preimage_isClosed_of_isClosed isClosed_Icc (isClosed_singleton (x := energy s h im (X 0) (V 0)))
  refine fun t ht => hcl.Icc_subset_of_forall_exists_gt rfl ?_ ht
  rintro x ⟨hx1, hx2⟩ y hy
  have hxI : x ∈ Icc 0 T := ⟨hx2.1, hx2.2.le⟩
  obtain ⟨c1, c2⟩ := hE _ _ hx1
  have ev1 : ∀ᶠ u in nhdsWithin x (Icc 0 T), ∀ i ∈ live s, ∀ j ∈ live s, i ≠ j → stiff s h i j ≠ 0 → δ ≤ gap s (X u) i j := by
    rw [Filter.eventually_all_finset]
    intro i hi
    rw [Filter.eventually_all_finset]
    intro j hj
    by_cases hcc : i ≠ j ∧ stiff s h i j ≠ 0
    swap
    · exact Filter.Eventually.of_forall fun δ h1 h2 => absurd ⟨h1, h2⟩ hcc
    have := c1 i j (mem_live.mp hi) (mem_live.mp hj) hcc.1 hcc.2
    filter_upwards [(gap_cont hok href hs X (fun k => cX (i, k) (mem_live.mp hi)) (fun k => cX (j, k) (mem_live.mp hj)) x hxI).eventually (lt_mem_nhds (show δ < gap s (X x) i j by linarith))] with u hu _ _ using le_of_lt hu
  have ev2 : ∀ᶠ u in nhdsWithin x (Icc 0 T), ∀ i ∈ live s, ∀ k : Fin d, |V u (i, k)| ≤ 2 * vm := by
    rw [Filter.eventually_all_finset]
    intro i hi
    rw [Filter.eventually_all]
    intro k
    have := c2 (i, k) (mem_live.mp hi)
    filter_upwards [((cV (i, k) (mem_live.mp hi)).abs x hxI).eventually (gt_mem_nhds (show |V x (i, k)| < 2 * vm by linarith))] with u hu using le_of_lt hu
  have ev := (ev1.and ev2)
  have ev' : ∀ᶠ u in nhdsWithin x (Ioi x), ((∀ i ∈ live s, ∀ j ∈ live s, i ≠ j → stiff s h i j ≠ 0 → δ ≤ gap s (X u) i j) ∧ ∀ i ∈ live s, ∀ k : Fin d, |V u (i, k)| ≤ 2 * vm) := by
    refine ev.filter_mono ?_
    rw [nhdsWithin_le_iff]
    refine Filter.mem_of_superset (Ioc_mem_nhdsGT hx2.2) fun u hu => ⟨hx2.1.trans hu.1.le, hu.2⟩
  obtain ⟨z, hz1, hz2⟩ := (mem_nhdsGT_iff_exists_Ioc_subset).mp ev'
  set b := min (min y T) z with hb
  have hbx : x < b := lt_min (lt_min hy hx2.2) hz1
  have hbT : b ≤ T := (min_le_left _ _).trans (min_le_right _ _)
  refine ⟨b, ?_, hbx, (min_le_left _ _).trans (min_le_left _ _)⟩
  have good : ∀ u ∈ Ico x b, Clear s h δ (X u) ∧ ∀ j, Coord s j → |V u j| ≤ 2 * vm := by
    intro u hu
    rcases hu.1.eq_or_lt with rfl | hlt
    · exact ⟨fun i j hi hj hij hst => by have := c1 i j hi hj hij hst; linarith, fun j hj => by have := c2 j hj; linarith⟩
    · have := hz2 ⟨hlt, hu.2.le.trans (min_le_right _ _)⟩
      exact ⟨fun i j hi hj hij hst => this.1 i (mem_live.mpr hi) j (mem_live.mpr hj) hij hst, fun j hj => this.2 j.1 (mem_live.mpr hj) j.2⟩
  have hk := constant_of_has_deriv_right_zero (f := fun u => energy s h im (X u) (V u)) (a := x) (b := b)
    (hc.mono (Set.Icc_subset_Icc hx2.1 hbT)) (fun u hu => by
      obtain ⟨g1, g2⟩ := good u hu
      have hu' : u ∈ Icc 0 T := ⟨hx2.1.trans hu.1, hu.2.le.trans hbT⟩
      refine right (T := T) (energy_deriv hok href hs im him hδ X V g1 (fun j hj => hX u hu' g1 g2 j hj) (fun j hj => hV u hu' g1 g2 j hj)) hu'.1 (hu.2.trans_le hbT)) b ⟨hbx.le, le_rfl⟩
  rw [Set.mem_setOf_eq, hk]
  exact hx1

/-- Exact motions below the threshold keep their energy. -/
theorem exact_keeps (him : ∀ i, s.Alive i → 0 < im i) {T : ℝ} {X V : ℝ → ℕ × Fin d → ℝ} (hx : Solves (Coord s) (newton s h im) T X V) (hE : Below s h (energy s h im (X 0) (V 0))) :
    ∀ t ∈ Icc 0 T, energy s h im (X t) (V t) = energy s h im (X 0) (V 0) := by
  obtain ⟨δ, vm, hδ, hvm, hth⟩ := threshold hok href hs im him hE
  refine keeps hok href hs im (fun i hi => (him i hi).ne') hδ hvm X V (fun j hj t ht => (hx.pos t ht j hj).continuousWithinAt) (fun j hj t ht => (hx.vel t ht j hj).continuousWithinAt)
    (fun t ht _ _ j hj => hx.pos t ht j hj) (fun t ht hc _ j hj => ?_) hth
  rw [← newton_gentle hok href hs im hδ hc (V t) j hj]
  exact hx.vel t ht j hj

theorem clear_mono {δ δ' : ℝ} (hle : δ' ≤ δ) {y : ℕ × Fin d → ℝ} (hc : Clear s h δ y) : Clear s h δ' y :=
  fun i j hi hj hij hst => hle.trans (hc i j hi hj hij hst)

theorem clear_near {δ ε : ℝ} (hε : d * (2 * ε) ≤ δ) {y y' : ℕ × Fin d → ℝ} (hc : Clear s h (2 * δ) y) (hy : ∀ j, Coord s j → |y' j - y j| ≤ ε) : Clear s h δ y' := by
  intro i j hi hj hij hst
  have h1 := hc i j hi hj hij hst
  have h2 := abs_le.mp (gap_lip hok.valid y' y (i := i) (j := j) (fun k => hy (i, k) hi) (fun k => hy (j, k) hj))
  linarith [h2.1]

/-- Motions whose centres stay apart satisfy the hypotheses of C157. -/
theorem regular {T δ vm : ℝ} (hδ : 0 < δ) (hvm : 0 ≤ vm) {X V : ℝ → ℕ × Fin d → ℝ} (hx : Solves (Coord s) (newton s h im) T X V)
    (hc : ∀ t ∈ Icc 0 T, Clear s h (2 * δ) (X t)) (hv : ∀ t ∈ Icc 0 T, ∀ j, Coord s j → |V t j| ≤ vm) :
    ∃ A B L ρ, 0 ≤ A ∧ 0 ≤ B ∧ 0 ≤ L ∧ 0 < ρ ∧ d * (2 * ρ) ≤ δ ∧ Mild (Coord s) (newton s h im) T X V A B ∧ Tame (Coord s) (newton s h im) T X V ρ L := by
  obtain ⟨A, hA, hA'⟩ := gentle_bound hok href hs im hδ
  obtain ⟨L, hL, hL'⟩ := gentle_lip hok href hs im hδ
  have hn : ∀ t ∈ Icc 0 T, ∀ j, Coord s j → newton s h im (X t) (V t) j = gentle s h im δ (X t) j :=
    fun t ht j hj => newton_gentle hok href hs im hδ (clear_mono hok href hs (by linarith) (hc t ht)) (V t) j hj
  have hd0 : (0 : ℝ) ≤ d := by positivity
  have hρ : d * (2 * (δ / (2 * (d + 1)))) ≤ δ := by
    have : d * (2 * (δ / (2 * (d + 1)))) = δ * (d / (d + 1)) := by field_simp
    rw [this]
    have : (d : ℝ) / (d + 1) ≤ 1 := by rw [div_le_one (by positivity)]; linarith
    nlinarith
  refine ⟨A, L * vm, L, δ / (2 * (d + 1)), hA, by positivity, hL, by positivity, hρ, ⟨fun t ht j hj => ?_, fun u hu t ht j hj => ?_⟩, ?_⟩
  · rw [hn t ht j hj]; exact hA' _ j hj
  · rw [hn t ht j hj, hn u hu j hj, mul_assoc]
    refine hL' _ _ _ (by positivity) (fun j hj => ?_) j hj
    have := Convex.norm_image_sub_le_of_norm_hasDerivWithin_le (f := fun u => X u j) (f' := fun u => V u j) (C := vm)
      (s := Icc 0 T) (x := u) (y := t) (fun r hr => hx.pos r hr j hj) (fun r hr => by simpa using hv r hr j hj) (convex_Icc 0 T) hu ht
    simpa using this
  · intro t ht y w ε hε hy j hj
    have hε0 : 0 ≤ ε := (abs_nonneg _).trans (hy j hj).1
    have hcy : Clear s h δ y := by
      refine clear_near hok href hs (ε := ε) ?_ (hc t ht) fun j hj => (hy j hj).1
      have := mul_le_mul_of_nonneg_left (mul_le_mul_of_nonneg_left hε (by norm_num : (0 : ℝ) ≤ 2)) hd0
      exact this.trans hρ
    rw [hn t ht j hj, newton_gentle hok href hs im hδ hcy w j hj]
    exact hL' _ _ _ hε0 (fun j hj => (hy j hj).1) j hj

/-! ## Existence -/

/-- Coordinates of a vector, 0 outside. -/
noncomputable def unfold {n : ℕ} (p : Fin n × Fin d → ℝ) (j : ℕ × Fin d) : ℝ := if hj : j.1 < n then p (⟨j.1, hj⟩, j.2) else 0

/-- A number cut to `[-c, c]`. -/
noncomputable def clip (c x : ℝ) : ℝ := max (-c) (min c x)

omit hok href hs in
theorem clip_bound {c : ℝ} (hc : 0 ≤ c) (x : ℝ) : |clip c x| ≤ c := by
  unfold clip
  rw [abs_le]
  exact ⟨le_max_left _ _, max_le (by linarith) (min_le_left _ _)⟩

omit hok href hs in
theorem clip_lip (c x y : ℝ) : |clip c x - clip c y| ≤ |x - y| := by
  unfold clip
  have h1 := abs_max_sub_max_le_abs (min c x) (min c y) (-c)
  rw [max_comm _ (-c), max_comm _ (-c)] at h1
  have h2 := abs_min_sub_min_le_max c x c y
  rw [sub_self, abs_zero, max_eq_right (abs_nonneg _)] at h2
  exact h1.trans h2

omit hok href hs in
theorem clip_self {c x : ℝ} (hx : |x| ≤ c) : clip c x = x := by
  rw [abs_le] at hx
  unfold clip
  rw [min_eq_right hx.2, max_eq_right hx.1]

open Classical in
/-- The field of the equations, with cut velocities. -/
noncomputable def flowField (s : Setup d) (h : List Call) (im : ℕ → ℝ) (δ c : ℝ) (p : (Fin s.number × Fin d → ℝ) × (Fin s.number × Fin d → ℝ)) : (Fin s.number × Fin d → ℝ) × (Fin s.number × Fin d → ℝ) :=
  (fun j => clip c (p.2 j), fun j => if s.Alive j.1 then gentle s h im δ (unfold p.1) (j.1, j.2) else 0)

theorem solves_exist (him : ∀ i, s.Alive i → 0 < im i) {T : ℝ} (hT : 0 ≤ T) (y w : ℕ × Fin d → ℝ) (hE : Below s h (energy s h im y w)) :
    ∃ X V, Solves (Coord s) (newton s h im) T X V ∧ ∀ j, Coord s j → X 0 j = y j ∧ V 0 j = w j := by
  obtain ⟨δ, vm, hδ, hvm, hth⟩ := threshold hok href hs im him hE
  obtain ⟨A, hA, hA'⟩ := gentle_bound hok href hs im hδ
  obtain ⟨L, hL, hL'⟩ := gentle_lip hok href hs im hδ
  set F := flowField s h im δ (2 * vm) with hF
  set p0 : (Fin s.number × Fin d → ℝ) × (Fin s.number × Fin d → ℝ) := (fun j => y (j.1, j.2), fun j => w (j.1, j.2)) with hp0
  have hlip : LipschitzWith (Real.toNNReal (max 1 L)) F := by
    refine LipschitzWith.of_dist_le_mul fun p q => ?_
    rw [Real.coe_toNNReal _ (le_max_of_le_left zero_le_one), dist_eq_norm, dist_eq_norm]
    rw [Prod.norm_def]
    refine max_le ?_ ?_
    · refine (pi_norm_le_iff_of_nonneg (by positivity)).mpr fun j => ?_
      have h1 : ‖p.2 - q.2‖ ≤ ‖p - q‖ := norm_snd_le (p - q)
      have h2 := norm_le_pi_norm (p.2 - q.2) j
      have h3 := clip_lip (2 * vm) (p.2 j) (q.2 j)
      have h4 : ‖p - q‖ ≤ max 1 L * ‖p - q‖ := le_mul_of_one_le_left (norm_nonneg _) (le_max_left _ _)
      simp only [hF, flowField, Prod.fst_sub, Pi.sub_apply]
      exact h3.trans (h2.trans (h1.trans h4))
    · refine (pi_norm_le_iff_of_nonneg (by positivity)).mpr fun j => ?_
      simp only [hF, flowField, Prod.snd_sub, Pi.sub_apply]
      by_cases ha : s.Alive j.1
      · rw [if_pos ha, if_pos ha]
        refine (hL' (unfold p.1) (unfold q.1) ‖p - q‖ (norm_nonneg _) (fun i hi => ?_) (j.1, j.2) ha).trans (mul_le_mul_of_nonneg_right (le_max_right _ _) (norm_nonneg _))
        unfold SoftSpheres.unfold
        rw [dif_pos hi.1, dif_pos hi.1]
        exact (norm_le_pi_norm (p.1 - q.1) (⟨i.1, hi.1⟩, i.2)).trans (norm_fst_le (p - q))
      · rw [if_neg ha, if_neg ha, sub_self, norm_zero]
        positivity
  have hnorm : ∀ p, ‖F p‖ ≤ max (2 * vm) A := by
    intro p
    rw [Prod.norm_def]
    refine max_le ?_ ?_
    · refine (pi_norm_le_iff_of_nonneg (by positivity)).mpr fun j => ?_
      simp only [hF, flowField]
      exact (clip_bound (by positivity) _).trans (le_max_left _ _)
    · refine (pi_norm_le_iff_of_nonneg (by positivity)).mpr fun j => ?_
      simp only [hF, flowField]
      by_cases ha : s.Alive j.1
      · rw [if_pos ha]; exact (hA' _ (j.1, j.2) ha).trans (le_max_right _ _)
      · rw [if_neg ha, norm_zero]; positivity
  have hPL : IsPicardLindelof (fun _ => F) (tmin := 0) (tmax := T) ⟨0, le_rfl, hT⟩ p0 (Real.toNNReal (max (2 * vm) A * T)) 0 (Real.toNNReal (max (2 * vm) A)) (Real.toNNReal (max 1 L)) := by
    refine ⟨fun _ _ => hlip.lipschitzOnWith, fun _ _ => continuousOn_const, fun _ _ p _ => ?_, ?_⟩
    · rw [Real.coe_toNNReal _ (by positivity)]; exact hnorm p
    · rw [Real.coe_toNNReal _ (by positivity), Real.coe_toNNReal _ (by positivity)]
      simp [hT]
  obtain ⟨α, hα0, hα⟩ := hPL.exists_eq_forall_mem_Icc_hasDerivWithinAt₀
  set X : ℝ → ℕ × Fin d → ℝ := fun t => unfold (α t).1 with hX
  set V : ℝ → ℕ × Fin d → ℝ := fun t => unfold (α t).2 with hV
  have e1 : ∀ t ∈ Icc 0 T, ∀ j, Coord s j → HasDerivWithinAt (fun u => X u j) (clip (2 * vm) (V t j)) (Icc 0 T) t := by
    intro t ht j hj
    have := ((ContinuousLinearMap.proj (R := ℝ) (φ := fun _ : Fin s.number × Fin d => ℝ) (⟨j.1, hj.1⟩, j.2)).comp (ContinuousLinearMap.fst ℝ (Fin s.number × Fin d → ℝ) (Fin s.number × Fin d → ℝ))).hasFDerivAt.comp_hasDerivWithinAt t (hα t ht)
    have ex : ∀ u, X u j = (α u).1 (⟨j.1, hj.1⟩, j.2) := fun u => dif_pos hj.1
    have ev : V t j = (α t).2 (⟨j.1, hj.1⟩, j.2) := dif_pos hj.1
    simp only [ex, ev]
    exact this
  have e2 : ∀ t ∈ Icc 0 T, ∀ j, Coord s j → HasDerivWithinAt (fun u => V u j) (gentle s h im δ (X t) j) (Icc 0 T) t := by
    intro t ht j hj
    have := ((ContinuousLinearMap.proj (R := ℝ) (φ := fun _ : Fin s.number × Fin d => ℝ) (⟨j.1, hj.1⟩, j.2)).comp (ContinuousLinearMap.snd ℝ (Fin s.number × Fin d → ℝ) (Fin s.number × Fin d → ℝ))).hasFDerivAt.comp_hasDerivWithinAt t (hα t ht)
    have ev : ∀ u, V u j = (α u).2 (⟨j.1, hj.1⟩, j.2) := fun u => dif_pos hj.1
    simp only [ev]
    refine this.congr_deriv ?_
    simp only [hF, flowField, ContinuousLinearMap.coe_comp', Function.comp, ContinuousLinearMap.coe_snd', ContinuousLinearMap.proj_apply]
    rw [if_pos (show s.Alive j.1 from hj)]
  have h0 : ∀ j, Coord s j → X 0 j = y j ∧ V 0 j = w j := by
    intro j hj
    have a1 : X 0 j = (α 0).1 (⟨j.1, hj.1⟩, j.2) := dif_pos hj.1
    have a2 : V 0 j = (α 0).2 (⟨j.1, hj.1⟩, j.2) := dif_pos hj.1
    rw [a1, a2]
    simp only at hα0
    rw [hα0]
    exact ⟨rfl, rfl⟩
  have hen : energy s h im (X 0) (V 0) = energy s h im y w := energy_congr hok href hs im (fun j hj => (h0 j hj).1) (fun j hj => (h0 j hj).2)
  rw [← hen] at hth
  have hk := keeps hok href hs im (fun i hi => (him i hi).ne') hδ hvm X V (fun j hj t ht => (e1 t ht j hj).continuousWithinAt) (fun j hj t ht => (e2 t ht j hj).continuousWithinAt)
    (fun t ht _ hv j hj => by
      have := e1 t ht j hj
      rwa [clip_self (hv j hj)] at this) (fun t ht _ _ j hj => e2 t ht j hj) hth
  refine ⟨X, V, ⟨fun t ht j hj => ?_, fun t ht j hj => ?_⟩, h0⟩
  · have := e1 t ht j hj
    have hb := (hth _ _ (hk t ht)).2 j hj
    rwa [clip_self (by linarith)] at this
  · have hc := (hth _ _ (hk t ht)).1
    rw [newton_gentle hok href hs im hδ (clear_mono hok href hs (by linarith) hc) (V t) j hj]
    exact e2 t ht j hj

end motion

end Verif.SoftSpheres
