import Mathlib.MeasureTheory.Measure.Lebesgue.VolumeOfBalls
import Mathlib.Tactic.Linarith
import Mathlib.Tactic.Ring
import Mathlib.Tactic.FieldSimp
import Mathlib.Tactic.Positivity
import Verif.Other.Bounds

/-!
# Regions of space and volumes of spheres (C88)

Models `other/region.cpp` and `sphere_volume`, `inv_sphere_volume` of `utility/utility.hpp`. Exact real arithmetic, any number of
dimensions. The random numbers are inputs: a list of points of the unit cube, one for each call of `Bounds::randomPoint`.
-/

namespace Verif.Regions
open MeasureTheory Verif.Bounds

variable {d : ℕ}

/-- `sphere_volume`, `utility/utility.hpp:265-267`. -/
noncomputable def sphereVolume (r : ℝ) (D : ℕ) : ℝ := Real.pi ^ ((D : ℝ) / 2) * r ^ D / Real.Gamma ((D : ℝ) / 2 + 1)

/-- `inv_sphere_volume`, `utility/utility.hpp:269-271`. -/
noncomputable def invSphereVolume (v : ℝ) (D : ℕ) : ℝ := (Real.Gamma ((D : ℝ) / 2 + 1) * v / Real.pi ^ ((D : ℝ) / 2)) ^ (1 / (D : ℝ))

/-- The subclasses of `Region`, `other/region.hpp:10-124`. -/
inductive Region (d : ℕ) where
  | rect (b : Box d)
  | sphere (c : Fin d → ℝ) (r : ℝ)

open Classical in
/-- `contains`, `other/region.cpp:17-19` and `75-80`. -/
noncomputable def Region.contains : Region d → (Fin d → ℝ) → Bool
  | .rect b, x => b.contains x
  | .sphere c r, x => decide ((List.finRange d).foldl (fun s k => s + (x k - c k) * (x k - c k)) 0 < r * r)

/-- `vol`, `other/region.cpp:21-23` and `82-84`. -/
noncomputable def Region.vol : Region d → ℝ
  | .rect b => b.vol
  | .sphere _ r => sphereVolume r d

/-- `get_bounding_box`, `other/region.cpp:25-27` and `86-95`. -/
noncomputable def Region.boundingBox : Region d → Box d
  | .rect b => b
  | .sphere c r => ⟨fun k => c k - r, fun k => c k + r⟩

/-- The loop of `SphericalRegion::pick_position`, `other/region.cpp:65-72`: random points of the bounding box until one lies in the sphere.
No result if the given random numbers are used up before. -/
noncomputable def pickLoop (R : Region d) : List (Fin d → ℝ) → Option (Fin d → ℝ)
  | [] => none
  | u :: us => if R.contains (R.boundingBox.randomPoint u) then some (R.boundingBox.randomPoint u) else pickLoop R us

open Classical in
/-- `pick_position`, `other/region.cpp:13-15` and `60-73`. -/
noncomputable def Region.pick : Region d → List (Fin d → ℝ) → Option (Fin d → ℝ)
  | .rect b, us => us.head?.map b.randomPoint
  | .sphere c r, us => if r = 0 then some (fun _ => 0) else pickLoop (.sphere c r) us

/-! ## Specification -/

/-- The points of a region. -/
def Region.points : Region d → Set (Fin d → ℝ)
  | .rect b => {x | ∀ k, b.lo k ≤ x k ∧ x k < b.hi k}
  | .sphere c r => {x | Real.sqrt (∑ k, (x k - c k) ^ 2) < r}

/-- A region with ordered limits or a positive radius. -/
def Region.Proper : Region d → Prop
  | .rect b => ∀ k, b.lo k < b.hi k
  | .sphere _ r => 0 < r

/-- Random numbers in `[0, 1)`. -/
def Unit (u : Fin d → ℝ) : Prop := ∀ k, 0 ≤ u k ∧ u k < 1

/-! ## Theorems -/

theorem pick_sphere (c : Fin d → ℝ) (r : ℝ) (hr : 0 < r) (us : List (Fin d → ℝ)) : (Region.sphere c r).pick us = pickLoop (.sphere c r) us := if_neg hr.ne'

theorem foldl_add (f : Fin d → ℝ) (l : List (Fin d)) (a : ℝ) : l.foldl (fun s k => s + f k) a = a + (l.map f).sum := by
  induction l generalizing a with
  | nil => simp
  | cons x l ih => rw [List.foldl_cons, ih, List.map_cons, List.sum_cons]; ring

theorem foldl_sum (f : Fin d → ℝ) : (List.finRange d).foldl (fun s k => s + f k) 0 = ∑ k, f k := by
  rw [foldl_add, zero_add, ← List.ofFn_eq_map, List.sum_ofFn]

/-- C88: a region tells that it contains a point exactly if the point lies in the box (upper limits excluded) or within the radius of the centre. -/
theorem C88_contains (R : Region d) (h : R.Proper) (x : Fin d → ℝ) : R.contains x = true ↔ x ∈ R.points := by
  cases R with
  | rect b => exact contains_iff b x
  | sphere c r =>
    have hr : 0 < r := h
    unfold Region.contains Region.points
    simp only [decide_eq_true_eq, Set.mem_ofPred_eq]
    rw [foldl_sum fun k => (x k - c k) * (x k - c k), Real.sqrt_lt' hr]
    simp only [sq]

theorem sphere_measure (hd : 0 < d) (c : Fin d → ℝ) (r : ℝ) (hr : 0 ≤ r) :
    volume {x : Fin d → ℝ | Real.sqrt (∑ k, (x k - c k) ^ 2) < r} = ENNReal.ofReal (sphereVolume r d) := by
  have : Nonempty (Fin d) := ⟨⟨0, hd⟩⟩
  have h := MeasureTheory.volume_sum_rpow_lt (ι := Fin d) (p := 2) (by norm_num) r
  have he : {x : Fin d → ℝ | Real.sqrt (∑ k, (x k - c k) ^ 2) < r} = (fun x => x + -c) ⁻¹' {x : Fin d → ℝ | (∑ i, |x i| ^ (2 : ℝ)) ^ (1 / (2 : ℝ)) < r} := by
    ext x
    simp only [Set.mem_ofPred_eq, Set.mem_preimage, ← sub_eq_add_neg]
    rw [← Real.sqrt_eq_rpow]
    simp only [Real.rpow_two, sq_abs, Pi.sub_apply]
  rw [he, measure_preimage_add_right, h, ← ENNReal.ofReal_pow hr, ← ENNReal.ofReal_mul (by positivity)]
  congr 1
  unfold sphereVolume
  rw [Fintype.card_fin]
  have h2 : 2 * Real.Gamma (1 / 2 + 1) = Real.pi ^ ((1 : ℝ) / 2) := by
    rw [Real.Gamma_add_one (by norm_num), Real.Gamma_one_half_eq, Real.sqrt_eq_rpow]; ring
  rw [h2, ← Real.rpow_natCast (Real.pi ^ ((1 : ℝ) / 2)), ← Real.rpow_mul Real.pi_pos.le]
  rw [show (1 : ℝ) / 2 * (d : ℝ) = (d : ℝ) / 2 by ring]
  ring

/-- C88: the volume that a region reports is the Lebesgue measure of the set of its points, in every dimension. -/
theorem C88_volume (hd : 0 < d) (R : Region d) (h : R.Proper) : volume R.points = ENNReal.ofReal R.vol := by
  cases R with
  | rect b =>
    have hb : ∀ k, b.lo k < b.hi k := h
    have he : (Region.rect b).points = Set.pi Set.univ fun k => Set.Ico (b.lo k) (b.hi k) := by
      ext x; simp [Region.points, Set.mem_pi]
    rw [he, Real.volume_pi_Ico]
    show _ = ENNReal.ofReal b.vol
    rw [vol_eq]
    exact (ENNReal.ofReal_prod_of_nonneg fun k _ => sub_nonneg.mpr (hb k).le).symm
  | sphere c r => exact sphere_measure hd c r (le_of_lt h)

theorem sphereVolume_nonneg (r : ℝ) (hr : 0 ≤ r) (D : ℕ) : 0 ≤ sphereVolume r D := by
  unfold sphereVolume
  have := Real.Gamma_pos_of_pos (show (0 : ℝ) < (D : ℝ) / 2 + 1 by positivity)
  positivity

/-- C88: the radius of the sphere of a given volume: the two functions are inverse to each other in every dimension. -/
theorem C88_inverse (D : ℕ) (hD : 0 < D) (a : ℝ) (ha : 0 ≤ a) :
    invSphereVolume (sphereVolume a D) D = a ∧ sphereVolume (invSphereVolume a D) D = a := by
  have hG := Real.Gamma_pos_of_pos (show (0 : ℝ) < (D : ℝ) / 2 + 1 by positivity)
  have hP : 0 < Real.pi ^ ((D : ℝ) / 2) := Real.rpow_pos_of_pos Real.pi_pos _
  have hD' : (D : ℝ) ≠ 0 := by exact_mod_cast hD.ne'
  unfold invSphereVolume sphereVolume
  constructor
  · rw [show Real.Gamma ((D : ℝ) / 2 + 1) * (Real.pi ^ ((D : ℝ) / 2) * a ^ D / Real.Gamma ((D : ℝ) / 2 + 1)) / Real.pi ^ ((D : ℝ) / 2) = a ^ D by
      field_simp]
    rw [one_div, Real.pow_rpow_inv_natCast ha hD.ne']
  · rw [one_div, Real.rpow_inv_natCast_pow (by positivity) hD.ne']
    field_simp

/-- C88: the bounding box of a region contains all its points, and it is the smallest such box. -/
theorem C88_bounding_box (R : Region d) (h : R.Proper) :
    (∀ x ∈ R.points, ∀ k, R.boundingBox.lo k ≤ x k ∧ x k ≤ R.boundingBox.hi k) ∧
      ∀ b : Box d, (∀ x ∈ R.points, ∀ k, b.lo k ≤ x k ∧ x k ≤ b.hi k) →
        ∀ k, b.lo k ≤ R.boundingBox.lo k ∧ R.boundingBox.hi k ≤ b.hi k := by
  have key : ∀ lo hi m M : ℝ, lo < hi → (∀ y, lo < y → y < hi → m ≤ y ∧ y ≤ M) → m ≤ lo ∧ hi ≤ M := by
    intro lo hi m M hlt hy
    constructor
    · by_contra hc
      rw [not_le] at hc
      have := hy (lo + min (m - lo) (hi - lo) / 2) (by have : 0 < min (m - lo) (hi - lo) := lt_min (by linarith) (by linarith); linarith)
        (by have := min_le_right (m - lo) (hi - lo); linarith)
      have := min_le_left (m - lo) (hi - lo)
      linarith [lt_min (show 0 < m - lo by linarith) (show 0 < hi - lo by linarith)]
    · by_contra hc
      rw [not_le] at hc
      have := hy (hi - min (hi - M) (hi - lo) / 2) (by have := min_le_right (hi - M) (hi - lo); linarith)
        (by have : 0 < min (hi - M) (hi - lo) := lt_min (by linarith) (by linarith); linarith)
      have := min_le_left (hi - M) (hi - lo)
      linarith [lt_min (show 0 < hi - M by linarith) (show 0 < hi - lo by linarith)]
  cases R with
  | rect b =>
    have hb : ∀ k, b.lo k < b.hi k := h
    refine ⟨fun x hx k => ⟨(hx k).1, (hx k).2.le⟩, fun B hB k => ?_⟩
    refine key (b.lo k) (b.hi k) _ _ (hb k) fun y h1 h2 => ?_
    have := hB (Function.update b.lo k y) (fun j => ?_) k
    · simpa using this
    · by_cases hj : j = k
      · subst hj; simp [h1.le, h2]
      · simp [Function.update_of_ne hj, hb j]
  | sphere c r =>
    have hr : 0 < r := h
    refine ⟨fun x hx k => ?_, fun B hB k => ?_⟩
    · have hx' : Real.sqrt (∑ k, (x k - c k) ^ 2) < r := hx
      rw [Real.sqrt_lt' hr] at hx'
      have h1 : (x k - c k) ^ 2 ≤ ∑ k, (x k - c k) ^ 2 := Finset.single_le_sum (f := fun k => (x k - c k) ^ 2) (fun i _ => sq_nonneg _) (Finset.mem_univ k)
      have h2 := abs_lt_of_sq_lt_sq (lt_of_le_of_lt h1 hx') hr.le
      rw [abs_lt] at h2
      exact ⟨by show c k - r ≤ x k; linarith, by show x k ≤ c k + r; linarith⟩
    · refine key (c k - r) (c k + r) _ _ (by linarith) fun y h1 h2 => ?_
      have := hB (Function.update c k y) ?_ k
      · simpa using this
      · show Real.sqrt _ < r
        rw [Real.sqrt_lt' hr, Finset.sum_eq_single k]
        · simp only [Function.update_self]
          exact sq_lt_sq' (by linarith) (by linarith)
        · intro j _ hj
          simp [Function.update_of_ne hj]
        · intro hk; exact absurd (Finset.mem_univ k) hk

theorem pickLoop_contains (R : Region d) (us : List (Fin d → ℝ)) (x : Fin d → ℝ) (h : pickLoop R us = some x) : R.contains x = true := by
  induction us with
  | nil => simp [pickLoop] at h
  | cons u us ih =>
    unfold pickLoop at h
    by_cases hc : R.contains (R.boundingBox.randomPoint u) = true
    · rw [if_pos hc] at h
      cases h
      exact hc
    · rw [if_neg hc] at h
      exact ih h

theorem pickLoop_some (R : Region d) (us : List (Fin d → ℝ)) (h : ∃ u ∈ us, R.contains (R.boundingBox.randomPoint u) = true) : ∃ x, pickLoop R us = some x := by
  induction us with
  | nil => simp at h
  | cons u us ih =>
    unfold pickLoop
    by_cases hc : R.contains (R.boundingBox.randomPoint u) = true
    · exact ⟨_, if_pos hc⟩
    · rw [if_neg hc]
      obtain ⟨v, hv, hc'⟩ := h
      rcases List.mem_cons.mp hv with rfl | hv
      · exact absurd hc' hc
      · exact ih ⟨v, hv, hc'⟩

/-- C88: whatever random numbers in `[0, 1)` come, a picked position lies in the region.
Missing: a region of radius zero, see `C88_negation_radius`. -/
theorem C88_pick_partial (R : Region d) (h : R.Proper) (us : List (Fin d → ℝ)) (hu : ∀ u ∈ us, Unit u) (x : Fin d → ℝ) (hx : R.pick us = some x) :
    x ∈ R.points := by
  rw [← C88_contains R h]
  cases R with
  | rect b =>
    cases us with
    | nil => simp [Region.pick] at hx
    | cons u us =>
      simp only [Region.pick, List.head?_cons, Option.map_some, Option.some.injEq] at hx
      subst hx
      refine (contains_iff b _).mpr fun k => ?_
      have h1 : b.lo k < b.hi k := h k
      have h2 := hu u (by simp) k
      unfold Box.randomPoint Box.wd
      constructor <;> nlinarith [h2.1, h2.2]
  | sphere c r =>
    have hr : 0 < r := h
    rw [pick_sphere c r hr] at hx
    exact pickLoop_contains _ us x hx

/-- C88: every point of a region can be picked, with the right random numbers in `[0, 1)`; and a position is picked as soon as one point of the bounding box
that is tried lies in the region. -/
theorem C88_reach (R : Region d) (h : R.Proper) :
    (∀ x ∈ R.points, ∃ u, Unit u ∧ ∀ us, R.pick (u :: us) = some x) ∧
      ∀ us, (∃ u ∈ us, R.boundingBox.randomPoint u ∈ R.points) → ∃ x, R.pick us = some x := by
  have hw : ∀ (b : Box d) (x : Fin d → ℝ), (∀ k, b.lo k < b.hi k) → (∀ k, b.lo k ≤ x k ∧ x k < b.hi k) →
      Unit (fun k => (x k - b.lo k) / (b.hi k - b.lo k)) ∧ b.randomPoint (fun k => (x k - b.lo k) / (b.hi k - b.lo k)) = x := by
    intro b x hb hx
    refine ⟨fun k => ⟨div_nonneg (by linarith [hx k]) (by linarith [hb k]), (div_lt_one (by linarith [hb k])).mpr (by linarith [hx k])⟩, ?_⟩
    funext k
    unfold Box.randomPoint Box.wd
    rw [div_mul_cancel₀ _ (by linarith [hb k] : b.hi k - b.lo k ≠ 0)]
    ring
  cases R with
  | rect b =>
    refine ⟨fun x hx => ?_, fun us hu => ?_⟩
    · obtain ⟨h1, h2⟩ := hw b x h hx
      refine ⟨_, h1, fun us => ?_⟩
      simp only [Region.pick, List.head?_cons, Option.map_some, h2]
    · obtain ⟨u, hu, _⟩ := hu
      cases us with
      | nil => simp at hu
      | cons v us => exact ⟨_, rfl⟩
  | sphere c r =>
    have hr : 0 < r := h
    refine ⟨fun x hx => ?_, fun us hu => ?_⟩
    · have hb : ∀ k, (Region.sphere c r).boundingBox.lo k < (Region.sphere c r).boundingBox.hi k := fun k => by
        show c k - r < c k + r; linarith
      have hx2 : ∀ k, (Region.sphere c r).boundingBox.lo k ≤ x k ∧ x k < (Region.sphere c r).boundingBox.hi k := by
        intro k
        have hx' : Real.sqrt (∑ k, (x k - c k) ^ 2) < r := hx
        rw [Real.sqrt_lt' hr] at hx'
        have h1 : (x k - c k) ^ 2 ≤ ∑ k, (x k - c k) ^ 2 := Finset.single_le_sum (f := fun k => (x k - c k) ^ 2) (fun i _ => sq_nonneg _) (Finset.mem_univ k)
        have h2 := abs_lt_of_sq_lt_sq (lt_of_le_of_lt h1 hx') hr.le
        rw [abs_lt] at h2
        exact ⟨by show c k - r ≤ x k; linarith, by show x k < c k + r; linarith⟩
      obtain ⟨h1, h2⟩ := hw _ x hb hx2
      refine ⟨_, h1, fun us => ?_⟩
      rw [pick_sphere c r hr]
      unfold pickLoop
      rw [h2, if_pos ((C88_contains _ h x).mpr hx)]
    · rw [pick_sphere c r hr]
      obtain ⟨u, hu, hx⟩ := hu
      exact pickLoop_some _ us ⟨u, hu, (C88_contains _ h _).mpr hx⟩

/-- C88 is false of a spherical region of radius zero: its position is the origin, not its centre. -/
theorem C88_negation_radius : (Region.sphere (d := 2) (fun _ => 3) 0).pick [] = some (fun _ => 0) := by
  exact if_pos rfl

/-! ## Examples -/

example : (Region.sphere (d := 3) (fun _ => 1) 2).Proper := by unfold Region.Proper; norm_num
example : (Region.rect (d := 2) ⟨fun _ => -1, fun _ => 1⟩).Proper := by unfold Region.Proper; norm_num
example : Unit (d := 2) (fun _ => 1 / 2) := fun _ => by norm_num
example : (fun _ => 1 : Fin 3 → ℝ) ∈ (Region.sphere (d := 3) (fun _ => 1) 2).points := by
  simp [Region.points]

/-- The volume of a disc is `π r²`. -/
example (r : ℝ) : sphereVolume r 2 = Real.pi * r ^ 2 := by
  unfold sphereVolume
  rw [show ((2 : ℕ) : ℝ) / 2 = 1 by norm_num, Real.rpow_one, Real.Gamma_add_one one_ne_zero, Real.Gamma_one]
  ring

end Verif.Regions
