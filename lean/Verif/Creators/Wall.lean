import Mathlib.Algebra.Order.Floor.Ring
import Verif.Parallel.KDTree

/-!
# Walls (C89)

Models the placement of the particles by `WallCreator::createArea`, `creators/wallcreator.cpp:45-70`. Exact real arithmetic, any number of dimensions.
The parsing of the parameters and the modifiers of a wall are not modelled here.
-/

namespace Verif.Wall
open Verif.Bounds

variable {d : ℕ}

/-- `distanceVec`, `utility/vec.hpp:255-262`, for vectors of the same dimension. -/
noncomputable def distanceVec (a b : Fin d → ℝ) : ℝ := Real.sqrt ((List.finRange d).foldl (fun s k => s + (a k - b k) * (a k - b k)) 0)

open Classical in
/-- `Vec::normalize`, `utility/vec.hpp:156-163`. -/
noncomputable def normalize (v : Fin d → ℝ) : Fin d → ℝ :=
  if Real.sqrt ((List.finRange d).foldl (fun s k => s + v k * v k) 0) = 0 then v
  else fun k => v k / Real.sqrt ((List.finRange d).foldl (fun s k => s + v k * v k) 0)

/-- The number of particles, `creators/wallcreator.cpp:50`. -/
noncomputable def wallCount (D r s : ℝ) : ℕ := (max ⌈(D - 2 * r) / s⌉ 1).toNat

/-- The loop that places the particles, `creators/wallcreator.cpp:58-70`, for the remaining number of particles. -/
def wallLoop (start norm : Fin d → ℝ) (spacing : ℝ) : ℕ → ℝ → List (Fin d → ℝ)
  | 0, _ => []
  | n + 1, lam => (fun k => start k + lam * norm k) :: wallLoop start norm spacing n (lam + spacing)

/-- The positions of the particles of a wall, `creators/wallcreator.cpp:33-70`. -/
noncomputable def wall (start fin : Fin d → ℝ) (r s : ℝ) : List (Fin d → ℝ) :=
  wallLoop start (normalize fun k => fin k - start k) (distanceVec start fin / wallCount (distanceVec start fin) r s)
    (wallCount (distanceVec start fin) r s) r

/-- What the processor with the given bounds creates, `creators/wallcreator.cpp:58-70`: the bounds are not used. -/
noncomputable def wallOn (_ : Box d) (start fin : Fin d → ℝ) (r s : ℝ) : List (Fin d → ℝ) := wall start fin r s

/-- The spacing if none is given, `creators/wallcreator.cpp:44`. -/
def defaultSpacing (r : ℝ) : ℝ := 2 * r

/-! ## Specification -/

/-- Euclidean distance. -/
noncomputable def dist (a b : Fin d → ℝ) : ℝ := Real.sqrt (∑ k, (a k - b k) ^ 2)

/-- The point at distance `t` from `a` in the direction of `b`. -/
noncomputable def along (a b : Fin d → ℝ) (t : ℝ) : Fin d → ℝ := fun k => a k + t / dist a b * (b k - a k)

/-! ## Lemmas -/

theorem foldl_add (f : Fin d → ℝ) (l : List (Fin d)) (a : ℝ) : l.foldl (fun s k => s + f k) a = a + (l.map f).sum := by
  induction l generalizing a with
  | nil => simp
  | cons x l ih => rw [List.foldl_cons, ih, List.map_cons, List.sum_cons]; ring

theorem foldl_sum (f : Fin d → ℝ) : (List.finRange d).foldl (fun s k => s + f k) 0 = ∑ k, f k := by
  rw [foldl_add, zero_add, ← List.ofFn_eq_map, List.sum_ofFn]

theorem distanceVec_eq (a b : Fin d → ℝ) : distanceVec a b = dist a b := by
  unfold distanceVec dist
  rw [foldl_sum fun k => (a k - b k) * (a k - b k)]
  simp only [sq]

theorem dist_nonneg' (a b : Fin d → ℝ) : 0 ≤ dist a b := Real.sqrt_nonneg _

theorem dist_comm (a b : Fin d → ℝ) : dist a b = dist b a := by
  unfold dist
  congr 1
  exact Finset.sum_congr rfl fun k _ => by ring

theorem normalize_eq (a b : Fin d → ℝ) (h : dist a b ≠ 0) (k : Fin d) : normalize (fun k => b k - a k) k = (b k - a k) / dist a b := by
  have he : Real.sqrt ((List.finRange d).foldl (fun s k => s + (b k - a k) * (b k - a k)) 0) = dist a b := by
    rw [← distanceVec_eq, distanceVec]
    congr 2
    funext s k
    ring
  unfold normalize
  rw [if_neg (by rw [he]; exact h), he]

theorem dist_along (a b : Fin d → ℝ) (h : dist a b ≠ 0) (t u : ℝ) : dist (along a b t) (along a b u) = |t - u| := by
  have h1 : ∀ k, (along a b t k - along a b u k) ^ 2 = ((t - u) / dist a b) ^ 2 * (a k - b k) ^ 2 := by
    intro k; unfold along; ring
  show Real.sqrt (∑ k, (along a b t k - along a b u k) ^ 2) = |t - u|
  simp only [h1]
  rw [← Finset.mul_sum, Real.sqrt_mul (sq_nonneg _), Real.sqrt_sq_eq_abs, abs_div]
  have h2 : Real.sqrt (∑ k, (a k - b k) ^ 2) = dist a b := rfl
  have h3 : |dist a b| = dist a b := abs_of_nonneg (Real.sqrt_nonneg _)
  rw [h2, h3, div_mul_cancel₀ _ h]

theorem along_zero (a b : Fin d → ℝ) : along a b 0 = a := by
  funext k; simp [along]

theorem along_dist (a b : Fin d → ℝ) (h : dist a b ≠ 0) : along a b (dist a b) = b := by
  funext k; simp [along, h]

theorem loop_length (start norm : Fin d → ℝ) (sp : ℝ) (n : ℕ) (lam : ℝ) : (wallLoop start norm sp n lam).length = n := by
  induction n generalizing lam with
  | zero => rfl
  | succ n ih => rw [wallLoop, List.length_cons, ih]

theorem loop_get (start norm : Fin d → ℝ) (sp : ℝ) (n : ℕ) (lam : ℝ) (i : ℕ) (hi : i < n) :
    (wallLoop start norm sp n lam)[i]? = some fun k => start k + (lam + i * sp) * norm k := by
  induction n generalizing lam i with
  | zero => omega
  | succ n ih =>
    cases i with
    | zero => simp [wallLoop]
    | succ i =>
      rw [wallLoop, List.getElem?_cons_succ, ih _ _ (by omega)]
      congr 1; funext k; push_cast; ring

theorem count_pos (D r s : ℝ) : 1 ≤ wallCount D r s := by
  unfold wallCount
  have := le_max_right ⌈(D - 2 * r) / s⌉ 1
  omega

/-! ## Theorems -/

/-- C89: a wall between two different points has `max(⌈(D - 2r) / s⌉, 1)` particles; particle `i` lies on the line through the points, at distance
`r + i D / n` from the first point, and neighbouring particles have the distance `D / n`. -/
theorem C89_positions (a b : Fin d → ℝ) (r s : ℝ) (h : dist a b ≠ 0) :
    ∃ n : ℕ, 1 ≤ n ∧ (n : ℤ) = max ⌈(dist a b - 2 * r) / s⌉ 1 ∧ (wall a b r s).length = n ∧
      (∀ i < n, (wall a b r s)[i]? = some (along a b (r + i * (dist a b / n)))) ∧
      ∀ i, i + 1 < n → ∀ p q, (wall a b r s)[i]? = some p → (wall a b r s)[i + 1]? = some q → dist p q = dist a b / n := by
  have h0 := count_pos (dist a b) r s
  have hg : ∀ i < wallCount (dist a b) r s, (wall a b r s)[i]? = some (along a b (r + i * (dist a b / wallCount (dist a b) r s))) := by
    intro i hi
    unfold wall
    rw [distanceVec_eq, loop_get _ _ _ _ _ _ hi]
    congr 1
    funext k
    rw [normalize_eq a b h]
    unfold along
    ring
  refine ⟨wallCount (dist a b) r s, h0, ?_, ?_, hg, ?_⟩
  · unfold wallCount
    have := le_max_right ⌈(dist a b - 2 * r) / s⌉ 1
    omega
  · unfold wall
    rw [distanceVec_eq, loop_length]
  · intro i hi p q hp hq
    rw [hg i (by omega)] at hp
    rw [hg (i + 1) hi] at hq
    cases hp; cases hq
    rw [dist_along a b h]
    push_cast
    rw [show r + (i : ℝ) * (dist a b / wallCount (dist a b) r s) - (r + ((i : ℝ) + 1) * (dist a b / wallCount (dist a b) r s)) = -(dist a b / wallCount (dist a b) r s) by ring,
      abs_neg, abs_of_nonneg (div_nonneg (dist_nonneg' a b) (Nat.cast_nonneg _))]

/-- C89: for positive spacing and points further apart than a particle's diameter, neighbouring particles are at most `s D / (D - 2r)` apart.
Missing: that they are at most `s` apart, see `C89_negation_gaps`. -/
theorem C89_spacing_partial (D r s : ℝ) (hs : 0 < s) (hD : 2 * r < D) (h0 : 0 ≤ D) : D / wallCount D r s ≤ s * (D / (D - 2 * r)) := by
  have h1 : (0 : ℝ) < D - 2 * r := by linarith
  have hn : (D - 2 * r) / s ≤ wallCount D r s := by
    unfold wallCount
    have h2 := Int.le_ceil ((D - 2 * r) / s)
    have h3 : (⌈(D - 2 * r) / s⌉ : ℤ) ≤ ((max ⌈(D - 2 * r) / s⌉ 1).toNat : ℤ) := by
      have := le_max_left ⌈(D - 2 * r) / s⌉ 1
      omega
    have h4 : ((⌈(D - 2 * r) / s⌉ : ℤ) : ℝ) ≤ (((max ⌈(D - 2 * r) / s⌉ 1).toNat : ℤ) : ℝ) := by exact_mod_cast h3
    refine h2.trans (h4.trans (le_of_eq ?_))
    exact Int.cast_natCast _
  have hp : (0 : ℝ) < wallCount D r s := by exact_mod_cast count_pos D r s
  rw [div_le_iff₀ hp]
  have h5 : D - 2 * r ≤ wallCount D r s * s := (div_le_iff₀ hs).mp hn
  have h6 : D / (D - 2 * r) * (D - 2 * r) = D := div_mul_cancel₀ _ h1.ne'
  have h7 : 0 ≤ D / (D - 2 * r) := by positivity
  calc D = D / (D - 2 * r) * (D - 2 * r) := h6.symm
    _ ≤ D / (D - 2 * r) * (wallCount D r s * s) := mul_le_mul_of_nonneg_left h5 h7
    _ = s * (D / (D - 2 * r)) * wallCount D r s := by ring

/-- C89: if the radius is at most the distance of neighbours then all particles lie between the two points.
Missing: a spacing smaller than the radius, see `C89_negation_overshoot`. -/
theorem C89_between_partial (a b : Fin d → ℝ) (r s : ℝ) (h : dist a b ≠ 0) (hr : 0 ≤ r) (hn : r * (wall a b r s).length ≤ dist a b) :
    ∀ p ∈ wall a b r s, ∃ t, 0 ≤ t ∧ t ≤ dist a b ∧ p = along a b t := by
  obtain ⟨n, h1, _, hl, hg, _⟩ := C89_positions a b r s h
  intro p hp
  obtain ⟨i, hi, hpi⟩ := List.mem_iff_getElem.mp hp
  have h2 := hg i (by omega)
  rw [List.getElem?_eq_getElem hi, hpi] at h2
  have h3 : p = along a b (r + i * (dist a b / n)) := Option.some.inj h2
  have hp' : (0 : ℝ) < n := by exact_mod_cast h1
  have hD : 0 ≤ dist a b := Real.sqrt_nonneg _
  rw [hl] at hn
  refine ⟨_, by positivity, ?_, h3⟩
  have h4 : (i : ℝ) + 1 ≤ n := by exact_mod_cast (by omega : i + 1 ≤ n)
  have h5 : r ≤ dist a b / n := (le_div_iff₀ hp').mpr hn
  calc r + i * (dist a b / n) ≤ dist a b / n + i * (dist a b / n) := by linarith
    _ = ((i : ℝ) + 1) * (dist a b / n) := by ring
    _ ≤ n * (dist a b / n) := mul_le_mul_of_nonneg_right h4 (by positivity)
    _ = dist a b := mul_div_cancel₀ _ hp'.ne'

/-- C89 is false: with the default spacing (the diameter), for every two points further apart than a diameter, neighbouring particles of the wall never touch,
and the last one does not reach the end point. -/
theorem C89_negation_gaps (a b : Fin d → ℝ) (r : ℝ) (hr : 0 < r) (hD : 2 * r < dist a b) :
    (∀ i p q, (wall a b r (defaultSpacing r))[i]? = some p → (wall a b r (defaultSpacing r))[i + 1]? = some q → 2 * r < dist p q) ∧
      ∀ p, (wall a b r (defaultSpacing r)).getLast? = some p → r < dist p b := by
  have h : dist a b ≠ 0 := by linarith
  obtain ⟨n, h1, hn, hl, hg, hnb⟩ := C89_positions a b r (defaultSpacing r) h
  have hp : (0 : ℝ) < n := by exact_mod_cast h1
  have hgap : 2 * r < dist a b / n := by
    rw [lt_div_iff₀ hp]
    have h2 : (n : ℝ) < (dist a b - 2 * r) / (2 * r) + 1 := by
      have h3 : ((n : ℤ) : ℝ) = ((max ⌈(dist a b - 2 * r) / (2 * r)⌉ 1 : ℤ) : ℝ) := by exact_mod_cast hn
      have h4 : (1 : ℤ) ≤ ⌈(dist a b - 2 * r) / (2 * r)⌉ := Int.one_le_ceil_iff.mpr (div_pos (by linarith) (by linarith))
      rw [max_eq_left h4] at h3
      have := Int.ceil_lt_add_one ((dist a b - 2 * r) / (2 * r))
      have h5 : ((n : ℤ) : ℝ) = (n : ℝ) := by simp
      linarith
    have h6 : (dist a b - 2 * r) / (2 * r) + 1 = dist a b / (2 * r) := by field_simp; ring
    rw [h6, lt_div_iff₀ (by linarith)] at h2
    linarith
  constructor
  · intro i p q hpi hqi
    have : i + 1 < n := by
      have := (List.getElem?_eq_some_iff.mp hqi).1
      omega
    rw [hnb i this p q hpi hqi]
    exact hgap
  · intro p hlast
    rw [List.getLast?_eq_getElem?, hl, hg (n - 1) (by omega)] at hlast
    have : p = along a b (r + ((n - 1 : ℕ) : ℝ) * (dist a b / n)) := (Option.some.inj hlast).symm
    rw [this]
    have h7 : dist (along a b (r + ((n - 1 : ℕ) : ℝ) * (dist a b / n))) b = |r + ((n - 1 : ℕ) : ℝ) * (dist a b / n) - dist a b| := by
      have := dist_along a b h (r + ((n - 1 : ℕ) : ℝ) * (dist a b / n)) (dist a b)
      rwa [along_dist a b h] at this
    rw [h7]
    have h8 : ((n - 1 : ℕ) : ℝ) = (n : ℝ) - 1 := by rw [Nat.cast_sub h1]; simp
    have h9 : (n : ℝ) * (dist a b / n) = dist a b := mul_div_cancel₀ _ hp.ne'
    rw [h8, show r + ((n : ℝ) - 1) * (dist a b / n) - dist a b = r - dist a b / n by linarith, abs_of_neg (by linarith)]
    linarith

/-- C89 is false for a spacing smaller than the radius: a wall of particles of radius 1 from 0 to 10 with spacing 1/2 has a particle beyond 10. -/
theorem C89_negation_overshoot : ∃ p ∈ wall (d := 1) (fun _ => 0) (fun _ => 10) 1 (1 / 2), 10 < p 0 := by
  have hD : dist (d := 1) (fun _ => 0) (fun _ => 10) = 10 := by
    simp [dist, Real.sqrt_sq]
  obtain ⟨n, h1, hn, hl, hg, _⟩ := C89_positions (d := 1) (fun _ => 0) (fun _ => 10) 1 (1 / 2) (by rw [hD]; norm_num)
  rw [hD] at hn hg
  have hn' : n = 16 := by
    have : ⌈((10 : ℝ) - 2 * 1) / (1 / 2)⌉ = 16 := by norm_num
    rw [this] at hn
    omega
  subst hn'
  have := hg 15 (by norm_num)
  refine ⟨_, List.mem_of_getElem? this, ?_⟩
  unfold along
  rw [hD]
  norm_num

/-- C89 is false on several processors: each of them creates the whole wall, so `P` processors create every particle `P` times. -/
theorem C89_negation_processors {n : ℕ} (B : Box (n + 1)) (P : ℕ) (a b : Fin (n + 1) → ℝ) (r s : ℝ) :
    (List.range P).flatMap (fun own => wallOn (Verif.KDTree.processBounds B P own) a b r s) = (List.replicate P (wall a b r s)).flatten := by
  unfold wallOn
  rw [List.flatMap_def]
  congr 1
  refine List.ext_getElem (by simp) fun i h1 h2 => by simp

/-- C89: a wall between equal points is one particle at that point. -/
theorem C89_point (a : Fin d → ℝ) (r s : ℝ) (hr : 0 ≤ r) (hs : 0 < s) : wall a a r s = [a] := by
  have h0 : distanceVec a a = 0 := by rw [distanceVec_eq]; simp [dist]
  have h1 : wallCount 0 r s = 1 := by
    unfold wallCount
    have : ⌈((0 : ℝ) - 2 * r) / s⌉ ≤ 0 := Int.ceil_le.mpr (by push_cast; exact div_nonpos_of_nonpos_of_nonneg (by linarith) hs.le)
    rw [max_eq_right (by omega)]
    rfl
  unfold wall
  rw [h0, h1]
  have h2 : normalize (fun k => a k - a k) = fun _ : Fin d => (0 : ℝ) := by
    unfold normalize
    rw [if_pos (by rw [foldl_sum fun k => (a k - a k) * (a k - a k)]; simp)]
    funext k; simp
  rw [h2]
  simp [wallLoop]

/-! ## Examples -/

example : (dist (d := 2) (fun _ => 0) (fun k => if k = 0 then 3 else 4)) = 5 := by
  unfold dist
  rw [show (∑ k : Fin 2, ((0 : ℝ) - if k = 0 then 3 else 4) ^ 2) = 5 ^ 2 by simp [Fin.sum_univ_two]; norm_num]
  exact Real.sqrt_sq (by norm_num)
example : (2 : ℝ) * 1 < 5 ∧ wallCount 5 1 1 = 3 := by
  refine ⟨by norm_num, ?_⟩
  unfold wallCount
  rw [show ((5 : ℝ) - 2 * 1) / 1 = (3 : ℤ) by norm_num, Int.ceil_intCast]
  rfl

end Verif.Wall
