import Verif.Creators.Regions
import Mathlib.Algebra.Order.Floor.Semiring
import Mathlib.Tactic.NormNum

/-!
# The box creator (C96)

Models `creators/boxcreator.cpp`. Exact real arithmetic, any number of dimensions, the random numbers (in `[0, 1)` for `drand48`) are inputs.
-/

namespace Verif.BoxCreator

open Verif.Bounds Verif.Regions

variable {d : ℕ}

/-- Correction of bad arguments. `creators/boxcreator.cpp:69-70`. -/
noncomputable def sides (width height : ℝ) : ℝ × ℝ :=
  let w := if width ≤ 0 then 1 else width
  (w, if height ≤ 0 then w else height)

/-- The bounds of the simulation: `height` in the second dimension, `width` in all others. `creators/boxcreator.cpp:71-81`. -/
noncomputable def bounds (w h : ℝ) : Box d :=
  { lo := fun k => if k.val ≠ 1 then -0.5 * w else -0.5 * h
    hi := fun k => if k.val ≠ 1 then 0.5 * w else 0.5 * h }

/-- The number of particles. `creators/boxcreator.cpp:85-88`. -/
noncomputable def number (req : ℤ) (phi w r : ℝ) (d : ℕ) : ℕ := if req < 0 then ⌊phi * w ^ d / sphereVolume r d⌋₊ else req.toNat

/-- The position of a particle. `creators/boxcreator.cpp:105`. -/
noncomputable def position (w : ℝ) (u : Fin d → ℝ) : Fin d → ℝ := fun k => (u k - 0.5) * w

/-- The inverse mass. `creators/boxcreator.cpp:102`. -/
noncomputable def inverseMass (r : ℝ) : ℝ := 1.0 / (1.0 * (Real.pi * r ^ 2))

/-- The velocity: a unit vector times the speed of a random kinetic energy. `creators/boxcreator.cpp:144-149`. -/
noncomputable def velocity (im ke : ℝ) (e : Fin d → ℝ) : Fin d → ℝ := fun k => Real.sqrt (2 * im * ke / 127.324) * e k

/-! ## Theorems -/

/-- C96: whatever the arguments, the box has a positive extent in each dimension. -/
theorem C96_bounds (width height : ℝ) (k : Fin d) : (bounds (sides width height).1 (sides width height).2 : Box d).lo k < (bounds (sides width height).1 (sides width height).2 : Box d).hi k := by
  have hw : 0 < (sides width height).1 := by
    unfold sides
    simp only
    split <;> linarith
  have hh : 0 < (sides width height).2 := by
    unfold sides at hw ⊢
    simp only at hw ⊢
    by_cases h : height ≤ 0
    · rw [if_pos h]; exact hw
    · rw [if_neg h]; exact not_le.mp h
  unfold bounds
  simp only
  split <;> linarith

/-- C96: if the height is at least the width (in particular if no height is given), every particle is created in the box.
Missing: smaller heights, see `C96_negation_inside`. -/
theorem C96_inside_partial (w h : ℝ) (hw : 0 < w) (hh : w ≤ h) (u : Fin d → ℝ) (hu : ∀ k, 0 ≤ u k ∧ u k < 1) (k : Fin d) :
    (bounds w h : Box d).lo k ≤ position w u k ∧ position w u k < (bounds w h : Box d).hi k := by
  unfold bounds position
  simp only
  obtain ⟨h0, h1⟩ := hu k
  split
  · constructor <;> nlinarith
  · constructor <;> nlinarith

/-- C96 is false for every height smaller than the width, in two dimensions or more: random numbers exist for which the particle is outside the box. -/
theorem C96_negation_inside (w h : ℝ) (hh : h < w) (hd : 2 ≤ d) :
    ∃ u : Fin d → ℝ, (∀ k, 0 ≤ u k ∧ u k < 1) ∧ position w u ⟨1, by omega⟩ < (bounds w h : Box d).lo ⟨1, by omega⟩ := by
  refine ⟨fun _ => 0, fun _ => ⟨le_rfl, one_pos⟩, ?_⟩
  unfold bounds position
  simp only [ne_eq, not_true_eq_false, if_false]
  linarith

/-- C96: with a requested number, that number is created. -/
theorem C96_number (req : ℕ) (phi w r : ℝ) : number req phi w r d = req := by
  unfold number
  rw [if_neg (by omega)]
  simp

theorem sphereVolume_pos (r : ℝ) (hr : 0 < r) (D : ℕ) : 0 < sphereVolume r D := by
  unfold sphereVolume
  have := Real.pi_pos
  have := Real.Gamma_pos_of_pos (by positivity : (0 : ℝ) < (D : ℝ) / 2 + 1)
  positivity

theorem vol_bounds (w h : ℝ) (m : ℕ) : ∏ k : Fin (m + 2), ((bounds w h : Box (m + 2)).hi k - (bounds w h : Box (m + 2)).lo k) = w * h * w ^ m := by
  rw [Fin.prod_univ_succ, Fin.prod_univ_succ]
  have h1 : ∀ i : Fin m, (bounds w h : Box (m + 2)).hi i.succ.succ - (bounds w h : Box (m + 2)).lo i.succ.succ = w := by
    intro i
    unfold bounds
    have : (i.succ.succ : Fin (m + 2)).val ≠ 1 := by simp
    simp only [if_pos this]
    ring
  simp only [h1, Finset.prod_const, Finset.card_univ, Fintype.card_fin]
  unfold bounds
  simp
  ring

/-- C96: for a cube (no height given), the number is the largest whose volume does not exceed the requested fraction of the volume of the box.
Missing: other heights, see `C96_negation_fraction`. -/
theorem C96_fraction_partial (phi w r : ℝ) (hr : 0 < r) (hw : 0 < w) (hp : 0 ≤ phi) (m : ℕ) :
    let V := ∏ k : Fin (m + 2), ((bounds w w : Box (m + 2)).hi k - (bounds w w : Box (m + 2)).lo k)
    (number (-1) phi w r (m + 2) : ℝ) * sphereVolume r (m + 2) ≤ phi * V ∧ phi * V < (number (-1) phi w r (m + 2) + 1) * sphereVolume r (m + 2) := by
  intro V
  have hV : V = w ^ (m + 2) := by
    show ∏ k : Fin (m + 2), ((bounds w w : Box (m + 2)).hi k - (bounds w w : Box (m + 2)).lo k) = _
    rw [vol_bounds]; ring
  have hs := sphereVolume_pos r hr (m + 2)
  unfold number
  rw [if_pos (by norm_num), hV]
  constructor
  · rw [← le_div_iff₀ hs]
    exact Nat.floor_le (by positivity)
  · rw [← div_lt_iff₀ hs]
    exact Nat.lt_floor_add_one _

/-- C96 is false if a height is given: the number is that of a cube, whatever the height. The volume of the particles is then `w / h` times the requested fraction of the volume of
the box, up to one particle. -/
theorem C96_negation_fraction (phi w h r : ℝ) (hr : 0 < r) (hw : 0 < w) (hh : 0 < h) (hp : 0 ≤ phi) (m : ℕ) :
    let V := ∏ k : Fin (m + 2), ((bounds w h : Box (m + 2)).hi k - (bounds w h : Box (m + 2)).lo k)
    (number (-1) phi w r (m + 2) : ℝ) * sphereVolume r (m + 2) ≤ w / h * (phi * V) ∧ w / h * (phi * V) < (number (-1) phi w r (m + 2) + 1) * sphereVolume r (m + 2) := by
  intro V
  have hV : V = w * h * w ^ m := vol_bounds w h m
  have := C96_fraction_partial phi w r hr hw hp m
  simp only [vol_bounds] at this
  have he : w / h * (phi * V) = phi * (w * w * w ^ m) := by rw [hV]; field_simp
  rw [he]
  exact this

/-- C96: the particles have density one in two dimensions.
Missing: other dimensions, where the same mass is used (`C96_negation_mass`). -/
theorem C96_mass_partial (r : ℝ) (hr : 0 < r) : 1 / inverseMass r / sphereVolume r 2 = 1 := by
  have h2 : sphereVolume r 2 = Real.pi * r ^ 2 := by
    unfold sphereVolume
    rw [show ((2 : ℕ) : ℝ) / 2 = 1 by norm_num, Real.rpow_one, Real.Gamma_add_one one_ne_zero, Real.Gamma_one]
    ring
  have := Real.pi_pos
  rw [h2]
  unfold inverseMass
  field_simp

/-- C96 is false in three dimensions: the density of a particle of radius `r` is `3 / 4 r`. -/
theorem C96_negation_mass (r : ℝ) (hr : 0 < r) : 1 / inverseMass r / (4 / 3 * Real.pi * r ^ 3) = 3 / (4 * r) := by
  have := Real.pi_pos
  unfold inverseMass
  norm_num
  field_simp

/-- C96: the kinetic energy of a particle is the random energy divided by 127.324 (the inverse mass of a particle of radius 0.05), in every dimension and for all radii. -/
theorem C96_energy (im ke : ℝ) (him : 0 < im) (hke : 0 ≤ ke) (e : Fin d → ℝ) (he : ∑ k, e k ^ 2 = 1) : ∑ k, 1 / 2 * (1 / im) * velocity im ke e k ^ 2 = ke / 127.324 := by
  have h : ∀ k, 1 / 2 * (1 / im) * velocity im ke e k ^ 2 = ke / 127.324 * e k ^ 2 := by
    intro k
    unfold velocity
    rw [mul_pow, Real.sq_sqrt (by positivity)]
    field_simp
  simp only [h, ← Finset.mul_sum, he, mul_one]

example : ∑ k : Fin 2, (![3 / 5, 4 / 5] : Fin 2 → ℝ) k ^ 2 = 1 := by
  rw [Fin.sum_univ_two]; norm_num

end Verif.BoxCreator
