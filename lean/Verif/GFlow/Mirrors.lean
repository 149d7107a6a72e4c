import Verif.GFlow.WalledMotion

/-!
# C176: reflecting walls are mirrors

A run in a box with reflecting walls (`Verif.GFlow.Walls`, C174) is compared with a run without these walls in a row of mirror
images of the box: each particle moves straight through the walls and forces act on it as its image in the box is pushed.
-/

set_option linter.unusedSectionVars false
set_option linter.unusedVariables false

namespace Verif.Mirrored
open Verif.Cells Verif.Grid Verif.Stencil Verif.ForceMaster Verif.PairForces Verif.Handlers Verif.ForceSum Verif.Verlet
open Verif.Trajectory Verif.Boundary Verif.BodyForces Verif.Convergence Verif.RoughSteps
open Verif.WalledRun (Sides Mod Fits drift bounce friction pull mirror tube ends)
open Verif.TrueMotion (Coord)
open Verif.WalledMotion (newton newton_zero point exists_bound shaft shaft_alive shaft_zero shaft_ok shaft_build shaft_separate)

variable {d : ℕ}

/-! ## Specification -/

/-- Spec: the number of the image of `[lo, hi]` that contains `y`. -/
noncomputable def image (lo hi y : ℝ) : ℤ := ⌊(y - lo) / (hi - lo)⌋

/-- Spec: the mirror image of `y` in `[lo, hi]`. -/
noncomputable def fold (lo hi y : ℝ) : ℝ :=
  if Even (image lo hi y) then y - image lo hi y * (hi - lo) else lo + hi - (y - image lo hi y * (hi - lo))

/-- Spec: whether an even (1) or odd (-1) number of mirrors lies between `y` and the box. -/
noncomputable def side (lo hi y : ℝ) : ℝ := if Even (image lo hi y) then 1 else -1

/-- Spec: the positions in the box, for positions `y` in the row of images. -/
noncomputable def folded (s : Setup d) (w : Sides d) (y : ℕ × Fin d → ℝ) : ℕ × Fin d → ℝ := fun j =>
  if w.bc j.2 = .refl then fold (s.g j.2).lo (s.g j.2).hi (y j) else y j

/-- Spec: the signs of the coordinates of velocities and forces. -/
noncomputable def sign (s : Setup d) (w : Sides d) (y : ℕ × Fin d → ℝ) : ℕ × Fin d → ℝ := fun j =>
  if w.bc j.2 = .refl then side (s.g j.2).lo (s.g j.2).hi (y j) else 1

/-- Spec: the acceleration in the row of images: that of the images in the box, mirrored. -/
noncomputable def newtonU (s : Setup d) (h : List Call) (im : ℕ → ℝ) (w : Sides d) (c : ℝ) (y u : ℕ × Fin d → ℝ) :
    ℕ × Fin d → ℝ := fun j =>
  sign s w y j * newton s h im w c (folded s w y) (fun j => sign s w y j * u j) j

/-- Spec: one step in the row of images, without reflection: half kick with the drag, move, half kick. Stored accelerations
include half of the drag, as in `DragStep`. -/
noncomputable def through (s : Setup d) (h : List Call) (im : ℕ → ℝ) (w : Sides d) (dt : ℝ) (p : Pt (ℕ × Fin d)) : Pt (ℕ × Fin d) :=
  let u := fun j : ℕ × Fin d => p.v j + dt / 2 * (p.c j - 1/2 * (im j.1 * friction w.mods) * p.v j)
  let y := fun j => p.x j + dt * u j
  let v := fun j => u j + dt / 2 * newtonU s h im w 0 y u j
  ⟨y, v, fun j => newtonU s h im w 0 y u j - 1/2 * (im j.1 * friction w.mods) * v j⟩

/-- Spec: in every step each particle moves, in each reflecting dimension, by less than the width of the box, and does not stop
exactly on a wall before it is reflected. -/
def Clear (s : Setup d) (h : List Call) (im : ℕ → ℝ) (w : Sides d) : List (ℝ × Bool) → Motion d → Prop
  | [], _ => True
  | (dt, _) :: l, M =>
    (∀ i, s.Alive i → ∀ k, w.bc k = .refl → |dt * (drift w im dt M i k).2| < (s.g k).hi - (s.g k).lo ∧
      (drift w im dt M i k).1 ≠ (s.g k).lo ∧ (drift w im dt M i k).1 ≠ (s.g k).hi) ∧
    Clear s h im w l (WalledRun.ideal s h im w dt M)

/-- Spec: all particles are between the reflecting walls. -/
def Between (s : Setup d) (w : Sides d) (x : ℕ → Fin d → ℝ) : Prop :=
  ∀ i, s.Alive i → ∀ k, w.bc k = .refl → (s.g k).lo < x i k ∧ x i k < (s.g k).hi

/-! ## Mirrors -/

theorem image_eq {lo hi y : ℝ} (hb : lo < hi) {m : ℤ} (h1 : lo + m * (hi - lo) ≤ y) (h2 : y < lo + (m + 1) * (hi - lo)) :
    image lo hi y = m := by
  have hw : 0 < hi - lo := by linarith
  unfold image
  rw [Int.floor_eq_iff]
  constructor
  · rw [le_div_iff₀ hw]; linarith
  · rw [div_lt_iff₀ hw]; linarith

theorem image_spec {lo hi : ℝ} (y : ℝ) (hb : lo < hi) :
    lo + image lo hi y * (hi - lo) ≤ y ∧ y < lo + (image lo hi y + 1) * (hi - lo) := by
  have hw : 0 < hi - lo := by linarith
  have h1 := Int.floor_le ((y - lo) / (hi - lo))
  have h2 := Int.lt_floor_add_one ((y - lo) / (hi - lo))
  rw [le_div_iff₀ hw] at h1
  rw [div_lt_iff₀ hw] at h2
  unfold image
  constructor <;> linarith

theorem fold_inside {lo hi : ℝ} (y : ℝ) (hb : lo < hi) : lo ≤ fold lo hi y ∧ fold lo hi y ≤ hi := by
  obtain ⟨h1, h2⟩ := image_spec y hb
  unfold fold
  have h3 : ((image lo hi y : ℝ) + 1) * (hi - lo) = image lo hi y * (hi - lo) + (hi - lo) := by ring
  split_ifs <;> constructor <;> linarith

theorem fold_id {lo hi y : ℝ} (h1 : lo ≤ y) (h2 : y < hi) : fold lo hi y = y ∧ side lo hi y = 1 := by
  have h := image_eq (lt_of_le_of_lt h1 h2) (m := 0) (y := y) (by push_cast; linarith) (by push_cast; linarith)
  unfold fold side
  rw [h]; simp

/-- A step through a mirror is a reflection. -/
theorem mirror_step {lo hi : ℝ} (hb : lo < hi) (y m v : ℝ) (h1 : lo < fold lo hi y) (h2 : fold lo hi y < hi)
    (hm : |m| < hi - lo) (n1 : fold lo hi y + side lo hi y * m ≠ lo) (n2 : fold lo hi y + side lo hi y * m ≠ hi) :
    mirror lo hi (fold lo hi y + side lo hi y * m, side lo hi y * v) = (fold lo hi (y + m), side lo hi (y + m) * v) ∧
      lo < fold lo hi (y + m) ∧ fold lo hi (y + m) < hi := by
  obtain ⟨m1, m2⟩ := abs_lt.mp hm
  have W : ∀ a : ℝ, (a + 1) * (hi - lo) = a * (hi - lo) + (hi - lo) := fun a => by ring
  have W' : ∀ a : ℝ, (a - 1) * (hi - lo) = a * (hi - lo) - (hi - lo) := fun a => by ring
  have W2 : ∀ a : ℝ, (a - 1 + 1) * (hi - lo) = a * (hi - lo) := fun a => by ring
  have W3 : ∀ a : ℝ, (a + 1 + 1) * (hi - lo) = a * (hi - lo) + 2 * (hi - lo) := fun a => by ring
  set n := image lo hi y with hn
  by_cases he : Even n
  · have hf : fold lo hi y = y - n * (hi - lo) := by unfold fold; rw [if_pos he]
    have hsd : side lo hi y = 1 := by unfold side; rw [if_pos he]
    rw [hf] at h1 h2
    rw [hf, hsd, one_mul] at n1 n2
    rw [hf, hsd, one_mul, one_mul]
    by_cases c1 : y - n * (hi - lo) + m < lo
    · have hi' : image lo hi (y + m) = n - 1 := by
        apply image_eq hb <;> push_cast <;> linarith [W' n, W2 n]
      have ho : ¬ Even (n - 1) := by rw [Int.even_sub_one]; simpa using he
      unfold mirror fold side
      simp only [hi', if_neg ho, if_pos c1]
      push_cast
      refine ⟨Prod.ext ?_ ?_, ?_, ?_⟩
      · simp only; linarith [W' n]
      · simp only; ring
      · linarith [W' n]
      · linarith [W' n]
    · by_cases c2 : hi < y - n * (hi - lo) + m
      · have hi' : image lo hi (y + m) = n + 1 := by
          apply image_eq hb <;> push_cast <;> linarith [W n, W3 n]
        have ho : ¬ Even (n + 1) := by rw [Int.even_add_one]; simpa using he
        unfold mirror fold side
        simp only [hi', if_neg ho, if_neg c1, if_pos c2]
        push_cast
        refine ⟨Prod.ext ?_ ?_, ?_, ?_⟩
        · simp only; linarith [W n]
        · simp only; ring
        · linarith [W n]
        · linarith [W n]
      · have d1 : lo < y - n * (hi - lo) + m := lt_of_le_of_ne (not_lt.mp c1) (Ne.symm n1)
        have d2 : y - n * (hi - lo) + m < hi := lt_of_le_of_ne (not_lt.mp c2) n2
        have hi' : image lo hi (y + m) = n := by
          apply image_eq hb <;> linarith [W n]
        unfold mirror fold side
        simp only [hi', if_pos he, if_neg c1, if_neg c2]
        refine ⟨Prod.ext ?_ ?_, ?_, ?_⟩
        · simp only; ring
        · simp only; ring
        · linarith
        · linarith
  · have hf : fold lo hi y = lo + hi - (y - n * (hi - lo)) := by unfold fold; rw [if_neg he]
    have hsd : side lo hi y = -1 := by unfold side; rw [if_neg he]
    rw [hf] at h1 h2
    rw [hf, hsd] at n1 n2
    rw [hf, hsd]
    by_cases c1 : lo + hi - (y - n * (hi - lo)) + -1 * m < lo
    · have hi' : image lo hi (y + m) = n + 1 := by
        apply image_eq hb <;> push_cast <;> linarith [W n, W3 n]
      have ho : Even (n + 1) := by rw [Int.even_add_one]; simpa using he
      unfold mirror fold side
      simp only [hi', if_pos ho, if_pos c1]
      push_cast
      refine ⟨Prod.ext ?_ ?_, ?_, ?_⟩
      · simp only; linarith [W n]
      · simp only; ring
      · linarith [W n]
      · linarith [W n]
    · by_cases c2 : hi < lo + hi - (y - n * (hi - lo)) + -1 * m
      · have hi' : image lo hi (y + m) = n - 1 := by
          apply image_eq hb <;> push_cast <;> linarith [W' n, W2 n]
        have ho : Even (n - 1) := by rw [Int.even_sub_one]; simpa using he
        unfold mirror fold side
        simp only [hi', if_pos ho, if_neg c1, if_pos c2]
        push_cast
        refine ⟨Prod.ext ?_ ?_, ?_, ?_⟩
        · simp only; linarith [W' n]
        · simp only; ring
        · linarith [W' n]
        · linarith [W' n]
      · have d1 : lo < lo + hi - (y - n * (hi - lo)) + -1 * m := lt_of_le_of_ne (not_lt.mp c1) (Ne.symm n1)
        have d2 : lo + hi - (y - n * (hi - lo)) + -1 * m < hi := lt_of_le_of_ne (not_lt.mp c2) n2
        have hi' : image lo hi (y + m) = n := by
          apply image_eq hb <;> linarith [W n]
        unfold mirror fold side
        simp only [hi', if_neg he, if_neg c1, if_neg c2]
        refine ⟨Prod.ext ?_ ?_, ?_, ?_⟩
        · simp only; ring
        · simp only
        · linarith
        · linarith

/-- Images are at most as far apart as the points, and on the same side unless a wall is between them. -/
theorem fold_near {lo hi : ℝ} (hb : lo < hi) (y z ε : ℝ) (h : |y - z| ≤ ε) :
    |fold lo hi y - fold lo hi z| ≤ ε ∧
      (side lo hi y = side lo hi z ∨ |fold lo hi z - lo| ≤ ε ∨ |fold lo hi z - hi| ≤ ε) := by
  have hw : 0 < hi - lo := by linarith
  obtain ⟨y1, y2⟩ := image_spec y hb
  obtain ⟨z1, z2⟩ := image_spec z hb
  obtain ⟨e1, e2⟩ := abs_le.mp h
  have iy := fold_inside y hb
  have iz := fold_inside z hb
  set p := image lo hi y with hp
  set q := image lo hi z with hq
  have W : ∀ a : ℝ, (a + 1) * (hi - lo) = a * (hi - lo) + (hi - lo) := fun a => by ring
  -- distances to walls
  rcases lt_trichotomy p q with hlt | heq | hgt
  · by_cases hn : q = p + 1
    · have hq' : (q : ℝ) = p + 1 := by exact_mod_cast hn
      rw [hq'] at z1 z2
      by_cases he : Even p
      · have ho : ¬ Even q := by rw [hn, Int.even_add_one]; simpa using he
        have fy : fold lo hi y = y - p * (hi - lo) := by unfold fold; rw [if_pos he]
        have fz : fold lo hi z = lo + hi - (z - q * (hi - lo)) := by unfold fold; rw [if_neg ho]
        rw [hq'] at fz
        refine ⟨?_, Or.inr (Or.inr ?_)⟩ <;> rw [abs_le] <;> constructor <;> linarith [W p]
      · have ho : Even q := by rw [hn, Int.even_add_one]; simpa using he
        have fy : fold lo hi y = lo + hi - (y - p * (hi - lo)) := by unfold fold; rw [if_neg he]
        have fz : fold lo hi z = z - q * (hi - lo) := by unfold fold; rw [if_pos ho]
        rw [hq'] at fz
        refine ⟨?_, Or.inr (Or.inl ?_)⟩ <;> rw [abs_le] <;> constructor <;> linarith [W p]
    · have hge : (p : ℝ) + 2 ≤ q := by exact_mod_cast (by omega : p + 2 ≤ q)
      have hbig : hi - lo ≤ ε := by nlinarith
      refine ⟨?_, Or.inr (Or.inl ?_)⟩ <;> rw [abs_le] <;> constructor <;> linarith [iy.1, iy.2, iz.1, iz.2]
  · have hpq : (p : ℝ) = q := by exact_mod_cast heq
    refine ⟨?_, Or.inl ?_⟩
    · unfold fold
      rw [← hp, ← hq, heq]
      split_ifs
      · rw [show y - (q : ℝ) * (hi - lo) - (z - q * (hi - lo)) = y - z by ring]; exact h
      · rw [show lo + hi - (y - (q : ℝ) * (hi - lo)) - (lo + hi - (z - q * (hi - lo))) = -(y - z) by ring, abs_neg]; exact h
    · unfold side
      rw [← hp, ← hq, heq]
  · by_cases hn : p = q + 1
    · have hq' : (p : ℝ) = q + 1 := by exact_mod_cast hn
      rw [hq'] at y1 y2
      by_cases he : Even q
      · have ho : ¬ Even p := by rw [hn, Int.even_add_one]; simpa using he
        have fz : fold lo hi z = z - q * (hi - lo) := by unfold fold; rw [if_pos he]
        have fy : fold lo hi y = lo + hi - (y - p * (hi - lo)) := by unfold fold; rw [if_neg ho]
        rw [hq'] at fy
        refine ⟨?_, Or.inr (Or.inr ?_)⟩ <;> rw [abs_le] <;> constructor <;> linarith [W q]
      · have ho : Even p := by rw [hn, Int.even_add_one]; simpa using he
        have fz : fold lo hi z = lo + hi - (z - q * (hi - lo)) := by unfold fold; rw [if_neg he]
        have fy : fold lo hi y = y - p * (hi - lo) := by unfold fold; rw [if_pos ho]
        rw [hq'] at fy
        refine ⟨?_, Or.inr (Or.inl ?_)⟩ <;> rw [abs_le] <;> constructor <;> linarith [W q]
    · have hge : (q : ℝ) + 2 ≤ p := by exact_mod_cast (by omega : q + 2 ≤ p)
      have hbig : hi - lo ≤ ε := by nlinarith
      refine ⟨?_, Or.inr (Or.inl ?_)⟩ <;> rw [abs_le] <;> constructor <;> linarith [iy.1, iy.2, iz.1, iz.2]

theorem side_sq (lo hi y : ℝ) : side lo hi y * side lo hi y = 1 := by unfold side; split_ifs <;> norm_num

theorem side_abs (lo hi y : ℝ) : |side lo hi y| = 1 := by unfold side; split_ifs <;> norm_num

theorem sign_sq (s : Setup d) (w : Sides d) (y : ℕ × Fin d → ℝ) (j : ℕ × Fin d) : sign s w y j * sign s w y j = 1 := by
  unfold sign; split_ifs
  · exact side_sq _ _ _
  · norm_num

/-! ## Steps -/

/-- Accelerations depend only on existing particles. -/
theorem newton_congr (s : Setup d) (h : List Call) (im : ℕ → ℝ) (w : Sides d) (c : ℝ) {y u y' u' : ℕ × Fin d → ℝ}
    (hy : ∀ j, Coord s j → y j = y' j) (hu : ∀ j, Coord s j → u j = u' j) (j : ℕ × Fin d) (hj : Coord s j) :
    newton s h im w c y u j = newton s h im w c y' u' j := by
  have e1 : ∀ i, s.Alive i → (fun k => y (i, k)) = fun k => y' (i, k) := fun i hi => funext fun k => hy (i, k) hi
  have e2 : ∀ i, s.Alive i → (fun k => u (i, k)) = fun k => u' (i, k) := fun i hi => funext fun k => hu (i, k) hi
  unfold newton
  rw [e1 j.1 hj, e2 j.1 hj, hu j hj]
  congr 3
  refine Finset.sum_congr rfl fun b hb => ?_
  obtain ⟨b1, b2, b3⟩ := Finset.mem_filter.mp hb
  have hbA : s.Alive b := ⟨Finset.mem_range.mp b1, b3⟩
  apply direct_congr
  · exact e2 j.1 hj
  · exact e2 b hbA
  · rfl
  · rfl
  · simp only [e1 j.1 hj, e1 b hbA]

/-- The motion in the box is the image of `p`. -/
def Shows (s : Setup d) (im : ℕ → ℝ) (w : Sides d) (M : Motion d) (p : Pt (ℕ × Fin d)) : Prop :=
  ∀ j, Coord s j → M.x j.1 j.2 = folded s w p.x j ∧ M.v j.1 j.2 = sign s w p.x j * p.v j ∧
    (point im w M).c j = sign s w p.x j * p.c j

theorem shows_step (s : Setup d) (h : List Call) (im : ℕ → ℝ) (w : Sides d) (hv : ∀ k, (s.g k).lo < (s.g k).hi) (dt : ℝ)
    (M : Motion d) (p : Pt (ℕ × Fin d)) (hb : Between s w M.x)
    (hc : ∀ i, s.Alive i → ∀ k, w.bc k = .refl → |dt * (drift w im dt M i k).2| < (s.g k).hi - (s.g k).lo ∧
      (drift w im dt M i k).1 ≠ (s.g k).lo ∧ (drift w im dt M i k).1 ≠ (s.g k).hi) (hs : Shows s im w M p) :
    Shows s im w (WalledRun.ideal s h im w dt M) (through s h im w dt p) ∧ Between s w (WalledRun.ideal s h im w dt M).x := by
  set u := fun j : ℕ × Fin d => p.v j + dt / 2 * (p.c j - 1/2 * (im j.1 * friction w.mods) * p.v j) with hu
  set y := fun j => p.x j + dt * u j with hy
  have hd : ∀ i, s.Alive i → ∀ k, drift w im dt M i k =
      (folded s w p.x (i, k) + sign s w p.x (i, k) * (dt * u (i, k)), sign s w p.x (i, k) * u (i, k)) := by
    intro i hi k
    obtain ⟨h1, h2, h3⟩ := hs (i, k) hi
    simp only [point] at h1 h2 h3
    have hw : M.v i k + dt / 2 * im i * (M.f i k - friction w.mods * M.v i k) = sign s w p.x (i, k) * u (i, k) := by
      have : im i * (M.f i k - friction w.mods * M.v i k) = im i * (M.f i k - 1/2 * friction w.mods * M.v i k) -
          1/2 * (im i * friction w.mods) * M.v i k := by ring
      rw [mul_assoc, this, h3, h2]
      simp only [hu]; ring
    unfold drift
    simp only
    rw [hw, h1]
    refine Prod.ext ?_ rfl
    simp only; ring
  have hbn : ∀ i, s.Alive i → ∀ k, bounce s w im dt M i k = (folded s w y (i, k), sign s w y (i, k) * u (i, k)) ∧
      (w.bc k = .refl → (s.g k).lo < folded s w y (i, k) ∧ folded s w y (i, k) < (s.g k).hi) := by
    intro i hi k
    unfold bounce
    rw [hd i hi k]
    by_cases hr : w.bc k = .refl
    · obtain ⟨c1, c2, c3⟩ := hc i hi k hr
      obtain ⟨b1, b2⟩ := hb i hi k hr
      rw [(hs (i, k) hi).1] at b1 b2
      rw [hd i hi k] at c1 c2 c3
      simp only [folded, sign, if_pos hr] at b1 b2 c1 c2 c3 ⊢
      have c1' : |dt * u (i, k)| < (s.g k).hi - (s.g k).lo := by
        rw [show dt * (side (s.g k).lo (s.g k).hi (p.x (i, k)) * u (i, k)) =
          side (s.g k).lo (s.g k).hi (p.x (i, k)) * (dt * u (i, k)) by ring, abs_mul, side_abs, one_mul] at c1
        exact c1
      obtain ⟨m1, m2, m3⟩ := mirror_step (hv k) (p.x (i, k)) (dt * u (i, k)) (u (i, k)) b1 b2 c1' c2 c3
      exact ⟨m1, fun _ => ⟨m2, m3⟩⟩
    · rw [if_neg hr]
      refine ⟨?_, fun h => absurd h hr⟩
      simp only [folded, sign, if_neg hr, one_mul, hy]
  -- forces
  have hf : ∀ j, Coord s j → im j.1 * (WalledRun.ideal s h im w dt M).f j.1 j.2 = sign s w y j * newtonU s h im w 0 y u j := by
    intro j hj
    have e1 : im j.1 * (WalledRun.ideal s h im w dt M).f j.1 j.2 = newton s h im w 0 (fun j => (bounce s w im dt M j.1 j.2).1)
        (fun j => (bounce s w im dt M j.1 j.2).2) j := by
      simp only [WalledRun.ideal, newton]
      rw [if_pos (show s.Alive j.1 from hj)]
      simp only [zero_mul, sub_zero]
    rw [e1, newton_congr s h im w 0 (y' := folded s w y) (u' := fun j => sign s w y j * u j)
      (fun j hj => by simp only [(hbn j.1 hj j.2).1]) (fun j hj => by simp only [(hbn j.1 hj j.2).1]) j hj]
    unfold newtonU
    rw [← mul_assoc, sign_sq, one_mul]
  refine ⟨fun j hj => ?_, fun i hi k hr => ?_⟩
  · have ev : (WalledRun.ideal s h im w dt M).v j.1 j.2 = sign s w y j * (u j + dt / 2 * newtonU s h im w 0 y u j) := by
      have e1 : (WalledRun.ideal s h im w dt M).v j.1 j.2 = (bounce s w im dt M j.1 j.2).2 +
          dt / 2 * (im j.1 * (WalledRun.ideal s h im w dt M).f j.1 j.2) := by
        simp only [WalledRun.ideal]; ring
      rw [e1, hf j hj, (hbn j.1 hj j.2).1]
      simp only; ring
    refine ⟨?_, ev, ?_⟩
    · show (bounce s w im dt M j.1 j.2).1 = _
      rw [(hbn j.1 hj j.2).1]
      rfl
    · simp only [point]
      rw [mul_sub, hf j hj, ev]
      show _ = sign s w y j * (newtonU s h im w 0 y u j - 1/2 * (im j.1 * friction w.mods) * (u j + dt / 2 * newtonU s h im w 0 y u j))
      ring
  · show _ < (bounce s w im dt M i k).1 ∧ (bounce s w im dt M i k).1 < _
    rw [(hbn i hi k).1]
    exact (hbn i hi k).2 hr

theorem shows_steps (s : Setup d) (h : List Call) (im : ℕ → ℝ) (w : Sides d) (hv : ∀ k, (s.g k).lo < (s.g k).hi)
    (l : List (ℝ × Bool)) (M : Motion d) (p : Pt (ℕ × Fin d)) (hb : Between s w M.x) (hc : Clear s h im w l M)
    (hs : Shows s im w M p) :
    Shows s im w (l.foldl (fun M a => WalledRun.ideal s h im w a.1 M) M) (l.foldl (fun p a => through s h im w a.1 p) p) := by
  induction l generalizing M p with
  | nil => exact hs
  | cons a l ih =>
    obtain ⟨s1, s2⟩ := shows_step s h im w hv a.1 M p hb hc.1 hs
    exact ih _ _ s2 hc.2 s1

theorem shows_start (s : Setup d) (im : ℕ → ℝ) (w : Sides d) (M : Motion d) (hb : Between s w M.x) :
    Shows s im w M (point im w M) := by
  intro j hj
  have h1 : folded s w (point im w M).x j = M.x j.1 j.2 ∧ sign s w (point im w M).x j = 1 := by
    unfold folded sign
    by_cases hr : w.bc j.2 = .refl
    · rw [if_pos hr, if_pos hr]
      obtain ⟨b1, b2⟩ := hb j.1 hj j.2 hr
      exact fold_id b1.le b2
    · rw [if_neg hr, if_neg hr]
      exact ⟨rfl, rfl⟩
  rw [h1.1, h1.2, one_mul, one_mul]
  exact ⟨rfl, rfl, rfl⟩

theorem newtonU_zero (s : Setup d) (h : List Call) (im : ℕ → ℝ) (w : Sides d) (c : ℝ) (y u : ℕ × Fin d → ℝ) (j : ℕ × Fin d) :
    newtonU s h im w c y u j = newtonU s h im w 0 y u j - c * (im j.1 * friction w.mods) * u j := by
  unfold newtonU
  rw [newton_zero s h im w c]
  have := sign_sq s w y j
  linear_combination (-(c * (im j.1 * friction w.mods) * u j)) * this

section main

variable (s : Setup d) (h : List Call) (hr : InRange h) (href : AllReflexive h) (T : FM ℝ)
    (hT : run s.cut (.init :: h) = some T) (x v f : Arr) (hok : s.OK h fun i => home s (parts d x i)) (e : Env)
    (he : e.mode.OK) (w : Sides d) (hw : Fits s w e.im) (hb : Buildable s h (parts d x)) (hin : Between s w (parts d x))
include hr href hT hok he hw hb hin

/-- **C176, mirrors (partial).** A run with reflecting walls, on any sides, is the image of a run without them: the particles move
through the walls into a row of mirror images of the box, and positions, velocities and forces in the box are the mirrored ones, at
every time, after any number of reflections.
Missing: steps in which a particle moves by the width of the box or more, or stops exactly on a wall; as for
`C174_run_partial`. -/
theorem C176_mirrors_partial (l : List (ℝ × Bool))
    (ht : WalledRun.Timely s h e.im w (parts d x) l ⟨parts d x, parts d v, parts d f⟩)
    (hc : Clear s h e.im w l ⟨parts d x, parts d v, parts d f⟩) :
    ∃ st, (start s T x v f).bind (WalledRun.steps s T e w l) = some st ∧
      let P := l.foldl (fun p a => through s h e.im w a.1 p) (point e.im w ⟨parts d x, parts d v, parts d f⟩)
      ∀ i, s.Alive i → ∀ k, parts d st.v i k = sign s w P.x (i, k) * P.v (i, k) ∧
        ∃ z : ℤ, ((s.g k).per = false → z = 0) ∧
          parts d st.x i k = folded s w P.x (i, k) + z * ((s.g k).hi - (s.g k).lo) := by
  obtain ⟨st, s1, s2⟩ := WalledRun.C174_run_partial s h hr href T hT x v f hok e he w hw hb l ht
  refine ⟨st, s1, ?_⟩
  intro P i hi k
  have hS := shows_steps s h e.im w (fun k => (hok.valid k).lohi) l _ _ hin hc (shows_start s e.im w _ hin)
  obtain ⟨e1, e2, e3⟩ := hS (i, k) hi
  obtain ⟨g1, g2, g3⟩ := s2 i hi
  refine ⟨?_, ?_⟩
  · rw [g1]; exact e2
  · obtain ⟨z, z1, z2⟩ := g3 k
    refine ⟨z, z1, ?_⟩
    rw [z2]
    congr 1

/-- **C176, convergence (partial).** Simulations with reflecting walls converge to the billiard motion: for every exact motion `X`
through the row of mirror images along which accelerations are bounded and Lipschitz and near which forces are Lipschitz, positions
of the simulation are within a constant times the largest time step of the images of `X`, and velocities within it of the mirrored
velocities, except for particles that are that close to a reflecting wall at the end, whose velocity may not yet or already be
reversed.
Missing: forces across the wall that do not vanish when a particle hits it, for which mirrored forces are not continuous; the drag
at full strength, as in C175; as for `C176_mirrors_partial`. -/
theorem C176_convergence_partial (X V : ℝ → ℕ × Fin d → ℝ) (time : ℝ) {A B L ρ : ℝ}
    (hs : Solves (Coord s) (newtonU s h e.im w (1/2)) time X V) (hm : Mild (Coord s) (newtonU s h e.im w (1/2)) time X V A B)
    (hl : Tame (Coord s) (newtonU s h e.im w (1/2)) time X V ρ L) (hA : 0 ≤ A) (hB : 0 ≤ B) (hL : 0 ≤ L) (hρ : 0 < ρ)
    (h0 : ∀ i, s.Alive i → ∀ k, parts d x i k = X 0 (i, k) ∧ parts d v i k = V 0 (i, k)) :
    ∃ C H₀ : ℝ, 0 < H₀ ∧ ∀ H : ℝ, 0 < H → H ≤ H₀ → ∀ l : List (ℝ × Bool), (∀ a ∈ l, 0 ≤ a.1 ∧ a.1 ≤ H) →
      (l.map Prod.fst).sum ≤ time → WalledRun.Timely s h e.im w (parts d x) l ⟨parts d x, parts d v, parts d f⟩ →
      Clear s h e.im w l ⟨parts d x, parts d v, parts d f⟩ →
      ∃ st, (start s T x v f).bind (WalledRun.steps s T e w l) = some st ∧
        let t := (l.map Prod.fst).sum
        ∀ i, s.Alive i → ∀ k,
          (∃ z : ℤ, ((s.g k).per = false → z = 0) ∧
            |parts d st.x i k - (folded s w (X t) (i, k) + z * ((s.g k).hi - (s.g k).lo))| ≤ C * H) ∧
          (|parts d st.v i k - sign s w (X t) (i, k) * V t (i, k)| ≤ C * H ∨
            w.bc k = .refl ∧ (|folded s w (X t) (i, k) - (s.g k).lo| ≤ C * H ∨ |folded s w (X t) (i, k) - (s.g k).hi| ≤ C * H)) := by
  obtain ⟨R, hR, hR'⟩ := exists_bound s fun j =>
    (point e.im w ⟨parts d x, parts d v, parts d f⟩).c j - newtonU s h e.im w (1/2) (X 0) (V 0) j
  obtain ⟨V0, hV0, bV0⟩ := exists_bound s (V 0)
  obtain ⟨G, hG, bG⟩ := exists_bound s fun j => e.im j.1 * friction w.mods
  obtain ⟨K, h₁, hK, hh₁, hrough⟩ := drag_rough (fun j => e.im j.1 * friction w.mods) (newtonU s h e.im w 0)
    (fun y u j _ => newtonU_zero s h e.im w (1/2) y u j) hs hm hl hA hL hρ R hR V0 hV0 bV0 G hG bG
  obtain ⟨C, H₀, hH₀, key⟩ := rough_order id (through s h e.im w) hs hm hl hA hB hL hρ R hR K hK h₁ hh₁
    (fun t ht dt hdt hdt1 hT p hn => hrough t ht dt hdt hdt1 hT p _ (fun j _ => ⟨rfl, rfl, rfl⟩) hn)
  refine ⟨C, H₀, hH₀, fun H hH hle l hd hsum ht hc => ?_⟩
  obtain ⟨st, s1, s2⟩ := C176_mirrors_partial s h hr href T hT x v f hok e he w hw hb hin l ht hc
  refine ⟨st, s1, ?_⟩
  intro t i hi k
  have := key H hH hle (l.map Prod.fst) (fun dt hdt => by
    obtain ⟨a, ha, rfl⟩ := List.mem_map.mp hdt
    exact hd a ha) hsum (point e.im w ⟨parts d x, parts d v, parts d f⟩) (by
    rintro ⟨i, k⟩ hi
    exact ⟨(h0 i hi k).1, (h0 i hi k).2, hR' (i, k) hi⟩) (i, k) hi
  rw [List.foldl_map] at this
  simp only [id] at this
  obtain ⟨n1, n2⟩ := this
  obtain ⟨e1, z, z1, z2⟩ := s2 i hi k
  rw [e1, z2]
  set P := l.foldl (fun p a => through s h e.im w a.1 p) (point e.im w ⟨parts d x, parts d v, parts d f⟩) with hP
  have shift : ∀ a b c : ℝ, a + c - (b + c) = a - b := fun a b c => by ring
  by_cases hrf : w.bc k = .refl
  · obtain ⟨q1, q2⟩ := fold_near (hok.valid k).lohi (P.x (i, k)) (X t (i, k)) _ n1
    refine ⟨⟨z, z1, ?_⟩, ?_⟩
    · rw [shift]
      simp only [folded, if_pos hrf]
      exact q1
    · rcases q2 with q2 | q2
      · left
        simp only [sign, if_pos hrf]
        rw [q2, ← mul_sub, abs_mul, side_abs, one_mul]
        exact n2
      · right
        simp only [folded, if_pos hrf]
        exact ⟨hrf, q2⟩
  · refine ⟨⟨z, z1, ?_⟩, Or.inl ?_⟩
    · rw [shift]
      simp only [folded, if_neg hrf]
      exact n1
    · simp only [sign, if_neg hrf, one_mul]
      exact n2

end main

/-! ## Example: a particle that hits the end of a tube -/

theorem shaft_free (c : ℝ) (y u : ℕ × Fin 1 → ℝ) (j : ℕ × Fin 1) (hj : Coord shaft j) :
    newtonU shaft ringHist (fun _ => 1) (ends .refl 0 []) c y u j = 0 := by
  obtain ⟨i, k⟩ := j
  have hi0 : i = 0 := shaft_alive hj
  subst hi0
  have hfr : friction (ends .refl 0 []).mods = 0 := by simp [ends, friction]
  unfold newtonU newton
  simp only
  rw [Finset.sum_eq_zero, hfr]
  · simp [WalledRun.outer, pull, ends]
  · intro b hb
    obtain ⟨b1, b2, b3⟩ := Finset.mem_filter.mp hb
    exact absurd (shaft_alive ⟨Finset.mem_range.mp b1, b3⟩) b2

/-- The hypotheses of `C176_convergence_partial` hold for a particle that starts at 1 with velocity -2 and passes the mirror at 0
at time 1/2; at time 1 its image is at 1, with velocity 2. -/
example : Fits shaft (ends .refl 0 []) (fun _ => 1) ∧ Between shaft (ends .refl 0 []) (parts 1 fun _ => 1) ∧
    Solves (Coord shaft) (newtonU shaft ringHist (fun _ => 1) (ends .refl 0 []) (1/2)) 1 (fun t _ => 1 - 2 * t) (fun _ _ => -2) ∧
    Mild (Coord shaft) (newtonU shaft ringHist (fun _ => 1) (ends .refl 0 []) (1/2)) 1 (fun t _ => 1 - 2 * t) (fun _ _ => -2) 0 0 ∧
    Tame (Coord shaft) (newtonU shaft ringHist (fun _ => 1) (ends .refl 0 []) (1/2)) 1 (fun t _ => 1 - 2 * t) (fun _ _ => -2) 1 0 ∧
    (∀ i, shaft.Alive i → ∀ k, parts 1 (fun _ => 1) i k = 1 - 2 * (0:ℝ) ∧ parts 1 (fun _ => (-2:ℝ)) i k = -2) ∧
    folded shaft (ends .refl 0 []) (fun _ => 1 - 2 * (1:ℝ)) (0, 0) = 1 ∧
    sign shaft (ends .refl 0 []) (fun _ => 1 - 2 * (1:ℝ)) (0, 0) * (-2) = 2 := by
  have him : image 0 (24/5) (1 - 2 * (1:ℝ)) = -1 := image_eq (by norm_num) (by norm_num) (by norm_num)
  have ho : ¬ Even (-1 : ℤ) := by decide
  refine ⟨⟨fun k => by simp [shaft, tube, ends], fun h => absurd rfl h, fun _ => by norm_num⟩, ?_, ⟨?_, ?_⟩, ⟨?_, ?_⟩, ?_, ?_, ?_, ?_⟩
  · intro i hi k _
    simp only [parts, shaft, tube]; norm_num
  · intro t ht j hj
    exact (((hasDerivAt_id t).const_mul (2:ℝ)).const_sub 1).hasDerivWithinAt.congr_deriv (by norm_num)
  · intro t ht j hj
    rw [shaft_free _ _ _ j hj]
    exact (hasDerivAt_const t (-2:ℝ)).hasDerivWithinAt
  · intro t ht j hj
    rw [shaft_free _ _ _ j hj, abs_zero]
  · intro t ht u hu j hj
    rw [shaft_free _ _ _ j hj, shaft_free _ _ _ j hj, sub_self, abs_zero, zero_mul]
  · intro t ht y u ε _ _ j hj
    rw [shaft_free _ _ _ j hj, shaft_free _ _ _ j hj, sub_self, abs_zero, zero_mul]
  · intro i hi k
    simp [parts]
  · have h1 : (shaft.g 0).lo = 0 := rfl
    have h2 : (shaft.g 0).hi = 24/5 := rfl
    simp only [folded, ends, if_true, h1, h2, fold, him, if_neg ho]
    norm_num
  · have h1 : (shaft.g 0).lo = 0 := rfl
    have h2 : (shaft.g 0).hi = 24/5 := rfl
    simp only [sign, ends, if_true, h1, h2, side, him, if_neg ho]
    norm_num

/-- A step with a reflection meets the hypotheses of `C176_mirrors_partial`. -/
example : Between shaft (ends .refl 0 []) (parts 1 fun _ => 1/200) ∧
    WalledRun.Timely shaft ringHist (fun _ => 1) (ends .refl 0 []) (parts 1 fun _ => 1/200) [(1/100, true)]
      ⟨parts 1 fun _ => 1/200, parts 1 fun _ => -1, parts 1 fun _ => 0⟩ ∧
    Clear shaft ringHist (fun _ => 1) (ends .refl 0 []) [(1/100, true)]
      ⟨parts 1 fun _ => 1/200, parts 1 fun _ => -1, parts 1 fun _ => 0⟩ ∧
    (drift (ends .refl 0 []) (fun _ => 1) (1/100) ⟨parts 1 fun _ => 1/200, parts 1 fun _ => -1, parts 1 fun _ => 0⟩ 0 0).1 < 0 := by
  have hfr : friction (ends .refl 0 []).mods = 0 := by simp [ends, friction]
  have hd : ∀ i k, drift (ends .refl 0 []) (fun _ => 1) (1/100) ⟨parts 1 fun _ => 1/200, parts 1 fun _ => -1, parts 1 fun _ => 0⟩ i k =
      (-5/1000, -1) := by
    intro i k
    simp only [drift, hfr, parts]; norm_num
  have h1 : ∀ k, (shaft.g k).lo = 0 := fun k => rfl
  have h2 : ∀ k, (shaft.g k).hi = 24/5 := fun k => rfl
  refine ⟨?_, ⟨fun _ => shaft_build _, fun i hi => ?_, shaft_separate _, trivial⟩, ⟨fun i hi k _ => ?_, trivial⟩, ?_⟩
  · intro i hi k _
    simp only [parts, h1, h2]; norm_num
  · rw [len_one]
    have : (WalledRun.ideal shaft ringHist (fun _ => 1) (ends .refl 0 []) (1/100)
        ⟨parts 1 fun _ => 1/200, parts 1 fun _ => -1, parts 1 fun _ => 0⟩).x i 0 = 5/1000 := by
      simp only [WalledRun.ideal, bounce, hd, h1, h2]
      have hb : (ends .refl 0 []).bc 0 = .refl := rfl
      rw [if_pos hb]
      norm_num [mirror]
    simp only [if_true, Pi.sub_apply, this, hd]
    norm_num [shaft, tube, ring]
  · rw [hd, h1, h2]; norm_num
  · rw [hd]; norm_num

end Verif.Mirrored
