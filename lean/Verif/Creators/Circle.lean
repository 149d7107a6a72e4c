import Mathlib.Analysis.SpecialFunctions.Trigonometric.Bounds
import Mathlib.Analysis.SpecialFunctions.Complex.Arg
import Mathlib.Analysis.MeanInequalities
import Mathlib.Algebra.Order.Floor.Ring
import Verif.Parallel.KDTree

/-!
# Circles and spheres made of particles (C90)

Models `CircleCreator::recursive_circle`, `creators/circle-creator.cpp:56-81`. Exact real arithmetic. A position is a function of the index of the dimension;
only the indices below the number of dimensions are read and written. In one dimension the code writes past the end of the position and does not end;
the model has the number of dimensions `m + 2`.
-/

namespace Verif.Circle
open Verif.Bounds

/-- A vector. -/
abbrev Pos := ℕ → ℝ

/-- The parameters: radius of the particles, packing, centre, `creators/circle-creator.hpp:26-36`. -/
structure Par where
  sigma : ℝ
  scale : ℝ
  c : Pos

/-- The number of particles on a circle, `creators/circle-creator.cpp:57`. -/
noncomputable def Par.count (q : Par) (R : ℝ) : ℕ := (max ⌈1 / 2 * q.scale * 2 * Real.pi * R / q.sigma⌉ 1).toNat

/-- The difference of neighbouring angles, `creators/circle-creator.cpp:58`. -/
noncomputable def Par.dtheta (q : Par) (R : ℝ) : ℝ := 2 * Real.pi / q.count R

open Classical in
/-- The angles of the loop, `creators/circle-creator.cpp:62`, for at most `n` iterations: `angles_end` shows that the loop of the code ends before.
`final` is the variable of the code. -/
noncomputable def angles (final : Bool) (dt : ℝ) : ℕ → ℝ → List ℝ
  | 0, _ => []
  | n + 1, t => if t < Real.pi ∨ (final = true ∧ t < 2 * Real.pi) then t :: angles final dt n (t + dt) else []

/-- A loop that changes the position and places particles. -/
def loop (f : Pos → ℝ → List Pos × Pos) : Pos → List ℝ → List Pos × Pos
  | p, [] => ([], p)
  | p, t :: ts => ((f p t).1 ++ (loop f (f p t).2 ts).1, (loop f (f p t).2 ts).2)

/-- The two assignments, `creators/circle-creator.cpp:63-65`. -/
noncomputable def Par.set (q : Par) (d : ℕ) (R : ℝ) (p : Pos) (t : ℝ) : Pos :=
  Function.update (Function.update p d (q.c d + R * Real.cos t)) (d + 1) (q.c (d + 1) + R * Real.sin t)

/-- `recursive_circle`, `creators/circle-creator.cpp:56-81`: the positions in the order in which they are considered, and the position vector at the end.
The first argument is `df - d - 2`; it is zero for the final circle. -/
noncomputable def Par.circle (q : Par) : ℕ → ℕ → ℝ → Pos → List Pos × Pos
  | 0, d, R, p => loop (fun p t => ([q.set d R p t], q.set d R p t)) p (angles true (q.dtheta R) (q.count R) 0)
  | m + 1, d, R, p => loop (fun p t => q.circle m (d + 1) (R * Real.sin t) (q.set d R p t)) p (angles false (q.dtheta R) (q.count R) 0)

open Classical in
/-- `createArea`, `creators/circle-creator.cpp:36-53` with the test of line 71, in `m + 2` dimensions: the positions of the particles that a processor creates. -/
noncomputable def Par.create (q : Par) (m : ℕ) (R : ℝ) (B : Box (m + 2)) : List Pos :=
  if R ≤ 0 then [] else (q.circle m 0 R fun _ => 0).1.filter fun p => B.contains fun k => p k

/-! ## Specification -/

/-- The Euclidean distance in the dimensions `d, …, e - 1`. -/
noncomputable def dist (d e : ℕ) (p r : Pos) : ℝ := Real.sqrt (∑ k ∈ Finset.Ico d e, (p k - r k) ^ 2)

/-! ## Lemmas -/

theorem dist_nonneg' (d e : ℕ) (p r : Pos) : 0 ≤ dist d e p r := Real.sqrt_nonneg _

theorem dist_triangle (d e : ℕ) (p r s : Pos) : dist d e p s ≤ dist d e p r + dist d e r s := by
  have h := Real.Lp_add_le (Finset.Ico d e) (fun k => p k - r k) (fun k => r k - s k) (p := 2) (by norm_num)
  simp only [sub_add_sub_cancel, Real.rpow_two, sq_abs, ← Real.sqrt_eq_rpow] at h
  exact h

theorem loop_mem (f : Pos → ℝ → List Pos × Pos) (I : Pos → Prop) (hI : ∀ p t, I p → I (f p t).2) (ts : List ℝ) (p : Pos) (hp : I p) :
    I (loop f p ts).2 ∧ (∀ x ∈ (loop f p ts).1, ∃ t ∈ ts, ∃ p', I p' ∧ x ∈ (f p' t).1) ∧
      ∀ t ∈ ts, ∃ p', I p' ∧ ∀ x ∈ (f p' t).1, x ∈ (loop f p ts).1 := by
  induction ts generalizing p with
  | nil => exact ⟨hp, by simp [loop], by simp⟩
  | cons t ts ih =>
    obtain ⟨h1, h2, h3⟩ := ih (f p t).2 (hI p t hp)
    refine ⟨h1, ?_, ?_⟩
    · intro x hx
      simp only [loop, List.mem_append] at hx
      rcases hx with hx | hx
      · exact ⟨t, by simp, p, hp, hx⟩
      · obtain ⟨t', ht', h⟩ := h2 x hx
        exact ⟨t', by simp [ht'], h⟩
    · intro t' ht'
      rcases List.mem_cons.mp ht' with rfl | ht'
      · exact ⟨p, hp, fun x hx => by simp only [loop, List.mem_append]; exact Or.inl hx⟩
      · obtain ⟨p', hp', h⟩ := h3 t' ht'
        exact ⟨p', hp', fun x hx => by simp only [loop, List.mem_append]; exact Or.inr (h x hx)⟩

theorem count_pos (q : Par) (R : ℝ) : 1 ≤ q.count R := by
  unfold Par.count
  have := le_max_right ⌈1 / 2 * q.scale * 2 * Real.pi * R / q.sigma⌉ 1
  omega

theorem dtheta_pos (q : Par) (R : ℝ) : 0 < q.dtheta R := by
  unfold Par.dtheta
  have : (0 : ℝ) < q.count R := by exact_mod_cast count_pos q R
  have := Real.pi_pos
  positivity

theorem count_dtheta (q : Par) (R : ℝ) : q.count R * q.dtheta R = 2 * Real.pi := by
  unfold Par.dtheta
  exact mul_div_cancel₀ _ (by have := count_pos q R; exact_mod_cast (by omega : q.count R ≠ 0))

/-- The end of the range of angles. -/
noncomputable def lim (final : Bool) : ℝ := if final then 2 * Real.pi else Real.pi

theorem cond_iff (final : Bool) (t : ℝ) : (t < Real.pi ∨ (final = true ∧ t < 2 * Real.pi)) ↔ t < lim final := by
  have := Real.pi_pos
  cases final
  · simp [lim]
  · simp only [lim, true_and, if_true]
    constructor
    · rintro (h | h) <;> linarith
    · exact Or.inr

theorem angles_mem (final : Bool) (dt : ℝ) (hdt : 0 < dt) (n : ℕ) (t0 : ℝ) (x : ℝ) :
    x ∈ angles final dt n t0 ↔ ∃ i < n, x = t0 + i * dt ∧ x < lim final := by
  induction n generalizing t0 with
  | zero => simp [angles]
  | succ n ih =>
    unfold angles
    by_cases h : t0 < lim final
    · rw [if_pos ((cond_iff final t0).mpr h), List.mem_cons, ih]
      constructor
      · rintro (rfl | ⟨i, hi, he, hx⟩)
        · exact ⟨0, by omega, by simp, h⟩
        · exact ⟨i + 1, by omega, by rw [he]; push_cast; ring, hx⟩
      · rintro ⟨i, hi, he, hx⟩
        cases i with
        | zero => left; simpa using he
        | succ i => right; exact ⟨i, by omega, by rw [he]; push_cast; ring, hx⟩
    · rw [if_neg (fun hc => h ((cond_iff final t0).mp hc))]
      constructor
      · intro hx; simp at hx
      · rintro ⟨i, _, he, hx⟩
        exfalso
        have : 0 ≤ (i : ℝ) * dt := by positivity
        linarith

/-- The loop of the code ends within the number of iterations that the model has: the next angle is not below the limit. -/
theorem angles_end (q : Par) (R : ℝ) (final : Bool) :
    ¬ ((0 + q.count R * q.dtheta R) < Real.pi ∨ (final = true ∧ (0 + q.count R * q.dtheta R) < 2 * Real.pi)) := by
  rw [cond_iff, zero_add, count_dtheta]
  unfold lim
  have := Real.pi_pos
  split_ifs <;> linarith

theorem set_lt (q : Par) (d : ℕ) (R : ℝ) (p : Pos) (t : ℝ) (k : ℕ) (hk : k < d) : q.set d R p t k = p k := by
  unfold Par.set
  rw [Function.update_of_ne (by omega), Function.update_of_ne (by omega)]

theorem set_self (q : Par) (d : ℕ) (R : ℝ) (p : Pos) (t : ℝ) : q.set d R p t d = q.c d + R * Real.cos t := by
  unfold Par.set
  rw [Function.update_of_ne (by omega), Function.update_self]

theorem set_succ (q : Par) (d : ℕ) (R : ℝ) (p : Pos) (t : ℝ) : q.set d R p t (d + 1) = q.c (d + 1) + R * Real.sin t := by
  unfold Par.set
  rw [Function.update_self]

theorem circle_inv (q : Par) (m d : ℕ) (R : ℝ) (p : Pos) :
    (∀ k < d, (q.circle m d R p).2 k = p k) ∧ ∀ x ∈ (q.circle m d R p).1, (∀ k < d, x k = p k) ∧ ∑ k ∈ Finset.Ico d (d + m + 2), (x k - q.c k) ^ 2 = R ^ 2 := by
  induction m generalizing d R p with
  | zero =>
    unfold Par.circle
    obtain ⟨h1, h2, _⟩ := loop_mem (fun p t => ([q.set d R p t], q.set d R p t)) (fun p' => ∀ k < d, p' k = p k)
      (fun p' t hp k hk => (set_lt q d R p' t k hk).trans (hp k hk)) (angles true (q.dtheta R) (q.count R) 0) p (fun _ _ => rfl)
    refine ⟨h1, fun x hx => ?_⟩
    obtain ⟨t, _, p', hp', hx⟩ := h2 x hx
    obtain rfl := List.mem_singleton.mp hx
    refine ⟨fun k hk => by rw [set_lt q d R p' t k hk]; exact hp' k hk, ?_⟩
    rw [Finset.sum_Ico_succ_top (by omega), Finset.sum_Ico_succ_top (by omega), Nat.add_zero, Finset.Ico_self, Finset.sum_empty, set_self, set_succ]
    have := Real.sin_sq_add_cos_sq t
    linear_combination R ^ 2 * this
  | succ m ih =>
    unfold Par.circle
    obtain ⟨h1, h2, _⟩ := loop_mem (fun p t => q.circle m (d + 1) (R * Real.sin t) (q.set d R p t)) (fun p' => ∀ k < d, p' k = p k)
      (fun p' t hp k hk => by rw [(ih (d + 1) _ _).1 k (by omega), set_lt q d R p' t k hk]; exact hp k hk)
      (angles false (q.dtheta R) (q.count R) 0) p (fun _ _ => rfl)
    refine ⟨h1, fun x hx => ?_⟩
    obtain ⟨t, _, p', hp', hx⟩ := h2 x hx
    obtain ⟨h3, h4⟩ := (ih (d + 1) (R * Real.sin t) (q.set d R p' t)).2 x hx
    refine ⟨fun k hk => by rw [h3 k (by omega), set_lt q d R p' t k hk]; exact hp' k hk, ?_⟩
    rw [Finset.sum_eq_sum_Ico_succ_bot (by omega), show d + (m + 1) + 2 = d + 1 + m + 2 by ring, h4, h3 d (by omega), set_self]
    have := Real.sin_sq_add_cos_sq t
    linear_combination R ^ 2 * this

/-- The step of an angle along a circle is at most `2 σ / scale`. -/
theorem arc_le (q : Par) (hs : 0 < q.sigma) (hc : 0 < q.scale) (R : ℝ) : R * q.dtheta R ≤ 2 * q.sigma / q.scale := by
  have hn : 1 / 2 * q.scale * 2 * Real.pi * R / q.sigma ≤ q.count R := by
    unfold Par.count
    have h2 := Int.le_ceil (1 / 2 * q.scale * 2 * Real.pi * R / q.sigma)
    have h3 : (⌈1 / 2 * q.scale * 2 * Real.pi * R / q.sigma⌉ : ℤ) ≤ ((max ⌈1 / 2 * q.scale * 2 * Real.pi * R / q.sigma⌉ 1).toNat : ℤ) := by
      have := le_max_left ⌈1 / 2 * q.scale * 2 * Real.pi * R / q.sigma⌉ 1
      omega
    have h4 : ((⌈1 / 2 * q.scale * 2 * Real.pi * R / q.sigma⌉ : ℤ) : ℝ) ≤ (((max ⌈1 / 2 * q.scale * 2 * Real.pi * R / q.sigma⌉ 1).toNat : ℤ) : ℝ) := by exact_mod_cast h3
    refine h2.trans (h4.trans (le_of_eq ?_))
    exact Int.cast_natCast _
  have hp : (0 : ℝ) < q.count R := by exact_mod_cast count_pos q R
  unfold Par.dtheta
  rw [mul_div_assoc', div_le_div_iff₀ hp hc]
  have h5 := (div_le_iff₀ hs).mp hn
  linarith

theorem chord (R a b : ℝ) (hR : 0 ≤ R) : Real.sqrt ((R * Real.cos a - R * Real.cos b) ^ 2 + (R * Real.sin a - R * Real.sin b) ^ 2) ≤ R * |a - b| := by
  rw [Real.sqrt_le_left (by positivity)]
  have h1 : (R * Real.cos a - R * Real.cos b) ^ 2 + (R * Real.sin a - R * Real.sin b) ^ 2 = R ^ 2 * (2 - 2 * Real.cos (a - b)) := by
    rw [Real.cos_sub]
    have ha := Real.sin_sq_add_cos_sq a
    have hb := Real.sin_sq_add_cos_sq b
    linear_combination R ^ 2 * ha + R ^ 2 * hb
  rw [h1, mul_pow, sq_abs]
  have := Real.one_sub_sq_div_two_le_cos (x := a - b)
  exact mul_le_mul_of_nonneg_left (by linarith) (sq_nonneg R)

theorem floor_angle (q : Par) (R : ℝ) (final : Bool) (φ : ℝ) (h0 : 0 ≤ φ) (h1 : φ ≤ lim final) (h2 : φ < 2 * Real.pi) :
    ∃ t ∈ angles final (q.dtheta R) (q.count R) 0, 0 ≤ t ∧ t ≤ Real.pi * 2 ∧ |φ - t| ≤ q.dtheta R ∧ (final = false → t < Real.pi) := by
  have hdt := dtheta_pos q R
  have hcd := count_dtheta q R
  have hlim : 0 < lim final := by unfold lim; have := Real.pi_pos; split_ifs <;> linarith
  have hlim2 : final = false → lim final = Real.pi := by rintro rfl; rfl
  by_cases hc : φ < lim final
  · have hf0 : (0 : ℤ) ≤ ⌊φ / q.dtheta R⌋ := Int.floor_nonneg.mpr (by positivity)
    obtain ⟨i, hi⟩ := Int.eq_ofNat_of_zero_le hf0
    have ha := Int.floor_le (φ / q.dtheta R)
    have hb := Int.lt_floor_add_one (φ / q.dtheta R)
    rw [hi] at ha hb
    rw [Int.cast_natCast] at ha hb
    rw [le_div_iff₀ hdt] at ha
    rw [div_lt_iff₀ hdt] at hb
    have hin : i < q.count R := by
      by_contra hcon
      have : (q.count R : ℝ) ≤ i := by exact_mod_cast not_lt.mp hcon
      have := mul_le_mul_of_nonneg_right this hdt.le
      linarith
    refine ⟨i * q.dtheta R, (angles_mem final _ hdt _ _ _).mpr ⟨i, hin, by ring, by linarith⟩, by positivity, by linarith, ?_, fun hff => by rw [← hlim2 hff]; linarith⟩
    rw [abs_of_nonneg (by linarith)]
    linarith
  · -- `φ` is the excluded end of the range: the last angle is the largest multiple below it
    have he : φ = lim final := le_antisymm h1 (not_lt.mp hc)
    have hf : final = false := by
      cases final
      · rfl
      · exfalso; rw [he] at h2; simp [lim] at h2
    have hc1 : 1 ≤ ⌈φ / q.dtheta R⌉ := Int.one_le_ceil_iff.mpr (by rw [he]; positivity)
    obtain ⟨i, hi⟩ := Int.eq_ofNat_of_zero_le (show (0 : ℤ) ≤ ⌈φ / q.dtheta R⌉ - 1 by omega)
    have hi' : ⌈φ / q.dtheta R⌉ = (i : ℤ) + 1 := by omega
    have ha := Int.ceil_lt_add_one (φ / q.dtheta R)
    have hb := Int.le_ceil (φ / q.dtheta R)
    rw [hi'] at ha hb
    push_cast at ha hb
    have ha' : (i : ℝ) < φ / q.dtheta R := by linarith
    rw [lt_div_iff₀ hdt] at ha'
    rw [div_le_iff₀ hdt] at hb
    have hin : i < q.count R := by
      by_contra hcon
      have : (q.count R : ℝ) ≤ i := by exact_mod_cast not_lt.mp hcon
      have := mul_le_mul_of_nonneg_right this hdt.le
      linarith
    refine ⟨i * q.dtheta R, (angles_mem final _ hdt _ _ _).mpr ⟨i, hin, by ring, by linarith⟩, by positivity, by linarith, ?_, fun hff => by rw [← hlim2 hff]; linarith⟩
    rw [abs_of_nonneg (by linarith)]
    linarith

theorem polar (R x y : ℝ) (hR : 0 ≤ R) (h : x ^ 2 + y ^ 2 = R ^ 2) : ∃ φ, 0 ≤ φ ∧ φ < 2 * Real.pi ∧ x = R * Real.cos φ ∧ y = R * Real.sin φ := by
  have hn : ‖(⟨x, y⟩ : ℂ)‖ = R := by
    rw [Complex.norm_def, Complex.normSq_mk, ← sq, ← sq, h, Real.sqrt_sq hR]
  have h1 : R * Real.cos (Complex.arg ⟨x, y⟩) = x := by rw [← hn]; exact Complex.norm_mul_cos_arg _
  have h2 : R * Real.sin (Complex.arg ⟨x, y⟩) = y := by rw [← hn]; exact Complex.norm_mul_sin_arg _
  have h3 := Complex.neg_pi_lt_arg (⟨x, y⟩ : ℂ)
  have h4 := Complex.arg_le_pi (⟨x, y⟩ : ℂ)
  have := Real.pi_pos
  by_cases h5 : 0 ≤ Complex.arg ⟨x, y⟩
  · exact ⟨_, h5, by linarith, h1.symm, h2.symm⟩
  · refine ⟨Complex.arg ⟨x, y⟩ + 2 * Real.pi, by linarith, by linarith, ?_, ?_⟩
    · rw [Real.cos_add_two_pi, h1]
    · rw [Real.sin_add_two_pi, h2]

theorem rescale (S : Finset ℕ) (k0 : ℕ) (hk : k0 ∈ S) (y : Pos) (a b : ℝ) (ha : 0 ≤ a) (h : ∑ k ∈ S, y k ^ 2 = a ^ 2) :
    ∃ w : Pos, ∑ k ∈ S, w k ^ 2 = b ^ 2 ∧ ∑ k ∈ S, (y k - w k) ^ 2 = (a - b) ^ 2 := by
  by_cases h0 : a = 0
  · subst h0
    have hy : ∀ k ∈ S, y k ^ 2 = 0 := by
      rw [show (0 : ℝ) ^ 2 = 0 by norm_num] at h
      exact (Finset.sum_eq_zero_iff_of_nonneg fun k _ => sq_nonneg _).mp h
    refine ⟨fun k => if k = k0 then b else 0, ?_, ?_⟩
    · rw [Finset.sum_eq_single k0]
      · simp
      · intro k _ hk'; simp [hk']
      · intro hk'; exact absurd hk hk'
    · rw [Finset.sum_eq_single k0]
      · have := pow_eq_zero_iff (two_ne_zero) |>.mp (hy k0 hk)
        simp [this]
      · intro k hk1 hk'
        have := pow_eq_zero_iff (two_ne_zero) |>.mp (hy k hk1)
        simp [hk', this]
      · intro hk'; exact absurd hk hk'
  · refine ⟨fun k => b / a * y k, ?_, ?_⟩
    · simp only [mul_pow, ← Finset.mul_sum, h]
      field_simp
    · have : ∀ k, (y k - b / a * y k) ^ 2 = (1 - b / a) ^ 2 * y k ^ 2 := fun k => by ring
      simp only [this, ← Finset.mul_sum, h]
      field_simp

/-! ## Theorems -/

/-- C90: every particle of a sphere lies exactly at the given distance from the centre, in every dimension from two. -/
theorem C90_on_sphere (q : Par) (m : ℕ) (R : ℝ) (B : Box (m + 2)) : ∀ p ∈ q.create m R B, dist 0 (m + 2) p q.c = R := by
  intro p hp
  unfold Par.create at hp
  by_cases hR : R ≤ 0
  · rw [if_pos hR] at hp; simp at hp
  · rw [if_neg hR] at hp
    have := ((circle_inv q m 0 R fun _ => 0).2 p (List.mem_filter.mp hp).1).2
    unfold dist
    rw [Nat.zero_add] at this
    rw [this, Real.sqrt_sq (not_le.mp hR).le]

theorem circle_cover (q : Par) (hs : 0 < q.sigma) (hc : 0 < q.scale) (m d : ℕ) (R : ℝ) (hR : 0 ≤ R) (p x : Pos)
    (hx : ∑ k ∈ Finset.Ico d (d + m + 2), (x k - q.c k) ^ 2 = R ^ 2) :
    ∃ r ∈ (q.circle m d R p).1, dist d (d + m + 2) x r ≤ (m + 1) * (2 * q.sigma / q.scale) := by
  induction m generalizing d R p x with
  | zero =>
    rw [Finset.sum_Ico_succ_top (by omega), Finset.sum_Ico_succ_top (by omega), Nat.add_zero, Finset.Ico_self, Finset.sum_empty, zero_add] at hx
    obtain ⟨φ, h0, h2, hcx, hsx⟩ := polar R _ _ hR hx
    obtain ⟨t, ht, _, _, hd, _⟩ := floor_angle q R true φ h0 (by simp [lim]; linarith) h2
    obtain ⟨_, _, h3⟩ := loop_mem (fun p t => ([q.set d R p t], q.set d R p t)) (fun _ => True) (fun _ _ _ => trivial) (angles true (q.dtheta R) (q.count R) 0) p trivial
    obtain ⟨p', _, h4⟩ := h3 t ht
    refine ⟨q.set d R p' t, h4 _ (by simp), ?_⟩
    have h5 : dist d (d + 0 + 2) x (q.set d R p' t) = Real.sqrt ((R * Real.cos φ - R * Real.cos t) ^ 2 + (R * Real.sin φ - R * Real.sin t) ^ 2) := by
      unfold dist
      rw [Finset.sum_Ico_succ_top (by omega), Finset.sum_Ico_succ_top (by omega), Nat.add_zero, Finset.Ico_self, Finset.sum_empty, zero_add, set_self, set_succ, ← hcx, ← hsx]
      congr 2 <;> ring
    rw [h5]
    refine (chord R φ t hR).trans ?_
    have h6 := arc_le q hs hc R
    have h7 := mul_le_mul_of_nonneg_left hd hR
    push_cast
    linarith
  | succ m ih =>
    rw [Finset.sum_eq_sum_Ico_succ_bot (by omega)] at hx
    have hrest : 0 ≤ ∑ k ∈ Finset.Ico (d + 1) (d + (m + 1) + 2), (x k - q.c k) ^ 2 := Finset.sum_nonneg fun k _ => sq_nonneg _
    -- the polar angle of `x`
    obtain ⟨φ, h0, hpi, hcx, hsx⟩ : ∃ φ, 0 ≤ φ ∧ φ ≤ Real.pi ∧ x d - q.c d = R * Real.cos φ ∧
        ∑ k ∈ Finset.Ico (d + 1) (d + (m + 1) + 2), (x k - q.c k) ^ 2 = (R * Real.sin φ) ^ 2 := by
      by_cases hR0 : R = 0
      · refine ⟨0, le_refl _, Real.pi_pos.le, ?_, ?_⟩ <;> subst hR0
        · have : (x d - q.c d) ^ 2 = 0 := by nlinarith [sq_nonneg (x d - q.c d)]
          rw [pow_eq_zero_iff two_ne_zero] at this
          rw [this]; ring
        · have : (x d - q.c d) ^ 2 = 0 := by nlinarith [sq_nonneg (x d - q.c d)]
          rw [this] at hx
          rw [zero_mul]
          linarith
      · have hRp : 0 < R := lt_of_le_of_ne hR (Ne.symm hR0)
        have hsq : (x d - q.c d) ^ 2 ≤ R ^ 2 := by linarith
        have hab := abs_le_of_sq_le_sq hsq hR
        rw [abs_le] at hab
        have hcos : Real.cos (Real.arccos ((x d - q.c d) / R)) = (x d - q.c d) / R :=
          Real.cos_arccos (by rw [le_div_iff₀ hRp]; linarith) (by rw [div_le_iff₀ hRp]; linarith)
        refine ⟨Real.arccos ((x d - q.c d) / R), Real.arccos_nonneg _, Real.arccos_le_pi _, ?_, ?_⟩
        · rw [hcos, mul_div_cancel₀ _ hRp.ne']
        · have h1 := Real.sin_sq_add_cos_sq (Real.arccos ((x d - q.c d) / R))
          have h2 : R * Real.cos (Real.arccos ((x d - q.c d) / R)) = x d - q.c d := by rw [hcos, mul_div_cancel₀ _ hRp.ne']
          rw [← h2] at hx
          linear_combination hx - R ^ 2 * h1
    have hpp := Real.pi_pos
    obtain ⟨t, ht, ht0, _, hd, htpi⟩ := floor_angle q R false φ h0 (by simpa [lim] using hpi) (by linarith)
    have htpi := htpi rfl
    have hsin_t : 0 ≤ Real.sin t := Real.sin_nonneg_of_nonneg_of_le_pi ht0 htpi.le
    have hsin_p : 0 ≤ Real.sin φ := Real.sin_nonneg_of_nonneg_of_le_pi h0 hpi
    obtain ⟨w, hw1, hw2⟩ := rescale (Finset.Ico (d + 1) (d + (m + 1) + 2)) (d + 1) (by simp) (fun k => x k - q.c k) (R * Real.sin φ) (R * Real.sin t)
      (mul_nonneg hR hsin_p) hsx
    obtain ⟨_, _, h3⟩ := loop_mem (fun p t => q.circle m (d + 1) (R * Real.sin t) (q.set d R p t)) (fun _ => True) (fun _ _ _ => trivial)
      (angles false (q.dtheta R) (q.count R) 0) p trivial
    obtain ⟨p', _, h4⟩ := h3 t ht
    -- the point with the same direction on the slice
    let z : Pos := fun k => if k = d then q.c d + R * Real.cos t else q.c k + w k
    have hz : ∀ k ∈ Finset.Ico (d + 1) (d + (m + 1) + 2), z k = q.c k + w k := by
      intro k hk
      have : k ≠ d := by have := (Finset.mem_Ico.mp hk).1; omega
      simp [z, this]
    have he : d + (m + 1) + 2 = d + 1 + m + 2 := by ring
    obtain ⟨r, hr, hrd⟩ := ih (d + 1) (R * Real.sin t) (mul_nonneg hR hsin_t) (q.set d R p' t) z (by
      rw [← he, ← hw1]
      refine Finset.sum_congr rfl fun k hk => ?_
      rw [hz k hk]; ring)
    refine ⟨r, h4 r hr, ?_⟩
    have hr0 : r d = z d := by
      rw [((circle_inv q m (d + 1) _ _).2 r hr).1 d (by omega), set_self]
      simp [z]
    have h5 : dist d (d + (m + 1) + 2) z r = dist (d + 1) (d + 1 + m + 2) z r := by
      unfold dist
      rw [Finset.sum_eq_sum_Ico_succ_bot (by omega), hr0, he]
      congr 1
      ring
    have h6 : dist d (d + (m + 1) + 2) x z = Real.sqrt ((R * Real.cos φ - R * Real.cos t) ^ 2 + (R * Real.sin φ - R * Real.sin t) ^ 2) := by
      unfold dist
      rw [Finset.sum_eq_sum_Ico_succ_bot (by omega), ← hw2, ← hcx]
      congr 2
      · simp only [z, if_true]; ring
      · refine Finset.sum_congr rfl fun k hk => ?_
        rw [hz k hk]; ring
    have h7 := dist_triangle d (d + (m + 1) + 2) x z r
    have h8 := chord R φ t hR
    have h9 := arc_le q hs hc R
    have h10 := mul_le_mul_of_nonneg_left hd hR
    rw [h5, h6] at h7
    push_cast
    linarith

/-- C90: a sphere has no holes: within `(D - 1) 2σ / scale` of every point of the sphere whose surroundings belong to the processor, the processor has created
a particle, in every dimension `D = m + 2`. -/
theorem C90_no_holes (q : Par) (hs : 0 < q.sigma) (hc : 0 < q.scale) (m : ℕ) (R : ℝ) (hR : 0 < R) (B : Box (m + 2)) (x : Pos) (hx : dist 0 (m + 2) x q.c = R)
    (hB : ∀ y : Pos, dist 0 (m + 2) x y ≤ (m + 1) * (2 * q.sigma / q.scale) → B.contains (fun k => y k) = true) :
    ∃ p ∈ q.create m R B, dist 0 (m + 2) x p ≤ (m + 1) * (2 * q.sigma / q.scale) := by
  have h1 : ∑ k ∈ Finset.Ico 0 (0 + m + 2), (x k - q.c k) ^ 2 = R ^ 2 := by
    rw [Nat.zero_add, ← hx, dist, Real.sq_sqrt (Finset.sum_nonneg fun k _ => sq_nonneg _)]
  obtain ⟨r, hr, hd⟩ := circle_cover q hs hc m 0 R hR.le (fun _ => 0) x h1
  rw [Nat.zero_add] at hd
  refine ⟨r, ?_, hd⟩
  unfold Par.create
  rw [if_neg (not_le.mpr hR)]
  exact List.mem_filter.mpr ⟨hr, hB r hd⟩

theorem loop_list (q : Par) (d : ℕ) (R : ℝ) (ts : List ℝ) (p : Pos) :
    (loop (fun p t => ([q.set d R p t], q.set d R p t)) p ts).1.length = ts.length ∧
      ∀ i (hi : i < ts.length), ∃ x, (loop (fun p t => ([q.set d R p t], q.set d R p t)) p ts).1[i]? = some x ∧ x d = q.c d + R * Real.cos ts[i] ∧ x (d + 1) = q.c (d + 1) + R * Real.sin ts[i] := by
  induction ts generalizing p with
  | nil => simp [loop]
  | cons t ts ih =>
    obtain ⟨h1, h2⟩ := ih (q.set d R p t)
    refine ⟨by simp only [loop, List.length_append, List.length_cons, List.length_nil, h1]; omega, fun i hi => ?_⟩
    cases i with
    | zero => exact ⟨q.set d R p t, by simp [loop], by simp [set_self], by simp [set_succ]⟩
    | succ i =>
      obtain ⟨x, hx⟩ := h2 i (by simpa using hi)
      refine ⟨x, ?_⟩
      simpa [loop] using hx

theorem angles_full (q : Par) (R : ℝ) : angles true (q.dtheta R) (q.count R) 0 = (List.range (q.count R)).map fun i : ℕ => (i : ℝ) * q.dtheta R := by
  have hdt := dtheta_pos q R
  have key : ∀ (n j : ℕ), j + n = q.count R → angles true (q.dtheta R) n (j * q.dtheta R) = (List.range' j n).map fun i : ℕ => (i : ℝ) * q.dtheta R := by
    intro n
    induction n with
    | zero => intro j _; simp [angles]
    | succ n ih =>
      intro j hj
      unfold angles
      have hlt : (j : ℝ) * q.dtheta R < lim true := by
        have h1 : (j : ℝ) + 1 ≤ q.count R := by exact_mod_cast (by omega : j + 1 ≤ q.count R)
        have h2 := mul_le_mul_of_nonneg_right h1 hdt.le
        rw [count_dtheta] at h2
        simp only [lim, if_true]
        linarith
      rw [if_pos ((cond_iff true _).mpr hlt), List.range'_succ, List.map_cons]
      congr 1
      rw [show (j : ℝ) * q.dtheta R + q.dtheta R = ((j + 1 : ℕ) : ℝ) * q.dtheta R by push_cast; ring]
      exact ih (j + 1) (by omega)
  have := key (q.count R) 0 (by omega)
  rw [List.range_eq_range']
  simpa using this

/-- C90: in two dimensions the particles are `max(⌈π R scale / σ⌉, 1)` points at equal angles, and neighbours on the circle (also the last and the first)
are at most `2σ / scale` apart: with a scale of at least 1 the discs touch or overlap. -/
theorem C90_ring (q : Par) (hs : 0 < q.sigma) (hc : 0 < q.scale) (R : ℝ) (hR : 0 < R) (B : Box 2) (hB : ∀ y : Pos, dist 0 2 y q.c = R → B.contains (fun k => y k) = true) :
    ∃ n : ℕ, 1 ≤ n ∧ (n : ℤ) = max ⌈Real.pi * R * q.scale / q.sigma⌉ 1 ∧ (q.create 0 R B).length = n ∧
      (∀ i < n, ∃ p, (q.create 0 R B)[i]? = some p ∧ p 0 = q.c 0 + R * Real.cos (2 * Real.pi * i / n) ∧ p 1 = q.c 1 + R * Real.sin (2 * Real.pi * i / n)) ∧
      ∀ i j p r, (q.create 0 R B)[i]? = some p → (q.create 0 R B)[j]? = some r → (j = i + 1 ∨ (i + 1 = n ∧ j = 0)) → dist 0 2 p r ≤ 2 * q.sigma / q.scale := by
  have hall : q.create 0 R B = (q.circle 0 0 R fun _ => 0).1 := by
    unfold Par.create
    rw [if_neg (not_le.mpr hR)]
    refine List.filter_eq_self.mpr fun p hp => hB p ?_
    have := ((circle_inv q 0 0 R fun _ => 0).2 p hp).2
    unfold dist
    rw [this, Real.sqrt_sq hR.le]
  have h1 := count_pos q R
  have hl := loop_list q 0 R (angles true (q.dtheta R) (q.count R) 0) fun _ => 0
  have hlen : (angles true (q.dtheta R) (q.count R) 0).length = q.count R := by rw [angles_full]; simp
  have hget : ∀ i < q.count R, ∃ p, (q.create 0 R B)[i]? = some p ∧ p 0 = q.c 0 + R * Real.cos (2 * Real.pi * i / q.count R) ∧ p 1 = q.c 1 + R * Real.sin (2 * Real.pi * i / q.count R) := by
    intro i hi
    obtain ⟨x, hx, hx0, hx1⟩ := hl.2 i (by omega)
    have ht : (angles true (q.dtheta R) (q.count R) 0)[i]'(by omega) = 2 * Real.pi * i / q.count R := by
      simp only [angles_full, List.getElem_map, List.getElem_range]
      unfold Par.dtheta
      ring
    rw [ht] at hx0 hx1
    refine ⟨x, ?_, hx0, hx1⟩
    rw [hall]
    exact hx
  refine ⟨q.count R, h1, ?_, ?_, hget, ?_⟩
  · have h3 : (q.count R : ℤ) = max ⌈1 / 2 * q.scale * 2 * Real.pi * R / q.sigma⌉ 1 := by
      unfold Par.count
      have := le_max_right ⌈1 / 2 * q.scale * 2 * Real.pi * R / q.sigma⌉ 1
      omega
    rw [h3, show 1 / 2 * q.scale * 2 * Real.pi * R / q.sigma = Real.pi * R * q.scale / q.sigma by ring]
  · rw [hall]; unfold Par.circle; rw [hl.1, hlen]
  · intro i j p r hp hr hij
    have hlen2 : (q.create 0 R B).length = q.count R := by rw [hall]; unfold Par.circle; rw [hl.1, hlen]
    have hi : i < q.count R := by have := (List.getElem?_eq_some_iff.mp hp).1; omega
    have hj : j < q.count R := by have := (List.getElem?_eq_some_iff.mp hr).1; omega
    obtain ⟨p', hp', hp0, hp1⟩ := hget i hi
    obtain ⟨r', hr', hr0, hr1⟩ := hget j hj
    rw [hp] at hp'; rw [hr] at hr'
    cases hp'; cases hr'
    have hn : (0 : ℝ) < q.count R := by exact_mod_cast h1
    have hang : ∃ a b : ℝ, |a - b| = q.dtheta R ∧ p 0 = q.c 0 + R * Real.cos a ∧ p 1 = q.c 1 + R * Real.sin a ∧ r 0 = q.c 0 + R * Real.cos b ∧ r 1 = q.c 1 + R * Real.sin b := by
      have hdt := dtheta_pos q R
      rcases hij with rfl | ⟨hin, rfl⟩
      · refine ⟨_, _, ?_, hp0, hp1, hr0, hr1⟩
        have : 2 * Real.pi * (i : ℝ) / q.count R - 2 * Real.pi * ((i + 1 : ℕ) : ℝ) / q.count R = - q.dtheta R := by
          unfold Par.dtheta; push_cast; ring
        rw [this, abs_neg, abs_of_pos hdt]
      · refine ⟨2 * Real.pi * i / q.count R, 2 * Real.pi, ?_, hp0, hp1, ?_, ?_⟩
        · have hi1 : (i : ℝ) = q.count R - 1 := by
            have : ((i + 1 : ℕ) : ℝ) = q.count R := by exact_mod_cast hin
            push_cast at this; linarith
          have : 2 * Real.pi * (i : ℝ) / q.count R - 2 * Real.pi = - q.dtheta R := by
            unfold Par.dtheta; rw [hi1]; field_simp; ring
          rw [this, abs_neg, abs_of_pos hdt]
        · rw [hr0, Real.cos_two_pi]; simp
        · rw [hr1, Real.sin_two_pi]; simp
    obtain ⟨a, b, hab, ha0, ha1, hb0, hb1⟩ := hang
    have h5 : dist 0 2 p r = Real.sqrt ((R * Real.cos a - R * Real.cos b) ^ 2 + (R * Real.sin a - R * Real.sin b) ^ 2) := by
      unfold dist
      rw [Finset.sum_Ico_succ_top (by omega), Finset.sum_Ico_succ_top (by omega), Finset.Ico_self, Finset.sum_empty, zero_add, ha0, ha1, hb0, hb1]
      congr 2 <;> ring
    rw [h5]
    refine (chord R a b hR.le).trans ?_
    rw [hab]
    exact arc_le q hs hc R

/-- C90: on any number of processors the particles of a sphere inside the simulation bounds are created exactly once, those outside are not created. -/
theorem C90_once (q : Par) (m : ℕ) (R : ℝ) (B : Box (m + 2)) (hB : ∀ k, B.lo k < B.hi k) (P : ℕ) (hP : 1 ≤ P) :
    (∀ own < P, ∀ p ∈ q.create m R (Verif.KDTree.processBounds B P own), p ∈ q.create m R B) ∧
      (∀ p ∈ q.create m R B, ∃! own, own < P ∧ p ∈ q.create m R (Verif.KDTree.processBounds B P own)) ∧
      ((List.range P).map fun own => (q.create m R (Verif.KDTree.processBounds B P own)).length).sum = (q.create m R B).length := by
  have hpart := fun x => Verif.KDTree.C47_partition B hB P hP x
  by_cases hR : R ≤ 0
  · have h0 : ∀ B' : Box (m + 2), q.create m R B' = [] := fun B' => if_pos hR
    simp [h0]
  · have h0 : ∀ B' : Box (m + 2), q.create m R B' = (q.circle m 0 R fun _ => 0).1.filter fun p => B'.contains fun k => p k := fun B' => if_neg hR
    simp only [h0]
    generalize (q.circle m 0 R fun _ => 0).1 = L
    refine ⟨?_, ?_, ?_⟩
    · intro own ho p hp
      obtain ⟨h1, h2⟩ := List.mem_filter.mp hp
      refine List.mem_filter.mpr ⟨h1, ?_⟩
      by_contra hc
      rw [Bool.not_eq_true] at hc
      rw [(hpart fun k => p k).2 hc own ho] at h2
      exact absurd h2 (by simp)
    · intro p hp
      obtain ⟨h1, h2⟩ := List.mem_filter.mp hp
      obtain ⟨own, ⟨ho, hc⟩, hu⟩ := (hpart fun k => p k).1 h2
      refine ⟨own, ⟨ho, List.mem_filter.mpr ⟨h1, hc⟩⟩, ?_⟩
      rintro y ⟨hy, hy2⟩
      exact hu y ⟨hy, (List.mem_filter.mp hy2).2⟩
    · induction L with
      | nil => simp
      | cons p L ih =>
        simp only [List.filter_cons]
        have hsplit : ∀ own, (if (Verif.KDTree.processBounds B P own).contains (fun k => p k) = true then p :: L.filter (fun p => (Verif.KDTree.processBounds B P own).contains fun k => p k)
            else L.filter (fun p => (Verif.KDTree.processBounds B P own).contains fun k => p k)).length =
            (if (Verif.KDTree.processBounds B P own).contains (fun k => p k) = true then 1 else 0) + (L.filter (fun p => (Verif.KDTree.processBounds B P own).contains fun k => p k)).length := by
          intro own
          split_ifs
          · rw [List.length_cons]; omega
          · omega
        simp only [hsplit]
        rw [List.sum_map_add, ih]
        have hone : ((List.range P).map fun own => if (Verif.KDTree.processBounds B P own).contains (fun k => p k) = true then 1 else 0).sum =
            if B.contains (fun k => p k) = true then 1 else 0 := by
          have hsum : ((List.range P).map fun own => if (Verif.KDTree.processBounds B P own).contains (fun k => p k) = true then 1 else 0).sum =
              ∑ own ∈ Finset.range P, if (Verif.KDTree.processBounds B P own).contains (fun k => p k) = true then 1 else 0 := rfl
          rw [hsum]
          by_cases hc : B.contains (fun k => p k) = true
          · obtain ⟨own, ⟨ho, hco⟩, hu⟩ := (hpart fun k => p k).1 hc
            rw [if_pos hc, Finset.sum_eq_single own, if_pos hco]
            · intro y hy hne
              rw [if_neg]
              intro hcy
              exact hne (hu y ⟨Finset.mem_range.mp hy, hcy⟩)
            · intro hno; exact absurd (Finset.mem_range.mpr ho) hno
          · rw [if_neg hc]
            refine Finset.sum_eq_zero fun y hy => ?_
            rw [(hpart fun k => p k).2 (by simpa using hc) y (Finset.mem_range.mp hy)]
            simp
        rw [hone]
        split_ifs
        · rw [List.length_cons]; omega
        · omega

/-! ## Examples -/

/-- A particle radius, packing and centre. -/
noncomputable def examplePar : Par := ⟨1 / 20, 2, fun _ => 1⟩
example : 0 < examplePar.sigma ∧ 0 < examplePar.scale := by norm_num [examplePar]
example : dist 0 2 (fun k => if k = 0 then 4 else 1) examplePar.c = 3 := by
  unfold dist examplePar
  rw [Finset.sum_Ico_succ_top (by omega), Finset.sum_Ico_succ_top (by omega)]
  norm_num
  rw [show (9 : ℝ) = 3 ^ 2 by norm_num, Real.sqrt_sq (by norm_num)]

/-- A circle of radius 1 lies in the box from -5 to 5: the hypothesis of `C90_ring`. -/
example : ∀ y : Pos, dist 0 2 y examplePar.c = 1 → (⟨fun _ => -5, fun _ => 5⟩ : Box 2).contains (fun k => y k) = true := by
  intro y hy
  unfold dist examplePar at hy
  rw [Finset.sum_Ico_succ_top (by omega), Finset.sum_Ico_succ_top (by omega), Finset.Ico_self, Finset.sum_empty, Real.sqrt_eq_one] at hy
  have h0 := abs_le_of_sq_le_sq (show (y 0 - 1) ^ 2 ≤ 1 ^ 2 by nlinarith [sq_nonneg (y 1 - 1)]) (by norm_num)
  have h1 := abs_le_of_sq_le_sq (show (y 1 - 1) ^ 2 ≤ 1 ^ 2 by nlinarith [sq_nonneg (y 0 - 1)]) (by norm_num)
  rw [abs_le] at h0 h1
  refine (contains_iff _ _).mpr fun k => ?_
  fin_cases k <;> constructor <;> simp <;> linarith

end Verif.Circle
