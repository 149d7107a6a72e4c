import Verif.GFlow.Trajectory
import Verif.Integrators.Convergence
import Mathlib.Analysis.SpecialFunctions.Trigonometric.Bounds

/-!
# C157: a whole simulation follows Newton's equations

The loop of `GFlow::run` with velocity Verlet, wrapping of positions, cells, neighbour lists built at some steps and forces
from the lists (`Verif.GFlow.Trajectory`, C129) is compared with an exact solution of Newton's equations for the sums of
all pair forces, in which there are no boundaries, lists or time steps (`Verif.Integrators.Convergence`, C156).
-/

set_option linter.unusedSectionVars false
set_option linter.unusedVariables false

namespace Verif.TrueMotion
open Verif.Cells Verif.Grid Verif.Stencil Verif.ForceMaster Verif.PairForces Verif.Handlers Verif.ForceSum Verif.Verlet
open Verif.Trajectory Verif.Convergence

variable {d : ℕ}

/-! ## Specification -/

open Classical in
/-- Spec: the acceleration of each particle by the forces of all others, from nearest images. -/
noncomputable def newton (s : Setup d) (h : List Call) (im : ℕ → ℝ) (y w : ℕ × Fin d → ℝ) : ℕ × Fin d → ℝ := fun j =>
  im j.1 * ∑ b ∈ (Finset.range s.number).filter (fun b => b ≠ j.1 ∧ 0 ≤ s.type b),
    s.direct h ⟨fun i k => y (i, k), fun i k => w (i, k), s.rd, im⟩ j.1 b j.2

/-- Spec: the coordinates of the particles. -/
def Coord (s : Setup d) : ℕ × Fin d → Prop := fun j => s.Alive j.1

/-- Spec: the run with steps `l` from `(x, v, f)` ends within `ε` of the motion `(X, V)`: velocities, and positions up to
whole widths in wrapping dimensions. -/
def EndsNear (s : Setup d) (T : FM ℝ) (e : Env) (x v f : Arr) (l : List (ℝ × Bool)) (X V : ℝ → ℕ × Fin d → ℝ) (ε : ℝ) : Prop :=
  ∃ st, (start s T x v f).bind (steps s T e l) = some st ∧ ∀ i, s.Alive i → ∀ k,
    |parts d st.v i k - V (l.map Prod.fst).sum (i, k)| ≤ ε ∧
    ∃ z : ℤ, ((s.g k).per = false → z = 0) ∧
      |parts d st.x i k - (X (l.map Prod.fst).sum (i, k) + z * ((s.g k).hi - (s.g k).lo))| ≤ ε

/-- Spec: the run starts with the positions and velocities of the motion. -/
def StartsAt (s : Setup d) (x v : Arr) (X V : ℝ → ℕ × Fin d → ℝ) : Prop :=
  ∀ i, s.Alive i → ∀ k, parts d x i k = X 0 (i, k) ∧ parts d v i k = V 0 (i, k)

/-! ## Proofs -/

/-- A motion with accelerations instead of forces. -/
def point (im : ℕ → ℝ) (M : Motion d) : Pt (ℕ × Fin d) := ⟨fun j => M.x j.1 j.2, fun j => M.v j.1 j.2, fun j => im j.1 * M.f j.1 j.2⟩

theorem ideal_step (s : Setup d) (h : List Call) (im : ℕ → ℝ) (dt : ℝ) (M : Motion d) :
    IsStep (Coord s) (newton s h im) dt (point im M) (point im (ideal s h im dt M)) := by
  refine ⟨fun j => M.v j.1 j.2 + dt / 2 * im j.1 * M.f j.1 j.2, fun j hj => ⟨?_, ?_, ?_, ?_⟩⟩
  · simp only [point]; ring
  · simp only [point, ideal]
  · simp only [point, ideal, newton]
    rw [if_pos (show s.Alive j.1 from hj)]
  · simp only [point, ideal]; ring

theorem ideal_chain (s : Setup d) (h : List Call) (im : ℕ → ℝ) (l : List (ℝ × Bool)) (M : Motion d) :
    Chain (Coord s) (newton s h im) (l.map Prod.fst) (point im M) (point im (l.foldl (fun M a => ideal s h im a.1 M) M)) := by
  induction l generalizing M with
  | nil => exact .nil _
  | cons a l ih => exact .cons (ideal_step s h im a.1 M) (ih _)

/-- From the motion of C129 to the run. -/
theorem ends (s : Setup d) (h : List Call) (hr : InRange h) (href : AllReflexive h) (T : FM ℝ)
    (hT : run s.cut (.init :: h) = some T) (x v f : Arr) (hok : s.OK h fun i => home s (parts d x i)) (e : Env)
    (he : e.mode.OK) (hb : Buildable s h (parts d x)) (l : List (ℝ × Bool))
    (ht : Timely s h e.im (parts d x) l ⟨parts d x, parts d v, parts d f⟩) (X V : ℝ → ℕ × Fin d → ℝ) (ε : ℝ)
    (hn : ∀ j, Coord s j →
      |(point e.im (l.foldl (fun M a => ideal s h e.im a.1 M) ⟨parts d x, parts d v, parts d f⟩)).x j - X (l.map Prod.fst).sum j| ≤ ε ∧
      |(point e.im (l.foldl (fun M a => ideal s h e.im a.1 M) ⟨parts d x, parts d v, parts d f⟩)).v j - V (l.map Prod.fst).sum j| ≤ ε) :
    EndsNear s T e x v f l X V ε := by
  obtain ⟨st, h1, h2⟩ := C129_run_partial s h hr href T hT x v f hok e he hb l ht
  refine ⟨st, h1, fun i hi k => ?_⟩
  obtain ⟨e1, e2, e3⟩ := h2 i hi
  obtain ⟨z, z1, z2⟩ := e3 k
  obtain ⟨n1, n2⟩ := hn (i, k) hi
  refine ⟨?_, z, z1, ?_⟩
  · rw [e1]; exact n2
  · rw [z2]
    refine le_trans (le_of_eq ?_) n1
    congr 1
    simp only [point]
    ring

section main

variable (s : Setup d) (h : List Call) (hr : InRange h) (href : AllReflexive h) (T : FM ℝ)
    (hT : run s.cut (.init :: h) = some T) (x v f : Arr) (hok : s.OK h fun i => home s (parts d x i)) (e : Env)
    (he : e.mode.OK) (hb : Buildable s h (parts d x)) (X V : ℝ → ℕ × Fin d → ℝ) (time : ℝ) {A B L ρ : ℝ}
    (hs : Solves (Coord s) (newton s h e.im) time X V) (hm : Mild (Coord s) (newton s h e.im) time X V A B)
    (hl : Tame (Coord s) (newton s h e.im) time X V ρ L) (hA : 0 ≤ A) (hB : 0 ≤ B) (hL : 0 ≤ L) (hρ : 0 < ρ)
    (h0 : StartsAt s x v X V)
include hr href hT hok he hb hs hm hl hB hL hρ h0

/-- **C157, second order** (partial). If forces do not depend on velocities, the acceleration is smooth along the motion and the
stored forces at the start are those of the initial positions, then the errors of the whole simulation are at most a constant
times the square of the largest time step. Missing: as in `C157_first_order_partial`; the first run of a simulation, whose
stored forces are zero; smoothness fails when hard spheres begin to touch. -/
theorem C157_second_order_partial (J : ℝ → ℕ × Fin d → ℝ) {K : ℝ} (hK : 0 ≤ K)
    (hsm : Smooth (Coord s) (newton s h e.im) time X V J K)
    (hpos : ∀ y w w', newton s h e.im y w = newton s h e.im y w')
    (hf : ∀ i, s.Alive i → ∀ k, e.im i * parts d f i k = newton s h e.im (X 0) (V 0) (i, k)) :
    ∃ C H₀ : ℝ, 0 < H₀ ∧ ∀ H : ℝ, 0 < H → H ≤ H₀ → ∀ l : List (ℝ × Bool), (∀ a ∈ l, 0 ≤ a.1 ∧ a.1 ≤ H) →
      (l.map Prod.fst).sum ≤ time → Timely s h e.im (parts d x) l ⟨parts d x, parts d v, parts d f⟩ →
      EndsNear s T e x v f l X V (C * H ^ 2) := by
  obtain ⟨C, H₀, hH₀, key⟩ := second_order hs hm hsm hl hpos hB hK hL hρ
  refine ⟨C, H₀, hH₀, fun H hH hle l hd hsum ht => ?_⟩
  refine ends s h hr href T hT x v f hok e he hb l ht X V _ ?_
  refine key H hH hle _ ?_ hsum (point e.im ⟨parts d x, parts d v, parts d f⟩) _ ?_ (ideal_chain s h e.im l _)
  · intro dt hdt
    obtain ⟨a, ha, rfl⟩ := List.mem_map.mp hdt
    exact hd a ha
  · rintro ⟨i, k⟩ hi
    exact ⟨(h0 i hi k).1, (h0 i hi k).2, hf i hi k⟩

include hA

/-- **C157, first order** (partial). For all systems of particles with central interactions, boxes, numbers of dimensions,
initial states (also with forces zero or old), and exact motions along which the acceleration is bounded and Lipschitz and near
which forces are Lipschitz: the whole simulation ends, for every choice of time steps (which may vary) and of steps with a
construction that are timely, within a constant times the largest time step of the exact motion; so simulations converge to it.
Missing: late constructions, systems for which C129 fails (large particles, C28, C15), other boundaries, modifiers, rounding. -/
theorem C157_first_order_partial :
    ∃ C H₀ : ℝ, 0 < H₀ ∧ ∀ H : ℝ, 0 < H → H ≤ H₀ → ∀ l : List (ℝ × Bool), (∀ a ∈ l, 0 ≤ a.1 ∧ a.1 ≤ H) →
      (l.map Prod.fst).sum ≤ time → Timely s h e.im (parts d x) l ⟨parts d x, parts d v, parts d f⟩ →
      EndsNear s T e x v f l X V (C * H) := by
  have hfin : ∃ R : ℝ, 0 ≤ R ∧ ∀ j, Coord s j → |e.im j.1 * parts d f j.1 j.2 - newton s h e.im (X 0) (V 0) j| ≤ R := by
    refine ⟨∑ i ∈ Finset.range s.number, ∑ k : Fin d, |e.im i * parts d f i k - newton s h e.im (X 0) (V 0) (i, k)|,
      Finset.sum_nonneg fun _ _ => Finset.sum_nonneg fun _ _ => abs_nonneg _, ?_⟩
    rintro ⟨i, k⟩ hi
    have h1 := Finset.single_le_sum (f := fun k => |e.im i * parts d f i k - newton s h e.im (X 0) (V 0) (i, k)|)
      (fun _ _ => abs_nonneg _) (Finset.mem_univ k)
    have h2 := Finset.single_le_sum
      (f := fun i => ∑ k : Fin d, |e.im i * parts d f i k - newton s h e.im (X 0) (V 0) (i, k)|)
      (fun _ _ => Finset.sum_nonneg fun _ _ => abs_nonneg _) (Finset.mem_range.mpr hi.1)
    exact h1.trans h2
  obtain ⟨R, hR, hR'⟩ := hfin
  obtain ⟨C, H₀, hH₀, key⟩ := first_order hs hm hl hA hB hL hρ R hR
  refine ⟨C, H₀, hH₀, fun H hH hle l hd hsum ht => ?_⟩
  refine ends s h hr href T hT x v f hok e he hb l ht X V _ ?_
  refine key H hH hle _ ?_ hsum (point e.im ⟨parts d x, parts d v, parts d f⟩) _ ?_ (ideal_chain s h e.im l _)
  · intro dt hdt
    obtain ⟨a, ha, rfl⟩ := List.mem_map.mp hdt
    exact hd a ha
  · rintro ⟨i, k⟩ hi
    exact ⟨(h0 i hi k).1, (h0 i hi k).2, hR' (i, k) hi⟩

end main

/-! ## Example: the ring of C129, in which particles 0 and 1 push each other apart across the boundary -/

theorem ring_newton (y w : ℕ × Fin 1 → ℝ) (h1 : 0 < y (0, 0) - y (1, 0)) (h2 : y (0, 0) - y (1, 0) < 1/5)
    (h3 : 5/2 < y (0, 0) - y (2, 0)) (h4 : y (0, 0) - y (2, 0) < 7/2) (h5 : 5/2 < y (1, 0) - y (2, 0))
    (h6 : y (1, 0) - y (2, 0) < 7/2) (k : Fin 1) :
    newton ring ringHist (fun _ => 1) y w (0, k) = 10 * (1/5 - (y (0, 0) - y (1, 0))) ∧
    newton ring ringHist (fun _ => 1) y w (1, k) = -(10 * (1/5 - (y (0, 0) - y (1, 0)))) ∧
    newton ring ringHist (fun _ => 1) y w (2, k) = 0 := by
  obtain ⟨t1, t2, t3, t4, t5, t6⟩ := ring_types
  have a0 := ring_all 0 (by norm_num)
  have a1 := ring_all 1 (by norm_num)
  have a2 := ring_all 2 (by norm_num)
  have near : ∀ (a b : ℕ) (z : ℤ) (D : ℝ), y (a, 0) - y (b, 0) = D → |D - 24/5 * z| < 12/5 →
      nearest ring.g ((fun i k => y (i, k) : ℕ → Fin 1 → ℝ) a - (fun i k => y (i, k) : ℕ → Fin 1 → ℝ) b) 0 = D - 24/5 * z := by
    intro a b z D hD hz
    have hr : round (D / (24/5)) = z := by
      rw [round_eq, Int.floor_eq_iff]
      rw [abs_lt] at hz
      constructor <;> [skip; skip] <;> linarith [hz.1, hz.2]
    simp only [nearest, ring, if_true, Pi.sub_apply, sub_zero]
    rw [hD, hr]
  have n01 := near 0 1 0 _ rfl (by rw [Int.cast_zero, abs_lt]; constructor <;> linarith)
  have n10 := near 1 0 0 _ rfl (by rw [Int.cast_zero, abs_lt]; constructor <;> linarith)
  have n02 := near 0 2 1 _ rfl (by rw [Int.cast_one, abs_lt]; constructor <;> linarith)
  have n20 := near 2 0 (-1) _ rfl (by rw [Int.cast_neg, Int.cast_one, abs_lt]; constructor <;> linarith)
  have n12 := near 1 2 1 _ rfl (by rw [Int.cast_one, abs_lt]; constructor <;> linarith)
  have n21 := near 2 1 (-1) _ rfl (by rw [Int.cast_neg, Int.cast_one, abs_lt]; constructor <;> linarith)
  have hsum : ∀ i, newton ring ringHist (fun _ => 1) y w (i, k) =
      ∑ b ∈ (Finset.range 3).filter (fun b => b ≠ i),
        ring.direct ringHist ⟨fun i k => y (i, k), fun i k => w (i, k), ring.rd, fun _ => 1⟩ i b k := by
    intro i
    simp only [newton, one_mul]
    refine Finset.sum_congr ?_ fun _ _ => rfl
    ext j
    simp only [Finset.mem_filter, Finset.mem_range]
    constructor
    · rintro ⟨h1, h2, _⟩; exact ⟨h1, h2⟩
    · rintro ⟨h1, h2⟩; exact ⟨h1, h2, (ring_all j h1).2⟩
  have s0 : (Finset.range 3).filter (fun j => j ≠ 0) = {1, 2} := by decide
  have s1 : (Finset.range 3).filter (fun j => j ≠ 1) = {0, 2} := by decide
  have s2 : (Finset.range 3).filter (fun j => j ≠ 2) = {0, 1} := by decide
  have e01 : ¬ (1 : ℝ)/5 ≤ |y (0, 0) - y (1, 0) - 24/5 * (0 : ℤ)| := by
    rw [Int.cast_zero, mul_zero, sub_zero, abs_of_pos h1]; linarith
  have far : ∀ D : ℝ, D < -(1/5) ∨ 1/5 < D → ¬ |D| < 1/5 := by
    intro D hD h
    rw [abs_lt] at h
    rcases hD with h' | h' <;> linarith [h.1, h.2]
  refine ⟨?_, ?_, ?_⟩
  · rw [hsum 0, s0, Finset.sum_pair (by norm_num), ring_direct _ _ 0 1 a0 a1 3 t1 n01, ring_direct _ _ 0 2 a0 a2 5 t3 n02,
      if_neg (far (y (0, 0) - y (2, 0) - 24/5 * (1 : ℤ)) (Or.inl (by push_cast; linarith))), Int.cast_zero, mul_zero, sub_zero,
      abs_of_pos h1, if_pos h2, div_self h1.ne']
    ring
  · have hn : y (1, 0) - y (0, 0) < 0 := by linarith
    rw [hsum 1, s1, Finset.sum_pair (by norm_num), ring_direct _ _ 1 0 a1 a0 3 t2 n10, ring_direct _ _ 1 2 a1 a2 3 t5 n12,
      if_neg (far (y (1, 0) - y (2, 0) - 24/5 * (1 : ℤ)) (Or.inl (by push_cast; linarith))), Int.cast_zero, mul_zero, sub_zero,
      abs_of_neg hn, if_pos (by linarith),
      div_neg, div_self hn.ne]
    ring
  · rw [hsum 2, s2, Finset.sum_pair (by norm_num), ring_direct _ _ 2 0 a2 a0 5 t4 n20, ring_direct _ _ 2 1 a2 a1 3 t6 n21,
      if_neg (far _ (Or.inr (by push_cast; linarith))), if_neg (far _ (Or.inr (by push_cast; linarith)))]
    ring

/-- The compression of particles 0 and 1 over time. -/
noncomputable def squeeze (t : ℝ) : ℝ := 14/100 * Real.cos (Real.sqrt 20 * t)

/-- The exact motion: particles 0 and 1 swing apart, all move on with velocity 1. -/
noncomputable def ringXt (t : ℝ) (j : ℕ × Fin 1) : ℝ :=
  if j.1 = 0 then 478/100 + t + (1/5 - squeeze t) / 2 else if j.1 = 1 then 478/100 + t - (1/5 - squeeze t) / 2 else 2 + t

/-- The derivative of `squeeze`. -/
noncomputable def squeeze' (t : ℝ) : ℝ := -(14/100 * Real.sqrt 20 * Real.sin (Real.sqrt 20 * t))

/-- The velocities. -/
noncomputable def ringVt (t : ℝ) (j : ℕ × Fin 1) : ℝ :=
  if j.1 = 0 then 1 - squeeze' t / 2 else if j.1 = 1 then 1 + squeeze' t / 2 else 1

theorem hasDeriv_squeeze (t : ℝ) : HasDerivAt squeeze (squeeze' t) t := by
  have h := ((Real.hasDerivAt_cos (Real.sqrt 20 * t)).comp t ((hasDerivAt_id t).const_mul (Real.sqrt 20))).const_mul (14/100 : ℝ)
  refine h.congr_deriv ?_
  simp only [squeeze', mul_one]
  ring

theorem hasDeriv_squeeze' (t : ℝ) : HasDerivAt squeeze' (-(20 * squeeze t)) t := by
  have h := (((Real.hasDerivAt_sin (Real.sqrt 20 * t)).comp t ((hasDerivAt_id t).const_mul (Real.sqrt 20))).const_mul
    (14/100 * Real.sqrt 20 : ℝ)).neg
  refine h.congr_deriv ?_
  have h20 : Real.sqrt 20 * Real.sqrt 20 = 20 := Real.mul_self_sqrt (by norm_num)
  simp only [squeeze, mul_one]
  calc _ = -(14/100 * (Real.sqrt 20 * Real.sqrt 20) * Real.cos (Real.sqrt 20 * t)) := by ring
    _ = _ := by rw [h20]; ring

theorem squeeze_le (t : ℝ) : |squeeze t| ≤ 14/100 := by
  rw [squeeze, abs_mul, abs_of_pos (by norm_num : (0 : ℝ) < 14/100)]
  nlinarith [Real.abs_cos_le_one (Real.sqrt 20 * t)]

theorem sqrt20 : 0 ≤ Real.sqrt 20 ∧ Real.sqrt 20 ≤ 5 := by
  refine ⟨Real.sqrt_nonneg _, ?_⟩
  rw [Real.sqrt_le_left (by norm_num)]; norm_num

theorem squeeze'_le (t : ℝ) : |squeeze' t| ≤ 1 := by
  rw [squeeze', abs_neg, abs_mul, abs_mul, abs_of_pos (by norm_num : (0 : ℝ) < 14/100), abs_of_nonneg sqrt20.1]
  have h1 := Real.abs_sin_le_one (Real.sqrt 20 * t)
  have h2 := sqrt20.2
  have h3 := sqrt20.1
  have h4 : 14/100 * Real.sqrt 20 ≤ 7/10 := by linarith
  calc _ ≤ 7/10 * 1 := mul_le_mul h4 h1 (abs_nonneg _) (by norm_num)
    _ ≤ 1 := by norm_num

theorem squeeze_ge (t : ℝ) (h0 : 0 ≤ t) (h1 : t ≤ 1/10) : 126/1000 ≤ squeeze t := by
  have h := Real.one_sub_sq_div_two_le_cos (x := Real.sqrt 20 * t)
  rw [mul_pow, Real.sq_sqrt (by norm_num)] at h
  unfold squeeze
  nlinarith

theorem lip_of (g g' : ℝ → ℝ) (hg : ∀ t, HasDerivAt g (g' t) t) {C : ℝ} (hC : ∀ t, |g' t| ≤ C) (s t : ℝ) :
    |g t - g s| ≤ C * |t - s| := by
  have := Convex.norm_image_sub_le_of_norm_hasDerivWithin_le (f := g) (f' := g') (C := C)
    (s := Set.univ) (x := s) (y := t) (fun u _ => (hg u).hasDerivWithinAt)
    (fun u _ => by simpa using hC u) convex_univ trivial trivial
  simpa using this

theorem ring_alive (i : ℕ) (h : ring.Alive i) : i = 0 ∨ i = 1 ∨ i = 2 := by
  have : i < 3 := h.1
  omega

theorem ring_tube (t : ℝ) (h0 : 0 ≤ t) (h1 : t ≤ 1/10) (y w : ℕ × Fin 1 → ℝ) (hy : ∀ j, Coord ring j → |y j - ringXt t j| ≤ 1/100)
    (k : Fin 1) :
    newton ring ringHist (fun _ => 1) y w (0, k) = 10 * (1/5 - (y (0, 0) - y (1, 0))) ∧
    newton ring ringHist (fun _ => 1) y w (1, k) = -(10 * (1/5 - (y (0, 0) - y (1, 0)))) ∧
    newton ring ringHist (fun _ => 1) y w (2, k) = 0 := by
  have y0 := abs_le.mp (hy (0, 0) (ring_all 0 (by norm_num)))
  have y1 := abs_le.mp (hy (1, 0) (ring_all 1 (by norm_num)))
  have y2 := abs_le.mp (hy (2, 0) (ring_all 2 (by norm_num)))
  have q1 := squeeze_ge t h0 h1
  have q2 := abs_le.mp (squeeze_le t)
  simp only [ringXt, if_true] at y0
  simp only [ringXt, if_neg (by norm_num : ¬ (1 : ℕ) = 0), if_true] at y1
  simp only [ringXt, if_neg (by norm_num : ¬ (2 : ℕ) = 0), if_neg (by norm_num : ¬ (2 : ℕ) = 1)] at y2
  apply ring_newton <;> linarith [y0.1, y0.2, y1.1, y1.2, y2.1, y2.2, q2.1, q2.2]

theorem ring_along (t : ℝ) (h0 : 0 ≤ t) (h1 : t ≤ 1/10) (k : Fin 1) :
    newton ring ringHist (fun _ => 1) (ringXt t) (ringVt t) (0, k) = 10 * squeeze t ∧
    newton ring ringHist (fun _ => 1) (ringXt t) (ringVt t) (1, k) = -(10 * squeeze t) ∧
    newton ring ringHist (fun _ => 1) (ringXt t) (ringVt t) (2, k) = 0 := by
  have h := ring_tube t h0 h1 (ringXt t) (ringVt t) (fun j _ => by rw [sub_self, abs_zero]; norm_num) k
  have e : ringXt t (0, 0) - ringXt t (1, 0) = 1/5 - squeeze t := by
    simp only [ringXt, if_true, if_neg (by norm_num : ¬ (1 : ℕ) = 0)]; ring
  rw [e] at h
  refine ⟨h.1.trans (by ring), h.2.1.trans (by ring), h.2.2⟩

/-- All hypotheses of C157 on the motion hold for the ring, the others are in the example of C129. The stored forces are zero,
as at the start of a first run. -/
example : Solves (Coord ring) (newton ring ringHist fun _ => 1) (1/10) ringXt ringVt ∧
    Mild (Coord ring) (newton ring ringHist fun _ => 1) (1/10) ringXt ringVt 2 10 ∧
    Tame (Coord ring) (newton ring ringHist fun _ => 1) (1/10) ringXt ringVt (1/100) 20 ∧
    Smooth (Coord ring) (newton ring ringHist fun _ => 1) (1/10) ringXt ringVt
      (fun t j => if j.1 = 0 then 10 * squeeze' t else if j.1 = 1 then -(10 * squeeze' t) else 0) 28 ∧
    StartsAt ring ringX (fun _ => 1) ringXt ringVt ∧
    (∀ y w w', newton ring ringHist (fun _ => 1) y w = newton ring ringHist (fun _ => 1) y w') := by
  have n10 : ¬ (1 : ℕ) = 0 := by norm_num
  have n20 : ¬ (2 : ℕ) = 0 := by norm_num
  have n21 : ¬ (2 : ℕ) = 1 := by norm_num
  have lip1 := lip_of squeeze squeeze' hasDeriv_squeeze squeeze'_le
  have lip2 := lip_of squeeze' _ hasDeriv_squeeze' (C := 28/10) (fun t => by
    rw [abs_neg, abs_mul, abs_of_pos (by norm_num : (0 : ℝ) < 20)]; linarith [squeeze_le t])
  refine ⟨⟨?_, ?_⟩, ⟨?_, ?_⟩, ?_, ⟨?_, ?_⟩, ?_, ?_⟩
  · rintro t ht ⟨i, k⟩ hi
    apply HasDerivAt.hasDerivWithinAt
    rcases ring_alive i hi with rfl | rfl | rfl
    · simp only [ringXt, ringVt, if_true]
      exact (((hasDerivAt_id t).const_add _).add (((hasDeriv_squeeze t).const_sub _).div_const 2)).congr_deriv (by ring)
    · simp only [ringXt, ringVt, if_neg n10, if_true]
      exact (((hasDerivAt_id t).const_add _).sub (((hasDeriv_squeeze t).const_sub _).div_const 2)).congr_deriv (by ring)
    · simp only [ringXt, ringVt, if_neg n20, if_neg n21]
      exact (hasDerivAt_id t).const_add _
  · rintro t ht ⟨i, k⟩ hi
    obtain ⟨e0, e1, e2⟩ := ring_along t ht.1 ht.2 k
    apply HasDerivAt.hasDerivWithinAt
    rcases ring_alive i hi with rfl | rfl | rfl
    · rw [e0]
      simp only [ringVt, if_true]
      exact (((hasDeriv_squeeze' t).div_const 2).const_sub _).congr_deriv (by ring)
    · rw [e1]
      simp only [ringVt, if_neg n10, if_true]
      exact (((hasDeriv_squeeze' t).div_const 2).const_add _).congr_deriv (by ring)
    · rw [e2]
      simp only [ringVt, if_neg n20, if_neg n21]
      exact hasDerivAt_const _ _
  · rintro t ht ⟨i, k⟩ hi
    obtain ⟨e0, e1, e2⟩ := ring_along t ht.1 ht.2 k
    have := abs_le.mp (squeeze_le t)
    rcases ring_alive i hi with rfl | rfl | rfl
    · rw [e0, abs_le]; constructor <;> linarith [this.1, this.2]
    · rw [e1, abs_le]; constructor <;> linarith [this.1, this.2]
    · rw [e2, abs_zero]; norm_num
  · rintro s hs t ht ⟨i, k⟩ hi
    obtain ⟨e0, e1, e2⟩ := ring_along t ht.1 ht.2 k
    obtain ⟨f0, f1, f2⟩ := ring_along s hs.1 hs.2 k
    have := lip1 s t
    rcases ring_alive i hi with rfl | rfl | rfl
    · rw [e0, f0, ← mul_sub, abs_mul, abs_of_pos (by norm_num : (0 : ℝ) < 10)]; linarith
    · rw [e1, f1, show -(10 * squeeze t) - -(10 * squeeze s) = -(10 * (squeeze t - squeeze s)) by ring, abs_neg, abs_mul,
        abs_of_pos (by norm_num : (0 : ℝ) < 10)]; linarith
    · rw [e2, f2, sub_self, abs_zero]; positivity
  · rintro t ht y w ε hε hy ⟨i, k⟩ hi
    have y0 := abs_le.mp (hy (0, 0) (ring_all 0 (by norm_num))).1
    have y1 := abs_le.mp (hy (1, 0) (ring_all 1 (by norm_num))).1
    obtain ⟨e0, e1, e2⟩ := ring_along t ht.1 ht.2 k
    obtain ⟨f0, f1, f2⟩ := ring_tube t ht.1 ht.2 y w (fun j hj => (hy j hj).1.trans hε) k
    have hr : ringXt t (0, 0) - ringXt t (1, 0) = 1/5 - squeeze t := by
      simp only [ringXt, if_true, if_neg n10]; ring
    have hd : |(y (0, 0) - y (1, 0)) - (1/5 - squeeze t)| ≤ 2 * ε := by
      rw [abs_le]; constructor <;> linarith [y0.1, y0.2, y1.1, y1.2]
    have hε0 : 0 ≤ ε := by linarith [abs_nonneg ((y (0, 0) - y (1, 0)) - (1/5 - squeeze t))]
    rw [abs_le] at hd
    rcases ring_alive i hi with rfl | rfl | rfl
    · rw [e0, f0, abs_le]; constructor <;> linarith [hd.1, hd.2]
    · rw [e1, f1, abs_le]; constructor <;> linarith [hd.1, hd.2]
    · rw [e2, f2, sub_self, abs_zero]; positivity
  · rintro t ht ⟨i, k⟩ hi
    have hw : ∀ (g : ℝ → ℝ) (g' : ℝ), HasDerivAt g g' t → (∀ u ∈ Set.Icc (0 : ℝ) (1/10),
        newton ring ringHist (fun _ => 1) (ringXt u) (ringVt u) (i, k) = g u) →
        HasDerivWithinAt (fun u => newton ring ringHist (fun _ => 1) (ringXt u) (ringVt u) (i, k)) g' (Set.Icc 0 (1/10)) t :=
      fun g g' hg h => hg.hasDerivWithinAt.congr h (h t ht)
    rcases ring_alive i hi with rfl | rfl | rfl
    · rw [if_pos rfl]
      exact hw _ _ ((hasDeriv_squeeze t).const_mul 10) fun u hu => (ring_along u hu.1 hu.2 k).1
    · rw [if_neg n10, if_pos rfl]
      exact hw _ _ ((hasDeriv_squeeze t).const_mul 10).neg fun u hu => (ring_along u hu.1 hu.2 k).2.1
    · rw [if_neg n20, if_neg n21]
      exact hw _ _ (hasDerivAt_const t (0 : ℝ)) fun u hu => (ring_along u hu.1 hu.2 k).2.2
  · rintro s hs t ht ⟨i, k⟩ hi
    have := lip2 s t
    rcases ring_alive i hi with rfl | rfl | rfl
    · simp only [if_true]
      rw [← mul_sub, abs_mul, abs_of_pos (by norm_num : (0 : ℝ) < 10)]; linarith
    · simp only [if_neg n10, if_true]
      rw [show -(10 * squeeze' t) - -(10 * squeeze' s) = -(10 * (squeeze' t - squeeze' s)) by ring, abs_neg, abs_mul,
        abs_of_pos (by norm_num : (0 : ℝ) < 10)]; linarith
    · simp only [if_neg n20, if_neg n21, sub_self, abs_zero]; positivity
  · intro i hi k
    have hk : k = 0 := Subsingleton.elim _ _
    subst hk
    rcases ring_alive i hi with rfl | rfl | rfl <;> norm_num [parts, ringX, ringXt, ringVt, squeeze, squeeze']
  · intro y w w'
    funext j
    simp only [newton, Setup.direct, pushed, ring, Force.mag]

end Verif.TrueMotion
