import Verif.GFlow.Walls
import Verif.GFlow.TrueMotion
import Verif.Integrators.RoughSteps
import Mathlib.Analysis.SpecialFunctions.ExpDeriv

/-!
# C175: simulations with soft walls, attraction, gravity and drag follow Newton's equations, with half of the drag

The run of `Verif.GFlow.Walls` (C174) is compared with exact solutions of Newton's equations in which the same walls, centre,
constant accelerations and pair forces act.
-/

set_option linter.unusedSectionVars false
set_option linter.unusedVariables false

namespace Verif.WalledMotion
open Verif.Cells Verif.Grid Verif.Stencil Verif.ForceMaster Verif.PairForces Verif.Handlers Verif.ForceSum Verif.Verlet
open Verif.Trajectory Verif.Boundary Verif.BodyForces Verif.Convergence Verif.RoughSteps
open Verif.WalledRun (Sides Mod Fits outer drift bounce friction pull soft middle tube ends)
open Verif.TrueMotion (Coord StartsAt)

variable {d : ℕ}

/-! ## Specification -/

open Classical in
/-- Spec: the acceleration of each particle by walls, centre, constant accelerations, all other particles, and by `c` times the
drag of the modifiers. -/
noncomputable def newton (s : Setup d) (h : List Call) (im : ℕ → ℝ) (w : Sides d) (c : ℝ) (y u : ℕ × Fin d → ℝ) :
    ℕ × Fin d → ℝ := fun j =>
  im j.1 * (outer s w (im j.1) (fun k => y (j.1, k)) (fun k => u (j.1, k)) j.2 +
    ∑ b ∈ (Finset.range s.number).filter (fun b => b ≠ j.1 ∧ 0 ≤ s.type b),
      s.direct h ⟨fun i k => y (i, k), fun i k => u (i, k), s.rd, im⟩ j.1 b j.2 - c * friction w.mods * u j)

/-- Spec: as `TrueMotion.EndsNear`, for the run of C174. -/
def EndsNear (s : Setup d) (T : FM ℝ) (e : Env) (w : Sides d) (x v f : Arr) (l : List (ℝ × Bool))
    (X V : ℝ → ℕ × Fin d → ℝ) (ε : ℝ) : Prop :=
  ∃ st, (start s T x v f).bind (WalledRun.steps s T e w l) = some st ∧ ∀ i, s.Alive i → ∀ k,
    |parts d st.v i k - V (l.map Prod.fst).sum (i, k)| ≤ ε ∧
    ∃ z : ℤ, ((s.g k).per = false → z = 0) ∧
      |parts d st.x i k - (X (l.map Prod.fst).sum (i, k) + z * ((s.g k).hi - (s.g k).lo))| ≤ ε

/-! ## Proofs -/

/-- A motion with the accelerations of the stored forces and half of the drag. -/
noncomputable def point (im : ℕ → ℝ) (w : Sides d) (M : Motion d) : Pt (ℕ × Fin d) :=
  ⟨fun j => M.x j.1 j.2, fun j => M.v j.1 j.2, fun j => im j.1 * (M.f j.1 j.2 - 1/2 * friction w.mods * M.v j.1 j.2)⟩

/-- The step in coordinates. -/
theorem step_eq (s : Setup d) (h : List Call) (im : ℕ → ℝ) (w : Sides d) (hw : ∀ k, w.bc k ≠ .refl) (dt : ℝ) (M : Motion d) :
    let p := point im w M
    let q := point im w (WalledRun.ideal s h im w dt M)
    let u := fun j : ℕ × Fin d => p.v j + dt / 2 * (p.c j - 1/2 * (im j.1 * friction w.mods) * p.v j)
    ∀ j, Coord s j → q.x j = p.x j + dt * u j ∧
      q.v j = u j + dt / 2 * newton s h im w 0 q.x u j ∧
      q.c j = newton s h im w 0 q.x u j - 1/2 * (im j.1 * friction w.mods) * q.v j := by
  intro p q u j hj
  have hb : ∀ i k, bounce s w im dt M i k = (M.x i k + dt * u (i, k), u (i, k)) := by
    intro i k
    unfold bounce
    rw [if_neg (hw k)]
    simp only [drift, u, p, point]
    congr 1
    · ring
    · ring
  have hx : ∀ j, q.x j = p.x j + dt * u j := by
    intro j
    simp only [q, p, point, WalledRun.ideal, hb]
  have hf : im j.1 * (WalledRun.ideal s h im w dt M).f j.1 j.2 = newton s h im w 0 q.x u j := by
    simp only [WalledRun.ideal, newton, hb]
    rw [if_pos (show s.Alive j.1 from hj)]
    have hqx : q.x = fun j => M.x j.1 j.2 + dt * u j := by funext j; rw [hx j]; rfl
    rw [hqx]
    simp only [zero_mul, sub_zero]
  refine ⟨hx j, ?_, ?_⟩
  · rw [← hf]
    simp only [q, point, WalledRun.ideal, hb]
    ring
  · rw [← hf]
    simp only [q, point]
    ring

theorem newton_zero (s : Setup d) (h : List Call) (im : ℕ → ℝ) (w : Sides d) (c : ℝ) (y u : ℕ × Fin d → ℝ) (j : ℕ × Fin d) :
    newton s h im w c y u j = newton s h im w 0 y u j - c * (im j.1 * friction w.mods) * u j := by
  simp only [newton]; ring

theorem ideal_chain (s : Setup d) (h : List Call) (im : ℕ → ℝ) (w : Sides d) (hw : ∀ k, w.bc k ≠ .refl)
    (hfr : friction w.mods = 0) (c : ℝ) (l : List (ℝ × Bool)) (M : Motion d) :
    Chain (Coord s) (newton s h im w c) (l.map Prod.fst) (point im w M)
      (point im w (l.foldl (fun M a => WalledRun.ideal s h im w a.1 M) M)) := by
  induction l generalizing M with
  | nil => exact .nil _
  | cons a l ih =>
    refine .cons ⟨fun j => (point im w M).v j + a.1 / 2 * ((point im w M).c j - 1/2 * (im j.1 * friction w.mods) * (point im w M).v j),
      fun j hj => ?_⟩ (ih _)
    · obtain ⟨e1, e2, e3⟩ := step_eq s h im w hw a.1 M j hj
      refine ⟨?_, e1, ?_, ?_⟩
      · rw [hfr]; ring
      · rw [e3, newton_zero s h im w c, hfr]; ring
      · rw [e2, e3, hfr]; ring

/-- From the motion of C174 to the run. -/
theorem ends_near (s : Setup d) (h : List Call) (hr : InRange h) (href : AllReflexive h) (T : FM ℝ)
    (hT : run s.cut (.init :: h) = some T) (x v f : Arr) (hok : s.OK h fun i => home s (parts d x i)) (e : Env)
    (he : e.mode.OK) (w : Sides d) (hw : Fits s w e.im) (hb : Buildable s h (parts d x)) (l : List (ℝ × Bool))
    (ht : WalledRun.Timely s h e.im w (parts d x) l ⟨parts d x, parts d v, parts d f⟩) (X V : ℝ → ℕ × Fin d → ℝ) (ε : ℝ)
    (hn : ∀ j, Coord s j →
      |(point e.im w (l.foldl (fun M a => WalledRun.ideal s h e.im w a.1 M) ⟨parts d x, parts d v, parts d f⟩)).x j -
        X (l.map Prod.fst).sum j| ≤ ε ∧
      |(point e.im w (l.foldl (fun M a => WalledRun.ideal s h e.im w a.1 M) ⟨parts d x, parts d v, parts d f⟩)).v j -
        V (l.map Prod.fst).sum j| ≤ ε) :
    EndsNear s T e w x v f l X V ε := by
  obtain ⟨st, h1, h2⟩ := WalledRun.C174_run_partial s h hr href T hT x v f hok e he w hw hb l ht
  refine ⟨st, h1, fun i hi k => ?_⟩
  obtain ⟨e1, e2, e3⟩ := h2 i hi
  obtain ⟨z, z1, z2⟩ := e3 k
  obtain ⟨n1, n2⟩ := hn (i, k) hi
  refine ⟨?_, z, z1, ?_⟩
  · rw [e1]; exact n2
  · rw [z2]
    refine le_trans (le_of_eq ?_) n1
    congr 1
    simp only [point]
    ring

/-- A bound for finitely many numbers. -/
theorem exists_bound (s : Setup d) (g : ℕ × Fin d → ℝ) : ∃ R : ℝ, 0 ≤ R ∧ ∀ j, Coord s j → |g j| ≤ R := by
  refine ⟨∑ i ∈ Finset.range s.number, ∑ k : Fin d, |g (i, k)|,
    Finset.sum_nonneg fun _ _ => Finset.sum_nonneg fun _ _ => abs_nonneg _, ?_⟩
  rintro ⟨i, k⟩ hi
  have h1 := Finset.single_le_sum (f := fun k => |g (i, k)|) (fun _ _ => abs_nonneg _) (Finset.mem_univ k)
  have h2 := Finset.single_le_sum (f := fun i => ∑ k : Fin d, |g (i, k)|)
    (fun _ _ => Finset.sum_nonneg fun _ _ => abs_nonneg _) (Finset.mem_range.mpr hi.1)
  exact h1.trans h2

/-- A step near the motion is a rough step for half of the drag. -/
theorem step_rough (s : Setup d) (h : List Call) (im : ℕ → ℝ) (w : Sides d) (hw : ∀ k, w.bc k ≠ .refl)
    (X V : ℝ → ℕ × Fin d → ℝ) (time : ℝ) {A B L ρ : ℝ}
    (hs : Solves (Coord s) (newton s h im w (1/2)) time X V) (hm : Mild (Coord s) (newton s h im w (1/2)) time X V A B)
    (hl : Tame (Coord s) (newton s h im w (1/2)) time X V ρ L) (hA : 0 ≤ A) (hL : 0 ≤ L) (hρ : 0 < ρ) (R : ℝ) (hR : 0 ≤ R) :
    ∃ K h₁ : ℝ, 0 ≤ K ∧ 0 < h₁ ∧ ∀ t ∈ Set.Icc 0 time, ∀ dt, 0 ≤ dt → dt ≤ h₁ → t + dt ≤ time → ∀ M : Motion d,
      Near (Coord s) (newton s h im w (1/2)) X V t (ρ / 2) (R + L * ρ + 1) (point im w M) →
      Rough (Coord s) (newton s h im w (1/2)) K dt (point im w M) (point im w (WalledRun.ideal s h im w dt M)) := by
  obtain ⟨V0, hV0, bV0⟩ := exists_bound s (V 0)
  obtain ⟨G, hG, bG⟩ := exists_bound s fun j => im j.1 * friction w.mods
  obtain ⟨K, h₁, hK, hh₁, key⟩ := drag_rough (fun j => im j.1 * friction w.mods) (newton s h im w 0)
    (fun y u j _ => newton_zero s h im w (1/2) y u j) hs hm hl hA hL hρ R hR V0 hV0 bV0 G hG bG
  exact ⟨K, h₁, hK, hh₁, fun t ht dt hdt hdt1 hT M hn => key t ht dt hdt hdt1 hT _ _ (step_eq s h im w hw dt M) hn⟩

section main

variable (s : Setup d) (h : List Call) (hr : InRange h) (href : AllReflexive h) (T : FM ℝ)
    (hT : run s.cut (.init :: h) = some T) (x v f : Arr) (hok : s.OK h fun i => home s (parts d x i)) (e : Env)
    (he : e.mode.OK) (w : Sides d) (hw : Fits s w e.im) (hwall : ∀ k, w.bc k ≠ .refl) (hb : Buildable s h (parts d x))
    (X V : ℝ → ℕ × Fin d → ℝ) (time : ℝ) {A B L ρ : ℝ}
    (hs : Solves (Coord s) (newton s h e.im w (1/2)) time X V) (hm : Mild (Coord s) (newton s h e.im w (1/2)) time X V A B)
    (hl : Tame (Coord s) (newton s h e.im w (1/2)) time X V ρ L) (hA : 0 ≤ A) (hB : 0 ≤ B) (hL : 0 ≤ L) (hρ : 0 < ρ)
    (h0 : StartsAt s x v X V)
include hr href hT hok he hw hwall hb hs hm hl hB hL hρ h0

/-- **C175, second order** (partial). Without drag, if forces do not depend on velocities, the acceleration is smooth along the
motion and the stored forces at the start are those of the initial positions: the errors of a simulation with walls, centre and
constant accelerations are at most a constant times the square of the largest time step. Missing: as in
`C175_first_order_partial`; drag; motions that pass the edge of a soft wall, where the force is not smooth. -/
theorem C175_second_order_partial (hfr : friction w.mods = 0) (J : ℝ → ℕ × Fin d → ℝ) {K : ℝ} (hK : 0 ≤ K)
    (hsm : Smooth (Coord s) (newton s h e.im w (1/2)) time X V J K)
    (hpos : ∀ y u u', newton s h e.im w (1/2) y u = newton s h e.im w (1/2) y u')
    (hf : ∀ i, s.Alive i → ∀ k, e.im i * parts d f i k = newton s h e.im w (1/2) (X 0) (V 0) (i, k)) :
    ∃ C H₀ : ℝ, 0 < H₀ ∧ ∀ H : ℝ, 0 < H → H ≤ H₀ → ∀ l : List (ℝ × Bool), (∀ a ∈ l, 0 ≤ a.1 ∧ a.1 ≤ H) →
      (l.map Prod.fst).sum ≤ time → WalledRun.Timely s h e.im w (parts d x) l ⟨parts d x, parts d v, parts d f⟩ →
      EndsNear s T e w x v f l X V (C * H ^ 2) := by
  obtain ⟨C, H₀, hH₀, key⟩ := second_order hs hm hsm hl hpos hB hK hL hρ
  refine ⟨C, H₀, hH₀, fun H hH hle l hd hsum ht => ?_⟩
  refine ends_near s h hr href T hT x v f hok e he w hw hb l ht X V _ ?_
  refine key H hH hle _ ?_ hsum (point e.im w ⟨parts d x, parts d v, parts d f⟩) _ ?_ (ideal_chain s h e.im w hwall hfr _ l _)
  · intro dt hdt
    obtain ⟨a, ha, rfl⟩ := List.mem_map.mp hdt
    exact hd a ha
  · rintro ⟨i, k⟩ hi
    refine ⟨(h0 i hi k).1, (h0 i hi k).2, ?_⟩
    rw [← hf i hi k]
    simp only [point, hfr]
    ring

include hA

/-- **C175, first order** (partial). For all systems of particles with central interactions, boxes with wrapping, open and
repulsive boundaries, with attraction to the centre, constant accelerations and linear drag, initial states (also with forces zero
or old), and exact motions of Newton's equations with the same forces and half of the drag along which the acceleration is bounded
and Lipschitz and near which forces are Lipschitz: the simulation ends, for every choice of time steps and of timely steps with a
construction, within a constant times the largest time step of the exact motion; so simulations converge to the motion with half
of the drag.
Missing: the drag at full strength (false, `C175_negation_half_drag`); reflecting boundaries; wrapping boundaries together with
attraction (C174); late constructions; systems for which C129 fails; rounding. -/
theorem C175_first_order_partial :
    ∃ C H₀ : ℝ, 0 < H₀ ∧ ∀ H : ℝ, 0 < H → H ≤ H₀ → ∀ l : List (ℝ × Bool), (∀ a ∈ l, 0 ≤ a.1 ∧ a.1 ≤ H) →
      (l.map Prod.fst).sum ≤ time → WalledRun.Timely s h e.im w (parts d x) l ⟨parts d x, parts d v, parts d f⟩ →
      EndsNear s T e w x v f l X V (C * H) := by
  obtain ⟨R, hR, hR'⟩ := exists_bound s fun j =>
    (point e.im w ⟨parts d x, parts d v, parts d f⟩).c j - newton s h e.im w (1/2) (X 0) (V 0) j
  obtain ⟨K, h₁, hK, hh₁, hrough⟩ := step_rough s h e.im w hwall X V time hs hm hl hA hL hρ R hR
  obtain ⟨C, H₀, hH₀, key⟩ := rough_order (point e.im w) (fun dt M => WalledRun.ideal s h e.im w dt M) hs hm hl hA hB hL hρ R hR K hK
    h₁ hh₁ hrough
  refine ⟨C, H₀, hH₀, fun H hH hle l hd hsum ht => ?_⟩
  refine ends_near s h hr href T hT x v f hok e he w hw hb l ht X V _ ?_
  have := key H hH hle (l.map Prod.fst) (fun dt hdt => by
    obtain ⟨a, ha, rfl⟩ := List.mem_map.mp hdt
    exact hd a ha) hsum ⟨parts d x, parts d v, parts d f⟩ (by
    rintro ⟨i, k⟩ hi
    exact ⟨(h0 i hi k).1, (h0 i hi k).2, hR' (i, k) hi⟩)
  rw [List.foldl_map] at this
  exact this

end main

/-! ## Example and negation: a particle that falls in a medium -/

/-- The tube of C174 with one particle. -/
noncomputable def shaft : Setup 1 := { tube with number := 1 }

theorem shaft_alive {i : ℕ} (h : shaft.Alive i) : i = 0 := by
  have := h.1
  simp only [shaft] at this
  omega

theorem shaft_zero : shaft.Alive 0 := ⟨by norm_num [shaft], by simp [shaft, tube, ring]⟩

theorem shaft_ok (x : ℕ → Fin 1 → ℝ) : shaft.OK ringHist x := by
  have ht := WalledRun.tube_ok ringHist (by simp [ringHist, typesOf]) x
  have al : ∀ i, shaft.Alive i → tube.Alive i := fun i h => ⟨lt_of_lt_of_le h.1 (by norm_num [shaft, tube, ring]), h.2⟩
  exact ⟨ht.valid, ht.wide, ht.stencil, ht.cutoff_pos, ht.skin_nonneg, fun i hi => ht.pos i (al i hi),
    fun i hi => ht.rd_nonneg i (al i hi), fun i hi => ht.types i (al i hi), ht.cut_nonneg, fun i hi => ht.small_one i (al i hi),
    fun i hi => ht.small i (al i hi)⟩

/-- Soft ends, gravity 1 and drag 1. -/
noncomputable def medium : Sides 1 := ends .repl 0 [.gravity fun _ => 1, .drag 1]

theorem shaft_newton (c : ℝ) (y u : ℕ × Fin 1 → ℝ) (hy : 0 ≤ y (0, 0) ∧ y (0, 0) ≤ 24/5) :
    newton shaft ringHist (fun _ => 1) medium c y u (0, 0) = 1 - c * u (0, 0) := by
  have hfr : friction medium.mods = 1 := by simp [medium, ends, friction]
  have hp : pull medium.mods 0 = 1 := by simp [medium, ends, pull]
  have hs : ∀ v, soft 5 1 0 (24/5) (y (0, 0)) v = 0 := by
    intro v
    unfold soft
    rw [if_neg (not_lt.mpr hy.1), if_neg (not_lt.mpr hy.2), max_eq_right (by linarith), max_eq_right (by linarith)]
    ring
  unfold newton
  simp only
  rw [Finset.sum_eq_zero, hfr]
  · simp only [WalledRun.outer, hp]
    have h1 : medium.bc 0 = .repl := rfl
    rw [if_pos h1, if_pos one_pos]
    have h2 : medium.repulsion = 5 := rfl
    have h3 : medium.dissipation = 1 := rfl
    have h4 : (shaft.g 0).lo = 0 := rfl
    have h5 : (shaft.g 0).hi = 24/5 := rfl
    have h6 : medium.center = 0 := rfl
    rw [h2, h3, h4, h5, h6, hs]
    ring
  · intro j hj
    obtain ⟨j1, j2, j3⟩ := Finset.mem_filter.mp hj
    exact absurd (shaft_alive ⟨Finset.mem_range.mp j1, j3⟩) j2

theorem shaft_fits : Fits shaft medium fun _ => 1 := by
  refine ⟨fun k => ?_, fun h => absurd rfl h, fun _ => by norm_num⟩
  simp [shaft, tube, medium, ends]

theorem shaft_build (x : ℕ → Fin 1 → ℝ) : Buildable shaft ringHist x :=
  ⟨fun i _ k hk => by simp [shaft, tube] at hk, fun _ _ _ _ _ p _ => Or.inl (by simp [shaft, tube, ring])⟩

theorem shaft_separate (x : ℕ → Fin 1 → ℝ) : Separate shaft ringHist x := by
  intro i j hi hj hij
  rw [shaft_alive hi, shaft_alive hj] at hij
  exact absurd rfl hij

/-- The hypotheses of C175 hold for a falling particle with gravity 1, drag 1 and initial velocity 2: in Newton's equations with
half of the drag this is the constant velocity of a fall in the medium. -/
example : shaft.OK ringHist (fun i => home shaft (parts 1 (fun _ => 1) i)) ∧ Fits shaft medium (fun _ => 1) ∧
    (∀ k, medium.bc k ≠ .refl) ∧ Buildable shaft ringHist (parts 1 fun _ => 1) ∧ friction medium.mods ≠ 0 ∧
    Solves (Coord shaft) (newton shaft ringHist (fun _ => 1) medium (1/2)) 1 (fun t _ => 1 + 2 * t) (fun _ _ => 2) ∧
    Mild (Coord shaft) (newton shaft ringHist (fun _ => 1) medium (1/2)) 1 (fun t _ => 1 + 2 * t) (fun _ _ => 2) 0 0 ∧
    Tame (Coord shaft) (newton shaft ringHist (fun _ => 1) medium (1/2)) 1 (fun t _ => 1 + 2 * t) (fun _ _ => 2) (1/2) (1/2) ∧
    StartsAt shaft (fun _ => 1) (fun _ => 2) (fun t _ => 1 + 2 * t) (fun _ _ => 2) := by
  have hfr : friction medium.mods = 1 := by simp [medium, ends, friction]
  have along : ∀ t : ℝ, 0 ≤ t → t ≤ 1 → newton shaft ringHist (fun _ => 1) medium (1/2) (fun _ => 1 + 2 * t) (fun _ => 2) (0, 0) = 0 := by
    intro t h0 h1
    rw [shaft_newton _ _ _ ⟨by linarith, by linarith⟩]; norm_num
  refine ⟨shaft_ok _, shaft_fits, fun k => by simp [medium, ends], shaft_build _, by rw [hfr]; norm_num, ⟨?_, ?_⟩, ⟨?_, ?_⟩, ?_, ?_⟩
  · rintro t ht ⟨i, k⟩ hi
    have := (((hasDerivAt_id t).const_mul (2:ℝ)).const_add 1).hasDerivWithinAt (s := Set.Icc 0 1)
    simpa using this
  · rintro t ht ⟨i, k⟩ hi
    have hk : k = 0 := Subsingleton.elim _ _
    have hi0 : i = 0 := shaft_alive hi
    subst hk hi0
    rw [along t ht.1 ht.2]
    exact (hasDerivAt_const t (2:ℝ)).hasDerivWithinAt
  · rintro t ht ⟨i, k⟩ hi
    have hk : k = 0 := Subsingleton.elim _ _
    have hi0 : i = 0 := shaft_alive hi
    subst hk hi0
    rw [along t ht.1 ht.2, abs_zero]
  · rintro u hu t ht ⟨i, k⟩ hi
    have hk : k = 0 := Subsingleton.elim _ _
    have hi0 : i = 0 := shaft_alive hi
    subst hk hi0
    rw [along t ht.1 ht.2, along u hu.1 hu.2, sub_self, abs_zero, zero_mul]
  · rintro t ht y u ε hε hy ⟨i, k⟩ hi
    have hk : k = 0 := Subsingleton.elim _ _
    have hi0 : i = 0 := shaft_alive hi
    subst hk hi0
    obtain ⟨y1, y2⟩ := hy (0, 0) shaft_zero
    rw [along t ht.1 ht.2]
    rw [abs_le] at y1 y2
    rw [shaft_newton _ _ _ ⟨by linarith [y1.1, ht.1], by linarith [y1.2, ht.2]⟩, abs_le]
    constructor <;> linarith [y2.1, y2.2]
  · intro i hi k
    simp [parts]

/-- A particle that falls without drag in an open tube meets the hypotheses of `C175_second_order_partial`. -/
example : Fits shaft (ends .open' 0 [.gravity fun _ => 1]) (fun _ => 1) ∧ friction (ends .open' 0 [.gravity fun _ => 1]).mods = 0 ∧
    Solves (Coord shaft) (newton shaft ringHist (fun _ => 1) (ends .open' 0 [.gravity fun _ => 1]) (1/2)) 1
      (fun t _ => 1 + t ^ 2 / 2) (fun t _ => t) ∧
    Mild (Coord shaft) (newton shaft ringHist (fun _ => 1) (ends .open' 0 [.gravity fun _ => 1]) (1/2)) 1
      (fun t _ => 1 + t ^ 2 / 2) (fun t _ => t) 1 0 ∧
    Tame (Coord shaft) (newton shaft ringHist (fun _ => 1) (ends .open' 0 [.gravity fun _ => 1]) (1/2)) 1
      (fun t _ => 1 + t ^ 2 / 2) (fun t _ => t) 1 0 ∧
    Smooth (Coord shaft) (newton shaft ringHist (fun _ => 1) (ends .open' 0 [.gravity fun _ => 1]) (1/2)) 1
      (fun t _ => 1 + t ^ 2 / 2) (fun t _ => t) (fun _ _ => 0) 0 ∧
    StartsAt shaft (fun _ => 1) (fun _ => 0) (fun t _ => 1 + t ^ 2 / 2) (fun t _ => t) ∧
    (∀ y u u', newton shaft ringHist (fun _ => 1) (ends .open' 0 [.gravity fun _ => 1]) (1/2) y u =
      newton shaft ringHist (fun _ => 1) (ends .open' 0 [.gravity fun _ => 1]) (1/2) y u') ∧
    ∀ i, shaft.Alive i → ∀ k : Fin 1, 1 * parts 1 (fun _ => 1) i k =
      newton shaft ringHist (fun _ => 1) (ends .open' 0 [.gravity fun _ => 1]) (1/2) (fun _ => 1 + 0 ^ 2 / 2) (fun _ => 0) (i, k) := by
  set w : Sides 1 := ends .open' 0 [.gravity fun _ => 1] with hw
  have hfr : friction w.mods = 0 := by simp [hw, ends, friction]
  have hn : ∀ y u, ∀ j, Coord shaft j → newton shaft ringHist (fun _ => 1) w (1/2) y u j = 1 := by
    rintro y u ⟨i, k⟩ hi
    have hk : k = 0 := Subsingleton.elim _ _
    have hi0 : i = 0 := shaft_alive hi
    subst hk hi0
    unfold newton
    simp only
    rw [Finset.sum_eq_zero, hfr]
    · simp [WalledRun.outer, pull, hw, ends]
    · intro j hj
      obtain ⟨j1, j2, j3⟩ := Finset.mem_filter.mp hj
      exact absurd (shaft_alive ⟨Finset.mem_range.mp j1, j3⟩) j2
  refine ⟨⟨fun k => by simp [shaft, tube, hw, ends], fun h => absurd rfl h, fun _ => by norm_num⟩, hfr, ⟨?_, ?_⟩, ⟨?_, ?_⟩, ?_,
    ⟨?_, ?_⟩, ?_, ?_, ?_⟩
  · rintro t ht j hj
    have := ((((hasDerivAt_id t).pow 2).div_const 2).const_add (1:ℝ)).hasDerivWithinAt (s := Set.Icc 0 1)
    refine this.congr_deriv ?_
    simp
  · rintro t ht j hj
    rw [hn _ _ j hj]
    exact (hasDerivAt_id t).hasDerivWithinAt
  · rintro t ht j hj
    rw [hn _ _ j hj, abs_one]
  · rintro t ht u hu j hj
    rw [hn _ _ j hj, hn _ _ j hj, sub_self, abs_zero, zero_mul]
  · rintro t ht y u ε _ _ j hj
    rw [hn _ _ j hj, hn _ _ j hj, sub_self, abs_zero, zero_mul]
  · rintro t ht j hj
    have : (fun u : ℝ => newton shaft ringHist (fun _ => 1) w (1/2) (fun _ => 1 + u ^ 2 / 2) (fun _ => u) j) = fun _ => 1 := by
      funext u; rw [hn _ _ j hj]
    rw [this]
    exact (hasDerivAt_const t (1:ℝ)).hasDerivWithinAt
  · rintro t ht u hu j hj
    simp
  · intro i hi k
    simp [parts]
  · intro y u u'
    funext j
    simp only [newton, WalledRun.outer, Setup.direct, pushed, shaft, tube, ring, Force.mag, hw, ends]
    simp [friction]
  · intro i hi k
    rw [hn _ _ (i, k) hi]; simp [parts]

/-- All steps have a construction: the decisions are timely and the velocity does not change. -/
theorem shaft_steps (l : List (ℝ × Bool)) (hl : ∀ a ∈ l, 0 ≤ a.1 ∧ a.1 ≤ 1 ∧ a.2 = true) (M : Motion 1) (x0 : ℕ → Fin 1 → ℝ)
    (hx : 1 ≤ M.x 0 0) (hs : M.x 0 0 + 2 * (l.map Prod.fst).sum ≤ 3) (hv : M.v 0 0 = 2) (hf : M.f 0 0 = 1) :
    WalledRun.Timely shaft ringHist (fun _ => 1) medium x0 l M ∧
      (l.foldl (fun M a => WalledRun.ideal shaft ringHist (fun _ => 1) medium a.1 M) M).v 0 0 = 2 := by
  induction l generalizing M x0 with
  | nil => exact ⟨trivial, hv⟩
  | cons a l ih =>
    obtain ⟨a1, a2, a3⟩ := hl a (by simp)
    obtain ⟨dt, r⟩ := a
    simp only at a1 a2 a3
    subst a3
    have hls : 0 ≤ (l.map Prod.fst).sum := List.sum_nonneg fun y hy => by
      obtain ⟨b, hb, rfl⟩ := List.mem_map.mp hy
      exact (hl b (by simp [hb])).1
    simp only [List.map_cons, List.sum_cons] at hs
    have hfr : friction medium.mods = 1 := by simp [medium, ends, friction]
    have hst := step_eq shaft ringHist (fun _ => 1) medium (fun k => by simp [medium, ends]) dt M (0, 0) shaft_zero
    simp only [point, hfr, hv, hf] at hst
    obtain ⟨e1, e2, e3⟩ := hst
    have ex : (WalledRun.ideal shaft ringHist (fun _ => 1) medium dt M).x 0 0 = M.x 0 0 + dt * (2 - dt / 2) := by
      rw [e1]; ring
    have hin : 1 ≤ M.x 0 0 + dt * (2 - dt / 2) ∧ M.x 0 0 + dt * (2 - dt / 2) ≤ M.x 0 0 + 2 * dt := by
      constructor <;> nlinarith
    rw [shaft_newton _ _ _ ⟨by show _ ≤ (WalledRun.ideal shaft ringHist (fun _ => 1) medium dt M).x 0 0; linarith [hin.1],
      by show (WalledRun.ideal shaft ringHist (fun _ => 1) medium dt M).x 0 0 ≤ _; linarith [hin.2]⟩] at e2 e3
    have ev : (WalledRun.ideal shaft ringHist (fun _ => 1) medium dt M).v 0 0 = 2 := by
      rw [e2]; ring
    have ef : (WalledRun.ideal shaft ringHist (fun _ => 1) medium dt M).f 0 0 = 1 := by
      rw [ev] at e3; linarith
    have := ih (fun b hb => hl b (by simp [hb])) (WalledRun.ideal shaft ringHist (fun _ => 1) medium dt M)
      (fun i k => (drift medium (fun _ => 1) dt M i k).1) (by linarith [hin.1]) (by linarith [hin.2]) ev ef
    refine ⟨⟨fun _ => shaft_build _, fun i hi => ?_, shaft_separate _, this.1⟩, this.2⟩
    rw [shaft_alive hi, len_one]
    have : (WalledRun.ideal shaft ringHist (fun _ => 1) medium dt M).x 0 0 = (drift medium (fun _ => 1) dt M 0 0).1 := by
      simp [WalledRun.ideal, bounce, medium, ends]
    simp only [if_true, Pi.sub_apply, this, sub_self]
    norm_num [shaft, tube, ring]

/-- **C175, negation.** A simulation with drag does not converge to the motion with that drag. A particle with mass 1 falls with
acceleration 1 and drag 1: in Newton's equations its velocity decreases from 2 towards 1, as `1 + exp(-t)`. In the simulation it is
2 for ever, for all time steps, however small. -/
theorem C175_negation_half_drag : ∃ (s : Setup 1) (T : FM ℝ) (x v f : Arr) (e : Env) (w : Sides 1) (X V : ℝ → ℕ × Fin 1 → ℝ),
    run s.cut (.init :: ringHist) = some T ∧ s.OK ringHist (fun i => home s (parts 1 x i)) ∧ Fits s w e.im ∧ s.Alive 0 ∧
    Solves (Coord s) (newton s ringHist e.im w 1) 1 X V ∧ StartsAt s x v X V ∧ (∀ t, V t (0, 0) = 1 + Real.exp (-t)) ∧
    ∀ l : List (ℝ × Bool), (∀ a ∈ l, 0 ≤ a.1 ∧ a.1 ≤ 1 ∧ a.2 = true) → (l.map Prod.fst).sum ≤ 1 →
      WalledRun.Timely s ringHist e.im w (parts 1 x) l ⟨parts 1 x, parts 1 v, parts 1 f⟩ ∧
      ∃ st, (start s T x v f).bind (WalledRun.steps s T e w l) = some st ∧ parts 1 st.v 0 0 = 2 := by
  have hr : InRange ringHist := by simp [ringHist, InRange, typesOf]
  have href : AllReflexive ringHist := by simp [ringHist, AllReflexive]
  obtain ⟨T, hT, _⟩ := C31_table shaft.cut (.init :: ringHist) hr
  set e : Env := ⟨fun _ => 1, none, false, false, fun _ => ⟨⟨fun _ => ⟨[], [], [], none⟩, 0⟩, fun _ => [], fun _ => []⟩⟩ with he
  have dexp : ∀ t : ℝ, HasDerivAt (fun t => Real.exp (-t)) (-Real.exp (-t)) t := by
    intro t
    exact ((Real.hasDerivAt_exp (-t)).comp t (hasDerivAt_neg t)).congr_deriv (by ring)
  refine ⟨shaft, T, fun _ => 1, fun _ => 2, fun _ => 1, e, medium, fun t _ => 2 + t - Real.exp (-t), fun t _ => 1 + Real.exp (-t),
    hT, shaft_ok _, shaft_fits, shaft_zero, ⟨?_, ?_⟩, ?_, fun t => rfl, ?_⟩
  · rintro t ht ⟨i, k⟩ hi
    exact (((hasDerivAt_id t).const_add (2:ℝ)).sub (dexp t)).hasDerivWithinAt.congr_deriv (by ring)
  · rintro t ht ⟨i, k⟩ hi
    have hk : k = 0 := Subsingleton.elim _ _
    have hi0 : i = 0 := shaft_alive hi
    subst hk hi0
    have h1 : Real.exp (-t) ≤ 1 := by rw [Real.exp_le_one_iff]; linarith [ht.1]
    have h2 := Real.exp_pos (-t)
    rw [show e.im = fun _ => 1 from rfl, shaft_newton _ _ _ ⟨by linarith [ht.1], by linarith [ht.2]⟩]
    have := ((dexp t).const_add (1:ℝ)).hasDerivWithinAt (s := Set.Icc 0 1)
    refine this.congr_deriv ?_
    ring
  · intro i hi k
    simp [parts]; norm_num
  · intro l hl hsum
    obtain ⟨t1, t2⟩ := shaft_steps l hl ⟨parts 1 fun _ => 1, parts 1 fun _ => 2, parts 1 fun _ => 1⟩ (parts 1 fun _ => 1)
      (by simp [parts]) (by simp only [parts]; linarith) rfl rfl
    refine ⟨t1, ?_⟩
    obtain ⟨st, s1, s2⟩ := WalledRun.C174_run_partial shaft ringHist hr href T hT _ _ _ (shaft_ok _) e trivial medium shaft_fits
      (shaft_build _) l t1
    refine ⟨st, s1, ?_⟩
    rw [(s2 0 shaft_zero).1]
    exact t2

end Verif.WalledMotion
