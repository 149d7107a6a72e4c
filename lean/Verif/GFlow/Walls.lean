import Verif.GFlow.Trajectory
import Verif.GFlow.BoundaryProps
import Verif.Modifiers.BodyForces

/-!
# Runs with walls, central attraction, constant acceleration and drag (C174)

The loop of `GFlow::run` (`gflow.cpp:153-268`) as in `Trajectory`, with everything that acts on single particles: reflecting and
repulsive boundaries, the attraction to the centre of the box and the modifiers `ConstantAcceleration` and
`LinearVelocityDamping`, in the order of the code. One processor, velocity Verlet, no bonded forces, bodies and removal of
particles.
-/

set_option linter.unusedSectionVars false
set_option linter.unusedVariables false

namespace Verif.WalledRun
open Verif.Cells Verif.Grid Verif.Stencil Verif.ForceMaster Verif.PairForces Verif.Handlers Verif.ForceSum Verif.Verlet
open Verif.Trajectory Verif.Boundary Verif.BodyForces

variable {d : ℕ}

/-! ## The model -/

/-- A modifier: `ConstantAcceleration` (`modifiers/constantacceleration.hpp`), `LinearVelocityDamping`
(`modifiers/linearvelocitydamping.hpp`). -/
inductive Mod (d : ℕ)
  | gravity (a : Fin d → ℝ)
  | drag (γ : ℝ)

/-- `boundaryConditions`, `repulsion`, `dissipation`, `center_attraction` and `modifiers` of the `GFlow` object, `gflow.hpp`. -/
structure Sides (d : ℕ) where
  bc : Fin d → BC
  repulsion : ℝ
  dissipation : ℝ
  center : ℝ
  mods : List (Mod d)

/-- The box in the form of `Boundary`: bounds, flags and constants, `gflow.hpp`. Dimensions `d` and above do not exist. -/
noncomputable def Sides.box (w : Sides d) (s : Setup d) : Box ℝ :=
  { dims := d
    lo := fun k => if h : k < d then (s.g ⟨k, h⟩).lo else 0
    hi := fun k => if h : k < d then (s.g ⟨k, h⟩).hi else 0
    bc := fun k => if h : k < d then w.bc ⟨k, h⟩ else .open'
    repulsion := w.repulsion, dissipation := w.dissipation }

/-- The arrays as `reflectPositions` sees them after `clearForces`, `gflow.cpp:182-187`. -/
noncomputable def table (s : Setup d) (x v : Arr) : State ℝ :=
  { cell := fun n k => ⟨x (n * d + k), v (n * d + k), 0⟩, type := s.type, size := s.number, boundaryForce := 0
    boundaryEnergy := 0 }

/-- `attractPositions`, `gflow.cpp:643-674`: the loop over the owned particles. -/
noncomputable def attractAll (s : Setup d) (w : Sides d) (im : ℕ → ℝ) (x : ℕ → Fin d → ℝ) (f : ℕ → Fin d → ℝ) :
    Option (ℕ → Fin d → ℝ) :=
  (List.range s.number).foldlM (fun f n =>
    (attract1 (w.box s) w.center (s.type n) (im n) fun k => if h : k < d then x n ⟨k, h⟩ else 0).map fun F =>
      Function.update f n fun k => f n k + F k) f

/-- `m->pre_forces()` of the modifiers, `gflow.cpp:168-172`: drag changes the forces of the last step, see `BodyForces`. -/
noncomputable def before (s : Setup d) (e : Env) (mods : List (Mod d)) (v f : Arr) : Arr :=
  mods.foldl (fun f m => match m with
    | .gravity _ => f
    | .drag γ => linearDamping e.mode (s.number * d) γ v f) f

/-- `m->post_forces()` of the modifiers, `gflow.cpp:226-231`: constant acceleration (`modifiers/constantacceleration.cpp:17-29`),
`none` is the exception. -/
noncomputable def after (s : Setup d) (im : ℕ → ℝ) (mods : List (Mod d)) (f : ℕ → Fin d → ℝ) : Option (ℕ → Fin d → ℝ) :=
  mods.foldlM (fun f m => match m with
    | .gravity a => if d > 4 then none else some ((List.range s.number).foldl (caOne a im) f)
    | .drag _ => some f) f

/-- One step, `gflow.cpp:153-238`: `pre_forces` of modifiers and integrator, `handler->pre_forces` with or without construction,
`clearForces`, `reflectPositions`, `repulsePositions`, `attractPositions`, `forceMaster->interact`, `post_forces` of modifiers and
integrator. -/
noncomputable def step (s : Setup d) (T : FM ℝ) (e : Env) (w : Sides d) (dt : ℝ) (rebuild : Bool) (st : St) : Option St :=
  let f0 := before s e w.mods st.v st.f
  let v1 := updateVelocities e.mode d (s.number * d) dt e.im f0 st.v
  let x1 := updatePositions e.mode (s.number * d) dt v1 st.x
  let x2 := if rebuild then wrapFlat s x1 else x1
  (if rebuild then s.lists T (parts d x2) else some st.lists).bind fun lists =>
    let c := repulsePositions (w.box s) (reflectPositions (w.box s) (table s x2 v1))
    let x3 : ℕ → Fin d → ℝ := fun n k => (c.cell n k).x
    let v3 : ℕ → Fin d → ℝ := fun n k => (c.cell n k).v
    (attractAll s w e.im x3 fun n k => (c.cell n k).f).bind fun f1 =>
      (s.forces T e.doPot e.doVir e.old lists ⟨x3, v3, s.rd, e.im⟩ f1).bind fun f2 =>
        (after s e.im w.mods f2).map fun f3 =>
          ⟨flat x3, updateVelocities e.mode d (s.number * d) dt e.im (flat f3) (flat v3), flat f3, lists⟩

/-- A run: time steps and decisions on construction. -/
noncomputable def steps (s : Setup d) (T : FM ℝ) (e : Env) (w : Sides d) (l : List (ℝ × Bool)) (st : St) : Option St :=
  l.foldlM (fun st a => step s T e w a.1 a.2 st) st

/-! ## Specification -/

/-- Spec: reflection of one coordinate and its velocity at the walls `lo` and `hi`. -/
noncomputable def mirror (lo hi : ℝ) (p : ℝ × ℝ) : ℝ × ℝ :=
  if p.1 < lo then (2 * lo - p.1, -p.2) else if hi < p.1 then (2 * hi - p.1, -p.2) else p

/-- Spec: force of the soft walls `lo` and `hi`: a spring of stiffness `10 κ`, and friction `γ` for outgoing particles. -/
noncomputable def soft (κ γ lo hi x v : ℝ) : ℝ :=
  10 * κ * max (lo - x) 0 - 10 * κ * max (x - hi) 0 + (if x < lo then γ * max (-v) 0 else 0) - (if hi < x then γ * max v 0 else 0)

/-- Spec: centre of the box. -/
noncomputable def middle (s : Setup d) : Fin d → ℝ := fun k => ((s.g k).lo + (s.g k).hi) / 2

/-- Spec: sum of all constant accelerations. -/
noncomputable def pull (mods : List (Mod d)) (k : Fin d) : ℝ :=
  (mods.map fun m => match m with
    | .gravity a => a k
    | .drag _ => 0).sum

/-- Spec: sum of all coefficients of drag. -/
noncomputable def friction (mods : List (Mod d)) : ℝ :=
  (mods.map fun m => match m with
    | .gravity _ => 0
    | .drag γ => γ).sum

/-- Spec: force on a particle of inverse mass `im` at `x` with velocity `v` from walls, centre and constant accelerations. -/
noncomputable def outer (s : Setup d) (w : Sides d) (im : ℝ) (x v : Fin d → ℝ) (k : Fin d) : ℝ :=
  (if w.bc k = .repl then soft w.repulsion w.dissipation (s.g k).lo (s.g k).hi (x k) (v k) else 0) +
    w.center / im * ((middle s k - x k) / len (middle s - x)) + (if 0 < im then 1 / im * pull w.mods k else 0)

/-- Spec: the position and velocity of all particles after the first half of a step, before the walls reflect. -/
noncomputable def drift (w : Sides d) (im : ℕ → ℝ) (dt : ℝ) (M : Motion d) : ℕ → Fin d → ℝ × ℝ := fun i k =>
  let v := M.v i k + dt / 2 * im i * (M.f i k - friction w.mods * M.v i k)
  (M.x i k + dt * v, v)

/-- Spec: the same after reflection. -/
noncomputable def bounce (s : Setup d) (w : Sides d) (im : ℕ → ℝ) (dt : ℝ) (M : Motion d) : ℕ → Fin d → ℝ × ℝ := fun i k =>
  if w.bc k = .refl then mirror (s.g k).lo (s.g k).hi (drift w im dt M i k) else drift w im dt M i k

open Classical in
/-- Spec: one step without wrapping, cells and lists: half kick with drag, move, reflection, forces from outside and from all
other particles, half kick. -/
noncomputable def ideal (s : Setup d) (h : List Call) (im : ℕ → ℝ) (w : Sides d) (dt : ℝ) (M : Motion d) : Motion d :=
  let x1 := fun i k => (bounce s w im dt M i k).1
  let v1 := fun i k => (bounce s w im dt M i k).2
  let f1 := fun i k => if s.Alive i then outer s w (im i) (x1 i) (v1 i) k +
    ∑ j ∈ (Finset.range s.number).filter (fun j => j ≠ i ∧ 0 ≤ s.type j), s.direct h ⟨x1, v1, s.rd, im⟩ i j k else 0
  ⟨x1, fun i k => v1 i k + dt / 2 * im i * f1 i k, f1⟩

/-- Spec: the flags belong to the grid; the attraction is used only without wrapping boundaries and immovable particles (see
`C174_negation_attraction` and C65); constant acceleration only in up to four dimensions (see C83). -/
structure Fits (s : Setup d) (w : Sides d) (im : ℕ → ℝ) : Prop where
  bc : ∀ k, (s.g k).per = true ↔ w.bc k = .wrap
  center : w.center ≠ 0 → (∀ k, (s.g k).per = false) ∧ ∀ i, s.Alive i → im i ≠ 0
  dims : (∃ a, Mod.gravity a ∈ w.mods) → d ≤ 4

/-- Spec: timely decisions on construction, as in `Trajectory.Timely`; a construction sees the positions before the reflection. -/
def Timely (s : Setup d) (h : List Call) (im : ℕ → ℝ) (w : Sides d) : (ℕ → Fin d → ℝ) → List (ℝ × Bool) → Motion d → Prop
  | _, [], _ => True
  | x0, (dt, r) :: l, M =>
    let seen := fun i k => (drift w im dt M i k).1
    let x0' := if r then seen else x0
    (r = true → Buildable s h seen) ∧
    (∀ i, s.Alive i → len ((ideal s h im w dt M).x i - x0' i) ≤ s.skin / 2) ∧
    Separate s h (ideal s h im w dt M).x ∧
    Timely s h im w x0' l (ideal s h im w dt M)

/-! ## Lemmas -/

theorem mirror_eq (lo hi : ℝ) (e : Entry ℝ) :
    ((reflect1 lo hi e).x, (reflect1 lo hi e).v) = mirror lo hi (e.x, e.v) ∧ (reflect1 lo hi e).f = e.f := by
  unfold reflect1 mirror
  split_ifs <;> simp

theorem soft_eq (b : Box ℝ) (k : ℕ) (hb : b.lo k < b.hi k) (e : Entry ℝ) :
    (repulse1 b k e).x = e.x ∧ (repulse1 b k e).v = e.v ∧
      (repulse1 b k e).f = e.f + soft b.repulsion b.dissipation (b.lo k) (b.hi k) e.x e.v := by
  have hc : ∀ a : ℝ, clamp a = max a 0 := by
    intro a; unfold clamp
    split_ifs with h
    · rw [max_eq_right h.le]
    · rw [max_eq_left (not_lt.mp h)]
  unfold repulse1 soft
  by_cases h1 : e.x < b.lo k
  · have h2 : ¬ b.hi k < e.x := by linarith
    rw [if_pos h1]
    refine ⟨rfl, rfl, ?_⟩
    simp only [pushOf, if_pos h1, if_neg h2, hc]
    rw [max_eq_left (by linarith : (0:ℝ) ≤ b.lo k - e.x), max_eq_right (by linarith : e.x - b.hi k ≤ (0:ℝ))]
    ring
  · rw [if_neg h1]
    by_cases h2 : b.hi k < e.x
    · rw [if_pos h2]
      refine ⟨rfl, rfl, ?_⟩
      simp only [pushOf, if_neg h1, if_pos h2, hc]
      rw [max_eq_right (by linarith : b.lo k - e.x ≤ (0:ℝ)), max_eq_left (by linarith : (0:ℝ) ≤ e.x - b.hi k)]
      ring
    · rw [if_neg h2]
      refine ⟨rfl, rfl, ?_⟩
      rw [if_neg h1, if_neg h2, max_eq_right (by linarith : b.lo k - e.x ≤ (0:ℝ)),
        max_eq_right (by linarith : e.x - b.hi k ≤ (0:ℝ))]
      ring

theorem walls_cell (s : Setup d) (w : Sides d) (hv : ∀ k, (s.g k).Valid) (x v : Arr) {i : ℕ} (hi : i < s.number) (k : Fin d) :
    let c := (repulsePositions (w.box s) (reflectPositions (w.box s) (table s x v))).cell i k
    let p := if w.bc k = .refl then mirror (s.g k).lo (s.g k).hi (parts d x i k, parts d v i k)
      else (parts d x i k, parts d v i k)
    c.x = p.1 ∧ c.v = p.2 ∧
      c.f = if w.bc k = .repl then soft w.repulsion w.dissipation (s.g k).lo (s.g k).hi p.1 p.2 else 0 := by
  intro c p
  have hbc : (w.box s).bc k = w.bc k := by simp [Sides.box]
  have hlo : (w.box s).lo k = (s.g k).lo := by simp [Sides.box]
  have hhi : (w.box s).hi k = (s.g k).hi := by simp [Sides.box]
  have hcd : c = if w.bc k = .repl then repulse1 (w.box s) k (if w.bc k = .refl then
      reflect1 (s.g k).lo (s.g k).hi ⟨parts d x i k, parts d v i k, 0⟩ else ⟨parts d x i k, parts d v i k, 0⟩) else
      (if w.bc k = .refl then reflect1 (s.g k).lo (s.g k).hi ⟨parts d x i k, parts d v i k, 0⟩
        else ⟨parts d x i k, parts d v i k, 0⟩) := by
    simp only [c]
    rw [repulsePositions_eq, reflectPositions_eq]
    have hkd : (k : ℕ) < (w.box s).dims := k.2
    have hks : i < (table s x v).size := hi
    simp only [hkd, hks, true_and, hbc, hlo, hhi]
    rfl
  rw [hcd]
  by_cases h1 : w.bc k = .repl
  · have h2 : w.bc k ≠ .refl := by rw [h1]; simp
    obtain ⟨a1, a2, a3⟩ := soft_eq (w.box s) k (by rw [hlo, hhi]; exact (hv k).lohi) ⟨parts d x i k, parts d v i k, 0⟩
    simp only [p, if_pos h1, if_neg h2, a1, a2, a3, hlo, hhi]
    refine ⟨trivial, trivial, ?_⟩
    rw [zero_add]; rfl
  · simp only [p, if_neg h1]
    by_cases h2 : w.bc k = .refl
    · obtain ⟨a1, a2⟩ := mirror_eq (s.g k).lo (s.g k).hi ⟨parts d x i k, parts d v i k, 0⟩
      simp only [if_pos h2]
      rw [← a1]
      exact ⟨rfl, rfl, a2⟩
    · simp only [if_neg h2]
      exact ⟨trivial, trivial, trivial⟩

theorem normalize_eq (w : Fin d → ℝ) (k : Fin d) :
    normalizeVec d (fun k => if h : k < d then w ⟨k, h⟩ else 0) k = w k / len w := by
  have hm : (List.range d).foldl (fun m k => m + (if h : k < d then w ⟨k, h⟩ else 0) * (if h : k < d then w ⟨k, h⟩ else 0)) 0 =
      dot w w := by
    have : ∀ (g : ℕ → ℝ) (m : ℕ), (List.range m).foldl (fun m d => m + g d) 0 = ∑ d ∈ Finset.range m, g d := by
      intro g m
      induction m with
      | zero => simp
      | succ m ih => rw [List.range_succ, List.foldl_append, ih, Finset.sum_range_succ]; simp
    rw [this (fun k => (if h : k < d then w ⟨k, h⟩ else 0) * (if h : k < d then w ⟨k, h⟩ else 0)) d, ← Fin.sum_univ_eq_sum_range]
    unfold dot
    refine Finset.sum_congr rfl fun k _ => ?_
    simp
  unfold normalizeVec
  simp only [hm]
  have : (if h : (k : ℕ) < d then w ⟨k, h⟩ else 0) = w k := by simp
  rw [this]
  unfold len
  split_ifs with h
  · ring
  · have h0 : dot w w = 0 := le_antisymm (not_lt.mp h) (Finset.sum_nonneg fun _ _ => mul_self_nonneg _)
    have : w k = 0 := by
      unfold dot at h0
      rw [Finset.sum_eq_zero_iff_of_nonneg fun _ _ => mul_self_nonneg _] at h0
      exact mul_self_eq_zero.mp (h0 k (Finset.mem_univ _))
    rw [this]; simp

theorem attract_eq (s : Setup d) (w : Sides d) (im : ℕ → ℝ) (hf : w.center ≠ 0 → ∀ i, s.Alive i → im i ≠ 0)
    (x f : ℕ → Fin d → ℝ) : ∃ f', attractAll s w im x f = some f' ∧ ∀ i, s.Alive i → ∀ k,
      f' i k = f i k + w.center / im i * ((middle s k - x i k) / len (middle s - x i)) := by
  have key : ∀ m ≤ s.number, ∃ f', (List.range m).foldlM (fun (f : ℕ → Fin d → ℝ) n =>
      (attract1 (w.box s) w.center (s.type n) (im n) fun k => if h : k < d then x n ⟨k, h⟩ else 0).map fun F =>
        Function.update f n fun k => f n k + F k) f = some f' ∧ ∀ i, 0 ≤ s.type i → ∀ k,
      f' i k = f i k + if i < m then w.center / im i * ((middle s k - x i k) / len (middle s - x i)) else 0 := by
    intro m
    induction m with
    | zero => intro _; exact ⟨f, rfl, fun i _ k => by simp⟩
    | succ m ih =>
      intro hm
      obtain ⟨f', e1, e2⟩ := ih (by omega)
      have hstep : ∃ F, attract1 (w.box s) w.center (s.type m) (im m) (fun k => if h : k < d then x m ⟨k, h⟩ else 0) = some F ∧
          (0 ≤ s.type m → ∀ k : Fin d, F k = w.center / im m * ((middle s k - x m k) / len (middle s - x m))) := by
        unfold attract1
        by_cases hc : w.center = 0
        · rw [if_pos hc]; exact ⟨_, rfl, fun _ k => by simp [hc]⟩
        · rw [if_neg hc]
          by_cases ht : s.type m < 0
          · rw [if_pos ht]; exact ⟨_, rfl, fun h => by omega⟩
          · rw [if_neg ht]
            have him := hf hc m ⟨by omega, by omega⟩
            rw [if_neg him]
            refine ⟨_, rfl, fun _ k => ?_⟩
            congr 1
            have : (fun k => ((w.box s).lo k + (w.box s).hi k) / 2 - if h : k < d then x m ⟨k, h⟩ else 0) =
                fun k => if h : k < d then (middle s - x m) ⟨k, h⟩ else 0 := by
              funext k
              by_cases h : k < d <;> simp [Sides.box, h, middle]
            simp only
            rw [this]
            exact normalize_eq (middle s - x m) k
      obtain ⟨F, a1, a2⟩ := hstep
      refine ⟨Function.update f' m fun k => f' m k + F k, ?_, ?_⟩
      · rw [List.range_succ, List.foldlM_append, e1]
        simp [a1]
      · intro i hi k
        by_cases him : i = m
        · subst him
          rw [Function.update_self, e2 i hi, if_neg (lt_irrefl i), if_pos (Nat.lt_succ_self i), a2 hi]; ring
        · rw [Function.update_of_ne him, e2 i hi]
          have : i < m + 1 ↔ i < m := by omega
          simp only [this]
  obtain ⟨f', e1, e2⟩ := key s.number le_rfl
  exact ⟨f', e1, fun i hi k => by rw [e2 i hi.2, if_pos hi.1]⟩

theorem before_eq (s : Setup d) (e : Env) (he : e.mode.OK) (mods : List (Mod d)) (v f : Arr) {i : ℕ} (hi : i < s.number)
    (k : Fin d) : parts d (before s e mods v f) i k = parts d f i k - friction mods * parts d v i k := by
  unfold before
  induction mods generalizing f with
  | nil => simp [friction]
  | cons m mods ih =>
    rw [List.foldl_cons, ih]
    cases m with
    | gravity a => simp [friction]
    | drag γ =>
      simp only [friction, List.map_cons, List.sum_cons]
      have : parts d (linearDamping e.mode (s.number * d) γ v f) i k = parts d f i k - γ * parts d v i k := by
        unfold parts
        rw [C83_linear_drag _ he, if_pos (parts_lt s hi k)]
      rw [this]; ring

theorem after_eq (s : Setup d) (im : ℕ → ℝ) (mods : List (Mod d)) (hd : (∃ a, Mod.gravity a ∈ mods) → d ≤ 4)
    (f : ℕ → Fin d → ℝ) : ∃ f', after s im mods f = some f' ∧ ∀ i < s.number, ∀ k,
      f' i k = f i k + if 0 < im i then 1 / im i * pull mods k else 0 := by
  unfold after
  induction mods generalizing f with
  | nil => exact ⟨f, rfl, fun i _ k => by simp [pull]⟩
  | cons m mods ih =>
    rw [List.foldlM_cons]
    cases m with
    | gravity a =>
      have h4 : ¬ d > 4 := by
        have := hd ⟨a, by simp⟩
        omega
      dsimp only
      rw [if_neg h4]
      obtain ⟨f', e1, e2⟩ := ih (fun ⟨b, hb⟩ => by omega) ((List.range s.number).foldl (caOne a im) f)
      refine ⟨f', e1, fun i hi k => ?_⟩
      rw [e2 i hi, ca_loop, if_pos hi]
      simp only [pull, List.map_cons, List.sum_cons]
      split_ifs <;> ring
    | drag γ =>
      obtain ⟨f', e1, e2⟩ := ih (fun ⟨b, hb⟩ => hd ⟨b, List.mem_cons_of_mem _ hb⟩) f
      refine ⟨f', e1, fun i hi k => ?_⟩
      rw [e2 i hi]
      simp [pull]

/-! ## The theorem -/

section main
variable {s : Setup d} {h : List Call} {T : FM ℝ} {x0 : ℕ → Fin d → ℝ}

theorem step_inv (hr : InRange h) (href : AllReflexive h) (hT : run s.cut (.init :: h) = some T) (hok : s.OK h x0)
    (e : Env) (he : e.mode.OK) (w : Sides d) (hw : Fits s w e.im) {st : St} {M : Motion d} {X0 : ℕ → Fin d → ℝ}
    (hI : Inv s h T st M X0) (dt : ℝ) (r : Bool)
    (hb : r = true → Buildable s h fun i k => (drift w e.im dt M i k).1)
    (hmv : ∀ i, s.Alive i → len ((ideal s h e.im w dt M).x i -
      (if r then (fun i k => (drift w e.im dt M i k).1) else X0) i) ≤ s.skin / 2)
    (hsep : Separate s h (ideal s h e.im w dt M).x) :
    ∃ st', step s T e w dt r st = some st' ∧
      Inv s h T st' (ideal s h e.im w dt M) (if r then (fun i k => (drift w e.im dt M i k).1) else X0) := by
  obtain ⟨hv, hf, z, y0, l0, p0, c0, q0⟩ := hI
  set f0 := before s e w.mods st.v st.f with hf0
  set v1 := updateVelocities e.mode d (s.number * d) dt e.im f0 st.v with hv1
  set x1 := updatePositions e.mode (s.number * d) dt v1 st.x with hx1
  set seen : ℕ → Fin d → ℝ := fun i k => (drift w e.im dt M i k).1 with hseen
  have ev : ∀ i, s.Alive i → ∀ k, parts d v1 i k = (drift w e.im dt M i k).2 := by
    intro i hi k
    rw [hv1, parts_vel _ he s _ _ _ _ hi.1, hf0, before_eq s e he _ _ _ hi.1, hv i hi, hf i hi]
    rfl
  have ex : ∀ i, s.Alive i → Whole s (z i) ∧ ∀ k,
      parts d x1 i k = seen i k + z i k * ((s.g k).hi - (s.g k).lo) := by
    intro i hi
    refine ⟨(q0 i hi).1, fun k => ?_⟩
    rw [hx1, parts_pos _ he s _ _ _ hi.1, ((q0 i hi).2 k).1, ev i hi]
    simp only [hseen, drift]; ring
  -- positions and lists after the decision
  have hbuild : ∃ lists, (if r then s.lists T (parts d (if r then wrapFlat s x1 else x1)) else some st.lists) = some lists ∧
      ∃ (z : ℕ → Fin d → ℤ) (y : ℕ → Fin d → ℝ), s.lists T y = some lists ∧
      (∀ i, s.Alive i → ∀ k, (s.g k).per = true → (s.g k).lo ≤ y i k ∧ y i k < (s.g k).hi) ∧
      (∀ i j, s.Alive i → s.Alive j → i ≠ j → ∀ p, lastSet h (s.type i) (s.type j) = some p →
        s.cut p ≤ 1 ∨ s.cell (y i) ≠ s.cell (y j)) ∧
      ∀ i, s.Alive i → Whole s (z i) ∧ ∀ k,
        parts d (if r then wrapFlat s x1 else x1) i k =
          seen i k + z i k * ((s.g k).hi - (s.g k).lo) ∧
        y i k = (if r then seen else X0) i k + z i k * ((s.g k).hi - (s.g k).lo) := by
    cases r with
    | false =>
      refine ⟨st.lists, rfl, z, y0, l0, p0, c0, fun i hi => ⟨(q0 i hi).1, fun k => ⟨?_, ?_⟩⟩⟩
      · simpa using (ex i hi).2 k
      · simpa using ((q0 i hi).2 k).2
    | true =>
      have hbt := hb rfl
      have eh := built hok.valid hbt ex
      obtain ⟨z', hz'⟩ := home_whole (s := s) hok.valid seen
      have hp : ∀ i, s.Alive i → ∀ k, (s.g k).per = true →
          (s.g k).lo ≤ parts d (wrapFlat s x1) i k ∧ parts d (wrapFlat s x1) i k < (s.g k).hi := by
        intro i hi k hk
        rw [eh i hi]
        exact ⟨(home_range s hok.valid _ k hk).1, (home_range s hok.valid _ k hk).2.1⟩
      obtain ⟨lists, e1, _⟩ := lists_spec (ok_at hok hp) hr href hT
      refine ⟨lists, by simpa using e1, z', parts d (wrapFlat s x1), e1, hp, ?_, ?_⟩
      · intro i j hi hj hij p hp
        rw [eh i hi, eh j hj]
        exact hbt.2 i j hi hj hij p hp
      · intro i hi
        refine ⟨(hz' i).1, fun k => ?_⟩
        simp only [if_true]
        rw [eh i hi]
        exact ⟨(hz' i).2 k, (hz' i).2 k⟩
  obtain ⟨lists, b1, z2, y, b2, b3, b4, b5⟩ := hbuild
  set x2 := if r then wrapFlat s x1 else x1 with hx2
  set c := repulsePositions (w.box s) (reflectPositions (w.box s) (table s x2 v1)) with hc
  set x3 : ℕ → Fin d → ℝ := fun n k => (c.cell n k).x with hx3
  set v3 : ℕ → Fin d → ℝ := fun n k => (c.cell n k).v with hv3
  -- the walls
  have hwall : ∀ i, s.Alive i → ∀ k,
      x3 i k = (ideal s h e.im w dt M).x i k + z2 i k * ((s.g k).hi - (s.g k).lo) ∧
      v3 i k = (bounce s w e.im dt M i k).2 ∧
      (c.cell i k).f = if w.bc k = .repl then soft w.repulsion w.dissipation (s.g k).lo (s.g k).hi
        (bounce s w e.im dt M i k).1 (bounce s w e.im dt M i k).2 else 0 := by
    intro i hi k
    have hcell := walls_cell s w hok.valid x2 v1 hi.1 k
    simp only at hcell
    rw [← hc] at hcell
    have hxs := ((b5 i hi).2 k).1
    have hvs := ev i hi k
    by_cases hper : (s.g k).per = true
    · have hwr := (hw.bc k).mp hper
      have h1 : w.bc k ≠ .refl := by rw [hwr]; simp
      have h2 : w.bc k ≠ .repl := by rw [hwr]; simp
      rw [if_neg h1, if_neg h2] at hcell
      obtain ⟨g1, g2, g3⟩ := hcell
      rw [if_neg h2]
      refine ⟨?_, ?_, g3⟩
      · simp only [hx3, g1, ideal, bounce, if_neg h1]; rw [hxs]
      · simp only [hv3, g2, bounce, if_neg h1]; rw [hvs]
    · have hz0 := (b5 i hi).1 k (by simpa using hper)
      have hxs' : parts d x2 i k = (drift w e.im dt M i k).1 := by rw [hxs, hz0]; simp [hseen]
      have hpair : (parts d x2 i k, parts d v1 i k) = drift w e.im dt M i k := by rw [hxs', hvs]
      rw [hpair] at hcell
      obtain ⟨g1, g2, g3⟩ := hcell
      refine ⟨?_, ?_, ?_⟩
      · simp only [hx3, g1, ideal, bounce, hz0]; simp
      · simp only [hv3, g2, bounce]
      · rw [g3]; rfl
  have hvv : ∀ i, s.Alive i → v3 i = fun k => (bounce s w e.im dt M i k).2 := by
    intro i hi; funext k; exact (hwall i hi k).2.1
  obtain ⟨f1, a1, a2⟩ := attract_eq s w e.im (fun hc => (hw.center hc).2) x3 fun n k => (c.cell n k).f
  have hatt : ∀ i, s.Alive i → ∀ k, f1 i k = (if w.bc k = .repl then soft w.repulsion w.dissipation (s.g k).lo (s.g k).hi
        (bounce s w e.im dt M i k).1 (bounce s w e.im dt M i k).2 else 0) +
      w.center / e.im i * ((middle s k - (ideal s h e.im w dt M).x i k) / len (middle s - (ideal s h e.im w dt M).x i)) := by
    intro i hi k
    rw [a2 i hi k, (hwall i hi k).2.2]
    by_cases hcen : w.center = 0
    · simp [hcen]
    · have : x3 i = (ideal s h e.im w dt M).x i := by
        funext k
        rw [(hwall i hi k).1, (b5 i hi).1 k ((hw.center hcen).1 k)]; simp
      rw [this]
  have hpos : ∀ i, s.Alive i → x3 i - y i = (ideal s h e.im w dt M).x i - (if r then seen else X0) i := by
    intro i hi
    funext k
    simp only [Pi.sub_apply]
    rw [(hwall i hi k).1, ((b5 i hi).2 k).2]; ring
  have hnear : ∀ i j, s.Alive i → s.Alive j →
      nearest s.g (x3 i - x3 j) = nearest s.g ((ideal s h e.im w dt M).x i - (ideal s h e.im w dt M).x j) := by
    intro i j hi hj
    apply nearest_shift s hok.valid (z := fun k => z2 i k - z2 j k)
    · intro k hk
      simp only [(b5 i hi).1 k hk, (b5 j hj).1 k hk, sub_zero]
    · intro k
      simp only [Pi.sub_apply]
      rw [(hwall i hi k).1, (hwall j hj k).1]; push_cast; ring
  obtain ⟨lists', f2, c1, c2, c3⟩ := C128_forces_partial s h hr href T hT y (ok_at hok b3)
    ⟨x3, v3, s.rd, e.im⟩ rfl (fun i hi => by simp only; rw [hpos i hi]; exact hmv i hi) b4
    (fun i j hi hj hij hl => by simp only; rw [hnear i j hi hj]; exact hsep i j hi hj hij hl) e.doPot e.doVir e.old f1
  rw [b2] at c1
  cases c1
  obtain ⟨f3, d1, d2⟩ := after_eq s e.im w.mods hw.dims f2
  have hff : ∀ i, s.Alive i → f3 i = (ideal s h e.im w dt M).f i := by
    intro i hi
    funext k
    rw [d2 i hi.1, c3, hatt i hi]
    simp only [ideal, outer]
    rw [if_pos hi, if_pos hi]
    have hsum : ∑ j ∈ (Finset.range s.number).filter (fun j => j ≠ i ∧ 0 ≤ s.type j), s.direct h ⟨x3, v3, s.rd, e.im⟩ i j k =
        ∑ j ∈ (Finset.range s.number).filter (fun j => j ≠ i ∧ 0 ≤ s.type j), s.direct h
          ⟨fun i k => (bounce s w e.im dt M i k).1, fun i k => (bounce s w e.im dt M i k).2, s.rd, e.im⟩ i j k := by
      refine Finset.sum_congr rfl fun j hj => ?_
      obtain ⟨j1, j2, j3⟩ := Finset.mem_filter.mp hj
      have ja : s.Alive j := ⟨Finset.mem_range.mp j1, j3⟩
      apply direct_congr
      · exact hvv i hi
      · exact hvv j ja
      · rfl
      · rfl
      · exact hnear i j hi ja
    rw [hsum]; ring
  refine ⟨⟨flat x3, updateVelocities e.mode d (s.number * d) dt e.im (flat f3) (flat v3), flat f3, lists⟩, ?_, ?_, ?_, ?_⟩
  · unfold step
    simp only
    rw [← hf0, ← hv1, ← hx1, ← hx2, b1]
    simp only [Option.bind_some]
    rw [← hc, ← hx3, ← hv3, a1]
    simp only [Option.bind_some, c2, d1, Option.map_some]
  · intro i hi
    funext k
    simp only
    rw [parts_vel _ he s _ _ _ _ hi.1, parts_flat, parts_flat, hff i hi, hvv i hi]
    rfl
  · intro i hi
    simp only
    rw [parts_flat, hff i hi]
  · refine ⟨z2, y, b2, b3, b4, fun i hi => ⟨(b5 i hi).1, fun k => ⟨?_, ((b5 i hi).2 k).2⟩⟩⟩
    simp only
    rw [parts_flat]
    exact (hwall i hi k).1

/-- **C174 (partial).** A run with velocity Verlet in a box with any mixture of wrapping, open, reflecting and repulsive
boundaries, with attraction to the centre and any modifiers for constant acceleration and linear drag, does not depend on cells,
neighbour lists, wrapping of positions, containers and vectorisation: for every sequence of time steps and of timely decisions on
construction the run is defined, the velocities and forces of all particles are those of the motion in which walls, centre and
modifiers act on each particle and pair forces are summed over all pairs, and the positions differ from those of that motion by
whole widths of the wrapping dimensions.
Missing: as for `C129_run_partial`; attraction together with wrapping boundaries (false, see `C174_negation_attraction`). -/
theorem C174_run_partial (s : Setup d) (h : List Call) (hr : InRange h) (href : AllReflexive h) (T : FM ℝ)
    (hT : run s.cut (.init :: h) = some T) (x v f : Arr) (hok : s.OK h fun i => home s (parts d x i)) (e : Env)
    (he : e.mode.OK) (w : Sides d) (hw : Fits s w e.im) (hb : Buildable s h (parts d x)) (l : List (ℝ × Bool))
    (ht : Timely s h e.im w (parts d x) l ⟨parts d x, parts d v, parts d f⟩) :
    ∃ st, (start s T x v f).bind (steps s T e w l) = some st ∧
      let M := l.foldl (fun M a => ideal s h e.im w a.1 M) ⟨parts d x, parts d v, parts d f⟩
      ∀ i, s.Alive i → parts d st.v i = M.v i ∧ parts d st.f i = M.f i ∧
        ∀ k, ∃ z : ℤ, ((s.g k).per = false → z = 0) ∧
          parts d st.x i k = M.x i k + z * ((s.g k).hi - (s.g k).lo) := by
  have hall : ∀ (l : List (ℝ × Bool)) (st : St) (M : Motion d) (X0 : ℕ → Fin d → ℝ), Inv s h T st M X0 →
      Timely s h e.im w X0 l M → ∃ st', steps s T e w l st = some st' ∧
        ∃ X0', Inv s h T st' (l.foldl (fun M a => ideal s h e.im w a.1 M) M) X0' := by
    intro l
    induction l with
    | nil => intro st M X0 hI _; exact ⟨st, rfl, X0, hI⟩
    | cons a l ih =>
      obtain ⟨dt, r⟩ := a
      intro st M X0 hI ht
      obtain ⟨t1, t2, t3, t4⟩ := ht
      obtain ⟨st', e1, e2⟩ := step_inv hr href hT hok e he w hw hI dt r t1 t2 t3
      obtain ⟨st'', e3, e4⟩ := ih st' _ _ e2 t4
      refine ⟨st'', ?_, e4⟩
      unfold steps
      rw [List.foldlM_cons]
      simp only [e1]
      exact e3
  obtain ⟨z', hz'⟩ := home_whole (s := s) hok.valid (parts d x)
  have eh := built (z := fun _ _ => 0) hok.valid hb (x := x) (fun i _ => ⟨fun _ _ => rfl, fun k => by simp⟩)
  have hp : ∀ i, s.Alive i → ∀ k, (s.g k).per = true →
      (s.g k).lo ≤ parts d (wrapFlat s x) i k ∧ parts d (wrapFlat s x) i k < (s.g k).hi := by
    intro i hi k hk
    rw [eh i hi]
    exact ⟨(home_range s hok.valid _ k hk).1, (home_range s hok.valid _ k hk).2.1⟩
  obtain ⟨lists, e1, _⟩ := lists_spec (ok_at hok hp) hr href hT
  have hI : Inv s h T ⟨wrapFlat s x, v, f, lists⟩ ⟨parts d x, parts d v, parts d f⟩ (parts d x) := by
    refine ⟨fun _ _ => rfl, fun _ _ => rfl, z', parts d (wrapFlat s x), e1, hp, ?_, ?_⟩
    · intro i j hi hj hij p hp
      rw [eh i hi, eh j hj]
      exact hb.2 i j hi hj hij p hp
    · intro i hi
      refine ⟨(hz' i).1, fun k => ?_⟩
      simp only
      rw [eh i hi]
      exact ⟨(hz' i).2 k, (hz' i).2 k⟩
  obtain ⟨st, e2, X0', e3⟩ := hall l _ _ _ hI ht
  refine ⟨st, ?_, ?_⟩
  · unfold start
    rw [e1]
    exact e2
  · intro M i hi
    obtain ⟨z, y0, _, _, _, q⟩ := e3.pos
    exact ⟨e3.vel i hi, e3.force i hi, fun k => ⟨z i k, fun hk => (q i hi).1 k hk, ((q i hi).2 k).1⟩⟩

/-! ## Consequences -/

/-- Spec: in every step no particle moves by more than the width of the box in any reflecting dimension. -/
def Slow (s : Setup d) (h : List Call) (im : ℕ → ℝ) (w : Sides d) : List (ℝ × Bool) → Motion d → Prop
  | [], _ => True
  | (dt, _) :: l, M =>
    (∀ i, s.Alive i → ∀ k, w.bc k = .refl → |dt * (drift w im dt M i k).2| ≤ (s.g k).hi - (s.g k).lo) ∧
    Slow s h im w l (ideal s h im w dt M)

theorem mirror_inside {lo hi : ℝ} (hb : lo < hi) {x m v : ℝ} (hx : lo ≤ x ∧ x ≤ hi) (hm : |m| ≤ hi - lo) :
    lo ≤ (mirror lo hi (x + m, v)).1 ∧ (mirror lo hi (x + m, v)).1 ≤ hi := by
  obtain ⟨h1, h2⟩ := abs_le.mp hm
  unfold mirror
  simp only
  split_ifs with a b
  · simp only; constructor <;> linarith
  · simp only; constructor <;> linarith
  · simp only; constructor <;> linarith

theorem ideal_inside (hv : ∀ k, (s.g k).Valid) (im : ℕ → ℝ) (w : Sides d) : ∀ (l : List (ℝ × Bool)) (M : Motion d),
    Slow s h im w l M → (∀ i, s.Alive i → ∀ k, w.bc k = .refl → (s.g k).lo ≤ M.x i k ∧ M.x i k ≤ (s.g k).hi) →
    ∀ i, s.Alive i → ∀ k, w.bc k = .refl → (s.g k).lo ≤ (l.foldl (fun M a => ideal s h im w a.1 M) M).x i k ∧
      (l.foldl (fun M a => ideal s h im w a.1 M) M).x i k ≤ (s.g k).hi := by
  intro l
  induction l with
  | nil => intro M _ hx; exact hx
  | cons a l ih =>
    obtain ⟨dt, r⟩ := a
    intro M hs hx
    rw [List.foldl_cons]
    refine ih _ hs.2 ?_
    intro i hi k hk
    have e : (ideal s h im w dt M).x i k = (mirror (s.g k).lo (s.g k).hi (drift w im dt M i k)).1 := by
      simp only [ideal, bounce, if_pos hk]
    rw [e]
    exact mirror_inside (hv k).lohi (hx i hi k hk) (hs.1 i hi k hk)

/-- **C174, walls (partial).** Particles never leave the box through a reflecting wall: if they start inside and no particle moves
by more than the width of the box in one step, then at the end of every such run all particles are inside in all reflecting
dimensions.
Missing: as for `C174_run_partial`. -/
theorem C174_inside_partial (s : Setup d) (h : List Call) (hr : InRange h) (href : AllReflexive h) (T : FM ℝ)
    (hT : run s.cut (.init :: h) = some T) (x v f : Arr) (hok : s.OK h fun i => home s (parts d x i)) (e : Env)
    (he : e.mode.OK) (w : Sides d) (hw : Fits s w e.im) (hb : Buildable s h (parts d x)) (l : List (ℝ × Bool))
    (ht : Timely s h e.im w (parts d x) l ⟨parts d x, parts d v, parts d f⟩)
    (hs : Slow s h e.im w l ⟨parts d x, parts d v, parts d f⟩)
    (hx : ∀ i, s.Alive i → ∀ k, w.bc k = .refl → (s.g k).lo ≤ parts d x i k ∧ parts d x i k ≤ (s.g k).hi) :
    ∃ st, (start s T x v f).bind (steps s T e w l) = some st ∧
      ∀ i, s.Alive i → ∀ k, w.bc k = .refl → (s.g k).lo ≤ parts d st.x i k ∧ parts d st.x i k ≤ (s.g k).hi := by
  obtain ⟨st, e1, e2⟩ := C174_run_partial s h hr href T hT x v f hok e he w hw hb l ht
  refine ⟨st, e1, fun i hi k hk => ?_⟩
  obtain ⟨z, z1, z2⟩ := (e2 i hi).2.2 k
  have hper : (s.g k).per = false := by
    by_contra hp
    have := (hw.bc k).mp (by simpa using hp)
    rw [hk] at this; cases this
  rw [z2, z1 hper]
  have := ideal_inside (h := h) hok.valid e.im w l _ hs hx i hi k hk
  simpa using this

open Classical in
/-- The forces of a step sum to the weight in a dimension without walls. -/
theorem ideal_weight (hok : s.OK h x0) (href : AllReflexive h) (im : ℕ → ℝ) (him : ∀ i, s.Alive i → 0 < im i) (w : Sides d)
    (hc : w.center = 0) (k : Fin d) (hk : w.bc k ≠ .repl) (dt : ℝ) (M : Motion d) :
    ∑ i ∈ live s, (ideal s h im w dt M).f i k = (∑ i ∈ live s, 1 / im i) * pull w.mods k := by
  set P : Parts d := ⟨fun i k => (bounce s w im dt M i k).1, fun i k => (bounce s w im dt M i k).2, s.rd, im⟩ with hP
  have h0 := sum_pairs (live s) (fun i j => s.direct h P i j k)
    fun i hi j hj => direct_anti hok href rfl (mem_live.mp hi) (mem_live.mp hj) k
  have e : ∀ i ∈ live s, (ideal s h im w dt M).f i k =
      1 / im i * pull w.mods k + ∑ j ∈ (live s).filter (· ≠ i), s.direct h P i j k := by
    intro i hi
    have hi' := mem_live.mp hi
    simp only [ideal]
    rw [if_pos hi']
    have e1 : outer s w (im i) (fun k => (bounce s w im dt M i k).1) (fun k => (bounce s w im dt M i k).2) k =
        1 / im i * pull w.mods k := by
      simp only [outer, if_neg hk, hc, if_pos (him i hi')]; ring
    have e2 : (Finset.range s.number).filter (fun j => j ≠ i ∧ 0 ≤ s.type j) = (live s).filter (· ≠ i) := by
      ext j
      simp only [live, Finset.mem_filter]
      tauto
    rw [e1, e2]
  rw [Finset.sum_congr rfl e, Finset.sum_add_distrib, h0, add_zero, Finset.sum_mul]

/-- **C174, momentum (partial).** Without drag and attraction, in a wrapping or open dimension, the total momentum of the
particles grows exactly by their weight times the time, for every number of steps, all time steps, all decisions on construction
and whatever happens at the walls of other dimensions, if the forces at the start sum to the weight; without constant
acceleration it is conserved.
Missing: as for `C174_run_partial`. -/
theorem C174_momentum_partial (s : Setup d) (h : List Call) (hr : InRange h) (href : AllReflexive h) (T : FM ℝ)
    (hT : run s.cut (.init :: h) = some T) (x v f : Arr) (hok : s.OK h fun i => home s (parts d x i)) (e : Env)
    (he : e.mode.OK) (w : Sides d) (hw : Fits s w e.im) (hb : Buildable s h (parts d x)) (l : List (ℝ × Bool))
    (ht : Timely s h e.im w (parts d x) l ⟨parts d x, parts d v, parts d f⟩)
    (him : ∀ i, s.Alive i → 0 < e.im i) (hc : w.center = 0) (hfr : friction w.mods = 0) (k : Fin d)
    (hk : w.bc k = .wrap ∨ w.bc k = .open')
    (hf : ∑ i ∈ live s, parts d f i k = (∑ i ∈ live s, 1 / e.im i) * pull w.mods k) :
    ∃ st, (start s T x v f).bind (steps s T e w l) = some st ∧
      ∑ i ∈ live s, 1 / e.im i * parts d st.v i k =
        ∑ i ∈ live s, 1 / e.im i * parts d v i k + (∑ i ∈ live s, 1 / e.im i) * pull w.mods k * (l.map Prod.fst).sum := by
  obtain ⟨st, e1, e2⟩ := C174_run_partial s h hr href T hT x v f hok e he w hw hb l ht
  refine ⟨st, e1, ?_⟩
  simp only at e2
  rw [Finset.sum_congr rfl fun i hi => by rw [(e2 i (mem_live.mp hi)).1]]
  have k1 : w.bc k ≠ .repl := by rcases hk with hk | hk <;> rw [hk] <;> simp
  have k2 : w.bc k ≠ .refl := by rcases hk with hk | hk <;> rw [hk] <;> simp
  have key : ∀ (l : List (ℝ × Bool)) (M : Motion d),
      (∑ i ∈ live s, M.f i k = (∑ i ∈ live s, 1 / e.im i) * pull w.mods k) →
      ∑ i ∈ live s, 1 / e.im i * (l.foldl (fun M a => ideal s h e.im w a.1 M) M).v i k =
        ∑ i ∈ live s, 1 / e.im i * M.v i k + (∑ i ∈ live s, 1 / e.im i) * pull w.mods k * (l.map Prod.fst).sum := by
    intro l
    induction l with
    | nil => intro M _; simp
    | cons a l ih =>
      intro M hM
      rw [List.foldl_cons, ih _ (ideal_weight hok href e.im him w hc k k1 a.1 M)]
      have e3 : ∀ i ∈ live s, 1 / e.im i * (ideal s h e.im w a.1 M).v i k =
          1 / e.im i * M.v i k + a.1 / 2 * M.f i k + a.1 / 2 * (ideal s h e.im w a.1 M).f i k := by
        intro i hi
        have := (him i (mem_live.mp hi)).ne'
        have e4 : (ideal s h e.im w a.1 M).v i k =
            (bounce s w e.im a.1 M i k).2 + a.1 / 2 * e.im i * (ideal s h e.im w a.1 M).f i k := rfl
        rw [e4]
        simp only [bounce, if_neg k2, drift, hfr]
        field_simp
        ring
      rw [Finset.sum_congr rfl e3, Finset.sum_add_distrib, Finset.sum_add_distrib, ← Finset.mul_sum, ← Finset.mul_sum, hM,
        ideal_weight hok href e.im him w hc k k1]
      simp only [List.map_cons, List.sum_cons]
      ring
  exact key l _ hf

/-- **C174, gas (partial).** In a box with wrapping, open and reflecting boundaries, without interactions, attraction and
modifiers, every particle keeps the size of every component of its velocity forever.
Missing: as for `C174_run_partial`. -/
theorem C174_gas_partial (s : Setup d) (h : List Call) (hr : InRange h) (href : AllReflexive h) (T : FM ℝ)
    (hT : run s.cut (.init :: h) = some T) (x v f : Arr) (hok : s.OK h fun i => home s (parts d x i)) (e : Env)
    (he : e.mode.OK) (w : Sides d) (hw : Fits s w e.im) (hb : Buildable s h (parts d x)) (l : List (ℝ × Bool))
    (ht : Timely s h e.im w (parts d x) l ⟨parts d x, parts d v, parts d f⟩)
    (hc : w.center = 0) (hm : w.mods = []) (hrep : ∀ k, w.bc k ≠ .repl)
    (hno : ∀ i j, s.Alive i → s.Alive j → i ≠ j → lastSet h (s.type i) (s.type j) = none)
    (hf : ∀ i, s.Alive i → ∀ k, parts d f i k = 0) :
    ∃ st, (start s T x v f).bind (steps s T e w l) = some st ∧
      ∀ i, s.Alive i → ∀ k, |parts d st.v i k| = |parts d v i k| := by
  obtain ⟨st, e1, e2⟩ := C174_run_partial s h hr href T hT x v f hok e he w hw hb l ht
  refine ⟨st, e1, fun i hi k => ?_⟩
  simp only at e2
  rw [(e2 i hi).1]
  have hfi : ∀ (dt : ℝ) (M : Motion d) (k : Fin d), (ideal s h e.im w dt M).f i k = 0 := by
    intro dt M k
    simp only [ideal]
    rw [if_pos hi, Finset.sum_eq_zero]
    · simp [outer, hrep k, hc, hm, pull]
    · intro j hj
      obtain ⟨j1, j2, j3⟩ := Finset.mem_filter.mp hj
      unfold Setup.direct
      rw [hno i j hi ⟨Finset.mem_range.mp j1, j3⟩ (Ne.symm j2)]
  have key : ∀ (l : List (ℝ × Bool)) (M : Motion d), (∀ k, M.f i k = 0) →
      |(l.foldl (fun M a => ideal s h e.im w a.1 M) M).v i k| = |M.v i k| := by
    intro l
    induction l with
    | nil => intro M _; rfl
    | cons a l ih =>
      intro M hM
      rw [List.foldl_cons, ih _ fun k => hfi _ _ k]
      have e4 : (ideal s h e.im w a.1 M).v i k =
          (bounce s w e.im a.1 M i k).2 + a.1 / 2 * e.im i * (ideal s h e.im w a.1 M).f i k := rfl
      rw [e4, hfi]
      have e5 : (drift w e.im a.1 M i k).2 = M.v i k := by
        simp [drift, hM, hm, friction]
      simp only [bounce, mirror]
      split_ifs <;> simp [e5]
  exact key l _ (hf i hi)

end main

/-! ## Concrete runs -/

/-- The ring of `ForceSum` cut open: a tube with two ends; types, radii and interactions as there. -/
noncomputable def tube : Setup 1 := { ring with g := fun _ => ⟨0, 24/5, 8, 3/5, false⟩ }

theorem tube_alive {i : ℕ} (h : tube.Alive i) : i = 0 ∨ i = 1 ∨ i = 2 := ring_alive h

theorem tube_ok (h : List Call) (hh : typesOf h = 2) (x : ℕ → Fin 1 → ℝ) : tube.OK h x := by
  have hc : (0 : ℝ) < 2 * (1025/10000) + 1/20 := by norm_num
  refine ⟨?_, ?_, ?_, hc, by norm_num [tube, ring], ?_, ?_, ?_, ?_, ?_, ?_⟩
  · intro k; exact ⟨by norm_num [tube, ring], by norm_num [tube, ring], by norm_num [tube, ring], by norm_num [tube, ring]⟩
  · intro k hk; simp [tube] at hk
  · have : (List.ofFn fun k => (tube.g k).gax) = [(tube.g 0).gax] := by simp
    rw [this]
    exact C27_complete_one_dimension hc _ (by norm_num [tube, ring, DAx.gax])
  · intro i h k hk; simp [tube] at hk
  · intro i _; norm_num [tube, ring]
  · intro i h
    rw [hh]
    rcases tube_alive h with rfl | rfl | rfl <;> simp [tube, ring]
  · intro p; norm_num [tube, ring]
  · intro i _; norm_num [tube, ring]
  · intro i _ p _; norm_num [tube, ring]

theorem tube_build (h : List Call) (x : ℕ → Fin 1 → ℝ) : Buildable tube h x :=
  ⟨fun i _ k hk => by simp [tube] at hk, fun _ _ _ _ _ p _ => Or.inl (by simp [tube, ring])⟩

theorem tube_separate (h : List Call) (x : ℕ → Fin 1 → ℝ) (h01 : x 0 0 ≠ x 1 0) (h02 : x 0 0 ≠ x 2 0) (h12 : x 1 0 ≠ x 2 0) :
    Separate tube h x := by
  intro i j hi hj hij _ h0
  have h3 := congrFun h0 0
  have h4 : x i 0 = x j 0 := by simpa [nearest, tube, sub_eq_zero] using h3
  rcases tube_alive hi with rfl | rfl | rfl <;> rcases tube_alive hj with rfl | rfl | rfl <;>
    first
    | exact absurd rfl hij
    | exact h01 h4
    | exact h02 h4
    | exact h12 h4
    | exact h01 h4.symm
    | exact h02 h4.symm
    | exact h12 h4.symm

/-- Particle 0 is near the left end and flies to it; particle 1 is close to particle 0. -/
noncomputable def tubeM (f : ℝ) : Motion 1 :=
  ⟨parts 1 fun j => if j = 0 then 1/100 else if j = 1 then 15/100 else 2, parts 1 fun j => if j = 0 then -2 else 0,
    parts 1 fun _ => f⟩

/-- The ends of the tube, with modifiers. -/
noncomputable def ends (bc : BC) (center : ℝ) (mods : List (Mod 1)) : Sides 1 := ⟨fun _ => bc, 5, 1, center, mods⟩

/-- A step with construction in which particle 0 is reflected by the wall, with attraction, constant acceleration and drag,
meets the hypotheses of `C174_run_partial` and `C174_inside_partial`. -/
example : tube.OK ringHist (fun i => home tube ((tubeM 0).x i)) ∧
    Fits tube (ends .refl 1 [.gravity fun _ => 1, .drag 1]) (fun _ => 1) ∧
    Timely tube ringHist (fun _ => 1) (ends .refl 1 [.gravity fun _ => 1, .drag 1]) (tubeM 0).x [(1/100, true)] (tubeM 0) ∧
    Slow tube ringHist (fun _ => 1) (ends .refl 1 [.gravity fun _ => 1, .drag 1]) [(1/100, true)] (tubeM 0) ∧
    (∀ i, tube.Alive i → ∀ k, (tube.g k).lo ≤ (tubeM 0).x i k ∧ (tubeM 0).x i k ≤ (tube.g k).hi) ∧
    (drift (ends .refl 1 [.gravity fun _ => 1, .drag 1]) (fun _ => 1) (1/100) (tubeM 0) 0 0).1 = -99/10000 ∧
    (ideal tube ringHist (fun _ => 1) (ends .refl 1 [.gravity fun _ => 1, .drag 1]) (1/100) (tubeM 0)).x 0 0 = 99/10000 := by
  set w := ends .refl 1 [.gravity fun _ => 1, .drag 1] with hw
  have hfr : friction w.mods = 1 := by simp [hw, ends, friction]
  have d0 : drift w (fun _ => 1) (1/100) (tubeM 0) 0 0 = (-99/10000, -199/100) := by
    simp only [drift, hfr]; norm_num [tubeM, parts]
  have d1 : drift w (fun _ => 1) (1/100) (tubeM 0) 1 0 = (15/100, 0) := by
    simp only [drift, hfr]; norm_num [tubeM, parts]
  have d2 : drift w (fun _ => 1) (1/100) (tubeM 0) 2 0 = (2, 0) := by
    simp only [drift, hfr]; norm_num [tubeM, parts]
  have ex : ∀ i, (ideal tube ringHist (fun _ => 1) w (1/100) (tubeM 0)).x i 0 =
      (mirror 0 (24/5) (drift w (fun _ => 1) (1/100) (tubeM 0) i 0)).1 := by
    intro i
    simp [ideal, bounce, hw, ends, tube]
  have x0 : (ideal tube ringHist (fun _ => 1) w (1/100) (tubeM 0)).x 0 0 = 99/10000 := by
    rw [ex, d0]; norm_num [mirror]
  have x1 : (ideal tube ringHist (fun _ => 1) w (1/100) (tubeM 0)).x 1 0 = 15/100 := by
    rw [ex, d1]; norm_num [mirror]
  have x2 : (ideal tube ringHist (fun _ => 1) w (1/100) (tubeM 0)).x 2 0 = 2 := by
    rw [ex, d2]; norm_num [mirror]
  refine ⟨tube_ok _ (by simp [ringHist, typesOf]) _, ⟨?_, ?_, fun _ => by norm_num⟩, ⟨fun _ => tube_build _ _, ?_, ?_, trivial⟩,
    ⟨?_, trivial⟩, ?_, by rw [d0], x0⟩
  · intro k; simp [tube, hw, ends]
  · intro _; exact ⟨fun k => rfl, fun i _ => one_ne_zero⟩
  · intro i hi
    rw [len_one]
    simp only [if_true, Pi.sub_apply]
    rcases tube_alive hi with rfl | rfl | rfl
    · rw [x0, d0]; norm_num [tube, ring]
    · rw [x1, d1]; norm_num [tube, ring]
    · rw [x2, d2]; norm_num [tube, ring]
  · apply tube_separate
    · rw [x0, x1]; norm_num
    · rw [x0, x2]; norm_num
    · rw [x1, x2]; norm_num
  · intro i hi k _
    have hk : k = 0 := Subsingleton.elim _ _
    subst hk
    rcases tube_alive hi with rfl | rfl | rfl
    · rw [d0]; norm_num [tube, abs_of_neg]
    · rw [d1]; norm_num [tube]
    · rw [d2]; norm_num [tube]
  · intro i hi k
    have hk : k = 0 := Subsingleton.elim _ _
    subst hk
    rcases tube_alive hi with rfl | rfl | rfl <;> norm_num [tube, tubeM, parts]

/-- A falling system in an open tube meets the hypotheses of `C174_momentum_partial`. -/
example : Fits tube (ends .open' 0 [.gravity fun _ => 1]) (fun _ => 1) ∧
    Timely tube ringHist (fun _ => 1) (ends .open' 0 [.gravity fun _ => 1]) (tubeM 1).x [(1/100, true)] (tubeM 1) ∧
    friction (ends .open' 0 [.gravity fun _ => 1]).mods = 0 ∧
    ∑ i ∈ live tube, (tubeM 1).f i 0 = (∑ i ∈ live tube, 1 / (1 : ℝ)) * pull (ends .open' 0 [.gravity fun _ => 1]).mods 0 := by
  set w := ends .open' 0 [.gravity fun _ => 1] with hw
  have hfr : friction w.mods = 0 := by simp [hw, ends, friction]
  have hp : pull w.mods 0 = 1 := by simp [hw, ends, pull]
  have d0 : drift w (fun _ => 1) (1/100) (tubeM 1) 0 0 = (-995/100000, -1995/1000) := by
    simp only [drift, hfr]; norm_num [tubeM, parts]
  have d1 : drift w (fun _ => 1) (1/100) (tubeM 1) 1 0 = (15005/100000, 5/1000) := by
    simp only [drift, hfr]; norm_num [tubeM, parts]
  have d2 : drift w (fun _ => 1) (1/100) (tubeM 1) 2 0 = (200005/100000, 5/1000) := by
    simp only [drift, hfr]; norm_num [tubeM, parts]
  have ex : ∀ i, (ideal tube ringHist (fun _ => 1) w (1/100) (tubeM 1)).x i 0 =
      (drift w (fun _ => 1) (1/100) (tubeM 1) i 0).1 := by
    intro i
    simp [ideal, bounce, hw, ends]
  refine ⟨⟨?_, ?_, fun _ => by norm_num⟩, ⟨fun _ => tube_build _ _, ?_, ?_, trivial⟩, hfr, ?_⟩
  · intro k; simp [tube, hw, ends]
  · intro h; exact absurd rfl h
  · intro i hi
    rw [len_one]
    simp only [if_true, Pi.sub_apply, ex, sub_self]
    norm_num [tube, ring]
  · apply tube_separate
    · rw [ex, ex, d0, d1]; norm_num
    · rw [ex, ex, d0, d2]; norm_num
    · rw [ex, ex, d1, d2]; norm_num
  · rw [hp]; simp [tubeM, parts]

/-- A gas in a tube with reflecting ends meets the hypotheses of `C174_gas_partial`. -/
example : tube.OK [.setNTypes 2] (fun i => home tube ((tubeM 0).x i)) ∧ Fits tube (ends .refl 0 []) (fun _ => 1) ∧
    Timely tube [.setNTypes 2] (fun _ => 1) (ends .refl 0 []) (tubeM 0).x [(1/100, true)] (tubeM 0) ∧
    (∀ i j, tube.Alive i → tube.Alive j → i ≠ j → lastSet [.setNTypes 2] (tube.type i) (tube.type j) = none) ∧
    ∀ i k, (tubeM 0).f i k = 0 := by
  set w : Sides 1 := ends .refl 0 [] with hw
  have hfr : friction w.mods = 0 := by simp [hw, ends, friction]
  have d0 : drift w (fun _ => 1) (1/100) (tubeM 0) 0 0 = (-1/100, -2) := by
    simp only [drift, hfr]; norm_num [tubeM, parts]
  have d1 : drift w (fun _ => 1) (1/100) (tubeM 0) 1 0 = (15/100, 0) := by
    simp only [drift, hfr]; norm_num [tubeM, parts]
  have d2 : drift w (fun _ => 1) (1/100) (tubeM 0) 2 0 = (2, 0) := by
    simp only [drift, hfr]; norm_num [tubeM, parts]
  have ex : ∀ i, (ideal tube [.setNTypes 2] (fun _ => 1) w (1/100) (tubeM 0)).x i 0 =
      (mirror 0 (24/5) (drift w (fun _ => 1) (1/100) (tubeM 0) i 0)).1 := by
    intro i
    simp [ideal, bounce, hw, ends, tube]
  have hn : ∀ a b, lastSet [.setNTypes 2] a b = none := fun a b => by simp [lastSet]
  refine ⟨tube_ok _ (by simp [typesOf]) _, ⟨?_, ?_, fun _ => by norm_num⟩, ⟨fun _ => tube_build _ _, ?_, ?_, trivial⟩,
    fun i j _ _ _ => hn _ _, fun i k => by simp [tubeM, parts]⟩
  · intro k; simp [tube, hw, ends]
  · intro h; exact absurd rfl h
  · intro i hi
    rw [len_one]
    simp only [if_true, Pi.sub_apply, ex]
    rcases tube_alive hi with rfl | rfl | rfl
    · rw [d0]; norm_num [tube, ring, mirror]
    · rw [d1]; norm_num [tube, ring, mirror]
    · rw [d2]; norm_num [tube, ring, mirror]
  · intro i j _ _ _ h; exact absurd (hn _ _) h

/-! ## Attraction and wrapping boundaries -/

/-- The ring with one particle. -/
noncomputable def lone : Setup 1 := { ring with number := 1 }

theorem lone_alive : ∀ {i : ℕ}, lone.Alive i → i = 0 := by
  intro i h
  have := h.1
  simp only [lone] at this
  omega

theorem lone_ok (x : ℕ → Fin 1 → ℝ) (hx : 0 ≤ x 0 0 ∧ x 0 0 < 24/5) : lone.OK ringHist x := by
  have hr := ring_ok
  refine ⟨hr.valid, hr.wide, hr.stencil, hr.cutoff_pos, hr.skin_nonneg, ?_, fun i _ => hr.rd_nonneg 0 (ring_all 0 (by norm_num)),
    ?_, hr.cut_nonneg, fun i _ => hr.small_one 0 (ring_all 0 (by norm_num)), fun i _ p _ => by norm_num [lone, ring]⟩
  · intro i hi k _
    have hk : k = 0 := Subsingleton.elim _ _
    rw [lone_alive hi, hk]
    exact hx
  · intro i hi
    rw [lone_alive hi]
    exact hr.types 0 (ring_all 0 (by norm_num))

theorem lone_wrap : wrap1 (0:ℝ) (24/5) (481/100) = 1/100 := by
  have h : ⌊(481/100 - 0 : ℝ) / (24/5 - 0)⌋ = 1 := by rw [Int.floor_eq_iff]; norm_num
  unfold wrap1 fmod Boundary.trunc
  rw [if_neg (by norm_num), if_pos (by norm_num), if_pos (by norm_num), h]
  norm_num

/-- A flat array. -/
noncomputable def loneX : Arr := fun _ => 479/100

theorem lone_step (T : FM ℝ) (hT : run lone.cut (.init :: ringHist) = some T) (e : Env) (he : e.mode.OK) (him : e.im = fun _ => 1)
    (r : Bool) : ∃ a, (start lone T loneX (fun _ => 2) fun _ => 0).bind (steps lone T e (ends .wrap 1 []) [(1/100, r)]) = some a ∧
      a.v 0 = 2 + (if r then 1/200 else -1/200) := by
  have hr : InRange ringHist := by simp [ringHist, InRange, typesOf]
  have href : AllReflexive ringHist := by simp [ringHist, AllReflexive]
  have al : lone.Alive 0 := ⟨by norm_num [lone], by simp [lone, ring]⟩
  have hw0 : parts 1 (wrapFlat lone loneX) 0 0 = 479/100 := by
    rw [parts_wrap lone _ al.1]
    norm_num [lone, ring, wrap1, parts, loneX]
  have ok0 := lone_ok (parts 1 (wrapFlat lone loneX)) (by rw [hw0]; norm_num)
  obtain ⟨l0, e0, _⟩ := lists_spec ok0 hr href hT
  set v1 := updateVelocities e.mode 1 (lone.number * 1) (1/100) e.im (fun _ => 0) (fun _ => 2) with hv1
  set x1 := updatePositions e.mode (lone.number * 1) (1/100) v1 (wrapFlat lone loneX) with hx1
  have ev : parts 1 v1 0 0 = 2 := by
    rw [hv1, parts_vel _ he lone _ _ _ _ al.1]; simp [parts]
  have ex : parts 1 x1 0 0 = 481/100 := by
    rw [hx1, parts_pos _ he lone _ _ _ al.1, hw0, ev]; norm_num
  set x2 := if r then wrapFlat lone x1 else x1 with hx2
  have ex2 : parts 1 x2 0 0 = if r then 1/100 else 481/100 := by
    cases r with
    | false => simpa [hx2] using ex
    | true =>
      simp only [hx2, if_true]
      rw [parts_wrap lone _ al.1, ex]
      have : (lone.g 0).per = true := rfl
      rw [if_pos this]
      exact lone_wrap
  have hl : ∃ y l, lone.lists T y = some l ∧ (if r then lone.lists T (parts 1 x2) else some l0) = some l ∧
      lone.OK ringHist y ∧ |parts 1 x2 0 0 - y 0 0| ≤ 1/40 := by
    cases r with
    | false =>
      refine ⟨_, l0, e0, rfl, ok0, ?_⟩
      rw [ex2, hw0]; norm_num
    | true =>
      have ok2 := lone_ok (parts 1 x2) (by rw [ex2]; norm_num)
      obtain ⟨l, e1, _⟩ := lists_spec ok2 hr href hT
      exact ⟨_, l, e1, by simpa using e1, ok2, by simp⟩
  obtain ⟨y, l, y1, y2, y3, y4⟩ := hl
  set w : Sides 1 := ends .wrap 1 [] with hw
  set c := repulsePositions (w.box lone) (reflectPositions (w.box lone) (table lone x2 v1)) with hc
  set x3 : ℕ → Fin 1 → ℝ := fun n k => (c.cell n k).x with hx3
  set v3 : ℕ → Fin 1 → ℝ := fun n k => (c.cell n k).v with hv3
  have hcell := walls_cell lone w ok0.valid x2 v1 al.1 0
  simp only at hcell
  rw [← hc, if_neg (by simp [hw, ends]), if_neg (by simp [hw, ends])] at hcell
  obtain ⟨g1, g2, g3⟩ := hcell
  have gx : x3 0 0 = parts 1 x2 0 0 := g1
  have gv : v3 0 0 = 2 := by
    have : v3 0 0 = parts 1 v1 0 0 := g2
    rw [this, ev]
  obtain ⟨f1, a1, a2⟩ := attract_eq lone w e.im (fun _ i _ => by rw [him]; norm_num) x3 fun n k => (c.cell n k).f
  have hone : ∀ i j, lone.Alive i → lone.Alive j → i ≠ j → False := by
    intro i j hi hj hij
    rw [lone_alive hi, lone_alive hj] at hij
    exact hij rfl
  obtain ⟨l', f2, c1, c2, c3⟩ := C128_forces_partial lone ringHist hr href T hT y y3 ⟨x3, v3, lone.rd, e.im⟩ rfl
    (fun i hi => by
      rw [lone_alive hi, len_one]
      simp only [Pi.sub_apply, gx]
      have : lone.skin / 2 = 1/40 := by norm_num [lone, ring]
      rw [this]; exact y4)
    (fun i j hi hj hij => (hone i j hi hj hij).elim) (fun i j hi hj hij => (hone i j hi hj hij).elim) e.doPot e.doVir e.old f1
  rw [y1] at c1
  cases c1
  have hf2 : f2 0 0 = if r then 1 else -1 := by
    rw [c3, a2 0 al, g3, if_pos al, Finset.sum_eq_zero, len_one]
    · simp only [Pi.sub_apply, gx, ex2, him]
      have hm : middle lone 0 = 12/5 := by norm_num [middle, lone, ring]
      rw [hm]
      cases r <;> norm_num [hw, ends]
    · intro j hj
      obtain ⟨j1, j2, j3⟩ := Finset.mem_filter.mp hj
      exact (hone j 0 ⟨Finset.mem_range.mp j1, j3⟩ al j2).elim
  refine ⟨⟨flat x3, updateVelocities e.mode 1 (lone.number * 1) (1/100) e.im (flat f2) (flat v3), flat f2, l⟩, ?_, ?_⟩
  · unfold start
    rw [e0]
    simp only [Option.map_some, Option.bind_some, steps, List.foldlM_cons, List.foldlM_nil]
    unfold step
    have hbf : before lone e w.mods (fun _ => 2) (fun _ => 0) = fun _ => 0 := by simp [before, hw, ends]
    simp only [hbf]
    rw [← hv1, ← hx1, ← hx2, y2]
    simp only [Option.bind_some]
    rw [← hc, ← hx3, ← hv3, a1]
    simp only [Option.bind_some, c2]
    have haf : after lone e.im w.mods f2 = some f2 := by simp [after, hw, ends]
    rw [haf]
    rfl
  · have := parts_vel e.mode he lone (1/100) e.im (flat f2) (flat v3) al.1 0
    rw [parts_flat, parts_flat, hf2, gv, him] at this
    simp only [parts] at this
    simp only
    have hz : (0 * 1 + ((0 : Fin 1) : ℕ)) = 0 := rfl
    rw [hz, him.symm] at this
    rw [this]
    cases r <;> norm_num

/-- **C174, negation.** With attraction to the centre and wrapping boundaries the result of a run depends on the decisions on
construction, although all decisions are timely: a lone particle that leaves the box is attracted back if the lists are not built in
this step, and in the opposite direction if they are. -/
theorem C174_negation_attraction : ∃ (s : Setup 1) (T : FM ℝ) (x v f : Arr) (e : Env) (w : Sides 1) (a b : St),
    run s.cut (.init :: ringHist) = some T ∧ s.OK ringHist (fun i => home s (parts 1 x i)) ∧
    (∀ k, (s.g k).per = true ↔ w.bc k = .wrap) ∧ w.mods = [] ∧
    (∀ r, Timely s ringHist e.im w (parts 1 x) [(1/100, r)] ⟨parts 1 x, parts 1 v, parts 1 f⟩) ∧
    (start s T x v f).bind (steps s T e w [(1/100, false)]) = some a ∧
    (start s T x v f).bind (steps s T e w [(1/100, true)]) = some b ∧
    a.v 0 = 2 - 1/200 ∧ b.v 0 = 2 + 1/200 := by
  have hr : InRange ringHist := by simp [ringHist, InRange, typesOf]
  obtain ⟨T, hT, _⟩ := C31_table lone.cut (.init :: ringHist) hr
  set e : Env := ⟨fun _ => 1, none, false, false, fun _ => ⟨⟨fun _ => ⟨[], [], [], none⟩, 0⟩, fun _ => [], fun _ => []⟩⟩ with he
  obtain ⟨a, a1, a2⟩ := lone_step T hT e trivial rfl false
  obtain ⟨b, b1, b2⟩ := lone_step T hT e trivial rfl true
  have hone : ∀ i j, lone.Alive i → lone.Alive j → i ≠ j → False := by
    intro i j hi hj hij
    rw [lone_alive hi, lone_alive hj] at hij
    exact hij rfl
  refine ⟨lone, T, loneX, fun _ => 2, fun _ => 0, e, ends .wrap 1 [], a, b, hT, ?_, ?_, rfl, ?_, a1, b1, ?_, ?_⟩
  · apply lone_ok
    have := home_range lone ring_ok.valid (parts 1 loneX 0) 0 rfl
    exact ⟨this.1, this.2.1⟩
  · intro k; simp [lone, ring, ends]
  · intro r
    have hd : ∀ i, (drift (ends .wrap 1 []) e.im (1/100) ⟨parts 1 loneX, parts 1 fun _ => 2, parts 1 fun _ => 0⟩ i 0).1 =
        481/100 := by
      intro i; norm_num [drift, ends, friction, parts, loneX]
    have hx : ∀ i, (ideal lone ringHist e.im (ends .wrap 1 []) (1/100)
        ⟨parts 1 loneX, parts 1 fun _ => 2, parts 1 fun _ => 0⟩).x i 0 = 481/100 := by
      intro i
      rw [← hd i]
      simp [ideal, bounce, ends]
    refine ⟨fun _ => ⟨?_, fun i j hi hj hij => (hone i j hi hj hij).elim⟩, fun i hi => ?_,
      fun i j hi hj hij => (hone i j hi hj hij).elim, trivial⟩
    · intro i hi k _ z
      have hk : k = 0 := Subsingleton.elim _ _
      subst hk
      simp only [hd]
      intro h0
      simp only [lone, ring] at h0
      have h1 : (481 : ℝ) = ((480 * z : ℤ) : ℝ) := by push_cast; linarith
      have h2 : (481 : ℤ) = 480 * z := by exact_mod_cast h1
      omega
    · rw [len_one]
      simp only [Pi.sub_apply, hx]
      have : lone.skin / 2 = 1/40 := by norm_num [lone, ring]
      rw [this]
      cases r with
      | true => simp only [if_true, hd]; norm_num
      | false => norm_num [parts, loneX]
  · rw [a2]; norm_num
  · rw [b2]; norm_num

end Verif.WalledRun
