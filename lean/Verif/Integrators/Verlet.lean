import Mathlib.Algebra.BigOperators.Fin
import Mathlib.Data.Real.Basic
import Mathlib.Algebra.BigOperators.Intervals
import Mathlib.Algebra.BigOperators.Field
import Mathlib.Tactic.FieldSimp
import Mathlib.Tactic.Ring
import Mathlib.Tactic.Linarith
import Mathlib.Tactic.NormNum

/-!
# Integrators (C41, C42, C43, C74, C75)

Models `integrators/velocity-verlet.tpp`, `nose-hoover-velocity-verlet.tpp`, `overdamped-integrator.tpp` and
`angularvelocityverlet2d.cpp`, both the plain loops and the loops over blocks of a vector register followed by the left-overs.
Exact real arithmetic. Arrays are functions from the index; entry `i*d + k` is component `k` of particle `i`.
-/

namespace Verif.Verlet
open Finset

/-- Array. -/
abbrev Arr := ℕ → ℝ

/-- `load_to_simd`, `base/particle-data-access.hpp:24,106`: lane `k` holds entry `i+k`. -/
def load (a : Arr) (i : ℕ) : ℕ → ℝ := fun k => a (i + k)

/-- `store_simd`, `base/particle-data-access.hpp:27,109`, for vectors of width `w`. -/
def store (w : ℕ) (a : Arr) (i : ℕ) (val : ℕ → ℝ) : Arr := fun j => if i ≤ j ∧ j < i + w then val (j - i) else a j

/-- `valign_load_to_simd<d>`, `base/particle-data-access.hpp:62-71`: lane `k` holds the entry of the particle to which
component `i+k` belongs. (The branch for SSE; those for AVX test undefined macros, lines 72-82.) -/
def valign (d : ℕ) (a : Arr) (i : ℕ) : ℕ → ℝ := fun k => a ((i + k) / d)

/-- `for (; i<=total-w; i+=w)` (or `i<total-w` if `strict`) around `block`; the result is the array and the final `i`. -/
def blocks (w total : ℕ) (strict : Bool) (block : ℕ → Arr → Arr) (i : ℕ) (a : Arr) : Arr × ℕ :=
  if h : 0 < w ∧ (if strict then i + w < total else i + w ≤ total) then
    blocks w total strict block (i + w) (block i a)
  else (a, i)
termination_by total - i
decreasing_by
  cases strict <;> simp at h <;> omega

/-- `for (; i<total; ++i) a[i] = one(i, a[i])`. -/
def plain (total : ℕ) (one : ℕ → ℝ → ℝ) (i : ℕ) (a : Arr) : Arr :=
  (List.range' i (total - i)).foldl (fun a j => Function.update a j (one j (a j))) a

/-- Blocks, then left-overs. -/
def vectorised (w total : ℕ) (strict : Bool) (block : ℕ → Arr → Arr) (one : ℕ → ℝ → ℝ) (a : Arr) : Arr :=
  let r := blocks w total strict block 0 a
  plain total one r.2 r.1

/-- Vector width: `none` without vector instructions. -/
abbrev Mode := Option ℕ

/-- `VelocityVerlet::update_positions`, `integrators/velocity-verlet.tpp:46-71` (also
`nose-hoover-velocity-verlet.tpp:45-76`). -/
def updatePositions (m : Mode) (total : ℕ) (dt : ℝ) (v x : Arr) : Arr :=
  match m with
  | none => plain total (fun i xi => xi + v i * dt) 0 x
  | some w => vectorised w total false
      (fun i x => store w x i fun k => load x i k + dt * load v i k) (fun i xi => xi + dt * v i) x

/-- `VelocityVerlet::update_velocities`, `integrators/velocity-verlet.tpp:73-105`. -/
noncomputable def updateVelocities (m : Mode) (d total : ℕ) (dt : ℝ) (im f v : Arr) : Arr :=
  let hdt := 1/2 * dt
  match m with
  | none => plain total (fun i vi => vi + hdt * im (i / d) * f i) 0 v
  | some w => vectorised w total true
      (fun i v => store w v i fun k => load v i k + hdt * valign d im i k * load f i k)
      (fun i vi => vi + hdt * im (i / d) * f i) v

/-- `OverdampedIntegrator::post_forces`, `integrators/overdamped-integrator.tpp:49-71`: the positions. -/
def overdamped (m : Mode) (d total : ℕ) (damping dt : ℝ) (im f x : Arr) : Arr :=
  match m with
  | none => plain total (fun i xi => xi + damping * im (i / d) * f i * dt) 0 x
  | some w => vectorised w total false
      (fun i x => store w x i fun k => load x i k + damping * dt * valign d im i k * load f i k)
      (fun i xi => xi + damping * im (i / d) * f i * dt) x

/-! ## Loops -/

theorem plain_spec (total : ℕ) (one : ℕ → ℝ → ℝ) (i : ℕ) (a : Arr) (j : ℕ) :
    plain total one i a j = if i ≤ j ∧ j < total then one j (a j) else a j := by
  unfold plain
  have gen : ∀ (n i : ℕ) (a : Arr), (List.range' i n).foldl (fun a j => Function.update a j (one j (a j))) a j =
      if i ≤ j ∧ j < i + n then one j (a j) else a j := by
    intro n
    induction n with
    | zero => intro i a; rw [List.range'_zero, List.foldl_nil, if_neg (by omega)]
    | succ n ih =>
      intro i a
      rw [List.range'_succ, List.foldl_cons, ih]
      by_cases h : j = i
      · subst h
        rw [if_neg (by omega), if_pos (by omega)]; simp
      · rw [Function.update_of_ne h]
        by_cases h2 : i + 1 ≤ j ∧ j < i + 1 + n
        · rw [if_pos h2, if_pos (by omega)]
        · rw [if_neg h2, if_neg (by omega)]
  rw [gen]
  by_cases h : i ≤ j ∧ j < total
  · rw [if_pos h, if_pos (by omega)]
  · rw [if_neg h, if_neg (by omega)]

/-- The blocks update the entries from `i` to the final index, once each, and stop less than two registers before the end. -/
theorem blocks_spec (w total : ℕ) (hw : 0 < w) (strict : Bool) (block : ℕ → Arr → Arr) (u : ℕ → ℝ → ℝ)
    (hb : ∀ i a j, block i a j = if i ≤ j ∧ j < i + w then u j (a j) else a j) (i : ℕ) (hi : i ≤ total) (a : Arr) :
    (blocks w total strict block i a).2 ≤ total ∧ i ≤ (blocks w total strict block i a).2 ∧
    total ≤ (blocks w total strict block i a).2 + w ∧
    ∀ j, (blocks w total strict block i a).1 j = if i ≤ j ∧ j < (blocks w total strict block i a).2 then u j (a j) else a j := by
  generalize hn : total - i = n
  induction n using Nat.strong_induction_on generalizing i a with
  | _ n ih =>
    by_cases h : 0 < w ∧ (if strict then i + w < total else i + w ≤ total)
    · have e : blocks w total strict block i a = blocks w total strict block (i + w) (block i a) := by
        rw [blocks, dif_pos h]
      have hle : i + w ≤ total := by cases strict <;> simp at h <;> omega
      rw [e]
      obtain ⟨h1, h2, h3, h4⟩ := ih (total - (i + w)) (by omega) (i + w) hle (block i a) rfl
      refine ⟨h1, by omega, h3, fun j => ?_⟩
      rw [h4, hb]
      by_cases hj : i ≤ j ∧ j < i + w
      · rw [if_neg (by omega), if_pos hj, if_pos (by omega)]
      · rw [if_neg hj]
        by_cases hj2 : i + w ≤ j ∧ j < (blocks w total strict block (i + w) (block i a)).2
        · rw [if_pos hj2, if_pos (by omega)]
        · rw [if_neg hj2, if_neg (by omega)]
    · have e : blocks w total strict block i a = (a, i) := by rw [blocks, dif_neg h]
      rw [e]
      refine ⟨hi, le_rfl, ?_, fun j => ?_⟩
      · cases strict <;> simp [hw] at h <;> simp only <;> omega
      · rw [if_neg (by simp only; omega)]

theorem vectorised_spec (w total : ℕ) (hw : 0 < w) (strict : Bool) (block : ℕ → Arr → Arr) (u : ℕ → ℝ → ℝ)
    (hb : ∀ i a j, block i a j = if i ≤ j ∧ j < i + w then u j (a j) else a j) (a : Arr) (j : ℕ) :
    vectorised w total strict block u a j = if j < total then u j (a j) else a j := by
  obtain ⟨h1, _, _, h4⟩ := blocks_spec w total hw strict block u hb 0 (Nat.zero_le _) a
  unfold vectorised
  rw [plain_spec, h4]
  by_cases hj : j < (blocks w total strict block 0 a).2
  · rw [if_neg (by omega), if_pos (by omega), if_pos (by omega)]
  · rw [if_neg (by omega : ¬ (0 ≤ j ∧ j < (blocks w total strict block 0 a).2))]
    by_cases hj2 : j < total
    · rw [if_pos (by omega), if_pos hj2]
    · rw [if_neg (by omega), if_neg hj2]

theorem store_spec (w : ℕ) (a : Arr) (i : ℕ) (val : ℕ → ℝ) (g : ℕ → ℝ) (h : ∀ k < w, val k = g (i + k)) (j : ℕ) :
    store w a i val j = if i ≤ j ∧ j < i + w then g j else a j := by
  unfold store
  by_cases hj : i ≤ j ∧ j < i + w
  · rw [if_pos hj, if_pos hj, h _ (by omega), Nat.add_sub_cancel' hj.1]
  · rw [if_neg hj, if_neg hj]

/-- Spec: the width, if any, is positive. -/
def Mode.OK : Mode → Prop
  | none => True
  | some w => 0 < w

/-! ## C41 -/

/-- **C41, positions.** For every vector width (also none), array and number of coordinates, each owned coordinate is moved
exactly once by `dt * v` and no other entry changes. -/
theorem C41_positions (m : Mode) (hm : m.OK) (total : ℕ) (dt : ℝ) (v x : Arr) (j : ℕ) :
    updatePositions m total dt v x j = if j < total then x j + dt * v j else x j := by
  cases m with
  | none => simp only [updatePositions]; rw [plain_spec]; simp [mul_comm]
  | some w =>
    simp only [updatePositions]
    apply vectorised_spec w total hm
    intro i a j
    exact store_spec w a i _ (fun j => a j + dt * v j) (fun k _ => rfl) j

/-- **C41, velocities.** For every vector width (also none), each owned velocity component gets once half a time step of
acceleration, with the inverse mass of its own particle. -/
theorem C41_velocities (m : Mode) (hm : m.OK) (d total : ℕ) (dt : ℝ) (im f v : Arr) (j : ℕ) :
    updateVelocities m d total dt im f v j = if j < total then v j + dt / 2 * im (j / d) * f j else v j := by
  have e : ∀ j : ℕ, ∀ y : ℝ, y + 1/2 * dt * im (j / d) * f j = y + dt / 2 * im (j / d) * f j := by intro j y; ring
  cases m with
  | none => simp only [updateVelocities]; rw [plain_spec]; simp only [Nat.zero_le, true_and, e]
  | some w =>
    simp only [updateVelocities]
    rw [vectorised_spec w total hm true _ (fun i vi => vi + 1/2 * dt * im (i / d) * f i) _ v j]
    · simp only [e]
    · intro i a j
      exact store_spec w a i _ (fun j => a j + 1/2 * dt * im (j / d) * f j) (fun k _ => rfl) j

/-- **C41, overdamped integrator.** The same of the overdamped step. -/
theorem C41_overdamped (m : Mode) (hm : m.OK) (d total : ℕ) (damping dt : ℝ) (im f x : Arr) (j : ℕ) :
    overdamped m d total damping dt im f x j = if j < total then x j + damping * dt * im (j / d) * f j else x j := by
  have e : ∀ j : ℕ, ∀ y : ℝ, y + damping * im (j / d) * f j * dt = y + damping * dt * im (j / d) * f j := by intro j y; ring
  cases m with
  | none => simp only [overdamped]; rw [plain_spec]; simp only [Nat.zero_le, true_and, e]
  | some w =>
    simp only [overdamped]
    rw [vectorised_spec w total hm false _ (fun i xi => xi + damping * im (i / d) * f i * dt) _ x j]
    · simp only [e]
    · intro i a j
      refine store_spec w a i _ (fun j => a j + damping * im (j / d) * f j * dt) (fun k _ => ?_) j
      simp only [load, valign]; ring

/-- **C41.** Hence the vectorised integrator is the serial one, for all widths. -/
theorem C41_same (w : ℕ) (hw : 0 < w) (d total : ℕ) (dt : ℝ) (im f v x : Arr) :
    updatePositions (some w) total dt v x = updatePositions none total dt v x ∧
    updateVelocities (some w) d total dt im f v = updateVelocities none d total dt im f v := by
  constructor
  · funext j; rw [C41_positions (some w) hw, C41_positions none trivial]
  · funext j; rw [C41_velocities (some w) hw, C41_velocities none trivial]

/-- Width 4, six coordinates: one block and two left-overs. -/
example : (blocks 4 6 true (fun i a => store 4 a i fun k => a (i + k) + 1) 0 fun _ => 0).2 = 4 := by
  rw [blocks, dif_pos (by decide), blocks, dif_neg (by decide)]

/-! ## C42 -/

/-- Positions, velocities, forces. -/
@[ext] structure PS where
  x : Arr
  v : Arr
  f : Arr

/-- One time step of a run with the velocity Verlet integrator, `integrators/velocity-verlet.tpp:11-43` around the force
calculation `F` of `gflow.cpp:154-283`; boundary wrapping is left out, `F` is any function of the positions. -/
noncomputable def vvStep (m : Mode) (d n : ℕ) (im : Arr) (F : Arr → Arr) (dt : ℝ) (s : PS) : PS :=
  let v1 := updateVelocities m d (n * d) dt im s.f s.v
  let x1 := updatePositions m (n * d) dt v1 s.x
  let f1 := F x1
  ⟨x1, updateVelocities m d (n * d) dt im f1 v1, f1⟩

/-- A run with the time steps `dts`. -/
noncomputable def vvRun (m : Mode) (d n : ℕ) (im : Arr) (F : Arr → Arr) (dts : List ℝ) (s : PS) : PS :=
  dts.foldl (fun s dt => vvStep m d n im F dt s) s

/-- The state with all velocities turned around. -/
def flip (s : PS) : PS := ⟨s.x, fun j => -(s.v j), s.f⟩

theorem step_flip (m : Mode) (hm : m.OK) (d n : ℕ) (im : Arr) (F : Arr → Arr) (dt : ℝ) (s : PS) (hf : s.f = F s.x) :
    vvStep m d n im F dt (flip (vvStep m d n im F dt s)) = flip s := by
  have hx : (vvStep m d n im F dt (flip (vvStep m d n im F dt s))).x = s.x := by
    funext j
    simp only [vvStep, flip, C41_positions m hm, C41_velocities m hm]
    by_cases h : j < n * d
    · simp only [if_pos h]; ring
    · simp only [if_neg h]
  apply PS.ext
  · exact hx
  · funext j
    have hx' := hx
    have e : (vvStep m d n im F dt (flip (vvStep m d n im F dt s))).f = F s.x := by
      rw [← hx']; rfl
    have e2 : (vvStep m d n im F dt (flip (vvStep m d n im F dt s))).v j =
        updateVelocities m d (n * d) dt im (vvStep m d n im F dt (flip (vvStep m d n im F dt s))).f
          (updateVelocities m d (n * d) dt im (flip (vvStep m d n im F dt s)).f (flip (vvStep m d n im F dt s)).v) j := rfl
    rw [e2, e]
    simp only [vvStep, flip, C41_velocities m hm]
    by_cases h : j < n * d
    · simp only [if_pos h, hf]; ring
    · simp only [if_neg h]
  · have e : (vvStep m d n im F dt (flip (vvStep m d n im F dt s))).f = F s.x := by
      rw [← hx]; rfl
    rw [e, ← hf]; rfl

theorem step_force (m : Mode) (d n : ℕ) (im : Arr) (F : Arr → Arr) (dt : ℝ) (s : PS) :
    (vvStep m d n im F dt s).f = F (vvStep m d n im F dt s).x := rfl

/-- **C42, time reversal.** For every force that depends on the positions only, every number of particles, dimensions, time
steps (of any, also varying size) and vector width: from a state whose forces are up to date, run, turn all velocities
around and run the same time steps in the reverse order; the result is the initial state with all velocities turned around. -/
theorem C42_time_reversal (m : Mode) (hm : m.OK) (d n : ℕ) (im : Arr) (F : Arr → Arr) (dts : List ℝ) (s : PS)
    (hf : s.f = F s.x) :
    vvRun m d n im F dts.reverse (flip (vvRun m d n im F dts s)) = flip s := by
  induction dts generalizing s with
  | nil => rfl
  | cons dt dts ih =>
    have h1 := ih (vvStep m d n im F dt s) (step_force m d n im F dt s)
    unfold vvRun at *
    rw [List.foldl_cons, List.reverse_cons, List.foldl_append, h1]
    exact step_flip m hm d n im F dt s hf

/-- Momentum component `k`, spec. -/
noncomputable def momentum (d n : ℕ) (im : Arr) (s : PS) (k : ℕ) : ℝ := ∑ i ∈ range n, 1 / im i * s.v (i * d + k)

theorem idx (d i k : ℕ) (hk : k < d) : (i * d + k) / d = i := by
  rw [Nat.mul_comm, Nat.mul_add_div (by omega), Nat.div_eq_of_lt hk, Nat.add_zero]

theorem idx_lt (d n i k : ℕ) (hk : k < d) (hi : i < n) : i * d + k < n * d := by
  have : (i + 1) * d ≤ n * d := Nat.mul_le_mul_right _ hi
  have h2 : (i + 1) * d = i * d + d := by ring
  omega

theorem step_v (m : Mode) (hm : m.OK) (d n : ℕ) (im : Arr) (F : Arr → Arr) (dt : ℝ) (s : PS) (i k : ℕ) (hi : i < n) (hk : k < d) :
    (vvStep m d n im F dt s).v (i * d + k) =
      s.v (i * d + k) + dt / 2 * im i * (s.f (i * d + k) + (vvStep m d n im F dt s).f (i * d + k)) := by
  simp only [vvStep, C41_velocities m hm, if_pos (idx_lt d n i k hk hi), idx d i k hk]
  ring

theorem step_x (m : Mode) (hm : m.OK) (d n : ℕ) (im : Arr) (F : Arr → Arr) (dt : ℝ) (s : PS) (i k : ℕ) (hi : i < n) (hk : k < d) :
    (vvStep m d n im F dt s).x (i * d + k) =
      s.x (i * d + k) + dt * (s.v (i * d + k) + dt / 2 * im i * s.f (i * d + k)) := by
  simp only [vvStep, C41_positions m hm, C41_velocities m hm, if_pos (idx_lt d n i k hk hi), idx d i k hk]

/-- **C42, impulse.** In each step the momentum changes by the time step times the mean of the total forces before and
after the move. -/
theorem C42_impulse (m : Mode) (hm : m.OK) (d n : ℕ) (im : Arr) (him : ∀ i < n, im i ≠ 0) (F : Arr → Arr) (dt : ℝ) (s : PS)
    (k : ℕ) (hk : k < d) :
    momentum d n im (vvStep m d n im F dt s) k = momentum d n im s k +
      dt * ((∑ i ∈ range n, s.f (i * d + k)) + ∑ i ∈ range n, (vvStep m d n im F dt s).f (i * d + k)) / 2 := by
  unfold momentum
  rw [← sum_add_distrib, mul_sum, sum_div, ← sum_add_distrib]
  apply sum_congr rfl
  intro i hi
  have hi := mem_range.mp hi
  rw [step_v m hm d n im F dt s i k hi hk]
  have := him i hi
  field_simp

/-- **C42, momentum.** If the forces sum to zero in every configuration (as those of C34 do), the total momentum is the same
after any number of steps of any size. -/
theorem C42_momentum (m : Mode) (hm : m.OK) (d n : ℕ) (im : Arr) (him : ∀ i < n, im i ≠ 0) (F : Arr → Arr)
    (k : ℕ) (hk : k < d) (hF : ∀ x, ∑ i ∈ range n, F x (i * d + k) = 0) (dts : List ℝ) (s : PS) (hf : s.f = F s.x) :
    momentum d n im (vvRun m d n im F dts s) k = momentum d n im s k := by
  induction dts generalizing s with
  | nil => rfl
  | cons dt dts ih =>
    have h1 := ih (vvStep m d n im F dt s) rfl
    unfold vvRun at *
    rw [List.foldl_cons, h1, C42_impulse m hm d n im him F dt s k hk, hf, hF, step_force, hF]
    ring

/-- **C42, immovable particles.** A particle of inverse mass zero keeps its velocity for ever, whatever the forces are, and
moves uniformly. -/
theorem C42_immovable (m : Mode) (hm : m.OK) (d n : ℕ) (im : Arr) (F : Arr → Arr) (i : ℕ) (hi : i < n) (h0 : im i = 0)
    (k : ℕ) (hk : k < d) (dts : List ℝ) (s : PS) :
    (vvRun m d n im F dts s).v (i * d + k) = s.v (i * d + k) ∧
    (vvRun m d n im F dts s).x (i * d + k) = s.x (i * d + k) + dts.sum * s.v (i * d + k) := by
  induction dts generalizing s with
  | nil => simp [vvRun]
  | cons dt dts ih =>
    obtain ⟨h1, h2⟩ := ih (vvStep m d n im F dt s)
    unfold vvRun at *
    rw [List.foldl_cons, h1, h2, step_v m hm d n im F dt s i k hi hk, step_x m hm d n im F dt s i k hi hk, h0, List.sum_cons]
    constructor <;> ring

/-- Two particles in one dimension with a spring between them: the hypotheses are met. -/
example : ∃ F : Arr → Arr, (∀ x, ∑ i ∈ range 2, F x (i * 1 + 0) = 0) ∧ F (fun j => j) 0 = 1 := by
  refine ⟨fun x j => if j = 0 then x 1 - x 0 else x 0 - x 1, fun x => ?_, ?_⟩
  · simp [sum_range_succ]
  · norm_num

/-! ## C74: angular momentum -/

/-- Angular momentum in the plane of the axes `a`, `b`, spec. -/
noncomputable def angular (d n : ℕ) (im : Arr) (s : PS) (a b : ℕ) : ℝ :=
  ∑ i ∈ range n, 1 / im i * (s.x (i * d + a) * s.v (i * d + b) - s.x (i * d + b) * s.v (i * d + a))

/-- **C74.** If the forces exert no total torque in any configuration (as those of C68 do without wrapping), velocity Verlet
conserves the angular momentum exactly, for every number of steps of any size. -/
theorem C74_angular_momentum (m : Mode) (hm : m.OK) (d n : ℕ) (im : Arr) (him : ∀ i < n, im i ≠ 0) (F : Arr → Arr)
    (a b : ℕ) (ha : a < d) (hb : b < d)
    (hF : ∀ x, ∑ i ∈ range n, (x (i * d + a) * F x (i * d + b) - x (i * d + b) * F x (i * d + a)) = 0)
    (dts : List ℝ) (s : PS) (hf : s.f = F s.x) :
    angular d n im (vvRun m d n im F dts s) a b = angular d n im s a b := by
  induction dts generalizing s with
  | nil => rfl
  | cons dt dts ih =>
    have h1 := ih (vvStep m d n im F dt s) rfl
    unfold vvRun at *
    rw [List.foldl_cons, h1]
    have e : angular d n im (vvStep m d n im F dt s) a b = angular d n im s a b +
        dt / 2 * (∑ i ∈ range n, (s.x (i * d + a) * F s.x (i * d + b) - s.x (i * d + b) * F s.x (i * d + a))) +
        dt / 2 * (∑ i ∈ range n, ((vvStep m d n im F dt s).x (i * d + a) * F (vvStep m d n im F dt s).x (i * d + b) -
          (vvStep m d n im F dt s).x (i * d + b) * F (vvStep m d n im F dt s).x (i * d + a))) := by
      unfold angular
      rw [mul_sum, mul_sum, ← sum_add_distrib, ← sum_add_distrib]
      apply sum_congr rfl
      intro i hi
      have hi := mem_range.mp hi
      rw [step_v m hm d n im F dt s i a hi ha, step_v m hm d n im F dt s i b hi hb, step_force, hf]
      have hxa := step_x m hm d n im F dt s i a hi ha
      have hxb := step_x m hm d n im F dt s i b hi hb
      rw [hf] at hxa hxb
      have h0 := him i hi
      generalize F (vvStep m d n im F dt s).x (i * d + a) = A
      generalize F (vvStep m d n im F dt s).x (i * d + b) = B
      rw [hxa, hxb]
      field_simp
      ring
    rw [e, hF, hF]
    ring

/-- Two particles in two dimensions with a spring between them exert no torque. -/
example : ∀ x : Arr, ∑ i ∈ range 2, (x (i * 2 + 0) * (fun j => x ((j + 2) % 4) - x j) (i * 2 + 1) -
    x (i * 2 + 1) * (fun j => x ((j + 2) % 4) - x j) (i * 2 + 0)) = 0 := by
  intro x; simp [sum_range_succ]; ring

/-! ## C43: Nose-Hoover -/

/-- Members of the thermostat, `integrators/nose-hoover-velocityverlet.hpp:19-29`. -/
structure NH where
  temp : ℝ
  zeta : ℝ
  q : ℝ

/-- Velocities after `NoseHooverVelocityVerlet::update_velocities`,
`integrators/nose-hoover-velocity-verlet.tpp:92-123`; the left-overs of the vectorised version have no friction (122).
All masses finite: otherwise 96 and 111 divide by zero. -/
noncomputable def nhVelocities (m : Mode) (d total : ℕ) (dt zeta : ℝ) (im f v : Arr) : Arr :=
  let hdt := 1/2 * dt
  match m with
  | none => plain total (fun i vi => vi + hdt * (im (i / d) * f i - 1 / im (i / d) * zeta * vi)) 0 v
  | some w => vectorised w total false
      (fun i v => store w v i fun k => load v i k + hdt * (valign d im i k * load f i k - zeta * load v i k / valign d im i k))
      (fun i vi => vi + hdt * im (i / d) * f i) v

/-- Kinetic energy found by the same loop, `integrators/nose-hoover-velocity-verlet.tpp:97,111,121,126-131`: lane by lane for the
blocks, then added to that of the left-overs. -/
noncomputable def nhKE (m : Mode) (d total : ℕ) (im v : Arr) : ℝ :=
  match m with
  | none => 1/2 * (List.range total).foldl (fun ke i => ke + 1 / im (i / d) * (v i * v i)) 0
  | some w =>
    let nb := total / w
    let lanes := (List.range nb).foldl (fun (ke : ℕ → ℝ) b k => ke k + v (b * w + k) * v (b * w + k) / im ((b * w + k) / d)) fun _ => 0
    let ke := (List.range (total - nb * w)).foldl (fun ke i => ke + 1 / im ((nb * w + i) / d) * (v (nb * w + i) * v (nb * w + i))) 0
    1/2 * (List.range w).foldl (fun ke k => ke + lanes k) ke

open Classical in
/-- The thermostat after `update_velocities`, `integrators/nose-hoover-velocity-verlet.tpp:133-144`. -/
noncomputable def nhUpdate (kB waitTime elapsed : ℝ) (total : ℕ) (dt ke : ℝ) (t : NH) : NH :=
  let z := t.zeta + 1 / t.q * (ke - (1/2 * total - 1/2) * t.temp * kB) * (1/2 * dt)
  if t.temp < 0 then
    if elapsed < waitTime then { t with zeta := 0 }
    else ⟨ke / (kB * total / 2), z, if t.q ≤ 0 then 2 * ke else t.q⟩
  else { t with zeta := z }

/-- **C43, plain loop.** Without vector instructions each owned velocity component gets half a time step of acceleration
minus friction.
Missing: the vectorised loop, see `C43_negation_leftovers`. -/
theorem C43_serial_partial (d total : ℕ) (dt zeta : ℝ) (im f v : Arr) (j : ℕ) :
    nhVelocities none d total dt zeta im f v j =
      if j < total then v j + dt / 2 * (im (j / d) * f j - zeta * v j / im (j / d)) else v j := by
  simp only [nhVelocities]
  rw [plain_spec]
  by_cases h : j < total
  · rw [if_pos ⟨Nat.zero_le _, h⟩, if_pos h]; ring
  · rw [if_neg (by omega), if_neg h]

/-- **C43, vectorised loop.** With vectors of width `w` the friction is applied to all components that fill whole vectors:
`total / w * w` of them; the others get none. -/
theorem C43_simd (w : ℕ) (hw : 0 < w) (d total : ℕ) (dt zeta : ℝ) (im f v : Arr) (j : ℕ) :
    nhVelocities (some w) d total dt zeta im f v j =
      if j < total / w * w then v j + dt / 2 * (im (j / d) * f j - zeta * v j / im (j / d))
      else if j < total then v j + dt / 2 * im (j / d) * f j else v j := by
  simp only [nhVelocities]
  set block := fun (i : ℕ) (v : Arr) => store w v i fun k => load v i k + 1/2 * dt *
    (valign d im i k * load f i k - zeta * load v i k / valign d im i k) with hblock
  have hb : ∀ i a j, block i a j = if i ≤ j ∧ j < i + w then a j + 1/2 * dt * (im (j / d) * f j - zeta * a j / im (j / d)) else a j :=
    fun i a j => store_spec w a i _ (fun j => a j + 1/2 * dt * (im (j / d) * f j - zeta * a j / im (j / d))) (fun k _ => rfl) j
  obtain ⟨h1, _, h3, h4⟩ := blocks_spec w total hw false block
    (fun j y => y + 1/2 * dt * (im (j / d) * f j - zeta * y / im (j / d))) hb 0 (Nat.zero_le _) v
  have hend : ∀ i a, w ∣ i → i ≤ total → (blocks w total false block i a).2 = total / w * w := by
    intro i a
    generalize hn : total - i = n
    induction n using Nat.strong_induction_on generalizing i a with
    | _ n ih =>
      intro hdv hi
      by_cases h : 0 < w ∧ (if false then i + w < total else i + w ≤ total)
      · rw [blocks, dif_pos h]
        have hle : i + w ≤ total := by simpa using h.2
        exact ih (total - (i + w)) (by omega) (i + w) _ rfl ((Nat.dvd_add_right hdv).mpr dvd_rfl) hle
      · rw [blocks, dif_neg h]
        have hgt : total < i + w := by simp [hw] at h; exact h
        obtain ⟨q, rfl⟩ := hdv
        simp only
        rw [Nat.mul_comm w q]
        congr 1
        refine (Nat.div_eq_of_lt_le ?_ ?_).symm
        · rw [Nat.mul_comm]; exact hi
        · rw [Nat.add_mul, Nat.one_mul, Nat.mul_comm]; exact hgt
  have he := hend 0 v (dvd_zero w) (Nat.zero_le _)
  unfold vectorised
  rw [plain_spec, h4, he]
  have hle : total / w * w ≤ total := Nat.div_mul_le_self _ _
  by_cases hj : j < total / w * w
  · rw [if_neg (by omega), if_pos (by omega), if_pos hj]; ring
  · rw [if_neg (by omega : ¬ (0 ≤ j ∧ j < total / w * w)), if_neg hj]
    by_cases hj2 : j < total
    · rw [if_pos (by omega), if_pos hj2]; ring
    · rw [if_neg (by omega), if_neg hj2]

/-- **C43 is false of the vectorised loop.** For every width and number of components that is not a multiple of it, there is
a component without friction: with any friction, mass and step size that are not zero its velocity differs from that of the
plain loop. -/
theorem C43_negation_leftovers (w : ℕ) (hw : 0 < w) (d total : ℕ) (hmod : total % w ≠ 0) (dt zeta : ℝ) (hdt : dt ≠ 0)
    (hz : zeta ≠ 0) (im : Arr) (him : ∀ i, im i ≠ 0) (f v : Arr) (hv : ∀ j, v j ≠ 0) :
    ∃ j < total, nhVelocities (some w) d total dt zeta im f v j ≠ nhVelocities none d total dt zeta im f v j := by
  have h1 := Nat.div_add_mod total w
  have h2 : total / w * w < total := by rw [Nat.mul_comm]; omega
  refine ⟨total / w * w, h2, ?_⟩
  rw [C43_simd w hw, C43_serial_partial, if_neg (lt_irrefl _), if_pos h2, if_pos h2]
  intro h
  have h3 : dt / 2 * (zeta * v (total / w * w) / im (total / w * w / d)) = 0 := by linarith
  have : dt / 2 * (zeta * v (total / w * w) / im (total / w * w / d)) ≠ 0 :=
    mul_ne_zero (div_ne_zero hdt (by norm_num)) (div_ne_zero (mul_ne_zero hz (hv _)) (him _))
  exact this h3

/-- Width 4, three particles in two dimensions: six components, two without friction. -/
example : (6 : ℕ) % 4 ≠ 0 := by decide

theorem foldl_add (l : List ℕ) (g : ℕ → ℝ) (c : ℝ) : l.foldl (fun ke i => ke + g i) c = c + (l.map g).sum := by
  induction l generalizing c with
  | nil => simp
  | cons a l ih => rw [List.foldl_cons, ih]; simp; ring

theorem sum_range_map (n : ℕ) (g : ℕ → ℝ) : ((List.range n).map g).sum = ∑ i ∈ range n, g i := by
  induction n with
  | zero => rfl
  | succ n ih => rw [List.range_succ, List.map_append, List.sum_append, ih, sum_range_succ]; simp

theorem sum_blocks (nb w : ℕ) (g : ℕ → ℝ) : ∑ k ∈ range w, ∑ b ∈ range nb, g (b * w + k) = ∑ j ∈ range (nb * w), g j := by
  induction nb with
  | zero => simp
  | succ nb ih =>
    rw [Nat.add_mul, Nat.one_mul, sum_range_add, ← ih, ← sum_add_distrib]
    exact sum_congr rfl (fun k _ => sum_range_succ _ _)

/-- **C43, kinetic energy.** Both versions feed the thermostat with the kinetic energy of all owned components before the
kick, for every width. -/
theorem C43_kinetic_energy (m : Mode) (_hm : m.OK) (d total : ℕ) (im v : Arr) :
    nhKE m d total im v = 1/2 * ∑ j ∈ range total, 1 / im (j / d) * v j ^ 2 := by
  cases m with
  | none =>
    simp only [nhKE]
    rw [foldl_add, sum_range_map, zero_add]
    congr 1
    exact sum_congr rfl (fun j _ => by ring)
  | some w =>
    simp only [nhKE]
    have lanes : ∀ (l : List ℕ) (z : ℕ → ℝ), l.foldl (fun (ke : ℕ → ℝ) b k => ke k + v (b * w + k) * v (b * w + k) / im ((b * w + k) / d)) z =
        fun k => z k + (l.map fun b => v (b * w + k) * v (b * w + k) / im ((b * w + k) / d)).sum := by
      intro l
      induction l with
      | nil => intro z; simp
      | cons b l ih => intro z; rw [List.foldl_cons, ih]; funext k; simp; ring
    rw [lanes, foldl_add, foldl_add, sum_range_map, sum_range_map]
    simp only [sum_range_map, zero_add]
    rw [sum_blocks (total / w) w (fun j => v j * v j / im (j / d))]
    congr 1
    have hle : total / w * w ≤ total := Nat.div_mul_le_self _ _
    rw [show total = total / w * w + (total - total / w * w) by omega, sum_range_add]
    rw [show total / w * w + (total - total / w * w) = total by omega, add_comm]
    congr 1
    · exact sum_congr rfl (fun j _ => by ring)
    · exact sum_congr rfl (fun j _ => by ring)

/-- **C43, waiting time.** While no temperature is set and the waiting time has not passed, the thermostat exerts no friction:
with zero friction at the start, each kick is that of velocity Verlet (both versions), and the friction is zero again after
it. -/
theorem C43_before_wait (m : Mode) (hm : m.OK) (d total : ℕ) (dt kB waitTime elapsed : ℝ) (im f v : Arr) (t : NH)
    (hz : t.zeta = 0) (ht : t.temp < 0) (he : elapsed < waitTime) :
    nhVelocities m d total dt t.zeta im f v = updateVelocities m d total dt im f v ∧
    (nhUpdate kB waitTime elapsed total dt (nhKE m d total im v) t).zeta = 0 ∧
    (nhUpdate kB waitTime elapsed total dt (nhKE m d total im v) t).temp = t.temp := by
  refine ⟨?_, ?_, ?_⟩
  · funext j
    rw [C41_velocities m hm, hz]
    cases m with
    | none => rw [C43_serial_partial]; by_cases h : j < total <;> simp only [h, if_true, if_false] <;> ring
    | some w =>
      rw [C43_simd w hm]
      have hle : total / w * w ≤ total := Nat.div_mul_le_self _ _
      by_cases h : j < total / w * w
      · rw [if_pos h, if_pos (by omega)]; ring
      · rw [if_neg h]
  · simp [nhUpdate, ht, he]
  · simp [nhUpdate, ht, he]

/-! ## C75: angular velocities -/

/-- `AngularVelocityVerlet2d::update_position`, `integrators/angularvelocityverlet2d.cpp:57-76`, when the data exist. -/
def updateAngles (m : Mode) (size : ℕ) (dt : ℝ) (om th : Arr) : Arr :=
  match m with
  | none => plain size (fun i y => y + dt * om i) 0 th
  | some w => vectorised w size false (fun i th => store w th i fun k => load th i k + load om i k * dt) (fun i y => y + dt * om i) th

/-- `AngularVelocityVerlet2d::update_velocity`, `integrators/angularvelocityverlet2d.cpp:94-124`, when the data exist and no
radius is zero; the plain loop has the increment 2 (97). -/
noncomputable def updateOmega (m : Mode) (size : ℕ) (dt : ℝ) (im sg tq om : Arr) : Arr :=
  let hdt := 1/2 * dt
  match m with
  | none => (List.range ((size + 1) / 2)).foldl (fun om h =>
      Function.update om (2 * h) (om (2 * h) + hdt * (2 * im (2 * h) / sg (2 * h) ^ 2) * tq (2 * h))) om
  | some w => vectorised w size false
      (fun i om => store w om i fun k => load om i k + 2 * hdt * (load im i k / (load sg i k * load sg i k)) * load tq i k)
      (fun i y => y + 2 * hdt * (im i / sg i ^ 2) * tq i) om

/-- **C75, angles.** Each angle moves once by `dt` times its angular velocity, for every vector width. -/
theorem C75_angles (m : Mode) (hm : m.OK) (size : ℕ) (dt : ℝ) (om th : Arr) (j : ℕ) :
    updateAngles m size dt om th j = if j < size then th j + dt * om j else th j := by
  cases m with
  | none => simp only [updateAngles]; rw [plain_spec]; simp
  | some w =>
    simp only [updateAngles]
    apply vectorised_spec w size hm false _ (fun i y => y + dt * om i)
    intro i a j
    refine store_spec w a i _ (fun j => a j + dt * om j) (fun k _ => ?_) j
    simp only [load]; ring

/-- **C75, angular velocities.** With vector instructions of any width each angular velocity gets half a time step of torque
over the moment of inertia `m r²/2`, once.
Missing: the plain loop, see `C75_negation_plain`. -/
theorem C75_omega_partial (w : ℕ) (hw : 0 < w) (size : ℕ) (dt : ℝ) (im sg tq om : Arr) (hi : ∀ j, im j ≠ 0) (hs : ∀ j, sg j ≠ 0)
    (j : ℕ) :
    updateOmega (some w) size dt im sg tq om j =
      if j < size then om j + dt / 2 * (tq j / (1/2 * (1 / im j) * sg j ^ 2)) else om j := by
  have e : ∀ y : ℝ, y + 2 * (1/2 * dt) * (im j / sg j ^ 2) * tq j = y + dt / 2 * (tq j / (1/2 * (1 / im j) * sg j ^ 2)) := by
    intro y
    have h1 := hi j
    have h2 := hs j
    field_simp
  simp only [updateOmega]
  rw [vectorised_spec w size hw false _ (fun i y => y + 2 * (1/2 * dt) * (im i / sg i ^ 2) * tq i) _ om j, e]
  intro i a j
  refine store_spec w a i _ (fun j => a j + 2 * (1/2 * dt) * (im j / sg j ^ 2) * tq j) (fun k _ => ?_) j
  simp only [load]; ring

/-- **C75 is false of the plain loop.** Without vector instructions the particles at odd positions never get any torque. -/
theorem C75_negation_plain (size : ℕ) (dt : ℝ) (im sg tq om : Arr) (j : ℕ) :
    updateOmega none size dt im sg tq om (2 * j + 1) = om (2 * j + 1) := by
  simp only [updateOmega]
  generalize (size + 1) / 2 = n
  induction n with
  | zero => rfl
  | succ n ih =>
    rw [List.range_succ, List.foldl_append, List.foldl_cons, List.foldl_nil, Function.update_of_ne (by omega), ih]

end Verif.Verlet
