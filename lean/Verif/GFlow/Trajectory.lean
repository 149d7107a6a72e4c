import Verif.GFlow.ForceSum
import Verif.GFlow.Boundary
import Verif.Integrators.Verlet

/-!
# Runs do not depend on neighbour lists (C129)

The loop of `GFlow::run` (`gflow.cpp:153-268`) with the velocity Verlet integrator, on one processor, with wrapping and open
boundaries, without modifiers, bonded forces, bodies and removal of particles: half kick and move of the integrator, possibly a
construction (wrapping of positions, new neighbour lists), forces from the lists, half kick. The construction may happen in any
step; the reference is a motion in which positions are never wrapped and the forces are sums over all pairs.
-/

set_option linter.unusedSectionVars false
set_option linter.unusedVariables false

namespace Verif.Trajectory
open Verif.Cells Verif.Grid Verif.Stencil Verif.ForceMaster Verif.PairForces Verif.Handlers Verif.ForceSum Verif.Verlet

variable {d : ℕ}

/-! ## The model -/

/-- Component `k` of particle `i` of a flat array: `x(i, k)` of the accessor, `base/particle-data-access.hpp:8-40`. -/
def parts (d : ℕ) (a : Arr) : ℕ → Fin d → ℝ := fun i k => a (i * d + k)

/-- The flat array of forces, as for `parts`. -/
def flat (f : ℕ → Fin d → ℝ) : Arr := fun j => if h : 0 < d then f (j / d) ⟨j % d, Nat.mod_lt _ h⟩ else 0

/-- `GFlow::wrapPositions`, `gflow.cpp:548-572`, on the flat array: the coordinates of the owned particles in the wrapping
dimensions. -/
noncomputable def wrapFlat (s : Setup d) (x : Arr) : Arr := fun j =>
  if h : 0 < d ∧ j < s.number * d then
    if (s.g ⟨j % d, Nat.mod_lt _ h.1⟩).per then
      Boundary.wrap1 (s.g ⟨j % d, Nat.mod_lt _ h.1⟩).lo (s.g ⟨j % d, Nat.mod_lt _ h.1⟩).hi (x j)
    else x j
  else x j

/-- The state between steps: particle arrays and the pairs that the interactions hold. -/
structure St where
  x : Arr
  v : Arr
  f : Arr
  lists : ℕ → List (ℕ × ℕ × ℕ)

/-- What does not change during a run: inverse masses, the way of vectorisation, flags, old contents of the containers. -/
structure Env where
  im : ℕ → ℝ
  mode : Mode
  doPot : Bool
  doVir : Bool
  old : ℕ → Old

/-- `handler->pre_integrate`, `base/interactionhandler.cpp:43-63,115-166` with `SimData::update`, `base/simdata.cpp:253-279`. -/
noncomputable def start (s : Setup d) (T : FM ℝ) (x v f : Arr) : Option St :=
  (s.lists T (parts d (wrapFlat s x))).map fun lists => ⟨wrapFlat s x, v, f, lists⟩

/-- One step, `gflow.cpp:153-231`: `integrator->pre_forces` (`integrators/velocity-verlet.tpp:11-28`), `handler->pre_forces`
with or without construction (`base/interactionhandler.cpp:65-113`), `clearForces`, `forceMaster->interact`,
`integrator->post_forces` (`integrators/velocity-verlet.tpp:30-43`). -/
noncomputable def step (s : Setup d) (T : FM ℝ) (e : Env) (dt : ℝ) (rebuild : Bool) (st : St) : Option St :=
  let v1 := updateVelocities e.mode d (s.number * d) dt e.im st.f st.v
  let x1 := updatePositions e.mode (s.number * d) dt v1 st.x
  let x2 := if rebuild then wrapFlat s x1 else x1
  (if rebuild then s.lists T (parts d x2) else some st.lists).bind fun lists =>
    (s.forces T e.doPot e.doVir e.old lists ⟨parts d x2, parts d v1, s.rd, e.im⟩ fun _ _ => 0).map fun f =>
      ⟨x2, updateVelocities e.mode d (s.number * d) dt e.im (flat f) v1, flat f, lists⟩

/-- A run: time steps and decisions on construction. -/
noncomputable def steps (s : Setup d) (T : FM ℝ) (e : Env) (l : List (ℝ × Bool)) (st : St) : Option St :=
  l.foldlM (fun st a => step s T e a.1 a.2 st) st

/-! ## Specification -/

/-- Spec: positions, velocities, forces of all particles. -/
structure Motion (d : ℕ) where
  x : ℕ → Fin d → ℝ
  v : ℕ → Fin d → ℝ
  f : ℕ → Fin d → ℝ

open Classical in
/-- Spec: one step of velocity Verlet without wrapping, cells and lists: the forces are sums over all particles. -/
noncomputable def ideal (s : Setup d) (h : List Call) (im : ℕ → ℝ) (dt : ℝ) (M : Motion d) : Motion d :=
  let v1 := fun i k => M.v i k + dt / 2 * im i * M.f i k
  let x1 := fun i k => M.x i k + dt * v1 i k
  let f1 := fun i k => if s.Alive i then
    ∑ j ∈ (Finset.range s.number).filter (fun j => j ≠ i ∧ 0 ≤ s.type j), s.direct h ⟨x1, v1, s.rd, im⟩ i j k else 0
  ⟨x1, fun i k => v1 i k + dt / 2 * im i * f1 i k, f1⟩

/-- Spec: the image of a position in the box. -/
noncomputable def home (s : Setup d) (x : Fin d → ℝ) : Fin d → ℝ := fun k =>
  if (s.g k).per then x k - ((s.g k).hi - (s.g k).lo) * ⌊(x k - (s.g k).lo) / ((s.g k).hi - (s.g k).lo)⌋ else x k

/-- Spec: lists can be built from the positions `x`: no particle is exactly on a wrapping boundary (see C15), and particles
whose interaction has a cutoff above 1 are not in the same cell (see C28). -/
def Buildable (s : Setup d) (h : List Call) (x : ℕ → Fin d → ℝ) : Prop :=
  (∀ i, s.Alive i → ∀ k, (s.g k).per = true → ∀ z : ℤ, x i k ≠ (s.g k).lo + z * ((s.g k).hi - (s.g k).lo)) ∧
  ∀ i j, s.Alive i → s.Alive j → i ≠ j → ∀ p, lastSet h (s.type i) (s.type j) = some p →
    s.cut p ≤ 1 ∨ s.cell (home s (x i)) ≠ s.cell (home s (x j))

/-- Spec: interacting particles do not coincide. -/
def Separate (s : Setup d) (h : List Call) (x : ℕ → Fin d → ℝ) : Prop :=
  ∀ i j, s.Alive i → s.Alive j → i ≠ j → lastSet h (s.type i) (s.type j) ≠ none → nearest s.g (x i - x j) ≠ 0

/-- Spec: the decisions on construction are timely: in every step no particle has moved by more than half of the skin depth
since the last construction, which was at the positions `x0`. -/
def Timely (s : Setup d) (h : List Call) (im : ℕ → ℝ) : (ℕ → Fin d → ℝ) → List (ℝ × Bool) → Motion d → Prop
  | _, [], _ => True
  | x0, (dt, r) :: l, M =>
    (r = true → Buildable s h (ideal s h im dt M).x) ∧
    (r = false → ∀ i, s.Alive i → len ((ideal s h im dt M).x i - x0 i) ≤ s.skin / 2) ∧
    Separate s h (ideal s h im dt M).x ∧
    Timely s h im (if r then (ideal s h im dt M).x else x0) l (ideal s h im dt M)

/-! ## Lemmas -/

theorem parts_flat (f : ℕ → Fin d → ℝ) : parts d (flat f) = f := by
  funext i k
  have hd : 0 < d := Nat.pos_of_ne_zero fun e => by subst e; exact k.elim0
  unfold parts flat
  rw [dif_pos hd]
  congr 1
  · rw [Nat.add_comm, Nat.mul_comm, Nat.add_mul_div_left _ _ hd, Nat.div_eq_of_lt k.2, zero_add]
  · apply Fin.ext
    simp [Nat.add_comm, Nat.mul_comm, Nat.add_mul_mod_self_left, Nat.mod_eq_of_lt k.2]

theorem parts_lt (s : Setup d) {i : ℕ} (hi : i < s.number) (k : Fin d) : i * d + k < s.number * d := by
  have := k.2
  nlinarith [Nat.mul_le_mul_right d (Nat.succ_le_of_lt hi)]

theorem parts_div (i : ℕ) (k : Fin d) : (i * d + k) / d = i := by
  have hd : 0 < d := Nat.pos_of_ne_zero fun e => by subst e; exact k.elim0
  rw [Nat.add_comm, Nat.mul_comm, Nat.add_mul_div_left _ _ hd, Nat.div_eq_of_lt k.2, zero_add]

theorem parts_vel (m : Mode) (hm : m.OK) (s : Setup d) (dt : ℝ) (im f v : Arr) {i : ℕ} (hi : i < s.number) (k : Fin d) :
    parts d (updateVelocities m d (s.number * d) dt im f v) i k = parts d v i k + dt / 2 * im i * parts d f i k := by
  unfold parts
  rw [C41_velocities m hm, if_pos (parts_lt s hi k), parts_div]

theorem parts_pos (m : Mode) (hm : m.OK) (s : Setup d) (dt : ℝ) (v x : Arr) {i : ℕ} (hi : i < s.number) (k : Fin d) :
    parts d (updatePositions m (s.number * d) dt v x) i k = parts d x i k + dt * parts d v i k := by
  unfold parts
  rw [C41_positions m hm, if_pos (parts_lt s hi k)]

theorem parts_wrap (s : Setup d) (x : Arr) {i : ℕ} (hi : i < s.number) (k : Fin d) :
    parts d (wrapFlat s x) i k =
      if (s.g k).per then Boundary.wrap1 (s.g k).lo (s.g k).hi (parts d x i k) else parts d x i k := by
  have hd : 0 < d := Nat.pos_of_ne_zero fun e => by subst e; exact k.elim0
  have hk : (⟨(i * d + k) % d, Nat.mod_lt _ hd⟩ : Fin d) = k := by
    apply Fin.ext
    simp [Nat.add_comm, Nat.mul_comm, Nat.add_mul_mod_self_left, Nat.mod_eq_of_lt k.2]
  unfold parts wrapFlat
  rw [dif_pos ⟨hd, parts_lt s hi k⟩]
  simp only [hk]

/-- Two congruent positions in the half-open box are equal. -/
theorem unique_image {lo W a b : ℝ} (hW : 0 < W) (ha : lo ≤ a ∧ a < lo + W) (hb : lo ≤ b ∧ b < lo + W) {z : ℤ}
    (h : a = b + z * W) : a = b := by
  have hz : z = 0 := by
    by_contra hz
    rcases lt_or_gt_of_ne hz with h1 | h1
    · have : (z : ℝ) ≤ -1 := by exact_mod_cast Int.le_sub_one_of_lt h1
      nlinarith
    · have : (1 : ℝ) ≤ z := by exact_mod_cast h1
      nlinarith
  rw [h, hz]; simp

theorem home_range (s : Setup d) (hv : ∀ k, (s.g k).Valid) (x : Fin d → ℝ) (k : Fin d) (hk : (s.g k).per = true) :
    (s.g k).lo ≤ home s x k ∧ home s x k < (s.g k).hi ∧
      ∃ z : ℤ, home s x k = x k + z * ((s.g k).hi - (s.g k).lo) := by
  have hW : 0 < (s.g k).hi - (s.g k).lo := sub_pos.mpr (hv k).lohi
  unfold home
  rw [if_pos hk]
  generalize e : (x k - (s.g k).lo) / ((s.g k).hi - (s.g k).lo) = q
  have hx : x k = (s.g k).lo + q * ((s.g k).hi - (s.g k).lo) := by
    rw [← e, div_mul_cancel₀ _ hW.ne']; ring
  have h1 := Int.floor_le q
  have h2 := Int.lt_floor_add_one q
  refine ⟨?_, ?_, -⌊q⌋, by push_cast; ring⟩
  · rw [hx]; nlinarith
  · rw [hx]; nlinarith

theorem wrap_home (s : Setup d) (hv : ∀ k, (s.g k).Valid) {x y : Fin d → ℝ} {k : Fin d} (hk : (s.g k).per = true) {z : ℤ}
    (h : y k = x k + z * ((s.g k).hi - (s.g k).lo))
    (hoff : ∀ z : ℤ, x k ≠ (s.g k).lo + z * ((s.g k).hi - (s.g k).lo)) :
    Boundary.wrap1 (s.g k).lo (s.g k).hi (y k) = home s x k := by
  have hW : 0 < (s.g k).hi - (s.g k).lo := sub_pos.mpr (hv k).lohi
  obtain ⟨h1, h2, z1, h3⟩ := home_range s hv x k hk
  obtain ⟨z2, h4⟩ := Boundary.wrap1_int (s.g k).lo (s.g k).hi (y k)
  obtain ⟨h5, h6⟩ := Boundary.wrap1_range (x := y k) (hv k).lohi
  have h7 : Boundary.wrap1 (s.g k).lo (s.g k).hi (y k) ≠ (s.g k).hi := by
    intro e
    rw [h4, h] at e
    apply hoff (1 - z - z2)
    push_cast
    linarith
  have h8 := lt_of_le_of_ne h6 h7
  refine unique_image hW (lo := (s.g k).lo) (z := z + z2 - z1) ⟨h5, by linarith⟩ ⟨h1, by linarith⟩ ?_
  rw [h4, h, h3]; push_cast; ring

/-- Spec: displacements by whole widths in the wrapping dimensions. -/
def Whole (s : Setup d) (z : Fin d → ℤ) : Prop := ∀ k, (s.g k).per = false → z k = 0

theorem nearest_shift (s : Setup d) (hv : ∀ k, (s.g k).Valid) {X Y : Fin d → ℝ} {z : Fin d → ℤ} (hz : Whole s z)
    (h : ∀ k, Y k = X k + z k * ((s.g k).hi - (s.g k).lo)) : nearest s.g Y = nearest s.g X := by
  funext k
  have hW : 0 < (s.g k).hi - (s.g k).lo := sub_pos.mpr (hv k).lohi
  unfold nearest
  by_cases hk : (s.g k).per = true
  · rw [if_pos hk, if_pos hk, h k, add_div, mul_div_assoc, div_self hW.ne', mul_one, round_add_intCast]
    push_cast; ring
  · rw [if_neg hk, if_neg hk, h k, hz k (by simpa using hk)]; simp

theorem mag_congr (F : Force) {P Q : Parts d} {i j : ℕ} (h1 : P.v i = Q.v i) (h2 : P.v j = Q.v j) (h3 : P.rd = Q.rd)
    (h4 : P.im = Q.im) (n : Fin d → ℝ) (r : ℝ) : F.mag P i j n r = F.mag Q i j n r := by
  cases F <;> simp only [Force.mag, h1, h2, h3, h4]

theorem direct_congr (s : Setup d) (h : List Call) {P Q : Parts d} {i j : ℕ} (h1 : P.v i = Q.v i) (h2 : P.v j = Q.v j)
    (h3 : P.rd = Q.rd) (h4 : P.im = Q.im) (h5 : nearest s.g (P.x i - P.x j) = nearest s.g (Q.x i - Q.x j)) (k : Fin d) :
    s.direct h P i j k = s.direct h Q i j k := by
  unfold Setup.direct
  cases lastSet h (s.type i) (s.type j) with
  | none => rfl
  | some p =>
    simp only [h5, pushed, h3]
    split_ifs
    · rw [mag_congr _ h1 h2 h3 h4]
    · rfl

theorem ok_at {s : Setup d} {h : List Call} {x0 y0 : ℕ → Fin d → ℝ} (hok : s.OK h x0)
    (hp : ∀ i, s.Alive i → ∀ k, (s.g k).per = true → (s.g k).lo ≤ y0 i k ∧ y0 i k < (s.g k).hi) : s.OK h y0 :=
  ⟨hok.valid, hok.wide, hok.stencil, hok.cutoff_pos, hok.skin_nonneg, hp, hok.rd_nonneg, hok.types, hok.cut_nonneg,
    hok.small_one, hok.small⟩

/-! ## The theorem -/

/-- The arrays agree with the motion up to whole widths, and the lists are those of positions `y0` that correspond to `x0`. -/
structure Inv (s : Setup d) (h : List Call) (T : FM ℝ) (st : St) (M : Motion d) (x0 : ℕ → Fin d → ℝ) : Prop where
  vel : ∀ i, s.Alive i → parts d st.v i = M.v i
  force : ∀ i, s.Alive i → parts d st.f i = M.f i
  pos : ∃ (z : ℕ → Fin d → ℤ) (y0 : ℕ → Fin d → ℝ), s.lists T y0 = some st.lists ∧
    (∀ i, s.Alive i → ∀ k, (s.g k).per = true → (s.g k).lo ≤ y0 i k ∧ y0 i k < (s.g k).hi) ∧
    (∀ i j, s.Alive i → s.Alive j → i ≠ j → ∀ p, lastSet h (s.type i) (s.type j) = some p →
      s.cut p ≤ 1 ∨ s.cell (y0 i) ≠ s.cell (y0 j)) ∧
    ∀ i, s.Alive i → Whole s (z i) ∧ ∀ k,
      parts d st.x i k = M.x i k + z i k * ((s.g k).hi - (s.g k).lo) ∧ y0 i k = x0 i k + z i k * ((s.g k).hi - (s.g k).lo)

section main
variable {s : Setup d} {h : List Call} {T : FM ℝ} {x0 : ℕ → Fin d → ℝ}

/-- Wrapped positions of a buildable configuration. -/
theorem built (hv : ∀ k, (s.g k).Valid) {x : Arr} {X : ℕ → Fin d → ℝ} {z : ℕ → Fin d → ℤ} (hb : Buildable s h X)
    (hx : ∀ i, s.Alive i → Whole s (z i) ∧ ∀ k, parts d x i k = X i k + z i k * ((s.g k).hi - (s.g k).lo)) :
    ∀ i, s.Alive i → parts d (wrapFlat s x) i = home s (X i) := by
  intro i hi
  obtain ⟨h1, h2⟩ := hx i hi
  funext k
  rw [parts_wrap s x hi.1]
  by_cases hk : (s.g k).per = true
  · rw [if_pos hk]
    exact wrap_home s hv hk (h2 k) (hb.1 i hi k hk)
  · rw [if_neg hk, h2 k, h1 k (by simpa using hk)]
    unfold home
    rw [if_neg hk]; simp

theorem home_whole (hv : ∀ k, (s.g k).Valid) (X : ℕ → Fin d → ℝ) : ∃ z : ℕ → Fin d → ℤ, ∀ i, Whole s (z i) ∧
    ∀ k, home s (X i) k = X i k + z i k * ((s.g k).hi - (s.g k).lo) := by
  have : ∀ i k, ∃ z : ℤ, ((s.g k).per = false → z = 0) ∧ home s (X i) k = X i k + z * ((s.g k).hi - (s.g k).lo) := by
    intro i k
    by_cases hk : (s.g k).per = true
    · obtain ⟨_, _, z, hz⟩ := home_range s hv (X i) k hk
      exact ⟨z, (fun e => by rw [hk] at e; cases e), hz⟩
    · exact ⟨0, fun _ => rfl, by unfold home; rw [if_neg hk]; simp⟩
  choose z hz using this
  exact ⟨z, fun i => ⟨fun k hk => (hz i k).1 hk, fun k => (hz i k).2⟩⟩

theorem step_inv (hr : InRange h) (href : AllReflexive h) (hT : run s.cut (.init :: h) = some T) (hok : s.OK h x0)
    (e : Env) (he : e.mode.OK) {st : St} {M : Motion d} {X0 : ℕ → Fin d → ℝ} (hI : Inv s h T st M X0) (dt : ℝ) (r : Bool)
    (hb : r = true → Buildable s h (ideal s h e.im dt M).x)
    (hmv : r = false → ∀ i, s.Alive i → len ((ideal s h e.im dt M).x i - X0 i) ≤ s.skin / 2)
    (hsep : Separate s h (ideal s h e.im dt M).x) :
    ∃ st', step s T e dt r st = some st' ∧
      Inv s h T st' (ideal s h e.im dt M) (if r then (ideal s h e.im dt M).x else X0) := by
  obtain ⟨hv, hf, z, y0, l0, p0, c0, q0⟩ := hI
  set v1 := updateVelocities e.mode d (s.number * d) dt e.im st.f st.v with hv1
  set x1 := updatePositions e.mode (s.number * d) dt v1 st.x with hx1
  set w1 : ℕ → Fin d → ℝ := fun i k => M.v i k + dt / 2 * e.im i * M.f i k with hw1
  have ev : ∀ i, s.Alive i → parts d v1 i = w1 i := by
    intro i hi
    funext k
    rw [hv1, parts_vel _ he s _ _ _ _ hi.1, hv i hi, hf i hi]
  have ex : ∀ i, s.Alive i → Whole s (z i) ∧ ∀ k,
      parts d x1 i k = (ideal s h e.im dt M).x i k + z i k * ((s.g k).hi - (s.g k).lo) := by
    intro i hi
    refine ⟨(q0 i hi).1, fun k => ?_⟩
    rw [hx1, parts_pos _ he s _ _ _ hi.1, ((q0 i hi).2 k).1, ev i hi]
    simp only [ideal, hw1]; ring
  -- positions and lists after the decision
  have hbuild : ∃ lists, (if r then s.lists T (parts d (if r then wrapFlat s x1 else x1)) else some st.lists) = some lists ∧
      ∃ (z : ℕ → Fin d → ℤ) (y : ℕ → Fin d → ℝ), s.lists T y = some lists ∧
      (∀ i, s.Alive i → ∀ k, (s.g k).per = true → (s.g k).lo ≤ y i k ∧ y i k < (s.g k).hi) ∧
      (∀ i j, s.Alive i → s.Alive j → i ≠ j → ∀ p, lastSet h (s.type i) (s.type j) = some p →
        s.cut p ≤ 1 ∨ s.cell (y i) ≠ s.cell (y j)) ∧
      ∀ i, s.Alive i → Whole s (z i) ∧ ∀ k,
        parts d (if r then wrapFlat s x1 else x1) i k =
          (ideal s h e.im dt M).x i k + z i k * ((s.g k).hi - (s.g k).lo) ∧
        y i k = (if r then (ideal s h e.im dt M).x else X0) i k + z i k * ((s.g k).hi - (s.g k).lo) := by
    cases r with
    | false =>
      refine ⟨st.lists, rfl, z, y0, l0, p0, c0, fun i hi => ⟨(q0 i hi).1, fun k => ⟨?_, ?_⟩⟩⟩
      · simpa using (ex i hi).2 k
      · simpa using ((q0 i hi).2 k).2
    | true =>
      have hbt := hb rfl
      have eh := built hok.valid hbt ex
      obtain ⟨z', hz'⟩ := home_whole (s := s) hok.valid (ideal s h e.im dt M).x
      have hp : ∀ i, s.Alive i → ∀ k, (s.g k).per = true →
          (s.g k).lo ≤ parts d (wrapFlat s x1) i k ∧ parts d (wrapFlat s x1) i k < (s.g k).hi := by
        intro i hi k hk
        rw [eh i hi]
        exact ⟨(home_range s hok.valid _ k hk).1, (home_range s hok.valid _ k hk).2.1⟩
      obtain ⟨lists, e1, _⟩ := lists_spec (ok_at hok hp) hr href hT
      refine ⟨lists, by simpa using e1, z', parts d (wrapFlat s x1), e1, hp, ?_, ?_⟩
      · intro i j hi hj hij p hp
        rw [eh i hi, eh j hj]
        exact hbt.2 i j hi hj hij p hp
      · intro i hi
        refine ⟨(hz' i).1, fun k => ?_⟩
        simp only [if_true]
        rw [eh i hi]
        exact ⟨(hz' i).2 k, (hz' i).2 k⟩
  obtain ⟨lists, b1, z2, y, b2, b3, b4, b5⟩ := hbuild
  set x2 := if r then wrapFlat s x1 else x1 with hx2
  have hmv' : ∀ i, s.Alive i →
      len ((ideal s h e.im dt M).x i - (if r then (ideal s h e.im dt M).x else X0) i) ≤ s.skin / 2 := by
    intro i hi
    cases r with
    | false => simpa using hmv rfl i hi
    | true =>
      have hsk := hok.skin_nonneg
      simp [len, dot]; linarith
  have hpos : ∀ i, s.Alive i → parts d x2 i - y i =
      (ideal s h e.im dt M).x i - (if r then (ideal s h e.im dt M).x else X0) i := by
    intro i hi
    funext k
    simp only [Pi.sub_apply]
    rw [((b5 i hi).2 k).1, ((b5 i hi).2 k).2]; ring
  have hnear : ∀ i j, s.Alive i → s.Alive j →
      nearest s.g (parts d x2 i - parts d x2 j) = nearest s.g ((ideal s h e.im dt M).x i - (ideal s h e.im dt M).x j) := by
    intro i j hi hj
    apply nearest_shift s hok.valid (z := fun k => z2 i k - z2 j k)
    · intro k hk
      simp only [(b5 i hi).1 k hk, (b5 j hj).1 k hk, sub_zero]
    · intro k
      simp only [Pi.sub_apply]
      rw [((b5 i hi).2 k).1, ((b5 j hj).2 k).1]; push_cast; ring
  obtain ⟨lists', f', c1, c2, c3⟩ := C128_forces_partial s h hr href T hT y (ok_at hok b3)
    ⟨parts d x2, parts d v1, s.rd, e.im⟩ rfl (fun i hi => by rw [hpos i hi]; exact hmv' i hi) b4
    (fun i j hi hj hij hl => by rw [hnear i j hi hj]; exact hsep i j hi hj hij hl) e.doPot e.doVir e.old fun _ _ => 0
  rw [b2] at c1
  cases c1
  have hff : ∀ i, f' i = (ideal s h e.im dt M).f i := by
    intro i
    funext k
    rw [c3, zero_add]
    simp only [ideal]
    by_cases hi : s.Alive i
    · rw [if_pos hi, if_pos hi]
      refine Finset.sum_congr rfl fun j hj => ?_
      obtain ⟨j1, j2, j3⟩ := Finset.mem_filter.mp hj
      have ja : s.Alive j := ⟨Finset.mem_range.mp j1, j3⟩
      apply direct_congr
      · exact ev i hi
      · exact ev j ja
      · rfl
      · rfl
      · exact hnear i j hi ja
    · rw [if_neg hi, if_neg hi]
  refine ⟨⟨x2, updateVelocities e.mode d (s.number * d) dt e.im (flat f') v1, flat f', lists⟩, ?_, ?_, ?_, ?_⟩
  · unfold step
    simp only
    rw [← hv1, ← hx1, ← hx2, b1]
    simp only [Option.bind_some, c2, Option.map_some]
  · intro i hi
    funext k
    simp only
    rw [parts_vel _ he s _ _ _ _ hi.1, ev i hi, parts_flat, hff i]
    rfl
  · intro i hi
    simp only
    rw [parts_flat, hff i]
  · exact ⟨z2, y, b2, b3, b4, b5⟩

/-- **C129 (partial).** A run with velocity Verlet does not depend on cells, neighbour lists, wrapping of positions, containers
and vectorisation: for every system, every sequence of time steps and every sequence of decisions on construction that is
timely, the run is defined, the velocities and forces of all particles are those of the motion with forces summed over all
pairs, and the positions differ from those of that motion by whole widths of the wrapping dimensions.
Missing: that the decisions of the code are timely (false, see C29); same-cell pairs with cutoff above 1, large particles,
incomplete stencils, few cells (false of the code, see C27, C28), particles exactly on a boundary (C15). -/
theorem C129_run_partial (s : Setup d) (h : List Call) (hr : InRange h) (href : AllReflexive h) (T : FM ℝ)
    (hT : run s.cut (.init :: h) = some T) (x v f : Arr) (hok : s.OK h fun i => home s (parts d x i)) (e : Env)
    (he : e.mode.OK) (hb : Buildable s h (parts d x)) (l : List (ℝ × Bool))
    (ht : Timely s h e.im (parts d x) l ⟨parts d x, parts d v, parts d f⟩) :
    ∃ st, (start s T x v f).bind (steps s T e l) = some st ∧
      let M := l.foldl (fun M a => ideal s h e.im a.1 M) ⟨parts d x, parts d v, parts d f⟩
      ∀ i, s.Alive i → parts d st.v i = M.v i ∧ parts d st.f i = M.f i ∧
        ∀ k, ∃ z : ℤ, ((s.g k).per = false → z = 0) ∧
          parts d st.x i k = M.x i k + z * ((s.g k).hi - (s.g k).lo) := by
  have hall : ∀ (l : List (ℝ × Bool)) (st : St) (M : Motion d) (X0 : ℕ → Fin d → ℝ), Inv s h T st M X0 →
      Timely s h e.im X0 l M → ∃ st', steps s T e l st = some st' ∧
        ∃ X0', Inv s h T st' (l.foldl (fun M a => ideal s h e.im a.1 M) M) X0' := by
    intro l
    induction l with
    | nil => intro st M X0 hI _; exact ⟨st, rfl, X0, hI⟩
    | cons a l ih =>
      obtain ⟨dt, r⟩ := a
      intro st M X0 hI ht
      obtain ⟨t1, t2, t3, t4⟩ := ht
      obtain ⟨st', e1, e2⟩ := step_inv hr href hT hok e he hI dt r t1 t2 t3
      obtain ⟨st'', e3, e4⟩ := ih st' _ _ e2 t4
      refine ⟨st'', ?_, e4⟩
      unfold steps
      rw [List.foldlM_cons]
      simp only [e1]
      exact e3
  obtain ⟨z', hz'⟩ := home_whole (s := s) hok.valid (parts d x)
  have eh := built (z := fun _ _ => 0) hok.valid hb (x := x) (fun i _ => ⟨fun _ _ => rfl, fun k => by simp⟩)
  have hp : ∀ i, s.Alive i → ∀ k, (s.g k).per = true →
      (s.g k).lo ≤ parts d (wrapFlat s x) i k ∧ parts d (wrapFlat s x) i k < (s.g k).hi := by
    intro i hi k hk
    rw [eh i hi]
    exact ⟨(home_range s hok.valid _ k hk).1, (home_range s hok.valid _ k hk).2.1⟩
  obtain ⟨lists, e1, _⟩ := lists_spec (ok_at hok hp) hr href hT
  have hI : Inv s h T ⟨wrapFlat s x, v, f, lists⟩ ⟨parts d x, parts d v, parts d f⟩ (parts d x) := by
    refine ⟨fun _ _ => rfl, fun _ _ => rfl, z', parts d (wrapFlat s x), e1, hp, ?_, ?_⟩
    · intro i j hi hj hij p hp
      rw [eh i hi, eh j hj]
      exact hb.2 i j hi hj hij p hp
    · intro i hi
      refine ⟨(hz' i).1, fun k => ?_⟩
      simp only
      rw [eh i hi]
      exact ⟨(hz' i).2 k, (hz' i).2 k⟩
  obtain ⟨st, e2, X0', e3⟩ := hall l _ _ _ hI ht
  refine ⟨st, ?_, ?_⟩
  · unfold start
    rw [e1]
    exact e2
  · intro M i hi
    obtain ⟨z, y0, _, _, _, q⟩ := e3.pos
    exact ⟨e3.vel i hi, e3.force i hi, fun k => ⟨z i k, (q i hi).1 k, ((q i hi).2 k).1⟩⟩

/-! ## Fixed delays -/

/-- Spec: lists are never older than `N` steps: `a` steps have been made since the last construction. -/
def Age (N : ℕ) : ℕ → List (ℝ × Bool) → Prop
  | _, [] => True
  | a, (_, r) :: l => (r = false → a + 1 < N) ∧ Age N (if r then 0 else a + 1) l

/-- Spec: in each step no particle moves by more than `δ`, interacting particles do not coincide, and lists could be built. -/
def Slow (s : Setup d) (h : List Call) (im : ℕ → ℝ) (δ : ℝ) : List (ℝ × Bool) → Motion d → Prop
  | [], _ => True
  | (dt, _) :: l, M => (∀ i, s.Alive i → len ((ideal s h im dt M).x i - M.x i) ≤ δ) ∧
    Separate s h (ideal s h im dt M).x ∧ Buildable s h (ideal s h im dt M).x ∧ Slow s h im δ l (ideal s h im dt M)

/-- **C129 (partial).** A delay of at most `N` steps between constructions (decision types 1 and 2, see C29) is timely when no
particle moves by more than `skin / (2 (N - 1))` in a step: whatever the decisions are within the delay, the run is that of
the motion with forces summed over all pairs.
Missing: as for `C129_run_partial`; the code does not choose the delay in this way (C29). -/
theorem C129_delay_partial (s : Setup d) (h : List Call) (hr : InRange h) (href : AllReflexive h) (T : FM ℝ)
    (hT : run s.cut (.init :: h) = some T) (x v f : Arr) (hok : s.OK h fun i => home s (parts d x i)) (e : Env)
    (he : e.mode.OK) (hb : Buildable s h (parts d x)) (l : List (ℝ × Bool)) (N : ℕ) (δ : ℝ) (hδ : 0 ≤ δ)
    (hN : ((N - 1 : ℕ) : ℝ) * δ ≤ s.skin / 2) (hage : Age N 0 l)
    (hslow : Slow s h e.im δ l ⟨parts d x, parts d v, parts d f⟩) :
    ∃ st, (start s T x v f).bind (steps s T e l) = some st ∧
      let M := l.foldl (fun M a => ideal s h e.im a.1 M) ⟨parts d x, parts d v, parts d f⟩
      ∀ i, s.Alive i → parts d st.v i = M.v i ∧ parts d st.f i = M.f i ∧
        ∀ k, ∃ z : ℤ, ((s.g k).per = false → z = 0) ∧
          parts d st.x i k = M.x i k + z * ((s.g k).hi - (s.g k).lo) := by
  refine C129_run_partial s h hr href T hT x v f hok e he hb l ?_
  have hall : ∀ (l : List (ℝ × Bool)) (M : Motion d) (X0 : ℕ → Fin d → ℝ) (a : ℕ), Age N a l → Slow s h e.im δ l M →
      (∀ i, s.Alive i → len (M.x i - X0 i) ≤ a * δ) → Timely s h e.im X0 l M := by
    intro l
    induction l with
    | nil => intros; trivial
    | cons b l ih =>
      obtain ⟨dt, r⟩ := b
      intro M X0 a ha hs hm
      obtain ⟨a1, a2⟩ := ha
      obtain ⟨s1, s2, s3, s4⟩ := hs
      have hstep : ∀ i, s.Alive i → len ((ideal s h e.im dt M).x i - X0 i) ≤ (a + 1 : ℕ) * δ := by
        intro i hi
        have e1 : (ideal s h e.im dt M).x i - X0 i = ((ideal s h e.im dt M).x i - M.x i) + (M.x i - X0 i) := by
          funext k; simp
        rw [e1]
        refine (len_add _ _).trans ?_
        have h1 := s1 i hi
        have h2 := hm i hi
        push_cast
        linarith
      refine ⟨fun _ => s3, fun hr0 i hi => ?_, s2, ?_⟩
      · refine (hstep i hi).trans (le_trans ?_ hN)
        refine mul_le_mul_of_nonneg_right ?_ hδ
        have : a + 1 ≤ N - 1 := by have := a1 hr0; omega
        exact_mod_cast this
      · refine ih _ _ _ a2 s4 ?_
        intro i hi
        cases r with
        | true => simp [len, dot]
        | false => simpa using hstep i hi
  refine hall l _ _ 0 hage hslow ?_
  intro i _
  simp [len, dot]

/-! ## Momentum -/

theorem nearest_half (s : Setup d) (hv : ∀ k, (s.g k).Valid) (X : Fin d → ℝ) {k : Fin d} (hk : (s.g k).per = true) :
    |nearest s.g X k| ≤ ((s.g k).hi - (s.g k).lo) / 2 := by
  have hW : 0 < (s.g k).hi - (s.g k).lo := sub_pos.mpr (hv k).lohi
  unfold nearest
  rw [if_pos hk]
  generalize (s.g k).hi - (s.g k).lo = W at *
  have h1 := abs_sub_round (X k / W)
  have h2 : X k - W * round (X k / W) = W * (X k / W - round (X k / W)) := by field_simp
  rw [h2, abs_mul, abs_of_pos hW]
  nlinarith

/-- The nearest image of the opposite displacement is opposite, or both are half a width long in some dimension. -/
theorem nearest_neg (s : Setup d) (hv : ∀ k, (s.g k).Valid) (X : Fin d → ℝ) (k : Fin d) :
    nearest s.g (-X) k = -nearest s.g X k ∨ (s.g k).per = true ∧ |nearest s.g X k| = ((s.g k).hi - (s.g k).lo) / 2 ∧
      |nearest s.g (-X) k| = ((s.g k).hi - (s.g k).lo) / 2 := by
  have hW : 0 < (s.g k).hi - (s.g k).lo := sub_pos.mpr (hv k).lohi
  by_cases hk : (s.g k).per = true
  · have h1 := nearest_half s hv X hk
    have h2 := nearest_half s hv (-X) hk
    have e : ∃ z : ℤ, nearest s.g (-X) k = -nearest s.g X k + z * ((s.g k).hi - (s.g k).lo) := by
      refine ⟨-round (X k / ((s.g k).hi - (s.g k).lo)) - round ((-X) k / ((s.g k).hi - (s.g k).lo)), ?_⟩
      unfold nearest
      rw [if_pos hk, if_pos hk]
      simp only [Pi.neg_apply]
      push_cast; ring
    obtain ⟨z, e⟩ := e
    generalize (s.g k).hi - (s.g k).lo = W at *
    generalize nearest s.g X k = a at *
    generalize nearest s.g (-X) k = b at *
    rw [abs_le] at h1 h2
    by_cases hz : z = 0
    · left; rw [e, hz]; simp
    · right
      refine ⟨hk, ?_⟩
      rcases lt_or_gt_of_ne hz with h3 | h3
      · have h4 : (z : ℝ) ≤ -1 := by exact_mod_cast Int.le_sub_one_of_lt h3
        have h5 : b ≤ -a - W := by rw [e]; nlinarith
        have ha : a = -(W / 2) := by linarith
        have hb : b = -(W / 2) := by linarith
        rw [ha, hb, abs_neg, abs_of_pos (by linarith)]; exact ⟨rfl, rfl⟩
      · have h4 : (1 : ℝ) ≤ z := by exact_mod_cast h3
        have h5 : -a + W ≤ b := by rw [e]; nlinarith
        have ha : a = W / 2 := by linarith
        have hb : b = W / 2 := by linarith
        rw [ha, hb, abs_of_pos (by linarith)]; exact ⟨rfl, rfl⟩
  · left
    unfold nearest
    rw [if_neg hk, if_neg hk, Pi.neg_apply]

/-- Action and reaction. -/
theorem direct_anti (hok : s.OK h x0) (href : AllReflexive h) {P : Parts d} (hrd : P.rd = s.rd) {i j : ℕ} (hi : s.Alive i)
    (hj : s.Alive j) (k : Fin d) : s.direct h P j i k = -s.direct h P i j k := by
  unfold Setup.direct
  rw [lastSet_symm href (s.type j)]
  cases hp : lastSet h (s.type i) (s.type j) with
  | none => simp
  | some p =>
    simp only
    have e : P.x j - P.x i = -(P.x i - P.x j) := by funext k; simp
    rw [e]
    generalize P.x i - P.x j = X
    by_cases hall : ∀ l, nearest s.g (-X) l = -nearest s.g X l
    · have : nearest s.g (-X) = -nearest s.g X := by funext l; exact hall l
      rw [this, pushed_swap]
    · push Not at hall
      obtain ⟨l, hl⟩ := hall
      obtain ⟨hper, h1, h2⟩ := (nearest_neg s hok.valid X l).resolve_left hl
      have hw := width_ge hok hper
      have hwp := (hok.valid l).wpos
      have hsk := hok.skin_nonneg
      obtain ⟨R0, R1⟩ := reach_le hok hi hj href hp
      have hm := mss_nonneg hok hi
      rw [pushed_far, pushed_far, neg_zero]
      · rw [hrd]; exact far_len (l := l) (by rw [h1]; linarith)
      · rw [hrd, add_comm (s.rd j)]; exact far_len (l := l) (by rw [h2]; linarith)

/-- Spec: the particles that exist. -/
def live (s : Setup d) : Finset ℕ := (Finset.range s.number).filter fun i => 0 ≤ s.type i

theorem mem_live {s : Setup d} {i : ℕ} : i ∈ live s ↔ s.Alive i := by
  simp [live, Setup.Alive]

theorem sum_pairs (L : Finset ℕ) (D : ℕ → ℕ → ℝ) (hD : ∀ i ∈ L, ∀ j ∈ L, D j i = -D i j) :
    ∑ i ∈ L, ∑ j ∈ L.filter (· ≠ i), D i j = 0 := by
  have h1 : ∑ i ∈ L, ∑ j ∈ L.filter (· ≠ i), D i j = ∑ i ∈ L, ∑ j ∈ L, D i j := by
    refine Finset.sum_congr rfl fun i hi => ?_
    rw [Finset.sum_filter]
    refine Finset.sum_congr rfl fun j hj => ?_
    split_ifs with h
    · rfl
    · push Not at h
      subst h
      have := hD j hi j hi
      linarith
  have h2 : ∑ i ∈ L, ∑ j ∈ L, D i j = -∑ i ∈ L, ∑ j ∈ L, D i j := by
    conv_lhs => rw [Finset.sum_comm]
    rw [← Finset.sum_neg_distrib]
    refine Finset.sum_congr rfl fun i hi => ?_
    rw [← Finset.sum_neg_distrib]
    exact Finset.sum_congr rfl fun j hj => hD i hi j hj
  rw [h1]; linarith

open Classical in
/-- The forces of a step sum to zero. -/
theorem ideal_balance (hok : s.OK h x0) (href : AllReflexive h) (im : ℕ → ℝ) (dt : ℝ) (M : Motion d) (k : Fin d) :
    ∑ i ∈ live s, (ideal s h im dt M).f i k = 0 := by
  rw [← sum_pairs (live s) (fun i j => s.direct h ⟨(ideal s h im dt M).x, fun i k => M.v i k + dt / 2 * im i * M.f i k, s.rd, im⟩
    i j k) fun i hi j hj => direct_anti hok href rfl (mem_live.mp hi) (mem_live.mp hj) k]
  refine Finset.sum_congr rfl fun i hi => ?_
  have : (ideal s h im dt M).f i k = if s.Alive i then ∑ j ∈ (Finset.range s.number).filter (fun j => j ≠ i ∧ 0 ≤ s.type j),
      s.direct h ⟨(ideal s h im dt M).x, fun i k => M.v i k + dt / 2 * im i * M.f i k, s.rd, im⟩ i j k else 0 := rfl
  rw [this, if_pos (mem_live.mp hi)]
  refine Finset.sum_congr ?_ fun _ _ => rfl
  ext j
  simp only [live, Finset.mem_filter]
  tauto

/-- **C129, momentum (partial).** In such a run the total momentum of the particles is conserved exactly, for every number of
steps, all time steps and all decisions on construction, if the forces at the start sum to zero.
Missing: as for `C129_run_partial`. -/
theorem C129_momentum_partial (s : Setup d) (h : List Call) (hr : InRange h) (href : AllReflexive h) (T : FM ℝ)
    (hT : run s.cut (.init :: h) = some T) (x v f : Arr) (hok : s.OK h fun i => home s (parts d x i)) (e : Env)
    (he : e.mode.OK) (him : ∀ i, s.Alive i → e.im i ≠ 0) (hb : Buildable s h (parts d x)) (l : List (ℝ × Bool))
    (ht : Timely s h e.im (parts d x) l ⟨parts d x, parts d v, parts d f⟩)
    (hf : ∀ k, ∑ i ∈ live s, parts d f i k = 0) :
    ∃ st, (start s T x v f).bind (steps s T e l) = some st ∧
      ∀ k, ∑ i ∈ live s, 1 / e.im i * parts d st.v i k = ∑ i ∈ live s, 1 / e.im i * parts d v i k := by
  obtain ⟨st, e1, e2⟩ := C129_run_partial s h hr href T hT x v f hok e he hb l ht
  refine ⟨st, e1, fun k => ?_⟩
  simp only at e2
  rw [Finset.sum_congr rfl fun i hi => by rw [(e2 i (mem_live.mp hi)).1]]
  have : ∀ (l : List (ℝ × Bool)) (M : Motion d), (∑ i ∈ live s, M.f i k = 0) →
      ∑ i ∈ live s, 1 / e.im i * (l.foldl (fun M a => ideal s h e.im a.1 M) M).v i k =
        ∑ i ∈ live s, 1 / e.im i * M.v i k := by
    intro l
    induction l with
    | nil => intro M _; rfl
    | cons a l ih =>
      intro M hM
      rw [List.foldl_cons, ih _ (ideal_balance hok href e.im a.1 M k)]
      have e3 : ∀ i ∈ live s, 1 / e.im i * (ideal s h e.im a.1 M).v i k =
          1 / e.im i * M.v i k + a.1 / 2 * M.f i k + a.1 / 2 * (ideal s h e.im a.1 M).f i k := by
        intro i hi
        have := him i (mem_live.mp hi)
        have e4 : (ideal s h e.im a.1 M).v i k =
            M.v i k + a.1 / 2 * e.im i * M.f i k + a.1 / 2 * e.im i * (ideal s h e.im a.1 M).f i k := rfl
        rw [e4]
        field_simp
      rw [Finset.sum_congr rfl e3, Finset.sum_add_distrib, Finset.sum_add_distrib, ← Finset.mul_sum, ← Finset.mul_sum, hM,
        ideal_balance hok href]
      ring
  exact this l _ (hf k)

end main

/-! ## A concrete run -/

/-- The ring of `ForceSum` in a run of two steps, the second with a construction; particle 0 starts outside of the box. -/
noncomputable def ringX : Arr := fun j => if j = 0 then 481/100 else if j = 1 then 475/100 else 2

theorem home_ring : home ring (parts 1 ringX 0) 0 = 1/100 ∧ home ring (parts 1 ringX 1) 0 = 475/100 ∧
    home ring (parts 1 ringX 2) 0 = 2 := by
  refine ⟨?_, ?_, ?_⟩ <;> norm_num [home, ring, parts, ringX]

/-- All particles move with velocity 1 at first, without forces. -/
noncomputable def ringM : Motion 1 := ⟨parts 1 ringX, parts 1 fun _ => 1, parts 1 fun _ => 0⟩

theorem ring_x1 (i : ℕ) (k : Fin 1) : (ideal ring ringHist (fun _ => 1) (1/100) ringM).x i k = parts 1 ringX i k + 1/100 := by
  simp [ideal, ringM, parts]

theorem ring_direct (x : ℕ → Fin 1 → ℝ) (v : ℕ → Fin 1 → ℝ) (i j : ℕ) (hi : ring.Alive i) (hj : ring.Alive j) (p : ℕ)
    (hp : lastSet ringHist (ring.type i) (ring.type j) = some p) {Y : ℝ} (hY : nearest ring.g (x i - x j) 0 = Y) (k : Fin 1) :
    ring.direct ringHist ⟨x, v, ring.rd, fun _ => 1⟩ i j k = if |Y| < 1/5 then 10 * (1/5 - |Y|) * (Y / |Y|) else 0 := by
  have hk : k = 0 := Subsingleton.elim _ _
  subst hk
  simp only [Setup.direct, hp, pushed, len_one, hY]
  norm_num [ring, Force.mag]

theorem ring_types : lastSet ringHist (ring.type 0) (ring.type 1) = some 3 ∧
    lastSet ringHist (ring.type 1) (ring.type 0) = some 3 ∧ lastSet ringHist (ring.type 0) (ring.type 2) = some 5 ∧
    lastSet ringHist (ring.type 2) (ring.type 0) = some 5 ∧ lastSet ringHist (ring.type 1) (ring.type 2) = some 3 ∧
    lastSet ringHist (ring.type 2) (ring.type 1) = some 3 := by
  refine ⟨?_, ?_, ?_, ?_, ?_, ?_⟩ <;> simp [ring, ringHist, lastSet]

theorem ring_all (i : ℕ) (hi : i < 3) : ring.Alive i := by
  refine ⟨hi, ?_⟩
  simp only [ring]
  split_ifs <;> norm_num

theorem ring_f1 (k : Fin 1) : (ideal ring ringHist (fun _ => 1) (1/100) ringM).f 0 k = 7/5 ∧
    (ideal ring ringHist (fun _ => 1) (1/100) ringM).f 1 k = -(7/5) ∧
    (ideal ring ringHist (fun _ => 1) (1/100) ringM).f 2 k = 0 := by
  obtain ⟨t1, t2, t3, t4, t5, t6⟩ := ring_types
  have a0 := ring_all 0 (by norm_num)
  have a1 := ring_all 1 (by norm_num)
  have a2 := ring_all 2 (by norm_num)
  have n01 : nearest ring.g (parts 1 ringX 0 - parts 1 ringX 1) 0 = 6/100 := by
    norm_num [nearest, ring, parts, ringX, round_eq]
  have n10 : nearest ring.g (parts 1 ringX 1 - parts 1 ringX 0) 0 = -6/100 := by
    norm_num [nearest, ring, parts, ringX, round_eq]
  have n02 : nearest ring.g (parts 1 ringX 0 - parts 1 ringX 2) 0 = -199/100 := by
    norm_num [nearest, ring, parts, ringX, round_eq]
  have n20 : nearest ring.g (parts 1 ringX 2 - parts 1 ringX 0) 0 = 199/100 := by
    norm_num [nearest, ring, parts, ringX, round_eq]
  have n12 : nearest ring.g (parts 1 ringX 1 - parts 1 ringX 2) 0 = -205/100 := by
    norm_num [nearest, ring, parts, ringX, round_eq]
  have n21 : nearest ring.g (parts 1 ringX 2 - parts 1 ringX 1) 0 = 205/100 := by
    norm_num [nearest, ring, parts, ringX, round_eq]
  have hx : ∀ i j, (ideal ring ringHist (fun _ => 1) (1/100) ringM).x i - (ideal ring ringHist (fun _ => 1) (1/100) ringM).x j =
      parts 1 ringX i - parts 1 ringX j := by
    intro i j; funext k; simp only [Pi.sub_apply, ring_x1]; ring
  have hf : ∀ i, ring.Alive i → (ideal ring ringHist (fun _ => 1) (1/100) ringM).f i k =
      ∑ j ∈ (Finset.range 3).filter (fun j => j ≠ i), ring.direct ringHist ⟨(ideal ring ringHist (fun _ => 1) (1/100) ringM).x,
        fun i k => ringM.v i k + 1/100 / 2 * 1 * ringM.f i k, ring.rd, fun _ => 1⟩ i j k := by
    intro i hi
    simp only [ideal]
    rw [if_pos hi]
    refine Finset.sum_congr ?_ fun _ _ => rfl
    ext j
    simp only [Finset.mem_filter, Finset.mem_range]
    constructor
    · rintro ⟨h1, h2, _⟩; exact ⟨h1, h2⟩
    · rintro ⟨h1, h2⟩; exact ⟨h1, h2, (ring_all j h1).2⟩
  have s0 : (Finset.range 3).filter (fun j => j ≠ 0) = {1, 2} := by decide
  have s1 : (Finset.range 3).filter (fun j => j ≠ 1) = {0, 2} := by decide
  have s2 : (Finset.range 3).filter (fun j => j ≠ 2) = {0, 1} := by decide
  refine ⟨?_, ?_, ?_⟩
  · rw [hf 0 a0, s0, Finset.sum_pair (by norm_num), ring_direct _ _ 0 1 a0 a1 3 t1 ((congrFun (congrArg (nearest ring.g) (hx 0 1)) 0).trans n01),
      ring_direct _ _ 0 2 a0 a2 5 t3 ((congrFun (congrArg (nearest ring.g) (hx 0 2)) 0).trans n02)]
    norm_num [abs_of_pos, abs_of_neg, abs_lt]
  · rw [hf 1 a1, s1, Finset.sum_pair (by norm_num), ring_direct _ _ 1 0 a1 a0 3 t2 ((congrFun (congrArg (nearest ring.g) (hx 1 0)) 0).trans n10),
      ring_direct _ _ 1 2 a1 a2 3 t5 ((congrFun (congrArg (nearest ring.g) (hx 1 2)) 0).trans n12)]
    norm_num [abs_of_pos, abs_of_neg, abs_lt]
  · rw [hf 2 a2, s2, Finset.sum_pair (by norm_num), ring_direct _ _ 2 0 a2 a0 5 t4 ((congrFun (congrArg (nearest ring.g) (hx 2 0)) 0).trans n20),
      ring_direct _ _ 2 1 a2 a1 3 t6 ((congrFun (congrArg (nearest ring.g) (hx 2 1)) 0).trans n21)]
    norm_num [abs_of_pos, abs_of_neg, abs_lt]

theorem ring_build (x : ℕ → Fin 1 → ℝ)
    (hx : ∀ i, ring.Alive i → ∃ z : ℤ, 0 < x i 0 + z * (24/5) ∧ x i 0 + z * (24/5) < 24/5) :
    Buildable ring ringHist x := by
  refine ⟨?_, fun _ _ _ _ _ _ _ => Or.inl le_rfl⟩
  intro i hi k _ z h
  have hk : k = 0 := Subsingleton.elim _ _
  subst hk
  obtain ⟨z', h1, h2⟩ := hx i hi
  rw [h] at h1 h2
  simp only [ring, zero_add, sub_zero] at h1 h2
  have h3 : (0 : ℝ) < ((z + z' : ℤ) : ℝ) := by push_cast; linarith
  have h4 : ((z + z' : ℤ) : ℝ) < (1 : ℤ) := by push_cast; linarith
  have h5 : 0 < z + z' := by exact_mod_cast h3
  have h6 : z + z' < 1 := by exact_mod_cast h4
  omega

theorem ring_separate (x : ℕ → Fin 1 → ℝ) (h : ∀ i j, ring.Alive i → ring.Alive j → i ≠ j → ∃ z : ℤ,
      0 < x i 0 - x j 0 + z * (24/5) ∧ x i 0 - x j 0 + z * (24/5) < 24/5) : Separate ring ringHist x := by
  intro i j hi hj hij _ h0
  obtain ⟨z, h1, h2⟩ := h i j hi hj hij
  have h3 := congrFun h0 0
  simp only [nearest, ring, if_true, Pi.sub_apply, Pi.zero_apply, sub_zero] at h3
  generalize round ((x i 0 - x j 0) / (24/5)) = r at h3
  have h4 : x i 0 - x j 0 = 24/5 * (r : ℝ) := by linarith
  rw [h4] at h1 h2
  have h5 : (0 : ℝ) < ((r + z : ℤ) : ℝ) := by push_cast; linarith
  have h6 : ((r + z : ℤ) : ℝ) < (1 : ℤ) := by push_cast; linarith
  have h7 : 0 < r + z := by exact_mod_cast h5
  have h8 : r + z < 1 := by exact_mod_cast h6
  omega

/-- A run of two steps, the second with a construction, meets the hypotheses of `C129_run_partial` and
`C129_momentum_partial`; particles 0 and 1 push each other. -/
example : ring.OK ringHist (fun i => home ring (parts 1 ringX i)) ∧ Buildable ring ringHist (parts 1 ringX) ∧
    Timely ring ringHist (fun _ => 1) (parts 1 ringX) [(1/100, false), (1/100, true)]
      ringM ∧
    Age 2 0 [(1/100, false), (1/100, true)] ∧ ((2 - 1 : ℕ) : ℝ) * (1/50) ≤ ring.skin / 2 ∧
    (∀ k, ∑ i ∈ live ring, parts 1 (fun _ => 0) i k = 0) ∧
    (ideal ring ringHist (fun _ => 1) (1/100) ringM).f 0 0 = 7/5 := by
  have x1 := ring_x1
  have x2 : ∀ i k, (ideal ring ringHist (fun _ => 1) (1/100) (ideal ring ringHist (fun _ => 1) (1/100) ringM)).x i k =
      parts 1 ringX i k + 2/100 + (1/100) ^ 2 * (ideal ring ringHist (fun _ => 1) (1/100) ringM).f i k := by
    intro i k
    have e1 : (ideal ring ringHist (fun _ => 1) (1/100) ringM).v i k =
        1 + 1/100/2 * 1 * (ideal ring ringHist (fun _ => 1) (1/100) ringM).f i k := by
      simp [ideal, ringM, parts]
    have e2 : ∀ M : Motion 1, (ideal ring ringHist (fun _ => 1) (1/100) M).x i k =
        M.x i k + 1/100 * (M.v i k + 1/100/2 * 1 * M.f i k) := fun _ => rfl
    rw [e2, e1, ring_x1]; ring
  obtain ⟨f0, f1, f2⟩ := ring_f1 0
  refine ⟨?_, ?_, ⟨by simp, ?_, ?_, ?_, by simp, ?_, trivial⟩, by simp [Age], by norm_num [ring], by simp [parts], f0⟩
  · apply ok_at ring_ok
    intro i hi k hk
    exact ⟨(home_range ring ring_ok.valid _ k hk).1, (home_range ring ring_ok.valid _ k hk).2.1⟩
  · apply ring_build
    intro i hi
    rcases ring_alive hi with rfl | rfl | rfl
    · exact ⟨-1, by norm_num [parts, ringX]⟩
    · exact ⟨0, by norm_num [parts, ringX]⟩
    · exact ⟨0, by norm_num [parts, ringX]⟩
  · intro _ i _
    rw [len_one]
    have : ((ideal ring ringHist (fun _ => 1) (1/100) ringM).x i - parts 1 ringX i) 0 = 1/100 := by
      simp only [Pi.sub_apply, x1]; ring
    rw [this]; norm_num [ring]
  · apply ring_separate
    intro i j hi hj hij
    simp only [x1]
    rcases ring_alive hi with rfl | rfl | rfl <;> rcases ring_alive hj with rfl | rfl | rfl <;>
      first
      | exact absurd rfl hij
      | (refine ⟨0, ?_⟩; norm_num [parts, ringX]; done)
      | (refine ⟨1, ?_⟩; norm_num [parts, ringX]; done)
  · intro _
    apply ring_build
    intro i hi
    simp only [x2]
    rcases ring_alive hi with rfl | rfl | rfl
    · exact ⟨-1, by rw [f0]; norm_num [parts, ringX]⟩
    · exact ⟨0, by rw [f1]; norm_num [parts, ringX]⟩
    · exact ⟨0, by rw [f2]; norm_num [parts, ringX]⟩
  · apply ring_separate
    intro i j hi hj hij
    simp only [x2]
    rcases ring_alive hi with rfl | rfl | rfl <;> rcases ring_alive hj with rfl | rfl | rfl <;>
      first
      | exact absurd rfl hij
      | (refine ⟨0, ?_⟩; simp only [f0, f1, f2]; norm_num [parts, ringX]; done)
      | (refine ⟨1, ?_⟩; simp only [f0, f1, f2]; norm_num [parts, ringX]; done)

end Verif.Trajectory
