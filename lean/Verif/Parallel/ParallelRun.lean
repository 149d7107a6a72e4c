import Verif.Parallel.GhostForces
import Verif.Parallel.Ghosts
import Verif.Parallel.Collective
import Verif.GFlow.Boundary
import Mathlib.Analysis.InnerProductSpace.PiL2
import Mathlib.Algebra.Order.Round

/-!
# Parallel runs follow the motion of the serial run (C155)

The loop of `GFlow::run` (`gflow.cpp:153-268`) on any number of processors, with velocity Verlet, wrapping and open boundaries and
the central pair forces: half kick and move (`integrators/velocity-verlet.tpp:11-28`), then either a construction (wrapping, exchange
of particles, creation of ghosts, new neighbour lists; `base/interactionhandler.cpp:115-166`, `base/simdata.cpp:253-279`) or an update
of the ghosts (`gflow.cpp:188-191`), forces (`gflow.cpp:193-198`), half kick. Messages between processors are those of
`Verif.Parallel.Rounds`, in any order of events; exchange and ghosts are those of `Verif.Parallel.Exchange` and
`Verif.Parallel.Ghosts`, forces those of `Verif.Parallel.GhostForces`.

Simplifications: exact real arithmetic; no modifiers, bodies, bonded forces, other boundary conditions and removal of particles; the
neighbour lists are any lists that hold what C27, C149 say; the messages of different exchanges do not mix; all processors use the
same time steps and construct in the same steps (C144).
-/

set_option linter.unusedSectionVars false
set_option linter.unusedVariables false

namespace Verif.ParallelRun
open Verif.Rounds Verif.KDTree Verif.PairForces Verif.Exchange Verif.Ghosts Verif.GhostForces Finset

variable {n : ℕ}

/-! ## Model -/

/-- What does not change of a particle: the global id, type, radius and inverse mass. -/
structure Info where
  id : ℕ
  type : ℤ
  rd : ℝ
  im : ℝ

/-- A particle of a processor. -/
abbrev Pa (n : ℕ) := Part n Info

/-- Settings: bounds, wrapping dimensions, number of processors, what updates of ghosts contain (`base/simdata.hpp:386-390`), skin depth,
the largest cutoff of each type, and whether potentials and virials are calculated. -/
structure Setup (n : ℕ) where
  b : Bounds.Box (n + 1)
  wrap : Fin (n + 1) → Bool
  P : ℕ
  sendV : Bool
  sendOm : Bool
  skin : ℝ
  maxCut : ℤ → ℝ
  doPot : Bool
  doVir : Bool

/-- The particle in a slot of the arrays (own particles at even, ghosts at odd numbers, as in `Verif.Parallel.GhostForces`). -/
def slot (own gh : List (Pa n)) (j : ℕ) : Option (Pa n) := if j % 2 = 0 then own[j / 2]? else gh[j / 2]?

/-- The arrays of a processor: `X`, `V`, `Sg`, `Im` of `base/simdata.hpp:85-108`. -/
def arrays (own gh : List (Pa n)) : Parts (n + 1) :=
  ⟨fun j => (slot own gh j).elim 0 (·.x), fun j => (slot own gh j).elim 0 (·.v), fun j => (slot own gh j).elim 0 (·.rest.rd),
    fun j => (slot own gh j).elim 0 (·.rest.im)⟩

/-- A half kick of the own particles, `integrators/velocity-verlet.tpp:30-43,73-105`. -/
def kick (h : ℝ) (f : ℕ → Fin (n + 1) → ℝ) (own : List (Pa n)) : List (Pa n) :=
  own.mapIdx fun i a => ⟨a.x, fun k => a.v k + h * a.rest.im * f (2 * i) k, a.om, a.rest⟩

/-- The move of the own particles, `integrators/velocity-verlet.tpp:46-71`. -/
def drift (dt : ℝ) (own : List (Pa n)) : List (Pa n) := own.map fun a => ⟨fun k => a.x k + dt * a.v k, a.v, a.om, a.rest⟩

/-- From the time at which the ghosts of a step are there to the same time of the next step, on one processor: forces
(`gflow.cpp:193-198`), second half kick of the step, first half kick and move of the next. If the forces are undefined (a distance of
zero) the particles are left as they are; `C155_defined` shows that this does not happen. -/
noncomputable def advance (S : Setup n) (Ks : List Kind) (dts : ℕ → ℝ) (r p : ℕ) (own gh : List (Pa n)) : List (Pa n) :=
  match stepForces S.P S.doPot S.doVir (widths S.b S.wrap) (arrays own gh) (Ks.map (Kind.lists · p)) with
  | none => own
  | some f => drift (dts (r + 1)) (kick (dts (r + 1) / 2) f.1 (kick (dts r / 2) f.1 own))

/-- The settings of the creation and updates of ghosts, `parallel/kdtreetopology.cpp:146-290`. -/
noncomputable def cfg (S : Setup n) (Ks : List Kind) (dts : ℕ → ℝ) : Cfg n Info :=
  ⟨S.b, S.wrap, S.P, S.sendV, S.sendOm, S.skin, fun i => (i.rd, S.maxCut i.type), advance S Ks dts⟩

/-- `wrapPositions`, `gflow.cpp:548-572`. -/
noncomputable def wrapAll (S : Setup n) (own : List (Pa n)) : List (Pa n) :=
  own.map fun a => ⟨fun k => if S.wrap k then Boundary.wrap1 (S.b.lo k) (S.b.hi k) (a.x k) else a.x k, a.v, a.om, a.rest⟩

/-- A particle as the exchange sees it. -/
def toPt (a : Pa n) : Pt n (Pa n) := ⟨a.x, a.rest.type, a⟩

/-- `SimData::update` up to the exchange, `base/simdata.cpp:253-279`: positions are wrapped, particles are exchanged (in any order of
events). With one processor there is only removal. -/
def Exchanged (S : Setup n) (w w1 : ℕ → List (Pa n)) : Prop :=
  if S.P = 1 then w1 0 = (wrapAll S (w 0)).filter fun a => -1 < a.rest.type
  else ∃ sync k net, Run (Exchange.program S.b S.wrap S.P fun _ _ l => l) S.P 1 sync (fun p => (wrapAll S (w p)).map toPt) k net ∧
    ∀ p < S.P, (net.procs p).round = 1 ∧ w1 p = (net.procs p).st.map (·.info)

/-- Steps without messages, for one processor. -/
noncomputable def serial (S : Setup n) (Ks : List Kind) (dts : ℕ → ℝ) (own : List (Pa n)) : ℕ → List (Pa n)
  | 0 => own
  | r + 1 => advance S Ks dts r 0 (serial S Ks dts own r) []

/-- `R` steps without construction: ghosts are created in the first and updated in the others, in any order of events. -/
def Stepped (S : Setup n) (Ks : List Kind) (dts : ℕ → ℝ) (R : ℕ) (w1 w' : ℕ → List (Pa n)) : Prop :=
  if S.P = 1 then w' 0 = serial S Ks dts (w1 0) R
  else ∃ sync k net, Run (Ghosts.program (cfg S Ks dts)) S.P R sync (fun p => ⟨w1 p, fun _ => [], [], fun _ => 0⟩) k net ∧
    ∀ p < S.P, (net.procs p).round = R ∧ w' p = (net.procs p).st.owned

/-! ## Specification -/

/-- Where the particle with an id is. -/
def whereabouts (P : ℕ) (w : ℕ → List (Pa n)) (id : ℕ) : Option (ℕ × Pa n) :=
  ((List.range P).flatMap fun p => (w p).map fun a => (p, a)).find? fun q => q.2.rest.id == id

/-- Spec: the whole system, by ids. -/
noncomputable def worldOf (S : Setup n) (N : ℕ) (w : ℕ → List (Pa n)) : World (n + 1) :=
  ⟨N, S.P, fun id => (whereabouts S.P w id).elim 0 (·.1), widths S.b S.wrap,
    ⟨fun id => (whereabouts S.P w id).elim 0 (·.2.x), fun id => (whereabouts S.P w id).elim 0 (·.2.v),
      fun id => (whereabouts S.P w id).elim 0 (·.2.rest.rd), fun id => (whereabouts S.P w id).elim 0 (·.2.rest.im)⟩⟩

/-- Spec: what a processor holds. -/
def procOf (own gh : List (Pa n)) : Proc (n + 1) :=
  ⟨own.length, gh.length, fun i => own[i]?.elim 0 (·.rest.id), fun g => gh[g]?.elim 0 (·.rest.id), arrays own gh⟩

/-- Spec: `a`, `b` interact, and are closer than cutoff and skin depth. -/
def InRange (W : World (n + 1)) (K : Kind) (skin : ℝ) (a b : ℕ) : Prop :=
  K.uses a b ∧ len (sep W.w W.G (a, b)) < (W.G.rd a + W.G.rd b) * K.cutoff + skin

open Classical in
/-- Spec: neighbour lists as they should be when they are made (C27, C149): only pairs the interaction is for; pairs in the plain list
need no correction even if they move by the skin depth; all pairs in range once. -/
structure Complete (W : World (n + 1)) (p : ℕ) (L : Proc (n + 1)) (K : Kind) (skin : ℝ) : Prop where
  own_lt : ∀ q ∈ K.plain p ++ K.wrapped p, q.1 < L.num ∧ q.2 < L.num ∧ q.1 ≠ q.2 ∧ K.uses (L.own q.1) (L.own q.2)
  plain_near : ∀ q ∈ K.plain p, ∀ k B, W.w k = some B → |W.G.x (L.own q.1) k - W.G.x (L.own q.2) k| ≤ B / 2 - skin
  ghost_lt : ∀ q ∈ K.ghost p, q.1 < L.ghosts ∧ q.2 < L.num ∧ K.uses (L.gh q.1) (L.own q.2)
  once : ∀ a < W.n, ∀ b < W.n, a ≠ b → W.owner a = p → W.owner b = p → InRange W K skin a b →
    ((K.plain p ++ K.wrapped p).map fun q => (L.own q.1, L.own q.2)).count (a, b) +
      ((K.plain p ++ K.wrapped p).map fun q => (L.own q.1, L.own q.2)).count (b, a) = 1
  ghost_once : ∀ a < W.n, ∀ b < W.n, W.owner a ≠ p → W.owner b = p → InRange W K skin a b →
    ((K.ghost p).map fun q => (L.gh q.1, L.own q.2)).count (a, b) = 1

/-- Spec: the physical system: number of particles, radii, inverse masses, and forces (with cutoff, and the pairs they are for). -/
structure Sys where
  N : ℕ
  rd : ℕ → ℝ
  im : ℕ → ℝ
  forces : List (Force × ℝ × (ℕ → ℕ → Prop))

/-- A cycle: a construction, and `R` steps. The lists are complete for the particles after the exchange and their ghosts. -/
def Cycle (S : Setup n) (sys : Sys) (dts : ℕ → ℝ) (R : ℕ) (w w' : ℕ → List (Pa n)) : Prop :=
  ∃ w1 Ks, Exchanged S w w1 ∧ (Ks.map fun K : Kind => (K.F, K.cutoff, K.uses)) = sys.forces ∧
    (∀ K ∈ Ks, ∀ p < S.P, Complete (worldOf S sys.N w1) p (procOf (w1 p) (view (cfg S Ks dts) w1 w1 0 p)) K S.skin) ∧
    Stepped S Ks dts R w1 w'

/-- `Runs S sys dts w0 l w`: from the particles `w0` (moved, before the first construction) cycles of the lengths `l` lead to `w`; the
time steps are `dts 0`, `dts 1`, …. -/
inductive Runs (S : Setup n) (sys : Sys) (dts : ℕ → ℝ) (w0 : ℕ → List (Pa n)) : List ℕ → (ℕ → List (Pa n)) → Prop where
  | init : Runs S sys dts w0 [] w0
  | cycle (l : List ℕ) (R : ℕ) (w w' : ℕ → List (Pa n)) (h : Runs S sys dts w0 l w)
      (hc : Cycle S sys (fun r => dts (l.sum + r)) R w w') : Runs S sys dts w0 (l ++ [R]) w'

/-- Spec: positions (never wrapped) and velocities of all particles, by ids. -/
structure Motion (n : ℕ) where
  x : ℕ → Fin (n + 1) → ℝ
  v : ℕ → Fin (n + 1) → ℝ

/-- Spec: the nearest image of a displacement. -/
noncomputable def near (w : Fin (n + 1) → Option ℝ) (X : Fin (n + 1) → ℝ) : Fin (n + 1) → ℝ := fun k =>
  match w k with
  | none => X k
  | some B => X k - B * round (X k / B)

open Classical in
/-- Spec: the force of `b` on `a` if their displacement (of nearest images) is `Y`. -/
noncomputable def push (F : Force) (cutoff : ℝ) (P : Parts (n + 1)) (a b : ℕ) (Y : Fin (n + 1) → ℝ) (k : Fin (n + 1)) : ℝ :=
  if len Y ^ 2 < ((P.rd a + P.rd b) * cutoff) ^ 2 then F.mag P a b (fun l => Y l / len Y) (len Y) * (Y k / len Y) else 0

open Classical in
/-- Spec: the force on `a`: the sum over all forces and all other particles. -/
noncomputable def total (sys : Sys) (w : Fin (n + 1) → Option ℝ) (M : Motion n) (a : ℕ) (k : Fin (n + 1)) : ℝ :=
  (sys.forces.map fun T => ∑ b ∈ (range sys.N).erase a,
    if T.2.2 a b then push T.1 T.2.1 ⟨M.x, M.v, sys.rd, sys.im⟩ a b (near w (M.x a - M.x b)) k else 0).sum

/-- Spec: from one step to the next: half a kick of the time step `dt`, then half a kick and the move of the next, `dt'`. -/
noncomputable def next (sys : Sys) (w : Fin (n + 1) → Option ℝ) (dt dt' : ℝ) (M : Motion n) : Motion n :=
  let v := fun a k => M.v a k + dt / 2 * sys.im a * total sys w M a k + dt' / 2 * sys.im a * total sys w M a k
  ⟨fun a k => M.x a k + dt' * v a k, v⟩

/-- Spec: the motion without processors, wrapping, cells, lists and ghosts. -/
noncomputable def orbit (sys : Sys) (w : Fin (n + 1) → Option ℝ) (dts : ℕ → ℝ) (M0 : Motion n) : ℕ → Motion n
  | 0 => M0
  | t + 1 => next sys w (dts t) (dts (t + 1)) (orbit sys w dts M0 t)

/-- Spec: the processors hold every particle once, together, with the velocities of `M`, and the positions of `M` up to whole widths
in wrapping dimensions. -/
structure Follows (S : Setup n) (sys : Sys) (M : Motion n) (w : ℕ → List (Pa n)) : Prop where
  once : ((List.range S.P).flatMap fun p => (w p).map (·.rest.id)).Perm (List.range sys.N)
  data : ∀ p < S.P, ∀ a ∈ w p, a.rest.rd = sys.rd a.rest.id ∧ a.rest.im = sys.im a.rest.id ∧ -1 < a.rest.type
  vel : ∀ p < S.P, ∀ a ∈ w p, a.v = M.v a.rest.id
  pos : ∀ p < S.P, ∀ a ∈ w p, ∀ k, ∃ m : ℤ, a.x k = M.x a.rest.id k + m * (S.b.hi k - S.b.lo k) ∧ (S.wrap k = false → m = 0)

/-- Spec: the force does not depend on velocities. -/
def VelocityFree (F : Force) : Prop := ∀ (d : ℕ) (P Q : Parts d) (i j : ℕ) (n : Fin d → ℝ) (r : ℝ),
  P.rd = Q.rd → P.im = Q.im → F.mag P i j n r = F.mag Q i j n r

/-- Spec: box, processors and forces fit: in wrapping dimensions the skin depth is at most half of the box and the width of each
processor, and forces reach at most half of the box; interactions are symmetric; velocities of ghosts are sent if they matter. -/
structure Fits (S : Setup n) (sys : Sys) : Prop where
  procs : 1 ≤ S.P
  lohi : ∀ k, S.b.lo k < S.b.hi k
  skin0 : 0 ≤ S.skin
  skin : ∀ k, S.wrap k = true → S.skin ≤ (S.b.hi k - S.b.lo k) / 2 ∧
    ∀ p < S.P, S.skin ≤ (processBounds S.b S.P p).hi k - (processBounds S.b S.P p).lo k
  reach : ∀ T ∈ sys.forces, ∀ a < sys.N, ∀ b < sys.N, 0 ≤ (sys.rd a + sys.rd b) * T.2.1 ∧
    ∀ k, S.wrap k = true → (sys.rd a + sys.rd b) * T.2.1 ≤ (S.b.hi k - S.b.lo k) / 2
  symm : ∀ T ∈ sys.forces, ∀ a b, T.2.2 a b → T.2.2 b a
  velocity : S.sendV = true ∨ ∀ T ∈ sys.forces, VelocityFree T.1

/-- Spec: between two constructions no particle moves by more than half of the skin depth. -/
def Timely (sys : Sys) (skin : ℝ) (M : ℕ → Motion n) (l : List ℕ) : Prop :=
  ∀ l1 R l2, l = l1 ++ R :: l2 → ∀ r < R, ∀ a < sys.N, len ((M (l1.sum + r)).x a - (M l1.sum).x a) ≤ skin / 2

/-- Spec: no two particles are in the same place. -/
def Separate (sys : Sys) (w : Fin (n + 1) → Option ℝ) (M : ℕ → Motion n) (T : ℕ) : Prop :=
  ∀ t < T, ∀ a < sys.N, ∀ b < sys.N, a ≠ b → near w ((M t).x a - (M t).x b) ≠ 0

/-! ## Proofs: images -/

theorem len_add (X Y : Fin (n + 1) → ℝ) : len (X + Y) ≤ len X + len Y := by
  have h : ∀ X : Fin (n + 1) → ℝ, len X = ‖(WithLp.toLp 2 X : EuclideanSpace ℝ (Fin (n + 1)))‖ := by
    intro X
    rw [EuclideanSpace.norm_eq]
    unfold len dot
    congr 1
    exact sum_congr rfl fun k _ => by simp [pow_two]
  rw [h, h, h, WithLp.toLp_add]
  exact norm_add_le _ _

theorem len_nonneg (X : Fin (n + 1) → ℝ) : 0 ≤ len X := Real.sqrt_nonneg _

theorem abs_le_len (X : Fin (n + 1) → ℝ) (k : Fin (n + 1)) : |X k| ≤ len X := by
  apply abs_le_of_sq_le_sq _ (len_nonneg X)
  rw [len_sq]
  exact sq_le_dot X k

theorem len_mono {X Y : Fin (n + 1) → ℝ} (h : ∀ k, |X k| ≤ |Y k|) : len X ≤ len Y := by
  unfold len dot
  apply Real.sqrt_le_sqrt
  refine sum_le_sum fun k _ => ?_
  rw [← abs_mul_abs_self, ← abs_mul_abs_self (Y k)]
  exact mul_self_le_mul_self (abs_nonneg _) (h k)

theorem len_congr {X Y : Fin (n + 1) → ℝ} (h : ∀ k, |X k| = |Y k|) : len X = len Y :=
  le_antisymm (len_mono fun k => (h k).le) (len_mono fun k => (h k).ge)

/-- The correction of a displacement of at most 3/2 widths. -/
theorem correct_some {w : Fin (n + 1) → Option ℝ} {X : Fin (n + 1) → ℝ} {k : Fin (n + 1)} {B : ℝ} (hk : w k = some B)
    (hX : |X k| ≤ 3 / 2 * B) : |correct w X k| ≤ B / 2 ∧ ∃ m : ℤ, correct w X k = X k + m * B := by
  unfold correct
  rw [hk]
  simp only
  by_cases h : B - |X k| < |X k|
  · rw [if_pos h]
    by_cases hp : X k > 0
    · rw [if_pos hp]
      rw [abs_of_pos hp] at h hX ⊢
      exact ⟨abs_le.mpr ⟨by linarith, by linarith⟩, -1, by push_cast; ring⟩
    · rw [if_neg hp]
      rw [abs_of_nonpos (not_lt.mp hp)] at h hX ⊢
      exact ⟨abs_le.mpr ⟨by linarith, by linarith⟩, 1, by push_cast; ring⟩
  · rw [if_neg h]
    exact ⟨by linarith, 0, by simp⟩

theorem correct_none {w : Fin (n + 1) → Option ℝ} {X : Fin (n + 1) → ℝ} {k : Fin (n + 1)} (hk : w k = none) : correct w X k = X k := by
  unfold correct
  rw [hk]

/-- No image is closer than one within half of the width. -/
theorem half_le {B u y : ℝ} (hB : 0 < B) (hu : |u| ≤ B / 2) {m : ℤ} (h : y = u + m * B) : |u| ≤ |y| := by
  obtain ⟨u1, u2⟩ := abs_le.mp hu
  rcases lt_trichotomy m 0 with hm | rfl | hm
  · have : (m : ℝ) ≤ -1 := by exact_mod_cast Int.le_sub_one_of_lt hm
    have : y ≤ -(B / 2) := by rw [h]; nlinarith
    rw [abs_of_nonpos (by linarith : y ≤ 0)]; linarith
  · rw [h]; simp
  · have : (1 : ℝ) ≤ m := by exact_mod_cast hm
    have : B / 2 ≤ y := by rw [h]; nlinarith
    rw [abs_of_nonneg (by linarith : 0 ≤ y)]; linarith

/-- Two images within half of the width. -/
theorem half_eq {B u y : ℝ} (hB : 0 < B) (hu : |u| ≤ B / 2) (hy : |y| ≤ B / 2) {m : ℤ} (h : y = u + m * B) :
    |y| = |u| ∧ (|u| < B / 2 → y = u) := by
  refine ⟨le_antisymm (half_le hB hy (m := -m) (by rw [h]; push_cast; ring)) (half_le hB hu h), fun hlt => ?_⟩
  obtain ⟨u1, u2⟩ := abs_lt.mp hlt
  obtain ⟨y1, y2⟩ := abs_le.mp hy
  have hm : m = 0 := by
    by_contra hm
    rcases lt_or_gt_of_ne hm with h1 | h1
    · have : (m : ℝ) ≤ -1 := by exact_mod_cast Int.le_sub_one_of_lt h1
      nlinarith
    · have : (1 : ℝ) ≤ m := by exact_mod_cast h1
      nlinarith
  rw [h, hm]; simp

theorem near_some {w : Fin (n + 1) → Option ℝ} {X : Fin (n + 1) → ℝ} {k : Fin (n + 1)} {B : ℝ} (hk : w k = some B) (hB : 0 < B) :
    |near w X k| ≤ B / 2 ∧ ∃ m : ℤ, near w X k = X k + m * B := by
  unfold near
  rw [hk]
  simp only
  refine ⟨?_, -round (X k / B), by push_cast; ring⟩
  have h := abs_sub_round (X k / B)
  have e : X k - B * round (X k / B) = (X k / B - round (X k / B)) * B := by
    rw [sub_mul, div_mul_cancel₀ _ hB.ne']; ring
  rw [e, abs_mul, abs_of_pos hB]
  nlinarith

theorem near_none {w : Fin (n + 1) → Option ℝ} {X : Fin (n + 1) → ℝ} {k : Fin (n + 1)} (hk : w k = none) : near w X k = X k := by
  unfold near
  rw [hk]

/-- The corrected displacement of the arrays and the nearest image of the motion. -/
theorem correct_near {w : Fin (n + 1) → Option ℝ} {X Y : Fin (n + 1) → ℝ} (hw : ∀ k B, w k = some B → 0 < B ∧ |X k| ≤ 3 / 2 * B)
    (h : ∀ k, match w k with | none => X k = Y k | some B => ∃ m : ℤ, X k = Y k + m * B) :
    len (correct w X) = len (near w Y) ∧ ((∀ k B, w k = some B → len (near w Y) < B / 2) → correct w X = near w Y) := by
  have key : ∀ k, |correct w X k| = |near w Y k| ∧ ((∀ B, w k = some B → |near w Y k| < B / 2) → correct w X k = near w Y k) := by
    intro k
    have hk := h k
    cases e : w k with
    | none =>
      rw [e] at hk
      rw [correct_none e, near_none e, hk]; simp
    | some B =>
      rw [e] at hk
      obtain ⟨m, hm⟩ := hk
      obtain ⟨hB, hX⟩ := hw k B e
      obtain ⟨c1, m1, c2⟩ := correct_some e hX
      obtain ⟨d1, m2, d2⟩ := near_some (X := Y) e hB
      have := half_eq hB d1 c1 (m := m + m1 - m2) (by rw [c2, d2, hm]; push_cast; ring)
      exact ⟨this.1, fun hlt => this.2 (hlt B rfl)⟩
  refine ⟨len_congr fun k => (key k).1, fun hl => ?_⟩
  funext k
  exact (key k).2 fun B e => lt_of_le_of_lt (abs_le_len _ k) (hl k B e)

/-- Images move with the particles. -/
theorem correct_moved {w : Fin (n + 1) → Option ℝ} {X X0 : Fin (n + 1) → ℝ}
    (hw : ∀ k B, w k = some B → 0 < B ∧ |X k| ≤ 3 / 2 * B ∧ |X0 k| ≤ 3 / 2 * B) :
    len (correct w X0) ≤ len (correct w X) + len (X0 - X) := by
  refine le_trans ?_ (len_add _ _)
  apply len_mono
  intro k
  rw [Pi.add_apply, Pi.sub_apply]
  cases e : w k with
  | none => rw [correct_none e, correct_none e]; simp
  | some B =>
    obtain ⟨hB, h1, h2⟩ := hw k B e
    obtain ⟨c1, m1, c2⟩ := correct_some e h1
    obtain ⟨d1, m2, d2⟩ := correct_some e h2
    exact half_le hB d1 (m := m1 - m2) (by rw [c2, d2]; push_cast; ring)

/-- Lists that were complete stay good while particles move by at most half of the skin depth. -/
theorem complete_listed {W0 W : World (n + 1)} {p : ℕ} {L0 L : Proc (n + 1)} {K : Kind} {skin : ℝ} (hN : W.n = W0.n) (hw : W.w = W0.w)
    (ho : ∀ a < W0.n, W.owner a = W0.owner a) (hrd : ∀ a < W0.n, W.G.rd a = W0.G.rd a) (h1 : L.num = L0.num) (h2 : L.ghosts = L0.ghosts)
    (h3 : L.own = L0.own) (h4 : L.gh = L0.gh) (hmv : ∀ a < W0.n, len (W.G.x a - W0.G.x a) ≤ skin / 2)
    (hown : ∀ i < L0.num, L0.own i < W0.n)
    (hbox : ∀ k B, W0.w k = some B → 0 < B ∧ ∀ a < W0.n, ∀ b < W0.n, |W.G.x a k - W.G.x b k| ≤ 3 / 2 * B ∧ |W0.G.x a k - W0.G.x b k| ≤ 3 / 2 * B)
    (hreach : ∀ a < W0.n, ∀ b < W0.n, 0 ≤ (W0.G.rd a + W0.G.rd b) * K.cutoff) (h : Complete W0 p L0 K skin) : Listed W p L K := by
  have hnear : ∀ a < W0.n, ∀ b < W0.n, Near W K a b → InRange W0 K skin a b := by
    intro a ha b hb hn
    refine ⟨hn.1, ?_⟩
    have h5 := hn.2
    rw [hrd a ha, hrd b hb] at h5
    have h6 := abs_lt_of_sq_lt_sq h5 (hreach a ha b hb)
    rw [abs_of_nonneg (len_nonneg _)] at h6
    have h7 : len (sep W0.w W0.G (a, b)) ≤ len (sep W.w W.G (a, b)) + len ((W0.G.x a - W0.G.x b) - (W.G.x a - W.G.x b)) := by
      unfold sep
      rw [hw]
      apply correct_moved
      intro k B e
      obtain ⟨q1, q2⟩ := hbox k B e
      exact ⟨q1, (q2 a ha b hb).1, (q2 a ha b hb).2⟩
    have h8 : (W0.G.x a - W0.G.x b) - (W.G.x a - W.G.x b) = -(W.G.x a - W0.G.x a) + (W.G.x b - W0.G.x b) := by
      funext k; simp; ring
    rw [h8] at h7
    have h9 := len_add (-(W.G.x a - W0.G.x a)) (W.G.x b - W0.G.x b)
    rw [len_neg] at h9
    linarith [hmv a ha, hmv b hb]
  refine ⟨?_, ?_, ?_, ?_, ?_⟩
  · rw [h1, h3]; exact h.own_lt
  · intro q hq k B e
    rw [hw] at e
    obtain ⟨q1, q2, _⟩ := h.own_lt q (List.mem_append_left _ hq)
    have r := h.plain_near q hq k B e
    have s1 := (abs_le_len _ k).trans (hmv _ (hown _ q1))
    have s2 := (abs_le_len _ k).trans (hmv _ (hown _ q2))
    rw [h3]
    rw [Pi.sub_apply] at s1 s2
    rw [abs_le] at *
    constructor <;> linarith [r.1, r.2, s1.1, s1.2, s2.1, s2.2]
  · rw [h2, h1, h3, h4]; exact h.ghost_lt
  · rw [hN, h3]
    intro a ha b hb hab oa ob hn
    exact h.once a ha b hb hab (by rw [← ho a ha]; exact oa) (by rw [← ho b hb]; exact ob) (hnear a ha b hb hn)
  · rw [hN, h3, h4]
    intro a ha b hb oa ob hn
    exact h.ghost_once a ha b hb (by rw [← ho a ha]; exact oa) (by rw [← ho b hb]; exact ob) (hnear a ha b hb hn)

/-! ## Proofs: velocities of ghosts that do not matter -/

section velocity
variable {d : ℕ} {P Q : Parts d}

theorem visit_free (hx : P.x = Q.x) (hrd : P.rd = Q.rd) (him : P.im = Q.im) {F : Force} (hF : VelocityFree F) (c : ℝ) (doPot doVir : Bool)
    (w : Fin d → Option ℝ) : visit F c doPot doVir w P = visit F c doPot doVir w Q := by
  funext a q
  unfold visit kernel
  have e : ∀ i j r, F.pot P i j r = F.pot Q i j r := by
    intro i j r
    cases F <;> simp only [Force.pot, hrd]
  simp only [hx, hrd, hF d P Q _ _ _ _ hrd him, e]

theorem dolist_free (hx : P.x = Q.x) (hrd : P.rd = Q.rd) (him : P.im = Q.im) {F : Force} (hF : VelocityFree F) (c : ℝ) (doPot doVir : Bool)
    (w : Fin d → Option ℝ) : dolist F c doPot doVir w P = dolist F c doPot doVir w Q := by
  funext l a
  unfold dolist
  rw [visit_free hx hrd him hF]

theorem stepForces_free (hx : P.x = Q.x) (hrd : P.rd = Q.rd) (him : P.im = Q.im) (procs : ℕ) (doPot doVir : Bool) (w : Fin d → Option ℝ)
    (is : List Lists) (hF : ∀ I ∈ is, VelocityFree I.F) : stepForces procs doPot doVir w P is = stepForces procs doPot doVir w Q is := by
  have h1 : ∀ (is : List Lists), (∀ I ∈ is, VelocityFree I.F) → ∀ f, interactAll doPot doVir w P is f = interactAll doPot doVir w Q is f := by
    intro is
    induction is with
    | nil => intro _ f; rfl
    | cons I is ih =>
      intro h f
      unfold interactAll interact
      rw [dolist_free hx hrd him (h I (by simp)), dolist_free hx hrd him (h I (by simp))]
      congr 1
      funext a
      rw [ih fun J hJ => h J (List.mem_cons_of_mem _ hJ)]
  have h2 : ∀ (is : List Lists), (∀ I ∈ is, VelocityFree I.F) → ∀ f es, ghostsAll doPot doVir w P is f es = ghostsAll doPot doVir w Q is f es := by
    intro is
    induction is with
    | nil => intro _ f es; cases es <;> rfl
    | cons I is ih =>
      intro h f es
      cases es with
      | nil => rfl
      | cons e es =>
        unfold ghostsAll
        rw [dolist_free hx hrd him (h I (by simp))]
        congr 1
        funext a
        rw [ih fun J hJ => h J (List.mem_cons_of_mem _ hJ)]
  unfold stepForces
  rw [h1 is hF]
  congr 1
  funext r
  rw [h2 is hF]

end velocity

/-! ## Proofs: the particles of all processors -/

theorem find_nodup {α : Type} (f : α → ℕ) (l : List α) (h : (l.map f).Nodup) {x : α} (hx : x ∈ l) : l.find? (fun y => f y == f x) = some x := by
  induction l with
  | nil => simp at hx
  | cons y l ih =>
    rw [List.map_cons, List.nodup_cons] at h
    rcases List.mem_cons.mp hx with rfl | hx
    · simp
    · have : f y ≠ f x := fun e => h.1 (e ▸ List.mem_map_of_mem hx)
      rw [List.find?_cons_of_neg (by simpa using this), ih h.2 hx]

/-- Every id once. -/
def Once (P N : ℕ) (w : ℕ → List (Pa n)) : Prop := ((List.range P).flatMap fun p => (w p).map (·.rest.id)).Perm (List.range N)

section whole
variable {P N : ℕ} {w : ℕ → List (Pa n)}

theorem all_map : ((List.range P).flatMap fun p => (w p).map fun a => (p, a)).map (fun q => q.2.rest.id) =
    (List.range P).flatMap fun p => (w p).map (·.rest.id) := by
  simp [List.map_flatMap, Function.comp_def]

theorem where_eq (h : Once P N w) {p : ℕ} (hp : p < P) {a : Pa n} (ha : a ∈ w p) : whereabouts P w a.rest.id = some (p, a) := by
  unfold whereabouts
  have := find_nodup (fun q : ℕ × Pa n => q.2.rest.id) ((List.range P).flatMap fun p => (w p).map fun a => (p, a))
    (by rw [all_map]; exact (List.Perm.nodup_iff h).mpr List.nodup_range) (x := (p, a))
    (List.mem_flatMap.mpr ⟨p, List.mem_range.mpr hp, List.mem_map_of_mem ha⟩)
  exact this

theorem id_lt (h : Once P N w) {p : ℕ} (hp : p < P) {a : Pa n} (ha : a ∈ w p) : a.rest.id < N :=
  List.mem_range.mp (h.subset (List.mem_flatMap.mpr ⟨p, List.mem_range.mpr hp, List.mem_map_of_mem ha⟩))

theorem exists_id (h : Once P N w) {id : ℕ} (hid : id < N) : ∃ p < P, ∃ a ∈ w p, a.rest.id = id := by
  obtain ⟨p, hp, ha⟩ := List.mem_flatMap.mp (h.symm.subset (List.mem_range.mpr hid))
  obtain ⟨a, ha, e⟩ := List.mem_map.mp ha
  exact ⟨p, List.mem_range.mp hp, a, ha, e⟩

theorem world_at {S : Setup n} (h : Once S.P N w) {p : ℕ} (hp : p < S.P) {a : Pa n} (ha : a ∈ w p) :
    (worldOf S N w).owner a.rest.id = p ∧ (worldOf S N w).G.x a.rest.id = a.x ∧ (worldOf S N w).G.v a.rest.id = a.v ∧
      (worldOf S N w).G.rd a.rest.id = a.rest.rd ∧ (worldOf S N w).G.im a.rest.id = a.rest.im := by
  unfold worldOf
  simp only [where_eq h hp ha, Option.elim_some, and_self]

theorem own_inj (h : Once P N w) {p : ℕ} (hp : p < P) {i j : ℕ} {a a' : Pa n} (hi : (w p)[i]? = some a) (hj : (w p)[j]? = some a')
    (e : a.rest.id = a'.rest.id) : i = j := by
  have hn : ((w p).map (·.rest.id)).Nodup := by
    have : ((List.range P).flatMap fun p => (w p).map (·.rest.id)).Nodup := (List.Perm.nodup_iff h).mpr List.nodup_range
    exact (List.nodup_flatMap.mp this).1 p (List.mem_range.mpr hp)
  obtain ⟨h1, h2⟩ := List.getElem?_eq_some_iff.mp hi
  obtain ⟨h3, h4⟩ := List.getElem?_eq_some_iff.mp hj
  have := (List.Nodup.getElem_inj_iff hn (i := i) (j := j) (hi := by simpa using h1) (hj := by simpa using h3)).mp
    (by simp only [List.getElem_map, h2, h4, e])
  exact this

end whole

theorem slot_own (own gh : List (Pa n)) (i : ℕ) : slot own gh (2 * i) = own[i]? := by
  unfold slot
  rw [if_pos (by omega)]
  congr 1; omega

theorem slot_gh (own gh : List (Pa n)) (g : ℕ) : slot own gh (2 * g + 1) = gh[g]? := by
  unfold slot
  rw [if_neg (by omega)]
  congr 1; omega

theorem mem_view {c : Cfg n Info} {w0 w : ℕ → List (Pa n)} {r p : ℕ} {g : Pa n} (h : g ∈ view c w0 w r p) :
    ∃ q ∈ nbs c.b c.wrap c.P p, ∃ (id : ℕ) (a0 a : Pa n), (w0 q)[id]? = some a0 ∧ (w q)[id]? = some a ∧ g = snapshot c p r a0 a := by
  unfold view at h
  obtain ⟨q, hq, h⟩ := List.mem_flatMap.mp h
  obtain ⟨id, _, h⟩ := List.mem_filterMap.mp h
  obtain ⟨a0, h0, h⟩ := Option.bind_eq_some_iff.mp h
  obtain ⟨a, h1, h⟩ := Option.map_eq_some_iff.mp h
  exact ⟨q, hq, id, a0, a, h0, h1, h.symm⟩

theorem view_rest (c : Cfg n Info) (w0 w : ℕ → List (Pa n)) (r p : ℕ)
    (h : ∀ q ∈ nbs c.b c.wrap c.P p, (w q).length = (w0 q).length) :
    (view c w0 w r p).map (·.rest) = (view c w0 w0 0 p).map (·.rest) := by
  unfold view
  rw [List.map_flatMap, List.map_flatMap]
  rw [List.flatMap_def, List.flatMap_def]
  congr 1
  apply List.map_congr_left
  intro q hq
  rw [List.map_filterMap, List.map_filterMap]
  congr 1
  funext id
  cases e : (w0 q)[id]? with
  | none => rfl
  | some a0 =>
    have : id < (w q).length := by
      rw [h q hq]
      exact (List.getElem?_eq_some_iff.mp e).1
    simp [List.getElem?_eq_getElem this, snapshot]

/-! ## Proofs: a step -/

theorem nbs_one (b : Bounds.Box (n + 1)) (wrap : Fin (n + 1) → Bool) (p : ℕ) (hp : p < 1) : nbs b wrap 1 p = [] := by
  obtain rfl : p = 0 := by omega
  unfold nbs neighbors topology
  rw [decomp_eq]
  simp [leaves]

theorem widths_some {S : Setup n} {k : Fin (n + 1)} {B : ℝ} (h : widths S.b S.wrap k = some B) : S.wrap k = true ∧ B = S.b.hi k - S.b.lo k := by
  unfold widths at h
  by_cases hw : S.wrap k = true
  · rw [if_pos hw] at h
    exact ⟨hw, (Option.some.inj h).symm⟩
  · rw [if_neg hw] at h; cases h

theorem widths_none {S : Setup n} {k : Fin (n + 1)} (h : widths S.b S.wrap k = none) : S.wrap k = false := by
  unfold widths at h
  by_cases hw : S.wrap k = true
  · rw [if_pos hw] at h; cases h
  · simpa using hw

/-- (For proofs.) The particles in the slots are those of the last construction, moved like the motion. -/
def Track (P : ℕ) (M0 M : Motion n) (w1 w : ℕ → List (Pa n)) : Prop :=
  ∀ p < P, (w p).length = (w1 p).length ∧ ∀ (i : ℕ) (a1 : Pa n), (w1 p)[i]? = some a1 → ∃ a : Pa n, (w p)[i]? = some a ∧ a.rest = a1.rest ∧
    a.v = M.v a1.rest.id ∧ ∀ k, a.x k = a1.x k + (M.x a1.rest.id k - M0.x a1.rest.id k)

theorem Track.back {P : ℕ} {M0 M : Motion n} {w1 w : ℕ → List (Pa n)} (h : Track P M0 M w1 w) {p : ℕ} (hp : p < P) {i : ℕ} {a : Pa n}
    (ha : (w p)[i]? = some a) : ∃ a1, (w1 p)[i]? = some a1 ∧ a.rest = a1.rest ∧ a.v = M.v a1.rest.id ∧
      ∀ k, a.x k = a1.x k + (M.x a1.rest.id k - M0.x a1.rest.id k) := by
  obtain ⟨h1, h2⟩ := h p hp
  have hi : i < (w1 p).length := h1 ▸ (List.getElem?_eq_some_iff.mp ha).1
  obtain ⟨b, e1, e2⟩ := h2 i _ (List.getElem?_eq_getElem hi)
  rw [ha] at e1
  obtain rfl := Option.some.inj e1
  exact ⟨_, List.getElem?_eq_getElem hi, e2⟩

theorem Track.rest {P : ℕ} {M0 M : Motion n} {w1 w : ℕ → List (Pa n)} (h : Track P M0 M w1 w) {p : ℕ} (hp : p < P) :
    (w p).map (·.rest) = (w1 p).map (·.rest) := by
  apply List.ext_getElem?
  intro i
  rw [List.getElem?_map, List.getElem?_map]
  cases e : (w1 p)[i]? with
  | none =>
    have : (w p)[i]? = none := by
      rw [List.getElem?_eq_none_iff] at e ⊢
      rw [(h p hp).1]; exact e
    rw [this]
  | some a1 =>
    obtain ⟨a, e1, e2, _⟩ := (h p hp).2 i a1 e
    rw [e1]
    simp [e2]

theorem Track.once {P N : ℕ} {M0 M : Motion n} {w1 w : ℕ → List (Pa n)} (h : Track P M0 M w1 w) (ho : Once P N w1) : Once P N w := by
  unfold Once at ho ⊢
  have : ((List.range P).flatMap fun p => (w p).map (·.rest.id)) = (List.range P).flatMap fun p => (w1 p).map (·.rest.id) := by
    rw [List.flatMap_def, List.flatMap_def]
    congr 1
    apply List.map_congr_left
    intro p hp
    have := congrArg (List.map Info.id) (h.rest (List.mem_range.mp hp))
    simpa [Function.comp_def] using this
  rw [this]; exact ho

/-- (For proofs.) The arrays with the velocities of the motion. -/
def trueArrays (M : Motion n) (own gh : List (Pa n)) : Parts (n + 1) :=
  ⟨(arrays own gh).x, fun j => (slot own gh j).elim 0 (fun a => M.v a.rest.id), (arrays own gh).rd, (arrays own gh).im⟩

/-- (For proofs.) As `procOf`, with the velocities of the motion. -/
def trueProc (M : Motion n) (own gh : List (Pa n)) : Proc (n + 1) :=
  ⟨own.length, gh.length, fun i => own[i]?.elim 0 (·.rest.id), fun g => gh[g]?.elim 0 (·.rest.id), trueArrays M own gh⟩

section step
variable {S : Setup n} {sys : Sys} {Ks : List Kind} {dts : ℕ → ℝ} {M0 M : Motion n} {w1 w : ℕ → List (Pa n)} {r : ℕ}

/-- (For proofs.) What holds between two constructions. -/
structure Between (S : Setup n) (sys : Sys) (Ks : List Kind) (M0 M : Motion n) (w1 w : ℕ → List (Pa n)) : Prop where
  fits : Fits S sys
  follows : Follows S sys M0 w1
  inbox : ∀ p < S.P, ∀ a ∈ w1 p, ∀ k, S.wrap k = true → S.b.lo k ≤ a.x k ∧ a.x k ≤ S.b.hi k
  kinds : (Ks.map fun K : Kind => (K.F, K.cutoff, K.uses)) = sys.forces
  track : Track S.P M0 M w1 w
  moved : ∀ a < sys.N, len (M.x a - M0.x a) ≤ S.skin / 2

theorem Between.mem_forces (h : Between S sys Ks M0 M w1 w) {K : Kind} (hK : K ∈ Ks) : (K.F, K.cutoff, K.uses) ∈ sys.forces := by
  rw [← h.kinds]
  exact List.mem_map_of_mem hK

/-- Every particle, then and now. -/
theorem Between.at_id (h : Between S sys Ks M0 M w1 w) {id : ℕ} (hid : id < sys.N) :
    ∃ p < S.P, ∃ a1 ∈ w1 p, ∃ a ∈ w p, a1.rest.id = id ∧ a.rest = a1.rest ∧ a.v = M.v id ∧ ∀ k, a.x k = a1.x k + (M.x id k - M0.x id k) := by
  obtain ⟨p, hp, a1, ha1, e⟩ := exists_id h.follows.once hid
  obtain ⟨i, hi⟩ := List.mem_iff_getElem?.mp ha1
  obtain ⟨a, e1, e2, e3, e4⟩ := (h.track p hp).2 i a1 hi
  rw [e] at e3 e4
  exact ⟨p, hp, a1, ha1, a, List.mem_iff_getElem?.mpr ⟨i, e1⟩, e, e2, e3, e4⟩

/-- The particles of the whole system. -/
theorem Between.world (h : Between S sys Ks M0 M w1 w) {id : ℕ} (hid : id < sys.N) :
    (worldOf S sys.N w).owner id = (worldOf S sys.N w1).owner id ∧
    (worldOf S sys.N w).G.v id = M.v id ∧ (worldOf S sys.N w).G.rd id = sys.rd id ∧ (worldOf S sys.N w).G.im id = sys.im id ∧
    (worldOf S sys.N w1).G.rd id = sys.rd id ∧
    (∀ k, (worldOf S sys.N w).G.x id k = (worldOf S sys.N w1).G.x id k + (M.x id k - M0.x id k)) ∧
    (∀ k, S.wrap k = true → S.b.lo k ≤ (worldOf S sys.N w1).G.x id k ∧ (worldOf S sys.N w1).G.x id k ≤ S.b.hi k) ∧
    ∀ k, ∃ m : ℤ, (worldOf S sys.N w).G.x id k = M.x id k + m * (S.b.hi k - S.b.lo k) ∧ (S.wrap k = false → m = 0) := by
  obtain ⟨p, hp, a1, ha1, a, ha, e, e2, e3, e4⟩ := h.at_id hid
  obtain ⟨o1, x1, v1, rd1, im1⟩ := world_at h.follows.once hp ha1
  obtain ⟨o, x, v, rd, im⟩ := world_at (h.track.once h.follows.once) hp ha
  obtain ⟨d1, d2, d3⟩ := h.follows.data p hp a1 ha1
  rw [e2, e] at o x v rd im
  rw [e] at o1 x1 v1 rd1 im1 d1 d2
  refine ⟨o.trans o1.symm, v.trans e3, rd.trans d1, im.trans d2, rd1.trans d1, fun k => by rw [x, x1, e4], fun k hk => ?_, fun k => ?_⟩
  · rw [x1]; exact h.inbox p hp a1 ha1 k hk
  · obtain ⟨m, hm, hz⟩ := h.follows.pos p hp a1 ha1 k
    rw [e] at hm
    exact ⟨m, by rw [x, e4, hm]; ring, hz⟩

theorem Between.close (h : Between S sys Ks M0 M w1 w) {id : ℕ} (hid : id < sys.N) (k : Fin (n + 1)) (hk : S.wrap k = true) :
    S.b.lo k - S.skin / 2 ≤ (worldOf S sys.N w).G.x id k ∧ (worldOf S sys.N w).G.x id k ≤ S.b.hi k + S.skin / 2 := by
  obtain ⟨_, _, _, _, _, e, b, _⟩ := h.world hid
  have := (abs_le_len _ k).trans (h.moved id hid)
  rw [Pi.sub_apply, abs_le] at this
  rw [e k]
  constructor <;> linarith [(b k hk).1, (b k hk).2, this.1, this.2]

theorem Between.boxed (h : Between S sys Ks M0 M w1 w) {K : Kind} (hK : K ∈ Ks) : Boxed (worldOf S sys.N w) K := by
  have hT := h.mem_forces hK
  refine ⟨h.fits.symm _ hT, fun k B e => ?_, fun a ha b hb => ?_⟩
  · obtain ⟨hk, rfl⟩ := widths_some e
    refine ⟨sub_pos.mpr (h.fits.lohi k), fun a ha b hb => ?_⟩
    have h1 := h.close ha k hk
    have h2 := h.close hb k hk
    have h3 := (h.fits.skin k hk).1
    rw [abs_le]
    constructor <;> linarith [h1.1, h1.2, h2.1, h2.2]
  · rw [(h.world ha).2.2.1, (h.world hb).2.2.1]
    refine ⟨(h.fits.reach _ hT a ha b hb).1, fun k B e => ?_⟩
    obtain ⟨hk, rfl⟩ := widths_some e
    exact (h.fits.reach _ hT a ha b hb).2 k hk

theorem Between.listed (h : Between S sys Ks M0 M w1 w) {p : ℕ} (hp : p < S.P) {K : Kind} (hK : K ∈ Ks)
    (hc : Complete (worldOf S sys.N w1) p (procOf (w1 p) (view (cfg S Ks dts) w1 w1 0 p)) K S.skin) :
    Listed (worldOf S sys.N w) p (trueProc M (w p) (view (cfg S Ks dts) w1 w r p)) K := by
  have hT := h.mem_forces hK
  have hrest := h.track.rest hp
  have hgrest := view_rest (cfg S Ks dts) w1 w r p fun q hq => by
    by_cases h1 : S.P = 1
    · have : q ∈ nbs S.b S.wrap S.P p := hq
      rw [h1, nbs_one _ _ _ (by omega)] at this
      simp at this
    · exact (h.track q (mem_nbs S.b S.wrap S.P p q (by have := h.fits.procs; omega) hq).1).1
  have hid : ∀ {l l' : List (Pa n)}, l.map (·.rest) = l'.map (·.rest) →
      (fun i : ℕ => l[i]?.elim 0 (·.rest.id)) = fun i => l'[i]?.elim 0 (·.rest.id) := by
    intro l l' e
    funext i
    have := congrArg (fun l => l[i]?.elim 0 Info.id) e
    simp only [List.getElem?_map] at this
    cases h1 : l[i]? <;> cases h2 : l'[i]? <;> simp_all
  have hlen : ∀ {l l' : List (Pa n)}, l.map (·.rest) = l'.map (·.rest) → l.length = l'.length := by
    intro l l' e
    have := congrArg List.length e
    simpa using this
  refine complete_listed (W0 := worldOf S sys.N w1) (L0 := procOf (w1 p) (view (cfg S Ks dts) w1 w1 0 p)) (skin := S.skin) rfl rfl (fun a ha => (h.world ha).1) (fun a ha => (h.world ha).2.2.1.trans (h.world ha).2.2.2.2.1.symm)
    (hlen hrest) (hlen hgrest) (hid hrest) (hid hgrest) (fun a ha => ?_) (fun i hi => ?_) (fun k B e => ?_) (fun a ha b hb => ?_) hc
  · have : (worldOf S sys.N w).G.x a - (worldOf S sys.N w1).G.x a = M.x a - M0.x a := by
      funext k
      rw [Pi.sub_apply, (h.world ha).2.2.2.2.2.1 k]; simp
    rw [this]; exact h.moved a ha
  · show ((w1 p)[i]?).elim 0 _ < _
    have hi : i < (w1 p).length := hi
    rw [List.getElem?_eq_getElem hi]
    exact id_lt h.follows.once hp (List.getElem_mem hi)
  · refine ⟨(h.boxed hK).pos k B e, fun a ha b hb => ⟨((h.boxed hK).box k B e).2 a ha b hb, ?_⟩⟩
    obtain ⟨hk, rfl⟩ := widths_some e
    have h1 := (h.world ha).2.2.2.2.2.2.1 k hk
    have h2 := (h.world hb).2.2.2.2.2.2.1 k hk
    have := h.fits.lohi k
    rw [abs_le]
    constructor <;> linarith [h1.1, h1.2, h2.1, h2.2]
  · rw [(h.world ha).2.2.2.2.1, (h.world hb).2.2.2.2.1]
    exact (h.fits.reach _ hT a ha b hb).1

/-- A ghost, seen from the whole system. -/
theorem Between.ghost (h : Between S sys Ks M0 M w1 w) {p : ℕ} (hp : p < S.P) {g : Pa n} (hg : g ∈ view (cfg S Ks dts) w1 w r p) :
    ∃ q < S.P, q ≠ p ∧ ∃ a ∈ w q, ∃ a0 ∈ w1 q, a.rest = a0.rest ∧ g = snapshot (cfg S Ks dts) p r a0 a := by
  obtain ⟨q, hq, id, a0, a, h0, h1, rfl⟩ := mem_view hg
  have hq' : q ∈ nbs S.b S.wrap S.P p := hq
  have hP : 2 ≤ S.P := by
    by_contra hlt
    have : S.P = 1 := by have := h.fits.procs; omega
    rw [this, nbs_one _ _ _ (by omega)] at hq'
    simp at hq'
  obtain ⟨m1, m2, _⟩ := mem_nbs S.b S.wrap S.P p q hP hq'
  obtain ⟨a1, e1, e2, _⟩ := h.track.back m1 h1
  rw [h0] at e1
  obtain rfl := Option.some.inj e1
  exact ⟨q, m1, m2, a, List.mem_iff_getElem?.mpr ⟨id, h1⟩, a0, List.mem_iff_getElem?.mpr ⟨id, h0⟩, e2, rfl⟩

theorem Between.holds (h : Between S sys Ks M0 M w1 w) {p : ℕ} (hp : p < S.P) :
    Holds (worldOf S sys.N w) p (trueProc M (w p) (view (cfg S Ks dts) w1 w r p)) := by
  have ho := h.track.once h.follows.once
  have get : ∀ i < (w p).length, ∃ a, (w p)[i]? = some a ∧ a ∈ w p := fun i hi => ⟨_, List.getElem?_eq_getElem hi, List.getElem_mem hi⟩
  have gget : ∀ g < (view (cfg S Ks dts) w1 w r p).length, ∃ a, (view (cfg S Ks dts) w1 w r p)[g]? = some a ∧ a ∈ view (cfg S Ks dts) w1 w r p :=
    fun i hi => ⟨_, List.getElem?_eq_getElem hi, List.getElem_mem hi⟩
  refine ⟨fun i hi => ?_, fun i hi j hj e => ?_, fun i hi => ?_, fun g hg => ?_, fun g hg => ?_, fun g hg k => ?_⟩
  · obtain ⟨a, e1, e2⟩ := get i hi
    simp only [trueProc, e1, Option.elim_some]
    exact ⟨id_lt ho hp e2, (world_at ho hp e2).1⟩
  · obtain ⟨a, e1, e2⟩ := get i hi
    obtain ⟨a', e1', e2'⟩ := get j hj
    simp only [trueProc, e1, e1', Option.elim_some] at e
    exact own_inj ho hp e1 e1' e
  · obtain ⟨a, e1, e2⟩ := get i hi
    simp only [trueProc, trueArrays, arrays, slot_own, e1, Option.elim_some]
    obtain ⟨_, x, v, rd, im⟩ := world_at ho hp e2
    exact ⟨x.symm, (h.world (id_lt ho hp e2)).2.1.symm, rd.symm, im.symm⟩
  · obtain ⟨g', e1, e2⟩ := gget g hg
    simp only [trueProc, e1, Option.elim_some]
    obtain ⟨q, hq, hne, a, ha, a0, ha0, er, rfl⟩ := h.ghost hp e2
    simp only [snapshot]
    rw [← er]
    exact ⟨id_lt ho hq ha, by rw [(world_at ho hq ha).1]; exact hne⟩
  · obtain ⟨g', e1, e2⟩ := gget g hg
    simp only [trueProc, trueArrays, arrays, slot_gh, e1, Option.elim_some]
    obtain ⟨q, hq, hne, a, ha, a0, ha0, er, rfl⟩ := h.ghost hp e2
    simp only [snapshot]
    rw [← er]
    obtain ⟨_, x, v, rd, im⟩ := world_at ho hq ha
    exact ⟨(h.world (id_lt ho hq ha)).2.1.symm, rd.symm, im.symm⟩
  · obtain ⟨g', e1, e2⟩ := gget g hg
    obtain ⟨q, hq, hne, a, ha, a0, ha0, er, rfl⟩ := h.ghost hp e2
    obtain ⟨_, x, _⟩ := world_at ho hq ha
    have hx : (trueProc M (w p) (view (cfg S Ks dts) w1 w r p)).P.x (2 * g + 1) k = relative (cfg S Ks dts) (centre (cfg S Ks dts) p) a.x k := by
      simp only [trueProc, trueArrays, arrays, slot_gh, e1, Option.elim_some, snapshot]
    have hgh : (trueProc M (w p) (view (cfg S Ks dts) w1 w r p)).gh g = a.rest.id := by
      simp only [trueProc, e1, Option.elim_some, snapshot, er]
    rw [hx, hgh, x]
    cases e : (worldOf S sys.N w).w k with
    | none =>
      simp only
      unfold relative
      rw [correct_none (show widths (cfg S Ks dts).b (cfg S Ks dts).wrap k = none from e)]
      ring
    | some B =>
      simp only
      obtain ⟨hk, rfl⟩ := widths_some e
      obtain ⟨b1, b2, b3⟩ := C47_inside S.b h.fits.lohi S.P p hp k
      obtain ⟨s1, s2⟩ := h.fits.skin k hk
      have s2 := s2 p hp
      have ctr : centre (cfg S Ks dts) p k = ((processBounds S.b S.P p).lo k + (processBounds S.b S.P p).hi k) / 2 := rfl
      have c1 := h.close (id_lt ho hq ha) k hk
      rw [x] at c1
      have hX : |a.x k - centre (cfg S Ks dts) p k| ≤ 3 / 2 * (S.b.hi k - S.b.lo k) := by
        have := h.fits.lohi k
        rw [ctr, abs_le]
        constructor <;> linarith [c1.1, c1.2]
      obtain ⟨k1, m, k2⟩ := correct_some (w := widths (cfg S Ks dts).b (cfg S Ks dts).wrap) (X := fun j => a.x j - centre (cfg S Ks dts) p j) e hX
      refine ⟨⟨m, ?_⟩, fun i hi => ?_⟩
      · unfold relative
        rw [k2]; ring
      · obtain ⟨a', e1', e2'⟩ := get i hi
        have hown : (trueProc M (w p) (view (cfg S Ks dts) w1 w r p)).own i = a'.rest.id := by
          simp only [trueProc, e1', Option.elim_some]
        rw [hown]
        have c2 := h.close (id_lt ho hp e2') k hk
        unfold relative
        rw [abs_le] at k1 ⊢
        rw [ctr]
        constructor <;> linarith [c2.1, c2.2, k1.1, k1.2]

/-- The force of the arrays is the force of the motion. -/
theorem Between.direct (h : Between S sys Ks M0 M w1 w) {a : ℕ} (ha : a < sys.N) (k : Fin (n + 1)) :
    directForce (worldOf S sys.N w) Ks a k = total sys (widths S.b S.wrap) M a k := by
  classical
  unfold directForce total
  rw [← h.kinds, List.map_map]
  apply map_sum_congr
  intro K hK
  simp only [Function.comp]
  refine sum_congr rfl fun b hb => ?_
  obtain ⟨hba, hb⟩ := mem_erase.mp hb
  have hb := mem_range.mp hb
  by_cases hu : K.uses a b
  · rw [if_pos hu, if_pos hu]
    obtain ⟨_, va, ra, ia, _, _, _, xa⟩ := h.world ha
    obtain ⟨_, vb, rb, ib, _, _, _, xb⟩ := h.world hb
    have hsame : Same (worldOf S sys.N w).G ⟨M.x, M.v, sys.rd, sys.im⟩ (a, b) (a, b) := ⟨va, vb, ra, rb, ia, ib⟩
    obtain ⟨c1, c2⟩ := correct_near (w := widths S.b S.wrap) (X := (worldOf S sys.N w).G.x a - (worldOf S sys.N w).G.x b)
      (Y := M.x a - M.x b) (fun k B e => ⟨(h.boxed hK).pos k B e, ((h.boxed hK).box k B e).2 a ha b hb⟩) (fun k => by
        obtain ⟨m, e1, z1⟩ := xa k
        obtain ⟨m', e2, z2⟩ := xb k
        cases e : widths S.b S.wrap k with
        | none =>
          have := widths_none e
          simp only [Pi.sub_apply]
          rw [e1, e2, z1 this, z2 this]; simp
        | some B =>
          obtain ⟨_, rfl⟩ := widths_some e
          simp only [Pi.sub_apply]
          exact ⟨m - m', by rw [e1, e2]; push_cast; ring⟩)
    have hsep : sep (worldOf S sys.N w).w (worldOf S sys.N w).G (a, b) =
        correct (widths S.b S.wrap) ((worldOf S sys.N w).G.x a - (worldOf S sys.N w).G.x b) := rfl
    unfold pairForce push
    simp only [hsep, c1, ra, rb]
    by_cases hn : len (near (widths S.b S.wrap) (M.x a - M.x b)) ^ 2 < ((sys.rd a + sys.rd b) * K.cutoff) ^ 2
    · rw [if_pos hn, if_pos hn]
      obtain ⟨r0, r1⟩ := h.fits.reach _ (h.mem_forces hK) a ha b hb
      have hlt := abs_lt_of_sq_lt_sq hn r0
      rw [abs_of_nonneg (len_nonneg _)] at hlt
      rw [c2 fun k B e => by
        obtain ⟨hk, rfl⟩ := widths_some e
        exact lt_of_lt_of_le hlt (r1 k hk)]
      have := mag_same hsame K.F (fun l => near (widths S.b S.wrap) (M.x a - M.x b) l / len (near (widths S.b S.wrap) (M.x a - M.x b)))
        (len (near (widths S.b S.wrap) (M.x a - M.x b)))
      simp only at this
      rw [this]
      simp [Ne.symm hba]
    · rw [if_neg hn, if_neg hn]
  · rw [if_neg hu, if_neg hu]

theorem Between.separate (h : Between S sys Ks M0 M w1 w) {K : Kind} (hK : K ∈ Ks) {a b : ℕ} (ha : a < sys.N) (hb : b < sys.N)
    (hs : near (widths S.b S.wrap) (M.x a - M.x b) ≠ 0) : len (sep (worldOf S sys.N w).w (worldOf S sys.N w).G (a, b)) ≠ 0 := by
  obtain ⟨_, va, ra, ia, _, _, _, xa⟩ := h.world ha
  obtain ⟨_, vb, rb, ib, _, _, _, xb⟩ := h.world hb
  obtain ⟨c1, c2⟩ := correct_near (w := widths S.b S.wrap) (X := (worldOf S sys.N w).G.x a - (worldOf S sys.N w).G.x b)
    (Y := M.x a - M.x b) (fun k B e => ⟨(h.boxed hK).pos k B e, ((h.boxed hK).box k B e).2 a ha b hb⟩) (fun k => by
      obtain ⟨m, e1, z1⟩ := xa k
      obtain ⟨m', e2, z2⟩ := xb k
      cases e : widths S.b S.wrap k with
      | none =>
        have := widths_none e
        simp only [Pi.sub_apply]
        rw [e1, e2, z1 this, z2 this]; simp
      | some B =>
        obtain ⟨_, rfl⟩ := widths_some e
        simp only [Pi.sub_apply]
        exact ⟨m - m', by rw [e1, e2]; push_cast; ring⟩)
  show len (correct (widths S.b S.wrap) ((worldOf S sys.N w).G.x a - (worldOf S sys.N w).G.x b)) ≠ 0
  rw [c1]
  intro h0
  apply hs
  funext k
  have := abs_le_len (near (widths S.b S.wrap) (M.x a - M.x b)) k
  rw [h0] at this
  exact abs_nonpos_iff.mp this

/-- Forces of the arrays with old velocities of ghosts. -/
theorem Between.arrays_forces (h : Between S sys Ks M0 M w1 w) {p : ℕ} (hp : p < S.P) (hr : r = 0 → M = M0 ∧ w = w1) :
    stepForces S.P S.doPot S.doVir (widths S.b S.wrap) (arrays (w p) (view (cfg S Ks dts) w1 w r p)) (Ks.map (Kind.lists · p)) =
      stepForces S.P S.doPot S.doVir (widths S.b S.wrap) (trueArrays M (w p) (view (cfg S Ks dts) w1 w r p)) (Ks.map (Kind.lists · p)) := by
  rcases h.fits.velocity with hv | hv
  · congr 1
    unfold trueArrays
    have : (arrays (w p) (view (cfg S Ks dts) w1 w r p)).v = fun j => (slot (w p) (view (cfg S Ks dts) w1 w r p) j).elim 0 fun a => M.v a.rest.id := by
      funext j
      unfold arrays slot
      simp only
      by_cases hj : j % 2 = 0
      · rw [if_pos hj]
        cases e : (w p)[j / 2]? with
        | none => rfl
        | some a =>
          obtain ⟨a1, e1, e2, e3, _⟩ := h.track.back hp e
          simp only [Option.elim_some]
          rw [e3, e2]
      · rw [if_neg hj]
        cases e : (view (cfg S Ks dts) w1 w r p)[j / 2]? with
        | none => rfl
        | some g =>
          obtain ⟨q, hq, _, a, ha, a0, ha0, er, rfl⟩ := h.ghost hp (List.mem_iff_getElem?.mpr ⟨_, e⟩)
          simp only [Option.elim_some, snapshot]
          have hs : (cfg S Ks dts).sendV = true := hv
          rw [if_pos (Or.inl hs), ← er]
          obtain ⟨i, hi⟩ := List.mem_iff_getElem?.mp ha
          obtain ⟨a1, e1, e2, e3, _⟩ := h.track.back hq hi
          rw [e3, e2]
    rw [← this]
  · refine stepForces_free (P := arrays (w p) (view (cfg S Ks dts) w1 w r p)) (Q := trueArrays M (w p) (view (cfg S Ks dts) w1 w r p)) rfl rfl rfl _ _ _ _ _ ?_
    intro I hI
    obtain ⟨K, hK, rfl⟩ := List.mem_map.mp hI
    exact hv _ (h.mem_forces hK)

/-- A step. -/
theorem Between.advance (h : Between S sys Ks M0 M w1 w)
    (hc : ∀ K ∈ Ks, ∀ p < S.P, Complete (worldOf S sys.N w1) p (procOf (w1 p) (view (cfg S Ks dts) w1 w1 0 p)) K S.skin)
    (hr : r = 0 → M = M0 ∧ w = w1)
    (hs : ∀ a < sys.N, ∀ b < sys.N, a ≠ b → near (widths S.b S.wrap) (M.x a - M.x b) ≠ 0) :
    (∀ p < S.P, stepForces S.P S.doPot S.doVir (widths S.b S.wrap) (arrays (w p) (view (cfg S Ks dts) w1 w r p)) (Ks.map (Kind.lists · p)) ≠ none) ∧
    Track S.P M0 (next sys (widths S.b S.wrap) (dts r) (dts (r + 1)) M) w1
      (fun p => advance S Ks dts r p (w p) (view (cfg S Ks dts) w1 w r p)) := by
  have hf : ∀ p < S.P, ∃ f, stepForces S.P S.doPot S.doVir (widths S.b S.wrap) (arrays (w p) (view (cfg S Ks dts) w1 w r p))
      (Ks.map (Kind.lists · p)) = some f ∧ ∀ i a, (w p)[i]? = some a → ∀ k, f.1 (2 * i) k = total sys (widths S.b S.wrap) M a.rest.id k := by
    intro p hp
    have hK : ∀ K ∈ Ks, Boxed (worldOf S sys.N w) K ∧ Listed (worldOf S sys.N w) p (trueProc M (w p) (view (cfg S Ks dts) w1 w r p)) K :=
      fun K hK => ⟨h.boxed hK, h.listed hp hK (hc K hK p hp)⟩
    have hdef : ∃ f, stepForces S.P S.doPot S.doVir (widths S.b S.wrap) (trueArrays M (w p) (view (cfg S Ks dts) w1 w r p))
        (Ks.map (Kind.lists · p)) = some f := by
      cases Ks with
      | nil =>
        unfold stepForces interactAll
        simp only [List.map_nil, Option.bind_some]
        split_ifs
        · exact ⟨_, rfl⟩
        · unfold ghostsAll
          exact ⟨_, rfl⟩
      | cons K Ks' =>
        exact C151_defined (worldOf S sys.N w) (K :: Ks') p (trueProc M (w p) (view (cfg S (K :: Ks') dts) w1 w r p)) S.doPot S.doVir (h.holds hp) hK
          fun a ha b hb hab => h.separate (List.mem_cons_self) ha hb (hs a ha b hb hab)
    obtain ⟨f, hf⟩ := hdef
    refine ⟨f, (h.arrays_forces hp hr).trans hf, fun i a hi k => ?_⟩
    have hlt : i < (w p).length := (List.getElem?_eq_some_iff.mp hi).1
    have := C151_forces (worldOf S sys.N w) Ks p (trueProc M (w p) (view (cfg S Ks dts) w1 w r p)) S.doPot S.doVir (fun a ha => ?_) hp (h.holds hp) hK f hf i hlt k
    · have hown : (trueProc M (w p) (view (cfg S Ks dts) w1 w r p)).own i = a.rest.id := by
        simp only [trueProc, hi, Option.elim_some]
      rw [this, hown]
      exact h.direct (id_lt (h.track.once h.follows.once) hp (List.mem_iff_getElem?.mpr ⟨i, hi⟩)) k
    · obtain ⟨q, hq, _, _, a', ha', e1, e2, _⟩ := h.at_id ha
      have := (world_at (h.track.once h.follows.once) hq ha').1
      rw [e2, e1] at this
      rw [this]; exact hq
  refine ⟨fun p hp e => ?_, fun p hp => ?_⟩
  · obtain ⟨f, hf, _⟩ := hf p hp
    rw [hf] at e; cases e
  · obtain ⟨f, hf, hval⟩ := hf p hp
    obtain ⟨t1, t2⟩ := h.track p hp
    have hadv : ParallelRun.advance S Ks dts r p (w p) (view (cfg S Ks dts) w1 w r p) =
        drift (dts (r + 1)) (kick (dts (r + 1) / 2) f.1 (kick (dts r / 2) f.1 (w p))) := by
      unfold ParallelRun.advance
      rw [hf]
    simp only [hadv]
    unfold drift kick
    refine ⟨by simpa using t1, fun i a1 hi => ?_⟩
    obtain ⟨a, e1, e2, e3, e4⟩ := t2 i a1 hi
    refine ⟨⟨fun k => a.x k + dts (r + 1) * (a.v k + dts r / 2 * a.rest.im * f.1 (2 * i) k + dts (r + 1) / 2 * a.rest.im * f.1 (2 * i) k),
      fun k => a.v k + dts r / 2 * a.rest.im * f.1 (2 * i) k + dts (r + 1) / 2 * a.rest.im * f.1 (2 * i) k, a.om, a.rest⟩, ?_, ?_, ?_, ?_⟩
    · simp only [List.getElem?_map, List.getElem?_mapIdx, e1, Option.map_some]
    · exact e2
    · funext k
      have := hval i a e1 k
      have hd := (h.follows.data p hp a1 (List.mem_iff_getElem?.mpr ⟨i, hi⟩)).2.1
      simp only [next]
      rw [this, e2, hd, e3]
    · intro k
      have := hval i a e1 k
      have hd := (h.follows.data p hp a1 (List.mem_iff_getElem?.mpr ⟨i, hi⟩)).2.1
      simp only [next]
      rw [this, e2, hd, e3, e4]
      ring

end step

end Verif.ParallelRun
