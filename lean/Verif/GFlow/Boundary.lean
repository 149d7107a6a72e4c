import Mathlib.Algebra.Order.Floor.Ring
import Mathlib.Algebra.BigOperators.Group.Finset.Basic
import Mathlib.Algebra.Order.Field.Basic
import Mathlib.Tactic.Ring
import Mathlib.Tactic.Linarith
import Mathlib.Tactic.FieldSimp

/-!
# Boundary conditions of `GFlow`: the model

Models `GFlow::wrapPositions`, `reflectPositions`, `repulsePositions` (`gflow.cpp:548-641`) and
`getDisplacement`, `minimumImage` (`gflow.cpp:418-442`). Numbers are elements of an ordered field `K` with floor
(`ℚ`, `ℝ`, ...); rounding of `float` is not modelled. `simulation_bounds.wd(d)` is `max[d]-min[d]`
(`utility/bounds.hpp`).
-/

namespace Verif.Boundary

variable {K : Type} [Field K] [LinearOrder K] [IsStrictOrderedRing K] [FloorRing K]

/-- Boundary condition flags, `utility/defaultconstants.hpp` / `gflow.hpp` (`BCFlag`); `open'` is `OPEN`. -/
inductive BC | wrap | refl | repl | open'
deriving DecidableEq

/-- Position, velocity, force component `d` of one particle: `x(n,d)`, `v(n,d)`, `f(n,d)`. -/
structure Entry (K : Type) where
  x : K
  v : K
  f : K

/-- The part of the simulation the boundary functions see. `cell n d` are the entries of local index `n`;
`type` is the type column, which the functions do not look at. -/
structure State (K : Type) where
  cell : ℕ → ℕ → Entry K
  type : ℕ → ℤ
  size : ℕ
  boundaryForce : K
  boundaryEnergy : K

/-- Bounds, boundary conditions and constants of the `GFlow` object: `simulation_bounds`,
`boundaryConditions`, `repulsion`, `dissipation`. `gflow.hpp`. -/
structure Box (K : Type) where
  dims : ℕ
  lo : ℕ → K
  hi : ℕ → K
  bc : ℕ → BC
  repulsion : K
  dissipation : K

/-- Truncation towards zero, as C's `fmod` uses it. -/
def trunc (q : K) : ℤ := if 0 ≤ q then ⌊q⌋ else ⌈q⌉

/-- `fmod(a, b)` for `b ≠ 0`. -/
def fmod (a b : K) : K := a - b * (trunc (a / b) : K)

/-- Assign entry `(n, d)`. -/
def upd {E : Type} (c : ℕ → ℕ → E) (n d : ℕ) (e : E) : ℕ → ℕ → E :=
  fun n' d' => if n' = n ∧ d' = d then e else c n' d'

/-- `gflow.cpp:560-563`. -/
def wrap1 (lo hi x : K) : K :=
  if x < lo then hi - fmod (lo - x) (hi - lo)
  else if hi ≤ x then fmod (x - lo) (hi - lo) + lo
  else x

/-- `wrapPositions()`, `gflow.cpp:548-572`. -/
def wrapPositions (b : Box K) (s : State K) : State K :=
  (List.range b.dims).foldl (fun s d =>
    if b.bc d = .wrap then
      (List.range s.size).foldl (fun s n =>
        { s with cell := upd s.cell n d { s.cell n d with x := wrap1 (b.lo d) (b.hi d) (s.cell n d).x } }) s
    else s) s

/-- `gflow.cpp:587-596`. -/
def reflect1 (lo hi : K) (e : Entry K) : Entry K :=
  if e.x < lo then { e with x := 2 * lo - e.x, v := -e.v }
  else if hi < e.x then { e with x := 2 * hi - e.x, v := -e.v }
  else e

/-- `reflectPositions()`, `gflow.cpp:574-603`. -/
def reflectPositions (b : Box K) (s : State K) : State K :=
  (List.range b.dims).foldl (fun s d =>
    if b.bc d = .refl then
      (List.range s.size).foldl (fun s n =>
        { s with cell := upd s.cell n d (reflect1 (b.lo d) (b.hi d) (s.cell n d)) }) s
    else s) s

/-- `clamp`, `utility/utility.hpp:119-121`. -/
def clamp (a : K) : K := if a < 0 then 0 else a

/-- The body of the inner loop of `repulsePositions`, `gflow.cpp:621-634`. -/
def repulseBody (b : Box K) (d n : ℕ) (s : State K) : State K :=
  let e := s.cell n d
  if e.x < b.lo d then
    let dx := b.lo d - e.x
    let F := 10 * b.repulsion * dx + b.dissipation * clamp (-e.v)
    { s with
      cell := upd s.cell n d { e with f := e.f + F }
      boundaryForce := s.boundaryForce + F
      boundaryEnergy := s.boundaryEnergy + 1 / 2 * b.repulsion * (dx * dx) }
  else if b.hi d < e.x then
    let dx := e.x - b.hi d
    let F := 10 * b.repulsion * dx + b.dissipation * clamp e.v
    { s with
      cell := upd s.cell n d { e with f := e.f - F }
      boundaryForce := s.boundaryForce + F
      boundaryEnergy := s.boundaryEnergy + 1 / 2 * b.repulsion * (dx * dx) }
  else s

/-- `repulsePositions()`, `gflow.cpp:605-641`. -/
def repulsePositions (b : Box K) (s : State K) : State K :=
  (List.range b.dims).foldl (fun s d =>
    if b.bc d = .repl then (List.range s.size).foldl (fun s n => repulseBody b d n s) s else s)
    { s with boundaryForce := 0, boundaryEnergy := 0 }

/-- One component of `getDisplacement` before / after the correction, `gflow.cpp:421-424` (the same
in `minimumImage`, `gflow.cpp:430-433` and `438-441`). -/
def image1 (bc : BC) (lo hi dis : K) : K :=
  if bc = .wrap then
    let dx := hi - lo - |dis|
    if dx < |dis| then (if 0 < dis then -dx else dx) else dis
  else dis

/-- `getDisplacement(x, y, dis)`, `gflow.cpp:418-426`. -/
def getDisplacement (b : Box K) (x y : ℕ → K) (d : ℕ) : K :=
  image1 (b.bc d) (b.lo d) (b.hi d) (x d - y d)

/-- `minimumImage(dis)`, `gflow.cpp:428-435`. -/
def minimumImage (b : Box K) (dis : ℕ → K) (d : ℕ) : K :=
  image1 (b.bc d) (b.lo d) (b.hi d) (dis d)

/-- `getDistanceSqr(x, y)`, `gflow.cpp:448-459`. -/
def getDistanceSqr (b : Box K) (x y : ℕ → K) : K :=
  (List.range b.dims).foldl (fun dist d =>
    dist + image1 (b.bc d) (b.lo d) (b.hi d) (x d - y d) * image1 (b.bc d) (b.lo d) (b.hi d) (x d - y d)) 0

/-! ## Loops over independent entries -/

omit [Field K] [LinearOrder K] [IsStrictOrderedRing K] [FloorRing K] in
/-- The inner loop of `wrapPositions`/`reflectPositions`. -/
theorem inner_loop (g : Entry K → Entry K) (d : ℕ) : ∀ (m : ℕ) (s : State K),
    (List.range m).foldl (fun s n => { s with cell := upd s.cell n d (g (s.cell n d)) }) s =
      { s with cell := fun n d' => if n < m ∧ d' = d then g (s.cell n d') else s.cell n d' } := by
  intro m
  induction m with
  | zero => intro s; simp
  | succ m ih =>
    intro s
    rw [List.range_succ, List.foldl_append, ih]
    simp only [List.foldl_cons, List.foldl_nil]
    congr 1
    funext n d'
    unfold upd
    by_cases hd : d' = d
    · subst hd
      by_cases hn : n = m
      · subst hn; simp
      · have : n < m ↔ n < m + 1 := by omega
        simp [hn, this]
    · simp [hd]

omit [Field K] [LinearOrder K] [IsStrictOrderedRing K] [FloorRing K] in
theorem outer_loop (on : ℕ → Bool) (g : ℕ → Entry K → Entry K) : ∀ (m : ℕ) (s : State K),
    (List.range m).foldl (fun s d => if on d then
      (List.range s.size).foldl (fun s n => { s with cell := upd s.cell n d (g d (s.cell n d)) }) s else s) s =
      { s with cell := fun n d => if n < s.size ∧ d < m ∧ on d then g d (s.cell n d) else s.cell n d } := by
  intro m
  induction m with
  | zero => intro s; simp
  | succ m ih =>
    intro s
    rw [List.range_succ, List.foldl_append, ih]
    simp only [List.foldl_cons, List.foldl_nil]
    by_cases hon : on m
    · rw [if_pos hon, inner_loop]
      congr 1
      funext n d'
      by_cases hd : d' = m
      · subst hd; simp [hon]
      · have h2 : d' < m ↔ d' < m + 1 := by omega
        simp [hd, h2]
    · rw [if_neg hon]
      congr 1
      funext n d'
      by_cases hd : d' = m
      · subst hd; simp [hon]
      · have h2 : d' < m ↔ d' < m + 1 := by omega
        simp [h2]

omit [IsStrictOrderedRing K] in
theorem wrapPositions_eq (b : Box K) (s : State K) : wrapPositions b s =
    { s with cell := fun n d => if n < s.size ∧ d < b.dims ∧ b.bc d = .wrap then
        { s.cell n d with x := wrap1 (b.lo d) (b.hi d) (s.cell n d).x } else s.cell n d } := by
  have := outer_loop (fun d => decide (b.bc d = .wrap))
    (fun d e => { e with x := wrap1 (b.lo d) (b.hi d) e.x }) b.dims s
  simp only [decide_eq_true_eq] at this
  exact this

omit [FloorRing K] [IsStrictOrderedRing K] in
theorem reflectPositions_eq (b : Box K) (s : State K) : reflectPositions b s =
    { s with cell := fun n d => if n < s.size ∧ d < b.dims ∧ b.bc d = .refl then
        reflect1 (b.lo d) (b.hi d) (s.cell n d) else s.cell n d } := by
  have := outer_loop (fun d => decide (b.bc d = .refl)) (fun d e => reflect1 (b.lo d) (b.hi d) e) b.dims s
  simp only [decide_eq_true_eq] at this
  exact this

/-- The (outward) boundary force `repulsePositions` computes for an entry; 0 inside. -/
def pushOf (b : Box K) (d : ℕ) (e : Entry K) : K :=
  if e.x < b.lo d then 10 * b.repulsion * (b.lo d - e.x) + b.dissipation * clamp (-e.v)
  else if b.hi d < e.x then 10 * b.repulsion * (e.x - b.hi d) + b.dissipation * clamp e.v
  else 0

/-- How far an entry is outside. -/
def depthOf (b : Box K) (d : ℕ) (e : Entry K) : K :=
  if e.x < b.lo d then b.lo d - e.x else if b.hi d < e.x then e.x - b.hi d else 0

/-- The entry after `repulsePositions`. -/
def repulse1 (b : Box K) (d : ℕ) (e : Entry K) : Entry K :=
  if e.x < b.lo d then { e with f := e.f + pushOf b d e }
  else if b.hi d < e.x then { e with f := e.f - pushOf b d e } else e

omit [FloorRing K] [IsStrictOrderedRing K] in
theorem repulseBody_eq (b : Box K) (d n : ℕ) (s : State K) : repulseBody b d n s =
    { s with
      cell := upd s.cell n d (repulse1 b d (s.cell n d))
      boundaryForce := s.boundaryForce + pushOf b d (s.cell n d)
      boundaryEnergy := s.boundaryEnergy + 1 / 2 * b.repulsion * (depthOf b d (s.cell n d) * depthOf b d (s.cell n d)) } := by
  unfold repulseBody repulse1 pushOf depthOf
  dsimp only
  split
  · rfl
  · split
    · rfl
    · have : upd s.cell n d (s.cell n d) = s.cell := by
        funext n' d'; unfold upd; split
        · next h => rw [h.1, h.2]
        · rfl
      simp [this]

open Finset in
omit [FloorRing K] [IsStrictOrderedRing K] in
theorem repulse_inner (b : Box K) (d : ℕ) : ∀ (m : ℕ) (s : State K),
    (List.range m).foldl (fun s n => repulseBody b d n s) s =
      { s with
        cell := fun n d' => if n < m ∧ d' = d then repulse1 b d' (s.cell n d') else s.cell n d'
        boundaryForce := s.boundaryForce + ∑ n ∈ range m, pushOf b d (s.cell n d)
        boundaryEnergy := s.boundaryEnergy +
          ∑ n ∈ range m, 1 / 2 * b.repulsion * (depthOf b d (s.cell n d) * depthOf b d (s.cell n d)) } := by
  intro m
  induction m with
  | zero => intro s; simp
  | succ m ih =>
    intro s
    rw [List.range_succ, List.foldl_append, ih]
    simp only [List.foldl_cons, List.foldl_nil]
    rw [repulseBody_eq]
    simp only [lt_self_iff_false, false_and, if_false, sum_range_succ, add_assoc]
    congr 1
    funext n d'
    unfold upd
    by_cases hd : d' = d
    · subst hd
      by_cases hn : n = m
      · subst hn; simp
      · have : n < m ↔ n < m + 1 := by omega
        simp [hn, this]
    · simp [hd]

open Finset in
omit [FloorRing K] [IsStrictOrderedRing K] in
theorem repulse_outer (b : Box K) : ∀ (m : ℕ) (s : State K),
    (List.range m).foldl (fun s d =>
      if b.bc d = .repl then (List.range s.size).foldl (fun s n => repulseBody b d n s) s else s) s =
      { s with
        cell := fun n d => if n < s.size ∧ d < m ∧ b.bc d = .repl then repulse1 b d (s.cell n d) else s.cell n d
        boundaryForce := s.boundaryForce +
          ∑ d ∈ range m, if b.bc d = .repl then ∑ n ∈ range s.size, pushOf b d (s.cell n d) else 0
        boundaryEnergy := s.boundaryEnergy + ∑ d ∈ range m, if b.bc d = .repl then
          ∑ n ∈ range s.size, 1 / 2 * b.repulsion * (depthOf b d (s.cell n d) * depthOf b d (s.cell n d)) else 0 } := by
  intro m
  induction m with
  | zero => intro s; simp
  | succ m ih =>
    intro s
    rw [List.range_succ, List.foldl_append, ih]
    simp only [List.foldl_cons, List.foldl_nil]
    by_cases hon : b.bc m = .repl
    · rw [if_pos hon, repulse_inner]
      simp only [lt_self_iff_false, false_and, and_false, if_false, sum_range_succ, add_assoc, if_pos hon]
      congr 1
      funext n d'
      by_cases hd : d' = m
      · subst hd; simp [hon]
      · have h2 : d' < m ↔ d' < m + 1 := by omega
        simp [hd, h2]
    · rw [if_neg hon]
      simp only [sum_range_succ, if_neg hon, add_zero]
      congr 1
      funext n d'
      by_cases hd : d' = m
      · subst hd; simp [hon]
      · have h2 : d' < m ↔ d' < m + 1 := by omega
        simp [h2]

open Finset in
omit [FloorRing K] [IsStrictOrderedRing K] in
theorem repulsePositions_eq (b : Box K) (s : State K) : repulsePositions b s =
      { s with
        cell := fun n d => if n < s.size ∧ d < b.dims ∧ b.bc d = .repl then repulse1 b d (s.cell n d) else s.cell n d
        boundaryForce :=
          ∑ d ∈ range b.dims, if b.bc d = .repl then ∑ n ∈ range s.size, pushOf b d (s.cell n d) else 0
        boundaryEnergy := ∑ d ∈ range b.dims, if b.bc d = .repl then
          ∑ n ∈ range s.size, 1 / 2 * b.repulsion * (depthOf b d (s.cell n d) * depthOf b d (s.cell n d)) else 0 } := by
  unfold repulsePositions
  rw [repulse_outer]
  simp

/-! ## Arithmetic of `wrap1` -/

theorem fmod_range {a w : K} (ha : 0 ≤ a) (hw : 0 < w) : 0 ≤ fmod a w ∧ fmod a w < w := by
  have hq : 0 ≤ a / w := div_nonneg ha hw.le
  unfold fmod trunc
  rw [if_pos hq]
  have h1 := Int.floor_le (a / w)
  have h2 := Int.lt_floor_add_one (a / w)
  rw [le_div_iff₀ hw] at h1
  rw [div_lt_iff₀ hw] at h2
  constructor <;> linarith

omit [IsStrictOrderedRing K] in
theorem fmod_int {a w : K} : ∃ k : ℤ, fmod a w = a + k * w :=
  ⟨-trunc (a / w), by unfold fmod; push_cast; ring⟩

theorem wrap1_range {lo hi x : K} (h : lo < hi) : lo ≤ wrap1 lo hi x ∧ wrap1 lo hi x ≤ hi := by
  have hw : 0 < hi - lo := by linarith
  unfold wrap1
  split
  · next hx =>
    have := fmod_range (a := lo - x) (by linarith) hw
    constructor <;> linarith
  · split
    · next hx hx2 =>
      have := fmod_range (a := x - lo) (by linarith) hw
      constructor <;> linarith
    · next hx hx2 => push Not at hx hx2; exact ⟨hx, hx2.le⟩

theorem wrap1_int (lo hi x : K) : ∃ k : ℤ, wrap1 lo hi x = x + k * (hi - lo) := by
  unfold wrap1
  split
  · obtain ⟨k, hk⟩ := fmod_int (a := lo - x) (w := hi - lo)
    exact ⟨1 - k, by rw [hk]; push_cast; ring⟩
  · split
    · obtain ⟨k, hk⟩ := fmod_int (a := x - lo) (w := hi - lo)
      exact ⟨k, by rw [hk]; ring⟩
    · exact ⟨0, by simp⟩

theorem fmod_zero_iff {a w : K} (ha : 0 ≤ a) (hw : 0 < w) : fmod a w = 0 ↔ ∃ k : ℕ, a = k * w := by
  constructor
  · intro h
    unfold fmod at h
    refine ⟨(trunc (a / w)).toNat, ?_⟩
    have : 0 ≤ trunc (a / w) := by
      unfold trunc; rw [if_pos (div_nonneg ha hw.le)]
      exact Int.floor_nonneg.2 (div_nonneg ha hw.le)
    have h2 : ((trunc (a / w)).toNat : K) = ((trunc (a / w)) : K) := by
      rw [← Int.cast_natCast, Int.toNat_of_nonneg this]
    rw [h2]; linarith
  · rintro ⟨k, rfl⟩
    unfold fmod trunc
    have : (k : K) * w / w = k := by field_simp
    rw [this, if_pos (by positivity)]
    simp; ring

theorem wrap1_eq_hi_iff {lo hi x : K} (h : lo < hi) :
    wrap1 lo hi x = hi ↔ x < lo ∧ ∃ k : ℕ, lo - x = k * (hi - lo) := by
  have hw : 0 < hi - lo := by linarith
  unfold wrap1
  split
  · next hx =>
    rw [← fmod_zero_iff (by linarith) hw]
    constructor
    · intro h; exact ⟨hx, by linarith⟩
    · intro h; linarith [h.2]
  · next hx =>
    simp only [hx, false_and, iff_false]
    split
    · have := (fmod_range (a := x - lo) (by linarith) hw).2
      intro h; linarith
    · next h2 => push Not at h2; exact h2.ne

omit [IsStrictOrderedRing K] in
theorem wrap1_fix {lo hi x : K} (h1 : lo ≤ x) (h2 : x < hi) : wrap1 lo hi x = x := by
  unfold wrap1
  rw [if_neg (not_lt.2 h1), if_neg (not_le.2 h2)]

end Verif.Boundary
