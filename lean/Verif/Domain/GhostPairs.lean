import Verif.Domain.CellsProps
import Mathlib.Data.Rat.Floor
import Mathlib.Tactic.NormNum
import Mathlib.Tactic.Linarith
import Mathlib.Tactic.FieldSimp

/-!
# Pairs of ghost particles and owned particles (C149)

Models `InteractionHandler::assign_border_types` (`base/interactionhandler.cpp:425-459`), the halo cells of
`Domain::create_cells` (`domains/domain.cpp:304-343`) and `is_halo_cell` (374-380), `DomainBase::get_halo_cell_index`
(`base/domainbase.cpp:80-95`) and `Domain::traverseGhostPairs` (`domains/domain.cpp:201-231`): the traversal which, in
a run on several processors, lists the interactions between the particles of a processor and the copies of particles
of its neighbours.
-/

set_option linter.unusedSectionVars false
set_option linter.unusedSimpArgs false

namespace Verif.GhostPairs
open Verif.Grid Verif.Stencil Verif.Cells

section field
variable {K : Type*} [Field K] [LinearOrder K] [IsStrictOrderedRing K] [FloorRing K]

/-! ## The model -/

/-- One dimension of a processor's region: the bounds of the processor, those of the simulation, and whether the
boundary condition is `WRAP`. -/
structure Bd (K : Type*) where
  lo : K
  hi : K
  slo : K
  shi : K
  wrap : Bool

/-- `(border_type_down, border_type_up)` of one dimension: the body of the loop of `assign_border_types`,
`base/interactionhandler.cpp:430-457`. 0: no ghosts, 1: ghosts, 2: ghosts which are wrapped. -/
def borders (b : Bd K) : ℕ × ℕ :=
  if b.wrap then
    if b.hi - b.lo = b.shi - b.slo then (0, 0)
    else (if b.lo = b.slo then 2 else 1, if b.hi = b.shi then 2 else 1)
  else (if b.lo = b.slo then 0 else 1, if b.hi = b.shi then 0 else 1)

/-- One dimension with its cells. -/
structure HAx (K : Type*) where
  bd : Bd K
  ax : Axis K

/-- Whether `correct_index` wraps an index of this dimension, `domains/domain.cpp:350,358`. The code tests
`border_type_up` above and `border_type_down` below; they vanish together when the boundary wraps
(`borders_zero_iff`), so one flag is kept. -/
def HAx.per (a : HAx K) : Bool := a.bd.wrap && decide ((borders a.bd).2 = 0)

/-- The dimension as seen by `create_cells`. -/
def HAx.gax (a : HAx K) : GAx K := ⟨a.ax.dim, a.ax.w, a.per⟩

/-- The bounds of the simulation, which `traverseGhostPairs` uses for the maximum reasonable distance. -/
def HAx.dax (a : HAx K) : DAx K := ⟨a.bd.slo, a.bd.shi, a.ax.dim, a.ax.w, a.per⟩

/-- The coordinate chosen by the loop body of `get_halo_cell_index`, `base/domainbase.cpp:83-91`; `epsilon` is 0.001.
The conversion to an integer is made after `dim_shift_down` was added. -/
def haloCoord (a : Axis K) (x : K) : ℤ :=
  if a.hi ≤ x + 1/1000 then (a.dim : ℤ) - 1
  else if x - 1/1000 ≤ a.lo then 0
  else max (trunc ((x - a.lo) * (1 / a.w) + a.down)) 0

/-- The coordinates collected by the loop of `get_halo_cell_index`, `base/domainbase.cpp:80-95`. -/
def haloTuple : List (Axis K) → List K → List ℤ
  | a :: as, x :: xs => haloCoord a x :: haloTuple as xs
  | _, _ => []

/-- `get_halo_cell_index`, `base/domainbase.cpp:80-95`. -/
def haloIndex (as : List (Axis K)) (x : List K) : ℤ := tupleToLinear (as.map Axis.dim) (haloTuple as x)

/-- `is_halo_cell`, `domains/domain.cpp:374-380`. -/
def isHalo : List (Axis K) → List ℤ → Bool
  | a :: as, i :: is => decide (i < a.down) || decide ((a.dim : ℤ) - a.up ≤ i) || isHalo as is
  | _, _ => false

/-- What the traversal reads: the grid, the arrays of owned particles and of ghosts, the cutoff tables and the scalar
parameters. -/
structure GSys (K : Type*) where
  /-- the dimensions -/
  g : List (HAx K)
  /-- `simData->number_owned()` -/
  number : ℕ
  /-- `simData->size_ghosts()` -/
  ghosts : ℕ
  /-- positions, radii and types of the owned particles -/
  x : ℕ → List K
  rd : ℕ → K
  type : ℕ → ℤ
  /-- positions, radii and types of the ghosts -/
  xg : ℕ → List K
  rdg : ℕ → K
  typeg : ℕ → ℤ
  /-- `forceMaster->typeInteracts` -/
  interacts : ℤ → Bool
  /-- `cutoff_grid`; `none` is the null pointer -/
  cut : Option (ℤ → ℤ → K)
  /-- `max_small_sigma` -/
  mss : K
  /-- `skin_depth` -/
  skin : K

/-- `dims`. -/
def GSys.dims (S : GSys K) : List ℕ := S.g.map fun a => a.ax.dim

/-- `min_small_cutoff`, `domains/domain.cpp:284`. -/
def GSys.cutoff (S : GSys K) : K := 2 * S.mss + S.skin

/-- The sweeps, `domains/domain.cpp:289`. -/
def GSys.sweeps (S : GSys K) : List ℕ := S.g.map fun a => sweepOf S.cutoff a.ax.w

/-- `cells[c].adjacent` for a halo cell, `domains/domain.cpp:310-323`: every displacement of the stencil is tried and
only cells that are not halo cells are kept. -/
def GSys.adjHalo (S : GSys K) (c : ℕ) : List ℤ :=
  (neighborIndices S.cutoff S.sweeps (S.g.map fun a => a.ax.w)).filterMap fun t =>
    (correctIndex (S.g.map fun a => a.gax.ax S.cutoff) (addTuple ((getAddressCM S.dims c).map (↑)) t)).bind fun u =>
      if isHalo (S.g.map HAx.ax) u then none else some (tupleToLinear S.dims u)

/-- `cells[c].adjacent` as it is left by `create_cells`, `domains/domain.cpp:306-342`: halo cells have all the cells
around them, other cells half of them. A read beyond the end of the stencil (shown impossible by
`C27_stencil_in_bounds`) counts as no cells. -/
def GSys.adj (S : GSys K) (c : ℕ) : List ℤ :=
  if isHalo (S.g.map HAx.ax) ((getAddressCM S.dims c).map (↑)) then S.adjHalo c
  else (adjacent S.cutoff (S.g.map HAx.gax) c).getD []

/-- Particles that are put in cells, `domains/domain.cpp:246`. -/
def GSys.binned (S : GSys K) (i : ℕ) : Bool := decide (0 ≤ S.type i) && S.interacts (S.type i)

/-- The cell of an owned particle, `add_to_cell`, `domains/domain.cpp:368-372`. -/
def GSys.cellOf (S : GSys K) (i : ℕ) : ℤ := cellIndex (S.g.map HAx.ax) (S.x i)

/-- `cells[c].particle_ids` after `structure_updates`, `domains/domain.cpp:237-248`; ghosts are not binned. -/
def GSys.cell (S : GSys K) (c : ℤ) : List ℕ :=
  (List.range S.number).filter fun i => S.binned i && decide (S.cellOf i = c)

/-- The test of one ghost and one owned particle, `domains/domain.cpp:225-227`. -/
def GSys.test (S : GSys K) (cut : ℤ → ℤ → K) (i j : ℕ) : List Visit :=
  if distSq (S.xg i) (S.x j) < ((S.rdg i + S.rd j) * cut (S.typeg i) (S.type j) + S.skin) ^ 2 ∨
      maxReasonable (S.g.map HAx.dax) < distSq (S.xg i) (S.x j) then [⟨i, j, 2⟩]
  else []

/-- The loops over the cells around a ghost, `domains/domain.cpp:218-229`. -/
def GSys.ghost (S : GSys K) (cut : ℤ → ℤ → K) (i : ℕ) : List Visit :=
  (S.adj (haloIndex (S.g.map HAx.ax) (S.xg i)).toNat).flatMap fun c => (S.cell c).flatMap (S.test cut i)

/-- `traverseGhostPairs`, `domains/domain.cpp:201-231`: the calls of the body in order. -/
def GSys.traverse (S : GSys K) : List Visit :=
  match S.cut with
  | none => []
  | some cut => (List.range S.ghosts).flatMap (S.ghost cut)

/-! ## Specification -/

/-- Spec: the dimension is one that the domain builds for the region and the cutoff `c`. -/
structure HAx.Valid (c : K) (a : HAx K) : Prop where
  lohi : a.bd.lo < a.bd.hi
  built : calcAxis c a.bd.lo a.bd.hi (decide ((borders a.bd).1 ≠ 0)) (decide ((borders a.bd).2 ≠ 0)) = some a.ax

/-- Spec: a coordinate of an owned particle is inside the region of the processor, except where the region ends at a
border of the simulation that does not wrap. -/
def Owned (a : HAx K) (y : K) : Prop :=
  ((borders a.bd).1 ≠ 0 ∨ a.bd.wrap = true → a.bd.lo ≤ y) ∧ ((borders a.bd).2 ≠ 0 ∨ a.bd.wrap = true → y < a.bd.hi)

/-- Spec: a coordinate of a ghost: where the region takes the whole of a wrapping dimension it is inside; and it is not
within 0.001 of a side of the region shared with another processor, on the inside (or the cells are so wide that this
does not matter). -/
def Ghost (c : K) (a : HAx K) (x : K) : Prop :=
  (a.per = true → a.bd.lo ≤ x ∧ x < a.bd.hi) ∧
  (c + 1/1000 ≤ (sweepOf c a.ax.w : K) * a.ax.w ∨
    ((borders a.bd).2 ≠ 0 → ¬(x < a.bd.hi ∧ a.bd.hi ≤ x + 1/1000)) ∧
    ((borders a.bd).1 ≠ 0 → ¬(a.bd.lo < x ∧ x - 1/1000 ≤ a.bd.lo)))

/-- Spec: the coordinate is beyond a side of the region that is shared with another processor. -/
def Beyond (a : HAx K) (x : K) : Prop :=
  ((borders a.bd).2 ≠ 0 ∧ a.bd.hi ≤ x) ∨ ((borders a.bd).1 ≠ 0 ∧ x < a.bd.lo ∧ x + 1/1000 < a.bd.hi)

/-- Spec: squared distance of `x` and the image of `y` shifted by `m` widths of the simulation. -/
def image : List (HAx K) → List ℤ → List K → List K → K
  | a :: g, m :: ms, x :: xs, y :: ys => (x - y + m * (a.bd.shi - a.bd.slo)) ^ 2 + image g ms xs ys
  | _, _, _, _ => 0

/-- Spec: shifts are only in wrapping dimensions that the processor takes up alone (in the others, the ghost that was
sent is itself the nearest image). -/
def Shifts (g : List (HAx K)) (m : List ℤ) : Prop :=
  List.Forall₂ (fun (k : ℤ) (a : HAx K) => a.per = false → k = 0) m g

/-- Spec: an owned particle that is alive and of an interacting type. -/
def GSys.Live (S : GSys K) (i : ℕ) : Prop := i < S.number ∧ 0 ≤ S.type i ∧ S.interacts (S.type i) = true

/-- Spec: the test on displacements (`domains/domain.cpp:299-300`) keeps the whole block of cells within the sweep. -/
def GSys.Full (S : GSys K) : Prop :=
  ∀ t, Within S.sweeps t → ((trunc (dotW t (S.g.map fun a => a.ax.w)) : ℤ) : K) < S.cutoff ^ 2

/-- Spec: the conditions under which no ghost pair is missed. -/
structure GSys.OK (S : GSys K) : Prop where
  cutoff_pos : 0 < S.cutoff
  valid : ∀ a ∈ S.g, a.Valid S.cutoff
  /-- cells are wider than the tolerance 0.001 -/
  eps : ∀ a ∈ S.g, 1/1000 < a.ax.w
  /-- wrapping dimensions that the processor takes up alone have at least `2*sweep+1` cells -/
  wide : ∀ a ∈ S.g, a.per = true → 2 * sweepOf S.cutoff a.ax.w + 1 ≤ a.ax.dim
  full : S.Full
  owned : ∀ i, S.Live i → List.Forall₂ Owned S.g (S.x i)
  ghost : ∀ i, i < S.ghosts → List.Forall₂ (Ghost S.cutoff) S.g (S.xg i)

/-! ## Borders -/

/-- In a wrapping dimension both border types vanish or none does, and they vanish only when the processor takes up the
whole width of the simulation. -/
theorem borders_zero_iff {b : Bd K} (hw : b.wrap = true) :
    ((borders b).1 = 0 ↔ (borders b).2 = 0) ∧ ((borders b).2 = 0 ↔ b.hi - b.lo = b.shi - b.slo) := by
  unfold borders
  rw [if_pos hw]
  by_cases h : b.hi - b.lo = b.shi - b.slo
  · simp [h]
  · rw [if_neg h]
    simp only [h, iff_false]
    constructor
    · constructor <;> intro h' <;> exfalso <;> revert h' <;> split_ifs <;> decide
    · split_ifs <;> decide

/-- **C149 (borders).** For every region inside the simulation, a side of the region is expected to have ghosts
beyond it exactly when there can be other processors there: always, except at a border of the simulation that does
not wrap, and except in a wrapping dimension which the processor takes up alone. -/
theorem C149_borders (b : Bd K) (hlo : b.slo ≤ b.lo) (hhi : b.hi ≤ b.shi) :
    ((borders b).1 = 0 ↔ b.lo = b.slo ∧ (b.wrap = true → b.hi = b.shi)) ∧
    ((borders b).2 = 0 ↔ b.hi = b.shi ∧ (b.wrap = true → b.lo = b.slo)) := by
  by_cases hw : b.wrap = true
  · obtain ⟨h1, h2⟩ := borders_zero_iff hw
    have key : b.hi - b.lo = b.shi - b.slo ↔ b.lo = b.slo ∧ b.hi = b.shi := by
      constructor
      · intro h; constructor <;> linarith
      · rintro ⟨h1, h2⟩; rw [h1, h2]
    rw [h1, h2, key]
    simp only [hw, true_implies]
    exact ⟨trivial, and_comm⟩
  · unfold borders
    rw [if_neg hw]
    simp only [hw, false_implies, and_true]
    refine ⟨?_, ?_⟩ <;> split_ifs with h <;> simp [h]

example : borders (⟨0, 5, 0, 10, true⟩ : Bd ℚ) = (2, 1) ∧ borders (⟨0, 5, 0, 10, false⟩ : Bd ℚ) = (0, 1) ∧
    borders (⟨0, 10, 0, 10, true⟩ : Bd ℚ) = (0, 0) := by decide +kernel

theorem per_iff {a : HAx K} : a.per = true ↔ a.bd.wrap = true ∧ (borders a.bd).2 = 0 := by
  simp [HAx.per]

/-! ## One dimension -/

/-- What `calcAxis` stored, in one place. -/
theorem HAx.Valid.facts {c : K} (hc : 0 < c) {a : HAx K} (h : a.Valid c) :
    a.ax.Valid ∧ a.ax.lo = a.bd.lo ∧ a.ax.hi = a.bd.hi ∧
    (a.ax.down = if (borders a.bd).1 ≠ 0 then 1 else 0) ∧ (a.ax.up = if (borders a.bd).2 ≠ 0 then 1 else 0) := by
  obtain ⟨_, h2⟩ := C26_cell_dimensions c a.bd.lo a.bd.hi (decide ((borders a.bd).1 ≠ 0))
    (decide ((borders a.bd).2 ≠ 0)) hc h.lohi
  obtain ⟨e1, e2, e3, e4, _⟩ := h2 a.ax h.built
  exact ⟨calcAxis_valid hc h.lohi h.built, e1, e2, by simpa using e3, by simpa using e4⟩

/-- The chosen coordinate always exists. -/
theorem haloCoord_range {a : Axis K} (h : a.Valid) (x : K) : 0 ≤ haloCoord a x ∧ haloCoord a x < a.dim := by
  have hint := h.interior
  have hw := h.wpos
  unfold haloCoord
  by_cases h1 : a.hi ≤ x + 1/1000
  · rw [if_pos h1]; omega
  rw [if_neg h1]
  by_cases h2 : x - 1/1000 ≤ a.lo
  · rw [if_pos h2]; omega
  rw [if_neg h2]
  push Not at h1 h2
  have hq : 0 ≤ (x - a.lo) * (1 / a.w) + a.down := by
    have : 0 ≤ (x - a.lo) * (1 / a.w) := mul_nonneg (by linarith) (by positivity)
    positivity
  rw [trunc_nonneg hq, Int.floor_add_natCast]
  refine ⟨le_max_right _ _, ?_⟩
  have f1 : ⌊(x - a.lo) * (1 / a.w)⌋ < (a.dim : ℤ) - a.down - a.up := by
    have hcast : ((a.dim - a.down - a.up : ℕ) : ℤ) = (a.dim : ℤ) - a.down - a.up := by omega
    rw [mul_one_div, Int.floor_lt, div_lt_iff₀ hw, ← hcast]
    push_cast
    rw [h.tiles]; linarith
  omega

/-- The coordinate of a ghost: a halo cell beyond (or within the tolerance of) a shared side, else the usual cell. -/
theorem haloCoord_cases {a : Axis K} (h : a.Valid) (he : 1/1000 < a.w) (x : K) :
    (0 < a.up ∧ a.hi ≤ x + 1/1000 ∧ haloCoord a x = (a.dim : ℤ) - 1) ∨
    (0 < a.down ∧ x - 1/1000 ≤ a.lo ∧ haloCoord a x = 0) ∨ haloCoord a x = cellCoord a x := by
  have hint := h.interior
  have hw := h.wpos
  have hcast : ((a.dim - a.down - a.up : ℕ) : ℤ) = (a.dim : ℤ) - a.down - a.up := by omega
  have ht := h.tiles
  by_cases h1 : a.hi ≤ x + 1/1000
  · by_cases hu : 0 < a.up
    · left; exact ⟨hu, h1, by rw [haloCoord, if_pos h1]⟩
    · right; right
      rw [haloCoord, if_pos h1, cellCoord_eq h]
      have : (a.dim : ℤ) - a.down - a.up - 1 ≤ ⌊(x - a.lo) / a.w⌋ := by
        rw [Int.le_floor, le_div_iff₀ hw, ← hcast]
        push_cast
        rw [sub_mul, ht]; linarith
      omega
  by_cases h2 : x - 1/1000 ≤ a.lo
  · by_cases hd : 0 < a.down
    · right; left; exact ⟨hd, h2, by rw [haloCoord, if_neg h1, if_pos h2]⟩
    · right; right
      rw [haloCoord, if_neg h1, if_pos h2, cellCoord_eq h]
      have : ⌊(x - a.lo) / a.w⌋ < 1 := by
        rw [Int.floor_lt, div_lt_iff₀ hw]; push_cast; linarith
      omega
  · right; right
    rw [haloCoord, if_neg h1, if_neg h2, cellCoord_eq h]
    push Not at h1 h2
    have hq : 0 ≤ (x - a.lo) / a.w := div_nonneg (by linarith) hw.le
    rw [mul_one_div, trunc_nonneg (by positivity), Int.floor_add_natCast]
    have f0 : 0 ≤ ⌊(x - a.lo) / a.w⌋ := Int.floor_nonneg.mpr hq
    have f1 : ⌊(x - a.lo) / a.w⌋ < (a.dim : ℤ) - a.down - a.up := by
      rw [Int.floor_lt, div_lt_iff₀ hw, ← hcast]
      push_cast
      rw [ht]; linarith
    omega

/-- A ghost and an owned particle that are close sit in cells within the sweep. -/
theorem near_ghost {c : K} (hc : 0 < c) {a : HAx K} (hv : a.Valid c) (he : 1/1000 < a.ax.w) {x y : K} {m : ℤ}
    (hm : a.per = false → m = 0) (hx : Ghost c a x) (hy : Owned a y)
    (h : |x - y + m * (a.bd.shi - a.bd.slo)| < c) :
    Near1 (a.gax.ax c) (haloCoord a.ax x) (cellCoord a.ax y) := by
  obtain ⟨hA, elo, ehi, ed, eu⟩ := hv.facts hc
  have hw := hA.wpos
  have hint := hA.interior
  have hs := sweep_ge (cutoff := c) hw
  have ht := hA.tiles
  have hcast : ((a.ax.dim - a.ax.down - a.ax.up : ℕ) : ℤ) = (a.ax.dim : ℤ) - a.ax.down - a.ax.up := by omega
  set N : ℤ := (a.ax.dim : ℤ) - a.ax.down - a.ax.up with hN
  have hNK : (N : K) * a.ax.w = a.ax.hi - a.ax.lo := by
    rw [← ht, ← hcast]; push_cast; rfl
  by_cases hp : a.per = true
  · -- a wrapping dimension without borders
    obtain ⟨hwr, hb2⟩ := per_iff.mp hp
    obtain ⟨z1, z2⟩ := borders_zero_iff hwr
    have hb1 := z1.mpr hb2
    have hwid := z2.mp hb2
    rw [if_neg (by simpa using hb1)] at ed
    rw [if_neg (by simpa using hb2)] at eu
    have hcell : haloCoord a.ax x = cellCoord a.ax x := by
      rcases haloCoord_cases hA he x with h' | h' | h'
      · omega
      · omega
      · exact h'
    rw [hcell, cellCoord_eq hA, cellCoord_eq hA]
    have hxi := hx.1 hp
    have hyi : a.bd.lo ≤ y ∧ y < a.bd.hi := ⟨hy.1 (Or.inr hwr), hy.2 (Or.inr hwr)⟩
    have e : (x - a.ax.lo) / a.ax.w - (y - a.ax.lo) / a.ax.w + ((m * N : ℤ) : K) =
        (x - y + m * (a.bd.shi - a.bd.slo)) / a.ax.w := by
      rw [← hwid, ← elo, ← ehi, ← hNK]; push_cast; field_simp; ring
    have hlt : |(x - a.ax.lo) / a.ax.w - (y - a.ax.lo) / a.ax.w + ((m * N : ℤ) : K)| < (sweepOf c a.ax.w : K) := by
      rw [e, abs_div, abs_of_pos hw, div_lt_iff₀ hw]; linarith
    have hf := floor_close hlt
    have fb : ∀ z : K, a.bd.lo ≤ z → z < a.bd.hi → 0 ≤ ⌊(z - a.ax.lo) / a.ax.w⌋ ∧ ⌊(z - a.ax.lo) / a.ax.w⌋ < N := by
      intro z h1 h2
      constructor
      · exact Int.floor_nonneg.mpr (div_nonneg (by rw [elo]; linarith) hw.le)
      · rw [Int.floor_lt, div_lt_iff₀ hw, hNK, elo, ehi]; linarith
    have b1 := fb x hxi.1 hxi.2
    have b2 := fb y hyi.1 hyi.2
    right
    refine ⟨hp, -m, ?_⟩
    simp only [HAx.gax, GAx.ax]
    rw [max_eq_right (by omega), max_eq_right (by omega), min_eq_left (by omega), min_eq_left (by omega)]
    have hNd : N = a.ax.dim := by omega
    rw [show -m * (a.ax.dim : ℤ) = -(m * N) by rw [hNd]; ring, ← sub_eq_add_neg]
    rw [show ∀ p q d : ℤ, p + d - (q + d) = p - q from fun p q d => by ring]
    exact hf
  · have hm0 := hm (by simpa using hp)
    subst hm0
    simp only [Int.cast_zero, zero_mul, add_zero] at h
    rw [abs_lt] at h
    left
    simp only [HAx.gax, GAx.ax]
    rcases haloCoord_cases hA he x with ⟨hu, hxe, h'⟩ | ⟨hd, hxe, h'⟩ | h'
    · -- above
      have hb2 : (borders a.bd).2 ≠ 0 := by
        by_contra hb; rw [if_neg (by simpa using hb)] at eu; omega
      rw [if_pos hb2] at eu
      have hyhi := hy.2 (Or.inl hb2)
      have hkey : a.ax.hi - (sweepOf c a.ax.w : K) * a.ax.w ≤ y := by
        rw [ehi]
        rcases hx.2 with hs' | ⟨hs', _⟩
        · rw [ehi] at hxe; linarith [h.2]
        · have := hs' hb2
          rw [ehi] at hxe
          have : a.bd.hi ≤ x := by
            by_contra hlt; exact this ⟨not_le.mp hlt, hxe⟩
          linarith [h.2]
      have f1 : N - sweepOf c a.ax.w ≤ ⌊(y - a.ax.lo) / a.ax.w⌋ := by
        rw [Int.le_floor, le_div_iff₀ hw]; push_cast; rw [sub_mul, hNK]; linarith
      have f2 : ⌊(y - a.ax.lo) / a.ax.w⌋ < N := by
        rw [Int.floor_lt, div_lt_iff₀ hw, hNK, ehi]; linarith
      have hN1 : 1 ≤ N := by omega
      rw [h', cellCoord_eq hA, abs_le]
      have hs1 := sweep_pos hw hc
      constructor <;> omega
    · -- below
      have hb1 : (borders a.bd).1 ≠ 0 := by
        by_contra hb; rw [if_neg (by simpa using hb)] at ed; omega
      rw [if_pos hb1] at ed
      have hylo := hy.1 (Or.inl hb1)
      have hkey : y < a.ax.lo + (sweepOf c a.ax.w : K) * a.ax.w := by
        rw [elo]
        rcases hx.2 with hs' | ⟨_, hs'⟩
        · rw [elo] at hxe; linarith [h.1]
        · have := hs' hb1
          rw [elo] at hxe
          have : x ≤ a.bd.lo := by
            by_contra hlt; exact this ⟨not_le.mp hlt, hxe⟩
          linarith [h.1]
      have f1 : 0 ≤ ⌊(y - a.ax.lo) / a.ax.w⌋ := Int.floor_nonneg.mpr (div_nonneg (by rw [elo]; linarith) hw.le)
      have f2 : ⌊(y - a.ax.lo) / a.ax.w⌋ < sweepOf c a.ax.w := by
        rw [Int.floor_lt, div_lt_iff₀ hw]; push_cast; linarith
      have hs1 := sweep_pos hw hc
      rw [h', cellCoord_eq hA, abs_le]
      constructor <;> omega
    · have hlt : |(x - a.ax.lo) / a.ax.w - (y - a.ax.lo) / a.ax.w + ((0 : ℤ) : K)| < (sweepOf c a.ax.w : K) := by
        have e : (x - a.ax.lo) / a.ax.w - (y - a.ax.lo) / a.ax.w + ((0 : ℤ) : K) = (x - y) / a.ax.w := by
          push_cast; field_simp; ring
        rw [e, abs_div, abs_of_pos hw, div_lt_iff₀ hw, ]
        have : |x - y| < c := abs_lt.mpr h
        linarith
      have hf := floor_close hlt
      rw [sub_zero, abs_le] at hf
      rw [h', cellCoord_eq hA, cellCoord_eq hA, abs_le]
      constructor <;> omega

/-! ## All dimensions -/

theorem image_nonneg (g : List (HAx K)) (m : List ℤ) (x y : List K) : 0 ≤ image g m x y := by
  induction g generalizing m x y with
  | nil => simp [image]
  | cons a g ih =>
    match m, x, y with
    | [], _, _ => simp [image]
    | _ :: _, [], _ => simp [image]
    | _ :: _, _ :: _, [] => simp [image]
    | k :: m, x :: xs, y :: ys =>
      simp only [image]
      have := ih m xs ys
      positivity

theorem cellTuple_grid {c : K} (hc : 0 < c) {g : List (HAx K)} (hv : ∀ a ∈ g, a.Valid c) {y : List K}
    (hy : y.length = g.length) :
    ∃ t : List ℕ, cellTuple (g.map HAx.ax) y = t.map (↑) ∧ InGrid (g.map fun a => a.ax.dim) t ∧
      isHalo (g.map HAx.ax) (t.map (↑)) = false := by
  induction g generalizing y with
  | nil => exact ⟨[], by cases y <;> rfl, List.Forall₂.nil, rfl⟩
  | cons a g ih =>
    cases y with
    | nil => simp at hy
    | cons y ys =>
      obtain ⟨t, h1, h2, h3⟩ := ih (fun b hb => hv b (List.mem_cons_of_mem _ hb)) (y := ys) (by simpa using hy)
      obtain ⟨k, h4, h5⟩ := cellCoord_belongs ((hv a (by simp)).facts hc).1 y
      have b1 := h5.1
      have b2 := h5.2.1
      refine ⟨k :: t, by simp [cellTuple, h1, h4], List.Forall₂.cons (by show k < a.ax.dim; omega) h2, ?_⟩
      simp only [List.map_cons, isHalo, h3, Bool.or_false, Bool.or_eq_false_iff, decide_eq_false_iff_not, not_lt,
        not_le]
      constructor <;> omega

theorem haloTuple_grid {c : K} (hc : 0 < c) {g : List (HAx K)} (hv : ∀ a ∈ g, a.Valid c) {x : List K}
    (hx : x.length = g.length) :
    ∃ t : List ℕ, haloTuple (g.map HAx.ax) x = t.map (↑) ∧ InGrid (g.map fun a => a.ax.dim) t := by
  induction g generalizing x with
  | nil => exact ⟨[], by cases x <;> rfl, List.Forall₂.nil⟩
  | cons a g ih =>
    cases x with
    | nil => simp at hx
    | cons x xs =>
      obtain ⟨t, h1, h2⟩ := ih (fun b hb => hv b (List.mem_cons_of_mem _ hb)) (x := xs) (by simpa using hx)
      obtain ⟨r1, r2⟩ := haloCoord_range ((hv a (by simp)).facts hc).1 x
      refine ⟨(haloCoord a.ax x).toNat :: t, ?_, List.Forall₂.cons (by show _ < a.ax.dim; omega) h2⟩
      simp only [List.map_cons, haloTuple, h1]
      rw [show (((haloCoord a.ax x).toNat : ℕ) : ℤ) = haloCoord a.ax x by omega]

/-- A ghost beyond a shared side is in a halo cell. -/
theorem beyond_halo {c : K} (hc : 0 < c) {g : List (HAx K)} (hv : ∀ a ∈ g, a.Valid c) {x : List K}
    (hx : x.length = g.length) (hb : ∃ p ∈ g.zip x, Beyond p.1 p.2) :
    isHalo (g.map HAx.ax) (haloTuple (g.map HAx.ax) x) = true := by
  induction g generalizing x with
  | nil => simp at hb
  | cons a g ih =>
    cases x with
    | nil => simp at hx
    | cons x xs =>
      simp only [List.map_cons, haloTuple, isHalo, Bool.or_eq_true, decide_eq_true_eq]
      obtain ⟨p, hp, hB⟩ := hb
      rcases List.mem_cons.mp (by simpa using hp : p ∈ (a, x) :: g.zip xs) with rfl | hp
      · left
        obtain ⟨_, elo, ehi, ed, eu⟩ := (hv a (by simp)).facts hc
        rcases hB with ⟨b2, hh⟩ | ⟨b1, hh, hh'⟩
        · right
          rw [if_pos b2] at eu
          rw [haloCoord, if_pos (by rw [ehi]; simp only at hh; linarith)]; omega
        · left
          rw [if_pos b1] at ed
          simp only at hh hh'
          rw [haloCoord, if_neg (by rw [ehi]; linarith), if_pos (by rw [elo]; linarith)]; omega
      · right
        exact ih (fun b hb => hv b (List.mem_cons_of_mem _ hb)) (by simpa using hx) ⟨p, hp, hB⟩

theorem near_ghosts {c r : K} (hc : 0 < c) {g : List (HAx K)} (hv : ∀ a ∈ g, a.Valid c)
    (he : ∀ a ∈ g, 1/1000 < a.ax.w) (hr : r ≤ c) (h0 : 0 ≤ r) {m : List ℤ} (hm : Shifts g m) {x y : List K}
    (hx : List.Forall₂ (Ghost c) g x) (hy : List.Forall₂ Owned g y) (h : image g m x y < r ^ 2) {s t : List ℕ}
    (hs : haloTuple (g.map HAx.ax) x = s.map (↑)) (ht : cellTuple (g.map HAx.ax) y = t.map (↑)) :
    Near (g.map fun a => a.gax.ax c) s t := by
  induction g generalizing m x y s t with
  | nil => cases s <;> cases t <;> trivial
  | cons a g ih =>
    cases hm with
    | @cons k _ m _ hk hm =>
      cases hx with
      | @cons _ x _ xs hx0 hxl =>
        cases hy with
        | @cons _ y _ ys hy0 hyl =>
          simp only [List.map_cons, haloTuple, cellTuple] at hs ht
          match s, t with
          | [], _ => simp at hs
          | _ :: _, [] => simp at ht
          | i :: s, j :: t =>
            simp only [List.map_cons, List.cons.injEq] at hs ht
            simp only [image] at h
            simp only [List.map_cons, Near]
            have hn := image_nonneg g m xs ys
            constructor
            · rw [← hs.1, ← ht.1]
              exact near_ghost hc (hv a (by simp)) (he a (by simp)) hk hx0 hy0
                (lt_of_lt_of_le (abs_lt_of_sq_add_lt h0 hn h) hr)
            · refine ih (fun b hb => hv b (List.mem_cons_of_mem _ hb)) (fun b hb => he b (List.mem_cons_of_mem _ hb))
                hm hxl hyl ?_ hs.2 ht.2
              have : 0 ≤ (x - y + k * (a.bd.shi - a.bd.slo)) ^ 2 := sq_nonneg _
              linarith

/-- Without shifts the distance is the plain one; with a shift the particles are far apart. -/
theorem image_or_far {c r : K} (hc : 0 < c) {g : List (HAx K)} (hv : ∀ a ∈ g, a.Valid c) (hr : r ≤ c) (h0 : 0 ≤ r)
    (hwide : ∀ a ∈ g, a.per = true → 2 * sweepOf c a.ax.w + 1 ≤ a.ax.dim) {m : List ℤ} (hm : Shifts g m)
    {x y : List K} (hx : x.length = g.length) (hy : y.length = g.length) (h : image g m x y < r ^ 2) :
    distSq x y ≤ image g m x y ∨ ∃ a ∈ g, (1/2 * (a.bd.shi - a.bd.slo)) ^ 2 < distSq x y := by
  induction g generalizing m x y with
  | nil =>
    have : x = [] := by simpa using hx
    subst this
    simp [distSq, image]
  | cons a g ih =>
    cases hm with
    | @cons k _ m _ hk hm =>
      match x, y with
      | [], _ => simp at hx
      | _ :: _, [] => simp at hy
      | x :: xs, y :: ys =>
        simp only [image] at h
        have hn := image_nonneg g m xs ys
        have hd := distSq_nonneg xs ys
        by_cases hk0 : k = 0
        · have hsq : 0 ≤ (x - y + k * (a.bd.shi - a.bd.slo)) ^ 2 := sq_nonneg _
          rcases ih (fun b hb => hv b (List.mem_cons_of_mem _ hb)) (fun b hb => hwide b (List.mem_cons_of_mem _ hb))
            hm (by simpa using hx) (by simpa using hy) (by linarith) with h1 | ⟨b, hb, h1⟩
          · left
            simp only [distSq, image, hk0, Int.cast_zero, zero_mul, add_zero]
            linarith
          · right
            refine ⟨b, List.mem_cons_of_mem _ hb, ?_⟩
            simp only [distSq]
            have : 0 ≤ (x - y) ^ 2 := sq_nonneg _
            linarith
        · right
          have hper : a.per = true := by
            by_contra hp; exact hk0 (hk (by simpa using hp))
          obtain ⟨hwr, hb2⟩ := per_iff.mp hper
          obtain ⟨z1, z2⟩ := borders_zero_iff hwr
          have hwid := z2.mp hb2
          obtain ⟨hA, elo, ehi, ed, eu⟩ := (hv a (by simp)).facts hc
          rw [if_neg (by simpa using z1.mpr hb2)] at ed
          rw [if_neg (by simpa using hb2)] at eu
          have hw := hA.wpos
          have ht := hA.tiles
          rw [ed, eu, elo, ehi, hwid] at ht
          have hab : |x - y + k * (a.bd.shi - a.bd.slo)| < r := abs_lt_of_sq_add_lt h0 hn h
          have hL : 0 < a.bd.shi - a.bd.slo := by rw [← hwid]; exact sub_pos.mpr (hv a (by simp)).lohi
          have hsw := sweep_ge (cutoff := c) hw
          have hwd := hwide a (by simp) hper
          have hnK : (2 : K) * (sweepOf c a.ax.w : K) + 1 ≤ a.ax.dim := by exact_mod_cast hwd
          simp only [Nat.sub_zero] at ht
          have hhalf : c < 1/2 * (a.bd.shi - a.bd.slo) := by
            rw [← ht]; nlinarith
          have hbig : 1/2 * (a.bd.shi - a.bd.slo) < |x - y| := by
            have hk1 : (1 : K) ≤ |(k : K)| := by
              have : (1 : ℤ) ≤ |k| := Int.one_le_abs hk0
              exact_mod_cast this
            have h2 := abs_sub (x - y + k * (a.bd.shi - a.bd.slo)) (x - y)
            rw [show x - y + k * (a.bd.shi - a.bd.slo) - (x - y) = k * (a.bd.shi - a.bd.slo) by ring, abs_mul,
              abs_of_pos hL] at h2
            nlinarith
          refine ⟨a, by simp, ?_⟩
          simp only [distSq]
          have : (1/2 * (a.bd.shi - a.bd.slo)) ^ 2 < (x - y) ^ 2 := by
            rw [← sq_abs (x - y)]
            apply pow_lt_pow_left₀ hbig (by positivity) (by norm_num)
          linarith

/-! ## The traversal -/

theorem filterMap_bind_sublist {α β γ : Type*} (f : α → Option β) (q : β → γ) (b : β → Bool) (l : List α) :
    (l.filterMap fun t => (f t).bind fun u => if b u then none else some (q u)).Sublist
      (l.filterMap fun t => (f t).map q) := by
  induction l with
  | nil => simp
  | cons t l ih =>
    cases h : f t with
    | none => simpa [List.filterMap_cons, h] using ih
    | some u =>
      by_cases hb : b u = true
      · simp only [List.filterMap_cons, h, Option.bind_some, hb, if_true, Option.map_some]
        exact ih.cons _
      · simp only [List.filterMap_cons, h, Option.bind_some, hb, Option.map_some]
        exact ih.cons_cons _

/-- The dimensions as combinatorial data. -/
def GSys.axs (S : GSys K) : List Ax := S.g.map fun a => a.gax.ax S.cutoff

theorem axs_n (S : GSys K) : S.axs.map Ax.n = S.dims := by
  simp [GSys.axs, GSys.dims, HAx.gax, GAx.ax, Function.comp_def]

theorem axs_s (S : GSys K) : S.axs.map Ax.s = S.sweeps := by
  simp [GSys.axs, GSys.sweeps, HAx.gax, GAx.ax, Function.comp_def]

theorem axs_wide {S : GSys K}
    (hw : ∀ a ∈ S.g, a.per = true → 2 * sweepOf S.cutoff a.ax.w + 1 ≤ a.ax.dim) : ∀ x ∈ S.axs, Wide x := by
  intro x hx
  obtain ⟨a, ha, rfl⟩ := List.mem_map.mp hx
  exact hw a ha

theorem adjHalo_sublist (S : GSys K) (c : ℕ) :
    (S.adjHalo c).Sublist (reach S.axs (neighborIndices S.cutoff S.sweeps (S.g.map fun a => a.ax.w)) c) := by
  unfold GSys.adjHalo reach
  rw [axs_n]
  exact filterMap_bind_sublist _ _ _ _

theorem neighbor_within {c : K} {ss : List ℕ} {ws : List K} : ∀ t ∈ neighborIndices c ss ws, Within ss t :=
  fun _ ht => mem_allTuples.mp (List.mem_filter.mp ht).1

theorem adjHalo_nodup {S : GSys K} (hw : ∀ x ∈ S.axs, Wide x) {c : ℕ} (hc : c < S.dims.prod) :
    (S.adjHalo c).Nodup := by
  refine (adjHalo_sublist S c).nodup (reach_nodup hw ((allTuples_nodup _).filter _) ?_ (by rw [axs_n]; exact hc))
  rw [axs_s]
  exact neighbor_within

theorem mem_adjHalo {S : GSys K} (hw : ∀ x ∈ S.axs, Wide x) (hf : S.Full) {s t : List ℕ} {c d : ℕ}
    (hs : InGrid S.dims s) (hcs : getAddressCM S.dims c = s) (ht : InGrid S.dims t)
    (hd : tupleToLinear S.dims (t.map (↑)) = d) (hn : Near S.axs s t)
    (hh : isHalo (S.g.map HAx.ax) (t.map (↑)) = false) : (d : ℤ) ∈ S.adjHalo c := by
  have hs' : InGrid (S.axs.map Ax.n) s := by rw [axs_n]; exact hs
  have ht' : InGrid (S.axs.map Ax.n) t := by rw [axs_n]; exact ht
  obtain ⟨u, hu, hstep⟩ := (near_iff hw hs' ht').mp hn
  rw [axs_s] at hu
  unfold GSys.adjHalo
  rw [List.mem_filterMap]
  refine ⟨u, ?_, ?_⟩
  · exact List.mem_filter.mpr ⟨mem_allTuples.mpr hu, by simpa [keep] using hf u hu⟩
  · have hl1 : (s.map ((↑) : ℕ → ℤ)).length = S.axs.length := by
      rw [List.length_map, hs'.length_eq, List.length_map]
    have hl2 : u.length = S.axs.length := by rw [hu.length, ← axs_s, List.length_map]
    have := (correctIndex_add hl1 hl2).mpr hstep
    rw [hcs]
    unfold GSys.axs at this
    rw [this, Option.bind_some, hh]
    simp [hd]

theorem mem_gcell {S : GSys K} {c : ℤ} {i : ℕ} : i ∈ S.cell c ↔ S.Live i ∧ S.cellOf i = c := by
  simp only [GSys.cell, List.mem_filter, List.mem_range, Bool.and_eq_true, decide_eq_true_eq, GSys.binned, GSys.Live]
  tauto

theorem gcell_nodup (S : GSys K) (c : ℤ) : (S.cell c).Nodup := List.nodup_range.filter _

theorem test_mem {S : GSys K} {cut : ℤ → ℤ → K} {i j : ℕ} {v : Visit} (h : v ∈ S.test cut i j) :
    v.id1 = i ∧ v.id2 = j := by
  unfold GSys.test at h
  split_ifs at h <;> simp at h
  subst h; exact ⟨rfl, rfl⟩

theorem filter_gadj (S : GSys K) (cut : ℤ → ℤ → K) (i j : ℕ) (hj : S.Live j) (l : List ℤ) :
    (l.flatMap fun d => (S.cell d).flatMap (S.test cut i)).filter (isOrd i j) =
      (List.replicate (l.count (S.cellOf j)) (S.test cut i j)).flatten := by
  induction l with
  | nil => simp
  | cons d l ih =>
    rw [List.flatMap_cons, List.filter_append, ih,
      filter_flatMap_ids (fun k v => test_mem) j _ (gcell_nodup S d)]
    by_cases h : S.cellOf j = d
    · rw [if_pos (mem_gcell.mpr ⟨hj, h⟩), h, List.count_cons_self, List.replicate_succ, List.flatten_cons]
    · rw [if_neg (fun hm => h (mem_gcell.mp hm).2), List.count_cons_of_ne (fun e => h e.symm), List.nil_append]

theorem ghost_mem {S : GSys K} {cut : ℤ → ℤ → K} {i : ℕ} {v : Visit} (h : v ∈ S.ghost cut i) : v.id1 = i := by
  obtain ⟨c, _, hv⟩ := List.mem_flatMap.mp h
  obtain ⟨j, _, hv⟩ := List.mem_flatMap.mp hv
  exact (test_mem hv).1

/-- The calls for one pair are those made for its ghost. -/
theorem filter_gtraverse {S : GSys K} {cut : ℤ → ℤ → K} (hcut : S.cut = some cut) {i : ℕ} (hi : i < S.ghosts) (j : ℕ) :
    S.traverse.filter (isOrd i j) = (S.ghost cut i).filter (isOrd i j) := by
  unfold GSys.traverse
  rw [hcut]
  refine flatMap_range_single hi ?_
  intro k hk
  rw [List.filter_eq_nil_iff]
  intro v hv
  simp only [isOrd, decide_eq_true_eq]
  rintro ⟨h, _⟩
  exact hk (by rw [← ghost_mem hv, h])

/-- **C149 (index).** For every grid that the domain builds and every position, inside the region or not, the cell that
is looked up for a ghost exists: the traversal never indexes outside the array of cells. -/
theorem C149_cell_exists (c : K) (hc : 0 < c) (g : List (HAx K)) (hv : ∀ a ∈ g, a.Valid c) (x : List K)
    (hx : x.length = g.length) :
    0 ≤ haloIndex (g.map HAx.ax) x ∧ haloIndex (g.map HAx.ax) x < ((g.map fun a => a.ax.dim).prod : ℕ) := by
  obtain ⟨t, h1, h2⟩ := haloTuple_grid hc hv hx
  have hd : (g.map HAx.ax).map Axis.dim = g.map fun a => a.ax.dim := by simp [Function.comp_def]
  obtain ⟨l, e1, e2, _⟩ := (C24_addresses_inverse (g.map fun a => a.ax.dim)).2 t h2
  rw [haloIndex, hd, h1, e1]
  exact ⟨by omega, by exact_mod_cast e2⟩

/-- **C149 (soundness).** For every state, each call made by the traversal of ghosts is for an existing ghost and a live
interacting owned particle, goes to the list of ghost pairs (list 2), and the two are within their range of each other
or farther apart than half of the smallest width of the simulation (so that only an image can be close). -/
theorem C149_listed_pairs (S : GSys K) (v : Visit) (hv : v ∈ S.traverse) :
    v.list = 2 ∧ v.id1 < S.ghosts ∧ S.Live v.id2 ∧ ∃ cut, S.cut = some cut ∧
      (distSq (S.xg v.id1) (S.x v.id2) <
          ((S.rdg v.id1 + S.rd v.id2) * cut (S.typeg v.id1) (S.type v.id2) + S.skin) ^ 2 ∨
        maxReasonable (S.g.map HAx.dax) < distSq (S.xg v.id1) (S.x v.id2)) := by
  unfold GSys.traverse at hv
  cases hcut : S.cut with
  | none => rw [hcut] at hv; simp at hv
  | some cut =>
    rw [hcut] at hv
    obtain ⟨i, hi, hv⟩ := List.mem_flatMap.mp hv
    obtain ⟨c, _, hv⟩ := List.mem_flatMap.mp hv
    obtain ⟨j, hj, hv⟩ := List.mem_flatMap.mp hv
    unfold GSys.test at hv
    split_ifs at hv with ht
    · simp only [List.mem_singleton] at hv
      subst hv
      exact ⟨rfl, List.mem_range.mp hi, (mem_gcell.mp hj).1, cut, rfl, ht⟩
    · simp at hv

/-- **C149 (none twice).** In every state whose wrapping dimensions without ghosts have at least `2*sweep+1` cells, no
pair of a ghost that is beyond a shared side and an owned particle is listed twice.

Missing: ghosts that are not beyond a shared side. -/
theorem C149_not_twice_partial (S : GSys K) (hc : 0 < S.cutoff) (hv : ∀ a ∈ S.g, a.Valid S.cutoff)
    (hw : ∀ a ∈ S.g, a.per = true → 2 * sweepOf S.cutoff a.ax.w + 1 ≤ a.ax.dim) (i j : ℕ) (hi : i < S.ghosts)
    (hx : (S.xg i).length = S.g.length) (hb : ∃ p ∈ S.g.zip (S.xg i), Beyond p.1 p.2) :
    (S.traverse.filter (isOrd i j)).length ≤ 1 := by
  by_cases hj : S.Live j
  swap
  · rw [show S.traverse.filter (isOrd i j) = [] by
      rw [List.filter_eq_nil_iff]
      intro v hvm
      simp only [isOrd, decide_eq_true_eq]
      rintro ⟨_, rfl⟩
      exact hj (C149_listed_pairs S v hvm).2.2.1]
    simp
  cases hcut : S.cut with
  | none => simp [GSys.traverse, hcut]
  | some cut =>
    rw [filter_gtraverse hcut hi]
    unfold GSys.ghost
    rw [filter_gadj S cut i j hj]
    obtain ⟨h0, h1⟩ := C149_cell_exists S.cutoff hc S.g hv (S.xg i) hx
    have hlt : (haloIndex (S.g.map HAx.ax) (S.xg i)).toNat < S.dims.prod := by
      unfold GSys.dims; omega
    obtain ⟨t, e1, e2⟩ := haloTuple_grid hc hv hx
    have hhalo : isHalo (S.g.map HAx.ax)
        ((getAddressCM S.dims (haloIndex (S.g.map HAx.ax) (S.xg i)).toNat).map (↑)) = true := by
      have hd : (S.g.map HAx.ax).map Axis.dim = S.dims := by simp [GSys.dims, Function.comp_def]
      obtain ⟨l, f1, _, f3⟩ := (C24_addresses_inverse S.dims).2 t e2
      rw [haloIndex, hd, e1, f1, Int.toNat_natCast, f3, ← e1]
      exact beyond_halo hc hv hx hb
    unfold GSys.adj
    rw [if_pos hhalo]
    have hcount := List.nodup_iff_count_le_one.mp (adjHalo_nodup (axs_wide hw) hlt) (S.cellOf j)
    rw [flatten_replicate_length]
    have : (S.test cut i j).length ≤ 1 := by unfold GSys.test; split_ifs <;> simp
    nlinarith

/-- **C149.** In every state which meets the conditions `OK`: when a ghost lies beyond a side of the region shared with
another processor, and it (or one of its images in the wrapping dimensions which the processor takes up alone) is
closer to a live owned particle than their interaction range plus skin depth, which is at most twice the largest small
radius plus skin depth (no large particles), then the traversal lists this pair, once, as a ghost pair.

Missing: states which do not meet `OK`: the stencil test drops displacements when lengths are not small in the units
used (`C149_negation_stencil`); a ghost within 0.001 of a shared side on the inside (`C149_negation_strip`); large
particles (`C149_negation_large`); ghosts that are not beyond any shared side (`C149_negation_inside`). -/
theorem C149_ghost_pairs_partial (S : GSys K) (hS : S.OK) (cut : ℤ → ℤ → K) (hcut : S.cut = some cut) (i j : ℕ)
    (hi : i < S.ghosts) (hj : S.Live j) (hb : ∃ p ∈ S.g.zip (S.xg i), Beyond p.1 p.2) (m : List ℤ)
    (hm : Shifts S.g m) (r : K) (hr : r = (S.rdg i + S.rd j) * cut (S.typeg i) (S.type j) + S.skin) (h0 : 0 ≤ r)
    (hsmall : r ≤ 2 * S.mss + S.skin) (h : image S.g m (S.xg i) (S.x j) < r ^ 2) :
    S.traverse.filter (isOrd i j) = [⟨i, j, 2⟩] := by
  have hc := hS.cutoff_pos
  have hxl : (S.xg i).length = S.g.length := ((hS.ghost i hi).length_eq).symm
  have hyl : (S.x j).length = S.g.length := ((hS.owned j hj).length_eq).symm
  have hd : (S.g.map HAx.ax).map Axis.dim = S.dims := by simp [GSys.dims, Function.comp_def]
  rw [filter_gtraverse hcut hi]
  unfold GSys.ghost
  rw [filter_gadj S cut i j hj]
  have htest : S.test cut i j = [⟨i, j, 2⟩] := by
    unfold GSys.test
    rw [if_pos]
    rcases image_or_far hc hS.valid hsmall h0 hS.wide hm hxl hyl h with h1 | ⟨a, ha, h1⟩
    · left; rw [← hr]; linarith
    · right
      refine lt_of_le_of_lt ?_ h1
      exact maxReasonable_le (List.mem_map_of_mem (f := HAx.dax) ha)
  obtain ⟨s, e1, e2⟩ := haloTuple_grid hc hS.valid hxl
  obtain ⟨t, f1, f2, f3⟩ := cellTuple_grid hc hS.valid hyl
  obtain ⟨l, g1, g2, g3⟩ := (C24_addresses_inverse S.dims).2 s e2
  obtain ⟨d, k1, k2, k3⟩ := (C24_addresses_inverse S.dims).2 t f2
  have hidx : (haloIndex (S.g.map HAx.ax) (S.xg i)).toNat = l := by
    rw [haloIndex, hd, e1, g1, Int.toNat_natCast]
  have hcell : S.cellOf j = d := by rw [GSys.cellOf, cellIndex, hd, f1, k1]
  have hhalo : isHalo (S.g.map HAx.ax) ((getAddressCM S.dims l).map (↑)) = true := by
    rw [g3, ← e1]; exact beyond_halo hc hS.valid hxl hb
  have hnear : Near S.axs s t :=
    near_ghosts hc hS.valid hS.eps hsmall h0 hm (hS.ghost i hi) (hS.owned j hj) h e1 f1
  have hmem := mem_adjHalo (axs_wide hS.wide) hS.full e2 g3 f2 k1 hnear f3
  have hcount : (S.adj l).count (d : ℤ) = 1 := by
    unfold GSys.adj
    rw [if_pos hhalo]
    exact List.count_eq_one_of_mem (adjHalo_nodup (axs_wide hS.wide) g2) hmem
  rw [hidx, hcell, hcount, htest]
  rfl

/-- **C149 (units).** The whole block of cells around a halo cell is kept when the cells are small in the units used:
the sum of `sweep*width` over the dimensions is below 1. -/
theorem C149_full_small (S : GSys K) (hc : 0 < S.cutoff) (hw : ∀ a ∈ S.g, 0 < a.ax.w)
    (h : (S.g.map fun a => (sweepOf S.cutoff a.ax.w : K) * a.ax.w).sum < 1) : S.Full := by
  intro t ht
  have e1 : S.g.map (fun a => a.ax.w) = (S.g.map HAx.gax).map GAx.w := by simp [HAx.gax, Function.comp_def]
  have e2 : S.sweeps = (S.g.map HAx.gax).map fun a => sweepOf S.cutoff a.w := by
    simp [GSys.sweeps, HAx.gax, Function.comp_def]
  have e3 : halfSides S.cutoff (S.g.map HAx.gax) = (S.g.map fun a => (sweepOf S.cutoff a.ax.w : K) * a.ax.w).sum := by
    simp [halfSides, HAx.gax, Function.comp_def]
  rw [e2] at ht
  have hle := dotW_le (g := S.g.map HAx.gax) (by
    intro a ha
    obtain ⟨b, hb, rfl⟩ := List.mem_map.mp ha
    exact hw b hb) ht
  rw [e1]
  have h2 := trunc_lt_of_lt_one (lt_of_le_of_lt hle (by rw [e3]; exact h))
  have h3 : ((trunc (dotW t ((S.g.map HAx.gax).map GAx.w)) : ℤ) : K) ≤ 0 := by exact_mod_cast h2
  have : 0 < S.cutoff ^ 2 := by positivity
  linarith

end field

/-! ## Concrete states -/

deriving instance DecidableEq for Axis

/-- A dimension with the cells that are built for the cutoff 1/5 (region of width 1 in a simulation of width 2). -/
def half : HAx ℚ := ⟨⟨0, 1, 0, 2, true⟩, ⟨0, 1, 7, 1/5, 1, 1⟩⟩

/-- A wrapping dimension of width 1 that the processor takes up alone. -/
def whole : HAx ℚ := ⟨⟨0, 1, 0, 1, true⟩, ⟨0, 1, 5, 1/5, 0, 0⟩⟩

/-- One ghost at `xg` and one owned particle at `x`, both of radius `rd`. -/
def one (g : List (HAx ℚ)) (xg x : List ℚ) (rd mss skin : ℚ) : GSys ℚ :=
  ⟨g, 1, 1, fun _ => x, fun _ => rd, fun _ => 0, fun _ => xg, fun _ => rd, fun _ => 0, fun _ => true,
    some fun _ _ => 1, mss, skin⟩

/-- A ghost beyond the lower side in the first dimension, near to an owned particle across the wrapping second one. -/
def demo : GSys ℚ := one [half, whole] [-1/20, 1/100] [1/20, 99/100] (3/40) (3/40) (1/20)

theorem half_valid : half.Valid (1/5) := ⟨by decide +kernel, by decide +kernel⟩

theorem whole_valid : whole.Valid (1/5) := ⟨by decide +kernel, by decide +kernel⟩

theorem demo_ok : demo.OK := by
  have hc : demo.cutoff = 1/5 := by decide +kernel
  refine ⟨by decide +kernel, ?_, ?_, ?_, ?_, ?_, ?_⟩
  · rw [hc]
    intro a ha
    rcases List.mem_pair.mp ha with rfl | rfl
    · exact half_valid
    · exact whole_valid
  · intro a ha
    rcases List.mem_pair.mp ha with rfl | rfl <;> decide +kernel
  · intro a ha
    rcases List.mem_pair.mp ha with rfl | rfl <;> decide +kernel
  · refine C149_full_small demo (by decide +kernel) ?_ (by decide +kernel)
    intro a ha
    rcases List.mem_pair.mp ha with rfl | rfl <;> decide +kernel
  · intro i _
    refine List.Forall₂.cons ?_ (List.Forall₂.cons ?_ List.Forall₂.nil) <;> unfold Owned <;> decide +kernel
  · intro i _
    refine List.Forall₂.cons ?_ (List.Forall₂.cons ?_ List.Forall₂.nil)
    · refine ⟨by decide +kernel, Or.inr ?_⟩; decide +kernel
    · refine ⟨by decide +kernel, Or.inr ?_⟩; decide +kernel

/-- The hypotheses of `C149_ghost_pairs_partial` are met with a shift in the second dimension, and the pair is listed. -/
example : demo.OK ∧ demo.Live 0 ∧ (∃ p ∈ demo.g.zip (demo.xg 0), Beyond p.1 p.2) ∧ Shifts demo.g [0, 1] ∧
    image demo.g [0, 1] (demo.xg 0) (demo.x 0) < (1/5) ^ 2 ∧ demo.traverse = [⟨0, 0, 2⟩] := by
  refine ⟨demo_ok, by unfold GSys.Live; decide +kernel, ⟨(half, -1/20), by simp [demo, one], ?_⟩,
    List.Forall₂.cons (by decide +kernel) (List.Forall₂.cons (by decide +kernel) List.Forall₂.nil),
    by decide +kernel, by decide +kernel⟩
  unfold Beyond
  decide +kernel

/-- A dimension of a region of width 4 of a simulation of width 8, with cells for the cutoff 1. -/
def unit4 : HAx ℚ := ⟨⟨0, 4, 0, 8, true⟩, ⟨0, 4, 6, 1, 1, 1⟩⟩

/-- **C149, negation (units).** With lengths of order one the test on displacements, which compares a length with a
square, drops the cells above each halo cell: a ghost just below the region and an owned particle just inside, at a
fifth of their range, are not listed. -/
theorem C149_negation_stencil : ∃ S : GSys ℚ, 0 < S.cutoff ∧ (∀ a ∈ S.g, a.Valid S.cutoff) ∧
    (∀ a ∈ S.g, 1/1000 < a.ax.w) ∧ (∀ a ∈ S.g, a.per = false) ∧ List.Forall₂ Owned S.g (S.x 0) ∧
    List.Forall₂ (Ghost S.cutoff) S.g (S.xg 0) ∧ (∃ p ∈ S.g.zip (S.xg 0), Beyond p.1 p.2) ∧ S.ghosts = 1 ∧ S.Live 0 ∧
    (S.rdg 0 + S.rd 0) * 1 + S.skin ≤ S.cutoff ∧ S.cut = some (fun _ _ => 1) ∧
    distSq (S.xg 0) (S.x 0) < (1/5 * ((S.rdg 0 + S.rd 0) * 1 + S.skin) + 1/100) ^ 2 ∧ S.traverse = [] := by
  refine ⟨one [unit4] [-1/10] [1/10] (1/2) (1/2) 0, by decide +kernel, ?_, ?_, ?_, ?_, ?_,
    ⟨(unit4, -1/10), by simp [one], by unfold Beyond; decide +kernel⟩, rfl, by unfold GSys.Live; decide +kernel,
    by decide +kernel, rfl, by decide +kernel, by decide +kernel⟩
  · intro a ha
    rw [List.mem_singleton.mp ha, show (one [unit4] [-1/10] [1/10] (1/2) (1/2) 0).cutoff = 1 by decide +kernel]
    exact ⟨by decide +kernel, by decide +kernel⟩
  · intro a ha
    rw [List.mem_singleton.mp ha]; decide +kernel
  · intro a ha
    rw [List.mem_singleton.mp ha]; decide +kernel
  · refine List.Forall₂.cons ?_ List.Forall₂.nil
    unfold Owned; decide +kernel
  · refine List.Forall₂.cons ⟨by decide +kernel, Or.inr ?_⟩ List.Forall₂.nil
    decide +kernel

/-- **C149, negation (strip).** A ghost beyond the first side, whose second coordinate is less than 0.001 inside of the
region, is looked up in the corner cell; an owned particle within range of it, farther inside, is missed, although the
whole block of cells is kept and there are no large particles. -/
theorem C149_negation_strip : ∃ S : GSys ℚ, S.Full ∧ (∀ a ∈ S.g, a.Valid S.cutoff) ∧
    (∀ a ∈ S.g, a.per = false) ∧ List.Forall₂ Owned S.g (S.x 0) ∧
    (∃ p ∈ S.g.zip (S.xg 0), Beyond p.1 p.2) ∧ S.ghosts = 1 ∧ S.Live 0 ∧
    (S.rdg 0 + S.rd 0) * 1 + S.skin ≤ S.cutoff ∧ S.cut = some (fun _ _ => 1) ∧
    distSq (S.xg 0) (S.x 0) < ((S.rdg 0 + S.rd 0) * 1 + S.skin) ^ 2 ∧ S.traverse = [] := by
  refine ⟨one [half, half] [-1/500, 9995/10000] [1/500, 7999/10000] (3/40) (3/40) (1/20), ?_, ?_, ?_, ?_,
    ⟨(half, -1/500), by simp [one], by unfold Beyond; decide +kernel⟩, rfl, by unfold GSys.Live; decide +kernel,
    by decide +kernel, rfl, by decide +kernel, by decide +kernel⟩
  · refine C149_full_small _ (by decide +kernel) ?_ (by decide +kernel)
    intro a ha
    rcases List.mem_pair.mp ha with rfl | rfl <;> decide +kernel
  · intro a ha
    rw [show (one [half, half] [-1/500, 9995/10000] [1/500, 7999/10000] (3/40) (3/40) (1/20)).cutoff = 1/5 by
      decide +kernel]
    rcases List.mem_pair.mp ha with rfl | rfl <;> exact half_valid
  · intro a ha
    rcases List.mem_pair.mp ha with rfl | rfl <;> decide +kernel
  · refine List.Forall₂.cons ?_ (List.Forall₂.cons ?_ List.Forall₂.nil) <;> unfold Owned <;> decide +kernel

/-- **C149, negation (large particles).** Particles larger than the largest small one are missed, although everything
else is in order: the ghosts are only looked for in the cells around. -/
theorem C149_negation_large : ∃ S : GSys ℚ, S.OK ∧ (∃ p ∈ S.g.zip (S.xg 0), Beyond p.1 p.2) ∧ S.ghosts = 1 ∧
    S.Live 0 ∧ S.cut = some (fun _ _ => 1) ∧
    distSq (S.xg 0) (S.x 0) < ((S.rdg 0 + S.rd 0) * 1 + S.skin) ^ 2 ∧ S.traverse = [] := by
  refine ⟨one [half] [-1/10] [1/2] (3/10) (1/20) (1/10), ?_, ⟨(half, -1/10), by simp [one], by
    unfold Beyond; decide +kernel⟩, rfl, by unfold GSys.Live; decide +kernel, rfl, by decide +kernel,
    by decide +kernel⟩
  have hc : (one [half] [-1/10] [1/2] (3/10) (1/20) (1/10)).cutoff = 1/5 := by decide +kernel
  refine ⟨by decide +kernel, ?_, ?_, ?_, ?_, ?_, ?_⟩
  · rw [hc]
    intro a ha
    rw [List.mem_singleton.mp ha]
    exact half_valid
  · intro a ha
    rw [List.mem_singleton.mp ha]; decide +kernel
  · intro a ha
    rw [List.mem_singleton.mp ha]; decide +kernel
  · refine C149_full_small _ (by decide +kernel) ?_ (by decide +kernel)
    intro a ha
    rw [List.mem_singleton.mp ha]; decide +kernel
  · intro i _
    refine List.Forall₂.cons ?_ List.Forall₂.nil
    unfold Owned; decide +kernel
  · intro i _
    refine List.Forall₂.cons ⟨by decide +kernel, Or.inr ?_⟩ List.Forall₂.nil
    decide +kernel

/-- **C149, negation (inside).** A ghost that is inside the region (as when two processors' bounds overlap, or after it
has moved) is looked up in an ordinary cell, whose list has neither the cell itself nor half of the cells around: an
owned particle in the same cell is missed. -/
theorem C149_negation_inside : ∃ S : GSys ℚ, S.OK ∧ S.ghosts = 1 ∧ S.Live 0 ∧ S.cut = some (fun _ _ => 1) ∧
    (S.rdg 0 + S.rd 0) * 1 + S.skin ≤ S.cutoff ∧
    distSq (S.xg 0) (S.x 0) < ((S.rdg 0 + S.rd 0) * 1 + S.skin) ^ 2 ∧ S.traverse = [] := by
  refine ⟨one [half] [1/2] [11/20] (3/40) (3/40) (1/20), ?_, rfl, by unfold GSys.Live; decide +kernel, rfl,
    by decide +kernel, by decide +kernel, by decide +kernel⟩
  have hc : (one [half] [1/2] [11/20] (3/40) (3/40) (1/20)).cutoff = 1/5 := by decide +kernel
  refine ⟨by decide +kernel, ?_, ?_, ?_, ?_, ?_, ?_⟩
  · rw [hc]
    intro a ha
    rw [List.mem_singleton.mp ha]
    exact half_valid
  · intro a ha
    rw [List.mem_singleton.mp ha]; decide +kernel
  · intro a ha
    rw [List.mem_singleton.mp ha]; decide +kernel
  · refine C149_full_small _ (by decide +kernel) ?_ (by decide +kernel)
    intro a ha
    rw [List.mem_singleton.mp ha]; decide +kernel
  · intro i _
    refine List.Forall₂.cons ?_ List.Forall₂.nil
    unfold Owned; decide +kernel
  · intro i _
    refine List.Forall₂.cons ⟨by decide +kernel, Or.inr ?_⟩ List.Forall₂.nil
    decide +kernel

end Verif.GhostPairs
