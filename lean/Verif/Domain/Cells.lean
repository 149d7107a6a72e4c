import Verif.Domain.Stencil
import Mathlib.Data.List.Flatten

/-!
# Pair traversal and range queries on the cell grid: the model (C28, C30)

Models `Domain::structure_updates`, `traversePairs`, `getAllWithin` (`domains/domain.cpp:27-76,98-199,237-248`) for one
processor (no halo cells, no ghosts).
-/

namespace Verif.Cells
open Verif.Grid Verif.Stencil

/-- One dimension of the domain: bounds (process bounds and simulation bounds are the same on one processor),
number of cells, cell width, and whether it wraps. -/
structure DAx (K : Type*) where
  lo : K
  hi : K
  n : ℕ
  w : K
  per : Bool

section field
variable {K : Type*} [Field K] [LinearOrder K] [IsStrictOrderedRing K] [FloorRing K]

/-- The dimension as seen by `get_cell_index`. -/
def DAx.axis (a : DAx K) : Axis K := ⟨a.lo, a.hi, a.n, a.w, 0, 0⟩

/-- The dimension as seen by `create_cells`. -/
def DAx.gax (a : DAx K) : GAx K := ⟨a.n, a.w, a.per⟩

/-- The data that the traversal reads: the grid, the particle arrays, the cutoff tables and the scalar parameters. -/
structure Sys (K : Type*) where
  /-- the dimensions -/
  g : List (DAx K)
  /-- `simData->number_owned()` -/
  number : ℕ
  /-- positions -/
  x : ℕ → List K
  /-- radii (`Sg`) -/
  rd : ℕ → K
  /-- types -/
  type : ℕ → ℤ
  /-- `forceMaster->typeInteracts` -/
  interacts : ℤ → Bool
  /-- `cutoff_grid` -/
  cut : ℤ → ℤ → K
  /-- `max_cutoffs` -/
  maxCut : ℤ → K
  /-- `max_small_sigma` -/
  mss : K
  /-- `skin_depth` -/
  skin : K

/-- A call of the body of `traversePairs`: the two ids and the list type (0 plain, 1 wrapped). -/
structure Visit where
  id1 : ℕ
  id2 : ℕ
  list : ℕ
  deriving DecidableEq

/-- `dims`. -/
def Sys.dims (S : Sys K) : List ℕ := S.g.map DAx.n

/-- `min_small_cutoff`, `domains/domain.cpp:284`. -/
def Sys.cutoff (S : Sys K) : K := 2 * S.mss + S.skin

/-- The cell of a particle, `add_to_cell`, `domains/domain.cpp:368-372`. -/
def Sys.cellOf (S : Sys K) (i : ℕ) : ℤ := cellIndex (S.g.map DAx.axis) (S.x i)

/-- Particles that are put in cells, `domains/domain.cpp:246`. -/
def Sys.binned (S : Sys K) (i : ℕ) : Bool := decide (0 ≤ S.type i) && S.interacts (S.type i)

/-- `cells[c].particle_ids` after `structure_updates`, `domains/domain.cpp:237-248`: the ids are pushed in increasing
order. -/
def Sys.cell (S : Sys K) (c : ℤ) : List ℕ :=
  (List.range S.number).filter fun i => S.binned i && decide (S.cellOf i = c)

/-- `getDistanceSqrNoWrap`, `utility/vectormath.hpp`. -/
def distSq : List K → List K → K
  | x :: xs, y :: ys => (x - y) ^ 2 + distSq xs ys
  | _, _ => 0

/-- `max_reasonable`, `domains/domain.cpp:106-110`. -/
def maxReasonable : List (DAx K) → K
  | [] => 0
  | a :: g => g.foldl (fun m b => if (1/2 * (b.hi - b.lo)) ^ 2 < m then (1/2 * (b.hi - b.lo)) ^ 2 else m)
      ((1/2 * (a.hi - a.lo)) ^ 2)

/-- `sigma1`, `domains/domain.cpp:127`. -/
def Sys.sigma (S : Sys K) (i : ℕ) : K := S.rd i * S.maxCut (S.type i)

/-- The test for a pair in the same cell, `domains/domain.cpp:132-140`. (The type checked there is that of `id1`.) -/
def Sys.inCell (S : Sys K) (i j : ℕ) : List Visit :=
  if S.type i < 0 ∨ S.sigma j > S.mss then []
  else if distSq (S.x i) (S.x j) < (S.rd i + S.rd j * S.cut (S.type i) (S.type j) + S.skin) ^ 2 then [⟨i, j, 0⟩]
  else []

/-- The test for a pair in adjacent cells, `domains/domain.cpp:143-152`. -/
def Sys.inAdjacent (S : Sys K) (i j : ℕ) : List Visit :=
  if S.type j < 0 ∨ S.sigma j > S.mss then []
  else if distSq (S.x i) (S.x j) < ((S.rd i + S.rd j) * S.cut (S.type i) (S.type j) + S.skin) ^ 2 then [⟨i, j, 0⟩]
  else if distSq (S.x i) (S.x j) > maxReasonable S.g then [⟨i, j, 1⟩]
  else []

/-- `cells[c].adjacent`. By `C27_stencil_in_bounds` the list always exists. -/
def Sys.adj (S : Sys K) (c : ℕ) : List ℤ := (adjacent S.cutoff (S.g.map DAx.gax) c).getD []

/-- `get_cell_index_tuple`, `base/domainbase.cpp:63-66` (no clamping). -/
def rawTuple : List (DAx K) → List K → List ℤ
  | a :: g, x :: xs => trunc ((x - a.lo) * (1 / a.w)) :: rawTuple g xs
  | _, _ => []

/-- The search window around a cell: the linear indices of the cells visited by the loops `domains/domain.cpp:54-65` and
`:173-184`. `search` is `search_dims`; the centre is `ceil(search_dims[d]/2.)` (`:46`, `:166`). -/
def window (g : List (DAx K)) (search : List ℕ) (index : List ℤ) : List ℤ :=
  (List.range search.prod).filterMap fun j =>
    (correctIndex (g.map fun a => ⟨a.n, 0, a.per⟩)
      (addTuple (subCenter (getAddressCM search j) (search.map fun s => (s + 1) / 2)) index)).map
        (tupleToLinear (g.map DAx.n))

/-- `search_dims` for a large particle, `domains/domain.cpp:158-168`. -/
def Sys.largeSearch (S : Sys K) (i : ℕ) : List ℕ :=
  S.g.map fun a => min (2 * (⌈(2 * S.sigma i + S.skin) / a.w⌉.toNat + 1)) a.n

/-- The search of a large particle, `domains/domain.cpp:155-196`. -/
def Sys.large (S : Sys K) (i : ℕ) : List Visit :=
  (window S.g (S.largeSearch i) (rawTuple S.g (S.x i))).flatMap fun c =>
    (S.cell c).flatMap fun j =>
      if i = j ∨ S.rd j > S.sigma i then []
      else if distSq (S.x i) (S.x j) < ((S.sigma i + S.rd j) * S.cut (S.type i) (S.type j) + S.skin) ^ 2 then
        [⟨i, j, 0⟩]
      else if maxReasonable S.g < distSq (S.x i) (S.x j) then [⟨i, j, 1⟩]
      else []

/-- The loop over the particles of a cell, `domains/domain.cpp:122-197`; the argument is the rest of the particle list. -/
def Sys.cellLoop (S : Sys K) (c : ℕ) : List ℕ → List Visit
  | [] => []
  | i :: rest =>
    (if S.type i < 0 then []
     else if S.sigma i ≤ S.mss then
       rest.flatMap (S.inCell i) ++ (S.adj c).flatMap fun d => (S.cell d).flatMap (S.inAdjacent i)
     else S.large i) ++ S.cellLoop c rest

/-- `traversePairs`, `domains/domain.cpp:98-199`: the sequence of calls of the body. -/
def Sys.traverse (S : Sys K) : List Visit :=
  (List.range S.dims.prod).flatMap fun c => S.cellLoop c (S.cell c)

/-- `search_dims` in `getAllWithin`, `domains/domain.cpp:41-48`. -/
def Sys.withinSearch (S : Sys K) (dist : K) : List ℕ :=
  S.g.map fun a => min (2 * (1 + ⌈dist * (1 / a.w)⌉.toNat) + 1) a.n

/-- `gflow->getDisplacement` for one coordinate, `gflow.cpp:418-426`. -/
def disp1 (a : DAx K) (x y : K) : K :=
  let dis := x - y
  if a.per then
    let dx := a.hi - a.lo - |dis|
    if dx < |dis| then (if dis > 0 then -dx else dx) else dis
  else dis

/-- The square of `magnitudeVec` of the displacement, `domains/domain.cpp:70-71`. -/
def dispSq : List (DAx K) → List K → List K → K
  | a :: g, x :: xs, y :: ys => (disp1 a x y) ^ 2 + dispSq g xs ys
  | _, _, _ => 0

/-- `getAllWithin(Vec, ...)`, `domains/domain.cpp:27-76`, for `distance ≥ 0`; the comparison `r<distance` of the
magnitude is made between squares. `excl` is `_exclude`. -/
def Sys.allWithin (S : Sys K) (X : List K) (excl : Option ℕ) (dist : K) : List ℕ :=
  (window S.g (S.withinSearch dist) (rawTuple S.g X)).flatMap fun c =>
    (S.cell c).filter fun j => decide (some j ≠ excl) && decide (dispSq S.g X (S.x j) < dist ^ 2)

end field
end Verif.Cells
