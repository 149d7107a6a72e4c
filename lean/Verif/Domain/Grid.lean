import Mathlib.Algebra.Order.Floor.Ring
import Mathlib.Algebra.BigOperators.Group.List.Basic
import Mathlib.Data.Rat.Floor
import Mathlib.Tactic.Ring
import Mathlib.Tactic.Linarith
import Mathlib.Tactic.FieldSimp
import Mathlib.Tactic.Positivity
import Mathlib.Tactic.NormNum

/-!
# The cell grid: addresses, cell assignment, cell dimensions (C24, C25, C26)

Models `utility/utility.hpp:142-170` (`getAddress`, `getAddressCM`), `base/domainbase.cpp:28-33,63-78,96-113` and
`domains/domain.cpp:250-272`. Per-dimension arrays are lists, one entry per dimension.
-/

namespace Verif.Grid

/-- `getAddressCM`, `utility/utility.hpp:158-170` (called by `linear_to_tuple`, `base/domainbase.cpp:96-102`).
The `d`-loop is the recursion; `product(d+1)` is the product of the remaining extents. -/
def getAddressCM : List ℕ → ℕ → List ℕ
  | [], _ => []
  | _ :: ds, l => (l / ds.prod) :: getAddressCM ds (l % ds.prod)

/-- `getAddress`, `utility/utility.hpp:142-156`: the loop runs from the last dimension to the first, `product(d)` is the
product of the first `d` extents. The argument is the list of extents in reverse, and so is the result. -/
def getAddressRev : List ℕ → ℕ → List ℕ
  | [], _ => []
  | _ :: ds, l => (l / ds.prod) :: getAddressRev ds (l % ds.prod)

/-- `getAddress`, `utility/utility.hpp:142-156`. -/
def getAddress (dims : List ℕ) (l : ℕ) : List ℕ := (getAddressRev dims.reverse l).reverse

/-- `products`, `base/domainbase.cpp:31-33`: `products[d]` is the product of the extents from `d` on. -/
def products : List ℕ → List ℕ
  | [] => [1]
  | n :: ds => (n * (products ds).headD 1) :: products ds

/-- `tuple_to_linear`, `base/domainbase.cpp:108-113`: the sum of `tuple[d]*products[d+1]`. Arguments: `products` without
its first entry, and the tuple. -/
def dotProducts : List ℕ → List ℤ → ℤ
  | p :: ps, t :: ts => t * p + dotProducts ps ts
  | _, _ => 0

/-- `tuple_to_linear`, `base/domainbase.cpp:108-113`. -/
def tupleToLinear (dims : List ℕ) (t : List ℤ) : ℤ := dotProducts (products dims).tail t

/-- `getNumCells`, `base/domainbase.cpp:53-57`. -/
def numCells (dims : List ℕ) : ℕ := dims.prod

/-! ## Specification: a tuple lies in the grid -/

/-- Spec: `t` is a tuple of cell coordinates of the grid `dims`. -/
def InGrid (dims : List ℕ) (t : List ℕ) : Prop := List.Forall₂ (fun i n => i < n) t dims

theorem products_headD (dims : List ℕ) : (products dims).headD 1 = dims.prod := by
  induction dims with
  | nil => rfl
  | cons n ds ih => rw [List.prod_cons, ← ih]; rfl

theorem products_ne_nil (dims : List ℕ) : products dims ≠ [] := by
  cases dims <;> simp [products]

theorem tupleToLinear_nil (t : List ℤ) : tupleToLinear [] t = 0 := by
  simp [tupleToLinear, products, dotProducts]

theorem tupleToLinear_cons (n : ℕ) (ds : List ℕ) (t : ℤ) (ts : List ℤ) :
    tupleToLinear (n :: ds) (t :: ts) = t * ds.prod + tupleToLinear ds ts := by
  have h := products_headD ds
  cases hp : products ds with
  | nil => exact absurd hp (products_ne_nil ds)
  | cons p ps =>
    rw [hp] at h
    simp at h
    simp [tupleToLinear, products, hp, dotProducts, h]

theorem tupleToLinear_bounds {dims t : List ℕ} (h : InGrid dims t) :
    0 ≤ tupleToLinear dims (t.map (↑)) ∧ tupleToLinear dims (t.map (↑)) < (dims.prod : ℕ) := by
  induction h with
  | nil => simp [tupleToLinear_nil]
  | @cons i n t ds hi _ ih =>
    rw [List.map_cons, tupleToLinear_cons, List.prod_cons]
    have h1 : ((i : ℤ) + 1) * ds.prod ≤ n * ds.prod :=
      mul_le_mul_of_nonneg_right (by exact_mod_cast hi) (by positivity)
    have h0 : (0 : ℤ) ≤ i * ds.prod := by positivity
    push_cast at *
    constructor
    · linarith [ih.1]
    · linarith [ih.2]

theorem getAddressCM_length (dims : List ℕ) (l : ℕ) : (getAddressCM dims l).length = dims.length := by
  induction dims generalizing l with
  | nil => rfl
  | cons n ds ih => simp [getAddressCM, ih]

theorem getAddressCM_inGrid (dims : List ℕ) (l : ℕ) (hl : l < dims.prod) :
    InGrid dims (getAddressCM dims l) := by
  induction dims generalizing l with
  | nil => exact List.Forall₂.nil
  | cons n ds ih =>
    rw [List.prod_cons] at hl
    have hpos : 0 < ds.prod := by
      rcases Nat.eq_zero_or_pos ds.prod with h | h
      · rw [h] at hl; omega
      · exact h
    exact List.Forall₂.cons (Nat.div_lt_of_lt_mul (by rwa [Nat.mul_comm] at hl)) (ih _ (Nat.mod_lt _ hpos))

theorem tupleToLinear_getAddressCM (dims : List ℕ) (l : ℕ) (hl : l < dims.prod) :
    tupleToLinear dims ((getAddressCM dims l).map (↑)) = l := by
  induction dims generalizing l with
  | nil => simp at hl; simp [tupleToLinear_nil, hl]
  | cons n ds ih =>
    rw [List.prod_cons] at hl
    have hpos : 0 < ds.prod := by
      rcases Nat.eq_zero_or_pos ds.prod with h | h
      · rw [h] at hl; omega
      · exact h
    rw [getAddressCM, List.map_cons, tupleToLinear_cons, ih _ (Nat.mod_lt _ hpos)]
    have := Nat.div_add_mod l ds.prod
    have h2 : ((ds.prod * (l / ds.prod) + l % ds.prod : ℕ) : ℤ) = l := by rw [this]
    push_cast at h2 ⊢
    linarith

theorem getAddressCM_tupleToLinear {dims t : List ℕ} (h : InGrid dims t) (l : ℕ)
    (hl : tupleToLinear dims (t.map (↑)) = l) : getAddressCM dims l = t := by
  induction h generalizing l with
  | nil => rfl
  | @cons i n t ds hi htl ih =>
    rw [List.map_cons, tupleToLinear_cons] at hl
    obtain ⟨h0, h1⟩ := tupleToLinear_bounds htl
    obtain ⟨r, hr⟩ := Int.eq_ofNat_of_zero_le h0
    rw [hr] at hl h1
    have hl' : l = r + ds.prod * i := by
      have : ((r + ds.prod * i : ℕ) : ℤ) = l := by push_cast; linarith
      exact_mod_cast this.symm
    have hrl : r < ds.prod := by exact_mod_cast h1
    have hd : l / ds.prod = i := by
      rw [hl', Nat.add_mul_div_left _ _ (by omega), Nat.div_eq_of_lt hrl]; omega
    have hm : l % ds.prod = r := by rw [hl', Nat.add_mul_mod_self_left, Nat.mod_eq_of_lt hrl]
    rw [getAddressCM, hd, hm, ih r hr]

/-- **C24.** For every grid: `linear_to_tuple` of an index below the number of cells is a tuple of the grid and
`tuple_to_linear` gives the index back; `tuple_to_linear` of a tuple of the grid is a valid index, and
`linear_to_tuple` gives the tuple back. -/
theorem C24_addresses_inverse (dims : List ℕ) :
    (∀ l, l < numCells dims → InGrid dims (getAddressCM dims l) ∧
      tupleToLinear dims ((getAddressCM dims l).map (↑)) = l) ∧
    (∀ t, InGrid dims t → ∃ l : ℕ, tupleToLinear dims (t.map (↑)) = l ∧ l < numCells dims ∧
      getAddressCM dims l = t) := by
  refine ⟨fun l hl => ⟨getAddressCM_inGrid dims l hl, tupleToLinear_getAddressCM dims l hl⟩, fun t ht => ?_⟩
  obtain ⟨h0, h1⟩ := tupleToLinear_bounds ht
  obtain ⟨l, hl⟩ := Int.eq_ofNat_of_zero_le h0
  exact ⟨l, hl, by rw [hl] at h1; exact_mod_cast h1, getAddressCM_tupleToLinear ht l hl⟩

/-- A grid of 4×5×6 cells: cell 77 is (2,2,5). -/
example : 77 < numCells [4, 5, 6] ∧ getAddressCM [4, 5, 6] 77 = [2, 2, 5] ∧ InGrid [4, 5, 6] [2, 2, 5] := by
  refine ⟨by decide, by decide, ?_⟩
  simp [InGrid]

theorem getAddressRev_eq : ∀ (ds : List ℕ) (l : ℕ), getAddressRev ds l = getAddressCM ds l := by
  intro ds
  induction ds with
  | nil => intro l; rfl
  | cons n ds ih => intro l; simp [getAddressRev, getAddressCM, ih]

/-- Spec: the position of a tuple when the first index runs fastest. -/
def firstFastest : List ℕ → List ℕ → ℕ
  | n :: ds, t :: ts => t + n * firstFastest ds ts
  | _, _ => 0

theorem firstFastest_append (ds ts : List ℕ) (h : ds.length = ts.length) (n t : ℕ) :
    firstFastest (ds ++ [n]) (ts ++ [t]) = firstFastest ds ts + ds.prod * t := by
  induction ds generalizing ts with
  | nil =>
    have : ts = [] := by simpa using h.symm
    subst this; simp [firstFastest]
  | cons m ds ih =>
    cases ts with
    | nil => simp at h
    | cons s ts =>
      simp at h
      simp [firstFastest, ih ts h]
      ring

/-- **C24, row-major version.** `getAddress` lists the tuples of the grid with the first index running fastest: for
every index below the number of cells the address lies in the grid and its position is the index. -/
theorem C24_row_major (dims : List ℕ) (l : ℕ) (hl : l < dims.prod) :
    InGrid dims (getAddress dims l) ∧ firstFastest dims (getAddress dims l) = l := by
  unfold getAddress
  rw [getAddressRev_eq]
  generalize hr : dims.reverse = rs
  have hd : dims = rs.reverse := by rw [← hr, List.reverse_reverse]
  subst hd
  rw [List.prod_reverse] at hl
  constructor
  · unfold InGrid
    rw [List.forall₂_reverse_iff]
    exact getAddressCM_inGrid rs l hl
  · clear hr
    induction rs generalizing l with
    | nil => simp at hl; simp [firstFastest, hl]
    | cons n rs ih =>
      rw [List.prod_cons] at hl
      have hpos : 0 < rs.prod := by
        rcases Nat.eq_zero_or_pos rs.prod with h | h
        · rw [h] at hl; omega
        · exact h
      rw [getAddressCM, List.reverse_cons, List.reverse_cons, firstFastest_append _ _ (by simp [getAddressCM_length]),
        ih _ (Nat.mod_lt _ hpos), List.prod_reverse]
      have := Nat.div_add_mod l rs.prod
      omega

example : getAddress [4, 5, 6] 77 = [1, 4, 3] := by decide

/-! ## Cell dimensions -/

section field
variable {K : Type*} [Field K] [LinearOrder K] [IsStrictOrderedRing K] [FloorRing K]

/-- `static_cast<int>` of a real: truncation towards zero. The value must be representable, which is not modelled. -/
def trunc (x : K) : ℤ := if 0 ≤ x then ⌊x⌋ else ⌈x⌉

omit [IsStrictOrderedRing K] in
theorem trunc_nonneg {x : K} (h : 0 ≤ x) : trunc x = ⌊x⌋ := by simp [trunc, h]

theorem trunc_nonpos {x : K} (h : x ≤ 0) : trunc x ≤ 0 := by
  unfold trunc
  split_ifs with h0
  · have : x = 0 := le_antisymm h h0
    simp [this]
  · exact Int.ceil_le.mpr (by simpa using h)

/-- What `calculate_domain_cell_dimensions` stores for one dimension. -/
structure Axis (K : Type*) where
  /-- `process_bounds.min[d]` -/
  lo : K
  /-- `process_bounds.max[d]` -/
  hi : K
  /-- `dims[d]`, halo cells included -/
  dim : ℕ
  /-- `widths[d]` -/
  w : K
  /-- `dim_shift_down[d]` -/
  down : ℕ
  /-- `dim_shift_up[d]` -/
  up : ℕ

/-- One pass of the loop of `Domain::calculate_domain_cell_dimensions`, `domains/domain.cpp:250-272`; `none` is the
exception `BadBounds`. `bd`, `bu` say whether `border_type_down[d]`, `border_type_up[d]` is non-zero. -/
def calcAxis (target lo hi : K) (bd bu : Bool) : Option (Axis K) :=
  let n := trunc ((hi - lo) / target)
  if n ≤ 0 then none
  else
    let m := if n < 4 then 4 else n
    some { lo := lo, hi := hi, dim := m.toNat + (if bd then 1 else 0) + (if bu then 1 else 0),
           w := (hi - lo) / m, down := if bd then 1 else 0, up := if bu then 1 else 0 }

/-- **C26.** For every box side and every positive target size: `BadBounds` is thrown exactly when the side is smaller
than one target size. Otherwise the interior (non-halo) cells, at least four of them, tile the side exactly, have
positive width, there is one halo cell for each border, and the cells are at least as wide as the target unless the
minimum of four was forced (side shorter than four target sizes); they are never twice as wide as needed. -/
theorem C26_cell_dimensions (target lo hi : K) (bd bu : Bool) (ht : 0 < target) (hb : lo < hi) :
    (calcAxis target lo hi bd bu = none ↔ hi - lo < target) ∧
    ∀ a, calcAxis target lo hi bd bu = some a →
      a.lo = lo ∧ a.hi = hi ∧ a.down = (if bd then 1 else 0) ∧ a.up = (if bu then 1 else 0) ∧
      0 < a.w ∧
      ∃ n : ℕ, a.dim = n + a.down + a.up ∧ 4 ≤ n ∧ (n : K) * a.w = hi - lo ∧
        (4 * target ≤ hi - lo → target ≤ a.w ∧ a.w < 2 * target) ∧ (hi - lo < 4 * target → n = 4) := by
  have hw : 0 < hi - lo := sub_pos.mpr hb
  have hq : 0 ≤ (hi - lo) / target := (div_pos hw ht).le
  constructor
  · unfold calcAxis
    simp only [trunc_nonneg hq]
    constructor
    · intro h
      by_contra hc
      push Not at hc
      have h1 : (1 : ℤ) ≤ ⌊(hi - lo) / target⌋ := by
        rw [Int.le_floor]; push_cast; rw [le_div_iff₀ ht]; linarith
      rw [if_neg (by omega)] at h
      cases h
    · intro h
      rw [if_pos]
      have : ⌊(hi - lo) / target⌋ < 1 := by
        rw [Int.floor_lt]; push_cast; rw [div_lt_iff₀ ht]; linarith
      omega
  · intro a ha
    unfold calcAxis at ha
    simp only [trunc_nonneg hq] at ha
    generalize hn : ⌊(hi - lo) / target⌋ = n at ha
    by_cases h0 : n ≤ 0
    · rw [if_pos h0] at ha; cases ha
    rw [if_neg h0] at ha
    simp only [Option.some.injEq] at ha
    generalize hm : (if n < 4 then (4 : ℤ) else n) = m at ha
    have hm4 : 4 ≤ m := by rw [← hm]; split_ifs <;> omega
    have hmK : (0 : K) < m := by
      have : (0 : ℤ) < m := by omega
      exact_mod_cast this
    subst ha
    refine ⟨rfl, rfl, rfl, rfl, div_pos hw hmK, m.toNat, rfl, by omega, ?_, ?_, ?_⟩
    · have h1 : ((m.toNat : ℕ) : K) = (m : K) := by
        have : ((m.toNat : ℕ) : ℤ) = m := Int.toNat_of_nonneg (by omega)
        exact_mod_cast congrArg (Int.cast : ℤ → K) this
      rw [h1]
      field_simp
    · intro h4
      have hn4 : 4 ≤ n := by
        rw [← hn, Int.le_floor]; push_cast; rw [le_div_iff₀ ht]; linarith
      have hmn : m = n := by rw [← hm, if_neg (by omega)]
      rw [hmn] at hmK ⊢
      have e1 : (n : K) ≤ (hi - lo) / target := by rw [← hn]; exact Int.floor_le _
      have e2 : (hi - lo) / target < n + 1 := by rw [← hn]; exact Int.lt_floor_add_one _
      constructor
      · rw [le_div_iff₀ hmK]
        rw [le_div_iff₀ ht] at e1
        linarith
      · rw [div_lt_iff₀ hmK]
        rw [div_lt_iff₀ ht] at e2
        have : (4 : K) ≤ n := by exact_mod_cast hn4
        nlinarith
    · intro h4
      have hn4 : n < 4 := by
        rw [← hn, Int.floor_lt]; push_cast; rw [div_lt_iff₀ ht]; linarith
      rw [← hm, if_pos hn4]; rfl

/-- A box of side 10 with target size 1.5 and a border below: 6 interior cells plus one halo cell. -/
example : ((0 : ℚ) < 3/2 ∧ (0 : ℚ) < 10) ∧ (calcAxis (3/2 : ℚ) 0 10 true false).map Axis.dim = some 7 := by
  refine ⟨by norm_num, ?_⟩
  have h : trunc ((10 : ℚ) / (3/2)) = 6 := by
    rw [trunc_nonneg (by norm_num)]; rw [Int.floor_eq_iff]; norm_num
  simp [calcAxis, h]

/-! ## Cell of a position -/

/-- The body of the loop of `get_cell_index`, `base/domainbase.cpp:70-75`: the clamped coordinate of the cell.
`inverseW[d]` is exactly `1/widths[d]` here. -/
def cellCoord (a : Axis K) (x : K) : ℤ :=
  let index := trunc ((x - a.lo) * (1 / a.w)) + a.down
  if index ≥ (a.dim : ℤ) - a.up then (a.dim : ℤ) - a.up - 1
  else if index < a.down then a.down
  else index

/-- The coordinates collected by the loop of `get_cell_index`, `base/domainbase.cpp:68-78`. -/
def cellTuple : List (Axis K) → List K → List ℤ
  | a :: as, x :: xs => cellCoord a x :: cellTuple as xs
  | _, _ => []

/-- `get_cell_index`, `base/domainbase.cpp:68-78`. -/
def cellIndex (as : List (Axis K)) (x : List K) : ℤ := tupleToLinear (as.map Axis.dim) (cellTuple as x)

/-- What `calculate_domain_cell_dimensions` guarantees about one dimension (see `C26_cell_dimensions`). -/
structure Axis.Valid (a : Axis K) : Prop where
  lohi : a.lo < a.hi
  wpos : 0 < a.w
  interior : a.down + a.up < a.dim
  tiles : ((a.dim - a.down - a.up : ℕ) : K) * a.w = a.hi - a.lo

theorem calcAxis_valid {target lo hi : K} {bd bu : Bool} (ht : 0 < target) (hb : lo < hi) {a : Axis K}
    (h : calcAxis target lo hi bd bu = some a) : a.Valid := by
  obtain ⟨_, h2⟩ := C26_cell_dimensions target lo hi bd bu ht hb
  obtain ⟨e1, e2, _, _, hw, n, hn, h4, ht, _, _⟩ := h2 a h
  refine ⟨by rw [e1, e2]; exact hb, hw, by omega, ?_⟩
  rw [show a.dim - a.down - a.up = n by omega, e1, e2, ht]

/-- Spec: `t` is the coordinate of the cell that the position `x` belongs to along `a`: an interior cell which contains
`x` when `x` is inside the bounds, and the first (last) interior cell when it is below (above) them. -/
def Belongs (a : Axis K) (x : K) (t : ℕ) : Prop :=
  a.down ≤ t ∧ t < a.dim - a.up ∧
  (a.lo ≤ x → x < a.hi → a.lo + ((t : K) - a.down) * a.w ≤ x ∧ x < a.lo + ((t : K) - a.down + 1) * a.w) ∧
  (x < a.lo → t = a.down) ∧ (a.hi ≤ x → t = a.dim - a.up - 1)

/-- The closed form of `cellCoord`: the floor, clamped to the interior. -/
theorem cellCoord_eq {a : Axis K} (h : a.Valid) (x : K) :
    cellCoord a x = max (a.down : ℤ) (min (⌊(x - a.lo) / a.w⌋ + a.down) ((a.dim : ℤ) - a.up - 1)) := by
  have hi := h.interior
  unfold cellCoord
  rw [mul_one_div]
  by_cases h0 : 0 ≤ (x - a.lo) / a.w
  · simp only [trunc_nonneg h0]
    have : 0 ≤ ⌊(x - a.lo) / a.w⌋ := Int.floor_nonneg.mpr h0
    generalize ⌊(x - a.lo) / a.w⌋ = f at *
    split_ifs <;> omega
  · push Not at h0
    have h1 := trunc_nonpos h0.le
    have h2 : ⌊(x - a.lo) / a.w⌋ < 0 := by rw [Int.floor_lt]; exact_mod_cast h0
    generalize trunc ((x - a.lo) / a.w) = g at *
    generalize ⌊(x - a.lo) / a.w⌋ = f at *
    simp only
    split_ifs <;> omega

theorem cellCoord_belongs {a : Axis K} (h : a.Valid) (x : K) :
    ∃ t : ℕ, cellCoord a x = t ∧ Belongs a x t := by
  have hint := h.interior
  have hw := h.wpos
  have hc := cellCoord_eq h x
  have hge : 0 ≤ cellCoord a x := by rw [hc]; exact le_max_of_le_left (by positivity)
  obtain ⟨t, ht⟩ := Int.eq_ofNat_of_zero_le hge
  refine ⟨t, ht, ?_⟩
  rw [ht] at hc
  have htile := h.tiles
  have hcast : ((a.dim - a.down - a.up : ℕ) : ℤ) = (a.dim : ℤ) - a.down - a.up := by omega
  refine ⟨by omega, by omega, ?_, ?_, ?_⟩
  · intro h1 h2
    have f0 : 0 ≤ ⌊(x - a.lo) / a.w⌋ := Int.floor_nonneg.mpr (div_nonneg (by linarith) hw.le)
    have f1 : ⌊(x - a.lo) / a.w⌋ < (a.dim : ℤ) - a.down - a.up := by
      rw [Int.floor_lt, div_lt_iff₀ hw, ← hcast]
      push_cast
      rw [htile]; linarith
    have e : (t : ℤ) - a.down = ⌊(x - a.lo) / a.w⌋ := by omega
    have e' : (t : K) - a.down = (⌊(x - a.lo) / a.w⌋ : ℤ) := by
      rw [← e]; push_cast; ring
    rw [e']
    have g1 := Int.floor_le ((x - a.lo) / a.w)
    have g2 := Int.lt_floor_add_one ((x - a.lo) / a.w)
    rw [le_div_iff₀ hw] at g1
    rw [div_lt_iff₀ hw] at g2
    constructor <;> linarith
  · intro h1
    have : ⌊(x - a.lo) / a.w⌋ < 0 := by
      rw [Int.floor_lt]; push_cast; exact div_neg_of_neg_of_pos (by linarith) hw
    omega
  · intro h1
    have : (a.dim : ℤ) - a.down - a.up ≤ ⌊(x - a.lo) / a.w⌋ := by
      rw [Int.le_floor, le_div_iff₀ hw, ← hcast]
      push_cast
      rw [htile]; linarith
    omega

/-- **C25.** For every grid built by the domain and every position (inside the bounds or not), `get_cell_index` returns
the valid index of an existing cell, which is the cell that the position belongs to in every dimension. -/
theorem C25_position_has_cell (as : List (Axis K)) (hv : ∀ a ∈ as, a.Valid) (x : List K)
    (hx : x.length = as.length) :
    ∃ (l : ℕ) (t : List ℕ), cellIndex as x = l ∧ l < numCells (as.map Axis.dim) ∧
      getAddressCM (as.map Axis.dim) l = t ∧ List.Forall₂ (fun (ax : Axis K × K) i => Belongs ax.1 ax.2 i) (as.zip x) t := by
  have key : ∃ t : List ℕ, cellTuple as x = t.map (↑) ∧ InGrid (as.map Axis.dim) t ∧
      List.Forall₂ (fun (ax : Axis K × K) i => Belongs ax.1 ax.2 i) (as.zip x) t := by
    induction as generalizing x with
    | nil =>
      have : x = [] := by simpa using hx
      subst this
      exact ⟨[], rfl, List.Forall₂.nil, List.Forall₂.nil⟩
    | cons a as ih =>
      cases x with
      | nil => simp at hx
      | cons x xs =>
        obtain ⟨t, h1, h2, h3⟩ := ih (fun b hb => hv b (List.mem_cons_of_mem _ hb)) xs (by simpa using hx)
        obtain ⟨i, h4, h5⟩ := cellCoord_belongs (hv a (by simp)) x
        refine ⟨i :: t, by simp [cellTuple, h1, h4], List.Forall₂.cons ?_ h2, List.Forall₂.cons h5 h3⟩
        have := h5.2.1
        omega
  obtain ⟨t, h1, h2, h3⟩ := key
  obtain ⟨l, e1, e2, e3⟩ := (C24_addresses_inverse (as.map Axis.dim)).2 t h2
  exact ⟨l, t, by rw [cellIndex, h1, e1], e2, e3, h3⟩

/-- Two axes meet the hypotheses. -/
example : ∃ as : List (Axis ℚ), as.length = 2 ∧ (∀ a ∈ as, a.Valid) ∧ ([-3, 7] : List ℚ).length = as.length := by
  refine ⟨[⟨0, 10, 7, 10/6, 1, 0⟩, ⟨-1, 1, 4, 1/2, 0, 0⟩], rfl, ?_, rfl⟩
  intro a ha
  simp only [List.mem_cons, List.not_mem_nil, or_false] at ha
  rcases ha with rfl | rfl <;> constructor <;> norm_num

end field
end Verif.Grid
