import Verif.Visual.Palette
import Mathlib.Algebra.Order.Floor.Ring
import Mathlib.Algebra.BigOperators.Group.List.Basic
import Mathlib.Tactic.Order
import Mathlib.Tactic.FieldSimp

/-!
# Fields of binned data (C140)

Models `compute/binning2d.cpp` and `create_field` of `compute/field_properties.cpp`. A frame is a list of records; column `c` of a record is its element `c` (the code keeps the records
one after the other in one vector).
-/

namespace Verif.Fields

open Verif.Palette

variable {K : Type} [Field K] [LinearOrder K] [IsStrictOrderedRing K] [FloorRing K]

/-- `Bounds` in two dimensions, and the numbers of bins, `compute/binning2d.hpp:22-31`. -/
structure Grid (K : Type) where
  minx : K
  maxx : K
  miny : K
  maxy : K
  bx : ℕ
  by' : ℕ

/-- The numbers of bins, `compute/field_properties.cpp:14-21`; `none` for bounds that are too narrow. -/
def grid (minx maxx miny maxy : K) : Option (Grid K) :=
  let nx := trunc ((maxx - minx) / (15 / 100))
  let ny := trunc ((maxy - miny) / (15 / 100))
  if nx < 1 ∨ ny < 1 then none else some ⟨minx, maxx, miny, maxy, nx.toNat, ny.toNat⟩

/-- `dx`, `compute/binning2d.cpp:26`. -/
def Grid.dx (g : Grid K) : K := (g.maxx - g.minx) / g.bx

/-- `dy`, `compute/binning2d.cpp:27`. -/
def Grid.dy (g : Grid K) : K := (g.maxy - g.miny) / g.by'

/-- The bin of a record, `compute/binning2d.cpp:34-39`: column and row, or none. -/
def binOf (g : Grid K) (r : List K) : Option (ℕ × ℕ) :=
  let bx := trunc ((r.getD 0 0 - g.minx) / g.dx)
  let b := trunc ((r.getD 1 0 - g.miny) / g.dy)
  if (0 ≤ bx ∧ bx < g.bx) ∧ 0 ≤ b ∧ b < g.by' then some (bx.toNat, b.toNat) else none

/-- `bin_data`, `compute/binning2d.cpp:30-41`: the contents of bin `(x, y)`, the records in the order of the frame. -/
def bin (g : Grid K) (frame : List (List K)) (x y : ℕ) : List (List K) :=
  if g.minx ≥ g.maxx ∨ g.miny ≥ g.maxy then [] else frame.filter fun r => binOf g r == some (x, y)

/-- One cell of the fields, `compute/field_properties.cpp:44-68`: number, mean velocity, sum of squares of the velocity, sum of squares of the deviations. Velocities are columns 2 and 3
(`setPlaces`, 119-125). -/
structure Cell (K : Type) where
  num : ℕ
  vx : K
  vy : K
  vsqr : K
  var : K

/-- See `Cell`. -/
def cell (g : Grid K) (frame : List (List K)) (x y : ℕ) : Cell K :=
  let b := bin g frame x y
  let num := b.length
  let vx := if num > 0 then (b.map fun r => r.getD 2 0).sum / num else 0
  let vy := if num > 0 then (b.map fun r => r.getD 3 0).sum / num else 0
  ⟨num, vx, vy, (b.map fun r => r.getD 2 0 ^ 2 + r.getD 3 0 ^ 2).sum, (b.map fun r => (r.getD 2 0 - vx) ^ 2 + (r.getD 3 0 - vy) ^ 2).sum⟩

/-- The square of the entry of `ave_v_field`, `compute/field_properties.cpp:66`: `sqrt(vsqr)/num`. -/
def speedSq (c : Cell K) : K := if c.num > 0 then c.vsqr / (c.num : K) ^ 2 else 0

/-- A line of the output, `Field2d::toCSV`, `compute/field_properties.hpp:69-75`: coordinates and the cell. -/
def line (g : Grid K) (x y : ℕ) : K × K := (x * g.dx + g.minx, y * g.dy + g.miny)

/-! ## C140 -/

/-- The grid is proper. -/
def Grid.ok (g : Grid K) : Prop := g.minx < g.maxx ∧ g.miny < g.maxy ∧ 0 < g.bx ∧ 0 < g.by'

theorem dx_pos (g : Grid K) (h : g.ok) : 0 < g.dx := div_pos (sub_pos.mpr h.1) (by exact_mod_cast h.2.2.1)

theorem dy_pos (g : Grid K) (h : g.ok) : 0 < g.dy := div_pos (sub_pos.mpr h.2.1) (by exact_mod_cast h.2.2.2)

/-- C140: the grid covers the bounds with at least one bin in each direction; bins are at least 0.15 and less than 0.3 wide. -/
theorem C140_grid (minx maxx miny maxy : K) (g : Grid K) (h : grid minx maxx miny maxy = some g) :
    g.ok ∧ g.dx * g.bx = maxx - minx ∧ g.dy * g.by' = maxy - miny ∧ (15 / 100 ≤ g.dx ∧ g.dx < 30 / 100) ∧ (15 / 100 ≤ g.dy ∧ g.dy < 30 / 100) := by
  have one : ∀ w : K, 1 ≤ trunc (w / (15 / 100)) →
      0 < w ∧ 0 < (trunc (w / (15 / 100))).toNat ∧ 15 / 100 ≤ w / ((trunc (w / (15 / 100))).toNat : K) ∧ w / ((trunc (w / (15 / 100))).toNat : K) < 30 / 100 := by
    intro w hw
    have wp : 0 ≤ w / (15 / 100) := by
      by_contra hc
      push Not at hc
      have : trunc (w / (15 / 100)) ≤ 0 := by
        unfold trunc
        rw [if_neg (by order)]
        apply Int.ceil_le.mpr
        push_cast
        exact hc.le
      omega
    rw [trunc_nonneg _ wp] at hw ⊢
    have f1 := Int.floor_le (w / (15 / 100))
    have f2 := Int.lt_floor_add_one (w / (15 / 100))
    set m := ⌊w / (15 / 100)⌋ with hm
    have mc : ((m.toNat : ℕ) : K) = (m : K) := by
      have : ((m.toNat : ℕ) : ℤ) = m := Int.toNat_of_nonneg (by omega)
      exact_mod_cast congrArg (Int.cast (R := K)) this
    have m1 : (1 : K) ≤ m := by exact_mod_cast hw
    have mpos : (0 : K) < m := by linarith
    have c : w = w / (15 / 100) * (15 / 100) := by field_simp
    rw [mc]
    refine ⟨?_, by omega, ?_, ?_⟩
    · rw [c]
      have : 0 < w / (15 / 100) := by linarith
      positivity
    · rw [le_div_iff₀ mpos]
      linarith
    · rw [div_lt_iff₀ mpos]
      linarith
  unfold grid at h
  simp only [] at h
  split at h
  · simp at h
  · rename_i hc
    push Not at hc
    obtain ⟨a1, a2, a3, a4⟩ := one _ hc.1
    obtain ⟨b1, b2, b3, b4⟩ := one _ hc.2
    have e := Option.some.inj h
    subst e
    refine ⟨⟨sub_pos.mp a1, sub_pos.mp b1, a2, b2⟩, ?_, ?_, ⟨a3, a4⟩, ⟨b3, b4⟩⟩
    · unfold Grid.dx
      simp only []
      rw [div_mul_cancel₀]
      exact_mod_cast a2.ne'
    · unfold Grid.dy
      simp only []
      rw [div_mul_cancel₀]
      exact_mod_cast b2.ne'

theorem trunc_index (x d : K) (n i : ℕ) (hd : 0 < d) (h0 : 0 ≤ x) : (0 ≤ trunc (x / d) ∧ trunc (x / d) < n) ∧ (trunc (x / d)).toNat = i ↔ i < n ∧ i * d ≤ x ∧ x < (i + 1) * d := by
  have q : 0 ≤ x / d := div_nonneg h0 hd.le
  rw [trunc_nonneg _ q]
  have f0 : 0 ≤ ⌊x / d⌋ := Int.floor_nonneg.mpr q
  have key : ⌊x / d⌋ = (i : ℤ) ↔ i * d ≤ x ∧ x < (i + 1) * d := by
    rw [Int.floor_eq_iff, le_div_iff₀ hd, div_lt_iff₀ hd]
    push_cast
    rfl
  rw [← key]
  omega

/-- C140 (partial): a particle inside of the bounds is counted in exactly the bin that contains it, that is, in the cell of the output whose coordinates are its lower left corner. Missing:
that particles outside of the bounds are not counted, see `C140_negation_below`. -/
theorem C140_bin_partial (g : Grid K) (h : g.ok) (r : List K) (hx : g.minx ≤ r.getD 0 0) (hy : g.miny ≤ r.getD 1 0) (x y : ℕ) :
    binOf g r = some (x, y) ↔ (x < g.bx ∧ y < g.by') ∧
      ((line g x y).1 ≤ r.getD 0 0 ∧ r.getD 0 0 < (line g x y).1 + g.dx) ∧ (line g x y).2 ≤ r.getD 1 0 ∧ r.getD 1 0 < (line g x y).2 + g.dy := by
  have ix := trunc_index (r.getD 0 0 - g.minx) g.dx g.bx x (dx_pos g h) (sub_nonneg.mpr hx)
  have iy := trunc_index (r.getD 1 0 - g.miny) g.dy g.by' y (dy_pos g h) (sub_nonneg.mpr hy)
  have e : binOf g r = some (x, y) ↔
      ((0 ≤ trunc ((r.getD 0 0 - g.minx) / g.dx) ∧ trunc ((r.getD 0 0 - g.minx) / g.dx) < g.bx) ∧ (trunc ((r.getD 0 0 - g.minx) / g.dx)).toNat = x) ∧
      ((0 ≤ trunc ((r.getD 1 0 - g.miny) / g.dy) ∧ trunc ((r.getD 1 0 - g.miny) / g.dy) < g.by') ∧ (trunc ((r.getD 1 0 - g.miny) / g.dy)).toNat = y) := by
    unfold binOf
    simp only []
    constructor
    · intro hh
      split at hh
      · rename_i hc
        simp only [Option.some.injEq, Prod.mk.injEq] at hh
        exact ⟨⟨hc.1, hh.1⟩, hc.2, hh.2⟩
      · simp at hh
    · rintro ⟨⟨a, b⟩, c, d⟩
      rw [if_pos ⟨a, c⟩, b, d]
  rw [e, ix, iy]
  unfold line
  simp only []
  constructor
  · rintro ⟨⟨a, b, c⟩, d, e, f⟩
    exact ⟨⟨a, d⟩, ⟨by linarith, by linarith⟩, by linarith, by linarith⟩
  · rintro ⟨⟨a, d⟩, ⟨b, c⟩, e, f⟩
    exact ⟨⟨a, by linarith, by linarith⟩, d, by linarith, by linarith⟩

/-- C140: a particle inside of the bounds (lower ends included) is counted somewhere. -/
theorem C140_counted (g : Grid K) (h : g.ok) (r : List K) (hx : g.minx ≤ r.getD 0 0 ∧ r.getD 0 0 < g.maxx) (hy : g.miny ≤ r.getD 1 0 ∧ r.getD 1 0 < g.maxy) :
    (binOf g r).isSome := by
  have one : ∀ (w d : K) (n : ℕ), 0 < d → 0 ≤ w → w < d * n → 0 ≤ trunc (w / d) ∧ trunc (w / d) < n := by
    intro w d n hd h0 h1
    have q : 0 ≤ w / d := div_nonneg h0 hd.le
    rw [trunc_nonneg _ q]
    refine ⟨Int.floor_nonneg.mpr q, ?_⟩
    apply Int.floor_lt.mpr
    push_cast
    rw [div_lt_iff₀ hd, mul_comm]
    exact h1
  have wx : g.dx * g.bx = g.maxx - g.minx := div_mul_cancel₀ _ (by exact_mod_cast h.2.2.1.ne')
  have wy : g.dy * g.by' = g.maxy - g.miny := div_mul_cancel₀ _ (by exact_mod_cast h.2.2.2.ne')
  have a := one (r.getD 0 0 - g.minx) g.dx g.bx (dx_pos g h) (by linarith [hx.1]) (by rw [wx]; linarith [hx.2])
  have b := one (r.getD 1 0 - g.miny) g.dy g.by' (dy_pos g h) (by linarith [hy.1]) (by rw [wy]; linarith [hy.2])
  unfold binOf
  simp only []
  rw [if_pos ⟨a, b⟩]
  rfl

/-- C140: each cell has the number of the particles counted in it and the mean of their velocities (0 in empty cells). -/
theorem C140_cells (g : Grid K) (h : g.ok) (frame : List (List K)) (x y : ℕ) :
    (cell g frame x y).num = frame.countP (fun r => binOf g r == some (x, y)) ∧
    ((cell g frame x y).num = 0 → (cell g frame x y).vx = 0 ∧ (cell g frame x y).vy = 0) ∧
    (cell g frame x y).vx * (cell g frame x y).num = ((frame.filter fun r => binOf g r == some (x, y)).map fun r => r.getD 2 0).sum ∧
    (cell g frame x y).vy * (cell g frame x y).num = ((frame.filter fun r => binOf g r == some (x, y)).map fun r => r.getD 3 0).sum := by
  have e : bin g frame x y = frame.filter fun r => binOf g r == some (x, y) := by
    unfold bin
    rw [if_neg]
    push Not
    exact ⟨h.1, h.2.1⟩
  unfold cell
  simp only []
  rw [e]
  refine ⟨by rw [List.countP_eq_length_filter], ?_, ?_, ?_⟩
  · intro h0
    rw [if_neg (by omega), if_neg (by omega)]
    exact ⟨rfl, rfl⟩
  · by_cases c : (frame.filter fun r => binOf g r == some (x, y)).length > 0
    · rw [if_pos c, div_mul_cancel₀]
      exact_mod_cast c.ne'
    · have c0 : (frame.filter fun r => binOf g r == some (x, y)) = [] := List.length_eq_zero_iff.mp (by omega)
      rw [if_neg c, c0]
      simp
  · by_cases c : (frame.filter fun r => binOf g r == some (x, y)).length > 0
    · rw [if_pos c, div_mul_cancel₀]
      exact_mod_cast c.ne'
    · have c0 : (frame.filter fun r => binOf g r == some (x, y)) = [] := List.length_eq_zero_iff.mp (by omega)
      rw [if_neg c, c0]
      simp

/-- **C140**, speeds. The fourth number of a cell is the sum of the squares of the velocities of its particles, the fifth the sum of the squared differences from their mean velocity, that is, the
fourth less the number of particles times the square of the mean velocity. -/
theorem C140_fluctuation (g : Grid K) (h : g.ok) (frame : List (List K)) (x y : ℕ) :
    (cell g frame x y).vsqr = ((frame.filter fun r => binOf g r == some (x, y)).map fun r => r.getD 2 0 ^ 2 + r.getD 3 0 ^ 2).sum ∧
    (cell g frame x y).var = (cell g frame x y).vsqr - (cell g frame x y).num * ((cell g frame x y).vx ^ 2 + (cell g frame x y).vy ^ 2) ∧
    0 ≤ (cell g frame x y).var := by
  have e : bin g frame x y = frame.filter fun r => binOf g r == some (x, y) := by
    unfold bin
    rw [if_neg]
    push Not
    exact ⟨h.1, h.2.1⟩
  obtain ⟨_, _, hx, hy⟩ := C140_cells g h frame x y
  have key : ∀ (l : List (List K)) (a b : K), (l.map fun r => (r.getD 2 0 - a) ^ 2 + (r.getD 3 0 - b) ^ 2).sum =
      (l.map fun r => r.getD 2 0 ^ 2 + r.getD 3 0 ^ 2).sum - 2 * a * (l.map fun r => r.getD 2 0).sum - 2 * b * (l.map fun r => r.getD 3 0).sum + l.length * (a ^ 2 + b ^ 2) := by
    intro l a b
    induction l with
    | nil => simp
    | cons r l ih =>
      simp only [List.map_cons, List.sum_cons, List.length_cons, ih]
      push_cast
      ring
  have v : (cell g frame x y).vsqr = ((frame.filter fun r => binOf g r == some (x, y)).map fun r => r.getD 2 0 ^ 2 + r.getD 3 0 ^ 2).sum := by
    rw [← e]
    rfl
  have n : (cell g frame x y).num = (frame.filter fun r => binOf g r == some (x, y)).length := by
    rw [← e]
    rfl
  have f : (cell g frame x y).var = ((frame.filter fun r => binOf g r == some (x, y)).map fun r => (r.getD 2 0 - (cell g frame x y).vx) ^ 2 + (r.getD 3 0 - (cell g frame x y).vy) ^ 2).sum := by
    rw [← e]
    rfl
  refine ⟨v, ?_, ?_⟩
  · rw [f, key, ← v, ← hx, ← hy, ← n]
    ring
  · rw [f]
    apply List.sum_nonneg
    intro z hz
    obtain ⟨r, _, rfl⟩ := List.mem_map.mp hz
    positivity

theorem one_hot (n a : ℕ) (h : a < n) : ((List.range n).map fun x : ℕ => if a = x then 1 else 0).sum = 1 := by
  have none_hot : ∀ m ≤ a, ((List.range m).map fun x : ℕ => if a = x then 1 else 0).sum = 0 := by
    intro m hm
    induction m with
    | zero => simp
    | succ m ih =>
      rw [List.range_succ, List.map_append, List.sum_append, ih (by omega)]
      simp
      omega
  induction n with
  | zero => omega
  | succ n ih =>
    rw [List.range_succ, List.map_append, List.sum_append]
    by_cases e : a = n
    · rw [none_hot n (by omega)]
      simp [e]
    · rw [ih (by omega)]
      simp [e]

/-- C140: no particle is counted twice: the numbers of all cells of the grid add up to the number of particles that have a bin. -/
theorem C140_total (g : Grid K) (h : g.ok) (frame : List (List K)) :
    (((List.range g.by').flatMap fun y : ℕ => (List.range g.bx).map fun x : ℕ => (cell g frame x y).num).sum : ℕ) = frame.countP fun r => (binOf g r).isSome := by
  have e : ∀ x y, (cell g frame x y).num = frame.countP (fun r => binOf g r == some (x, y)) := fun x y => (C140_cells g h frame x y).1
  have row : ∀ (y : ℕ) (l : List (List K)), ((List.range g.bx).map fun x : ℕ => l.countP (fun r => binOf g r == some (x, y))).sum =
      l.countP fun r => match binOf g r with | some p => p.2 == y | none => false := by
    intro y l
    induction l with
    | nil => simp
    | cons r l ih =>
      simp only [List.countP_cons]
      rw [List.sum_map_add, ih]
      congr 1
      cases hb : binOf g r with
      | none => simp
      | some p =>
        obtain ⟨px, py⟩ := p
        have lt : px < g.bx ∧ py < g.by' := by
          unfold binOf at hb
          simp only [] at hb
          split at hb
          · rename_i hc
            simp only [Option.some.injEq, Prod.mk.injEq] at hb
            omega
          · simp at hb
        simp only [beq_iff_eq, Option.some.injEq, Prod.mk.injEq]
        by_cases hy : py = y
        · simp only [hy, and_true, if_true]
          exact one_hot _ _ lt.1
        · simp [hy]
  have all : ∀ l : List (List K), ((List.range g.by').map fun y : ℕ => l.countP fun r => match binOf g r with | some p => p.2 == y | none => false).sum =
      l.countP fun r => (binOf g r).isSome := by
    intro l
    induction l with
    | nil => simp
    | cons r l ih =>
      simp only [List.countP_cons]
      rw [List.sum_map_add, ih]
      congr 1
      cases hb : binOf g r with
      | none => simp
      | some p =>
        obtain ⟨px, py⟩ := p
        have lt : px < g.bx ∧ py < g.by' := by
          unfold binOf at hb
          simp only [] at hb
          split at hb
          · rename_i hc
            simp only [Option.some.injEq, Prod.mk.injEq] at hb
            omega
          · simp at hb
        simp only [beq_iff_eq, Option.isSome_some, if_true]
        exact one_hot _ _ lt.2
  simp only [e]
  rw [List.flatMap_def, List.sum_flatten, List.map_map]
  rw [← all frame]
  congr 1
  apply List.map_congr_left
  intro y _
  exact row y frame

/-- A grid of 6 by 6 bins on the unit square. -/
def unit : Grid ℚ := ⟨0, 1, 0, 1, 6, 6⟩

/-- C140, the hypotheses are met. -/
example : grid (0 : ℚ) 1 0 1 = some unit ∧ (cell unit [[1/2, 1/2, 3, 4], [11/20, 1/2, 5, 0]] 3 3).vx = 4 := by
  refine ⟨?_, by decide +kernel⟩
  unfold grid trunc unit
  norm_num
  rfl

/-- C140 is false of particles less than a bin below the bounds: they are counted in the first bin. -/
theorem C140_negation_below : binOf unit [-1/10, 1/2, 0, 0] = some (0, 3) := by decide +kernel

/-- C140 is false of the field of speeds: it is the root of the sum of squares, divided by the number, which is neither the mean speed nor the root of the mean square: four particles of speed
1 have the entry 1/2. -/
theorem C140_negation_speed : speedSq (cell unit (List.replicate 4 [1/2, 1/2, 1, 0]) 3 3) = (1 / 2) ^ 2 := by decide +kernel

end Verif.Fields
