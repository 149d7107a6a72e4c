import Verif.Visual.Palette
import Mathlib.Tactic.Order
import Mathlib.Tactic.LinearCombination

/-!
# Lines and graphs on palettes (C135, C136)

Models `drawLine_WuAlgorithm`, `drawLineByFactors`, `drawGraphData2d` of `visualization/palette.cpp`. A dot of a line is a pixel with the factor by which the colour is
multiplied (rounding of colours to bytes is not modelled).
-/

namespace Verif.Plot

open Verif.Palette

variable {K : Type} [Field K] [LinearOrder K] [IsStrictOrderedRing K] [FloorRing K]

/-- The lambdas `fpart` and `rfpart`, `visualization/palette.cpp:478-483`. -/
def fpart (x : K) : K := x - ⌊x⌋

/-- See `fpart`. -/
def rfpart (x : K) : K := 1 - x + ⌊x⌋

/-- One dot of a line: column, row, factor. -/
abbrev Dot3 (K : Type) := ℤ × ℤ × K

/-- The two calls of `setPixel` for one column (or row, if the line is steep), `visualization/palette.cpp:491-498, 508-515, 520-521, 527-528`. -/
def two (steep : Bool) (x : ℤ) (y gap : K) : List (Dot3 K) :=
  if steep then [(⌊y⌋, x, rfpart y * gap), (⌊y⌋ + 1, x, fpart y * gap)] else [(x, ⌊y⌋, rfpart y * gap), (x, ⌊y⌋ + 1, fpart y * gap)]

/-- The main loop, `visualization/palette.cpp:517-531`: `left` columns from `x` on. -/
def mainLoop (steep : Bool) (grad : K) : ℕ → ℤ → K → List (Dot3 K)
  | 0, _, _ => []
  | left + 1, x, y => two steep x y 1 ++ mainLoop steep grad left (x + 1) (y + grad)

/-- `drawLine_WuAlgorithm` after the exchange of coordinates, `visualization/palette.cpp:473-531`, from `(x0, y0)` to `(x1, y1)` with `x0 ≤ x1`; coordinates are
integers, so that `round` does nothing. -/
def wuSorted (steep : Bool) (x0 y0 x1 y1 : ℤ) : List (Dot3 K) :=
  let grad : K := if x1 - x0 = 0 then 1 else ((y1 - y0 : ℤ) : K) / ((x1 - x0 : ℤ) : K)
  let yend0 : K := y0 + grad * ((x0 : K) - x0)
  let yend1 : K := y1 + grad * ((x1 : K) - x1)
  two steep x0 yend0 (rfpart ((x0 : K) + 1 / 2)) ++ two steep x1 yend1 (fpart ((x1 : K) + 1 / 2)) ++
    mainLoop steep grad (x1 - 1 - x0).toNat (x0 + 1) (yend0 + grad)

/-- `drawLine_WuAlgorithm`, `visualization/palette.cpp:460-533`. -/
def wu (x0 y0 x1 y1 : ℤ) : List (Dot3 K) :=
  if |y1 - y0| > |x1 - x0| then
    if y0 > y1 then wuSorted true y1 x1 y0 x0 else wuSorted true y0 x0 y1 x1
  else
    if x0 > x1 then wuSorted false x1 y1 x0 y0 else wuSorted false x0 y0 x1 y1

/-- `drawLineByFactors`, `visualization/palette.cpp:324-334`: the ends in pixels. -/
def ends (w h : ℤ) (a b : K × K) : (ℤ × ℤ) × (ℤ × ℤ) := ((trunc (a.1 * w), trunc (a.2 * h)), (trunc (b.1 * w), trunc (b.2 * h)))

/-- The limits in `GraphOptions`, `visualization/palette.hpp:122-143`: whether they are set, limits asked for, limits. -/
structure Opts (K : Type) where
  has : Bool
  useMinX : Bool
  useMaxX : Bool
  useMinY : Bool
  useMaxY : Bool
  minX : K
  maxX : K
  minY : K
  maxY : K

/-- The search for the extreme coordinates, `visualization/palette.cpp:582-589`: smallest and largest first and second coordinate. -/
def extent (first : K × K) (data : List (K × K)) : K × K × K × K :=
  data.foldl (fun e p => (if p.1 < e.1 then p.1 else e.1, if p.1 > e.2.1 then p.1 else e.2.1,
    if p.2 < e.2.2.1 then p.2 else e.2.2.1, if p.2 > e.2.2.2 then p.2 else e.2.2.2)) (first.1, first.1, first.2, first.2)

/-- The limits that are used from then on, `visualization/palette.cpp:579-610`. -/
def Opts.limits (o : Opts K) (first : K × K) (data : List (K × K)) : Opts K :=
  if o.has then o
  else
    let e := extent first data
    { o with
      has := true
      minX := if o.useMinX then o.minX else e.1
      maxX := if o.useMaxX then o.maxX else e.2.1
      minY := if o.useMinY then o.minY else e.2.2.1
      maxY := if o.useMaxY then o.maxY else e.2.2.2 * (11 / 10) }

/-- The position of a point as fraction of the palette, `visualization/palette.cpp:614-615, 629-630, 634-635`. -/
def Opts.frac (o : Opts K) (p : K × K) : K × K := ((p.1 - o.minX) / (o.maxX - o.minX), (p.2 - o.minY) / (o.maxY - o.minY))

/-- `drawGraphData2d`, `visualization/palette.cpp:567-640`: the ends of the lines drawn on a palette of `w` by `h` pixels, and the options afterwards; `none` if a
fraction is not a number (division by zero), which is then converted to an integer. The background is left out. -/
def graph (w h : ℤ) (data : List (K × K)) (o : Opts K) : Option (List ((ℤ × ℤ) × (ℤ × ℤ)) × Opts K) :=
  match data with
  | [] => some ([], o)
  | first :: rest =>
    let o' := o.limits first data
    if rest = [] then some ([], o')
    else if o'.maxX - o'.minX = 0 ∨ o'.maxY - o'.minY = 0 then none
    else some ((data.zip rest).map fun q => ends w h (o'.frac q.1) (o'.frac q.2), o')

/-! ## Specification -/

/-- The point of the line through `(x0, y0)` and `(x1, y1)` at a column. -/
def height (x0 y0 x1 y1 x : ℤ) : K := (y0 : K) + ((y1 : K) - y0) * ((x : K) - x0) / ((x1 : K) - x0)

/-- The dots of a column. -/
def column (x : ℤ) (l : List (Dot3 K)) : List (Dot3 K) := l.filter fun o => o.1 = x

/-! ## Lemmas -/

theorem rfpart_half (n : ℤ) : rfpart ((n : K) + 1 / 2) = 1 / 2 := by
  unfold rfpart
  have : ⌊(n : K) + 1 / 2⌋ = n := by
    rw [Int.floor_eq_iff]
    constructor <;> norm_num
  rw [this]
  ring

theorem fpart_half (n : ℤ) : fpart ((n : K) + 1 / 2) = 1 / 2 := by
  unfold fpart
  have : ⌊(n : K) + 1 / 2⌋ = n := by
    rw [Int.floor_eq_iff]
    constructor <;> norm_num
  rw [this]
  ring

theorem column_append (x : ℤ) (l l' : List (Dot3 K)) : column x (l ++ l') = column x l ++ column x l' := List.filter_append ..

theorem column_two (x x' : ℤ) (y gap : K) : column x (two false x' y gap) = if x' = x then two false x' y gap else [] := by
  unfold column two
  by_cases h : x' = x
  · simp [h]
  · simp [h]

theorem column_main (grad : K) (left : ℕ) (x' x : ℤ) (y : K) : column x (mainLoop false grad left x' y) =
    if x' ≤ x ∧ x < x' + left then two false x (y + grad * ((x : K) - x')) 1 else [] := by
  induction left generalizing x' y with
  | zero =>
    rw [if_neg (by omega)]
    rfl
  | succ left ih =>
    unfold mainLoop
    rw [column_append, column_two, ih]
    by_cases h : x' = x
    · subst h
      rw [if_pos rfl, if_neg (by omega), if_pos (by omega), sub_self, mul_zero, add_zero, List.append_nil]
    · rw [if_neg h, List.nil_append]
      by_cases h2 : x' + 1 ≤ x ∧ x < x' + 1 + left
      · rw [if_pos h2, if_pos (by omega)]
        congr 1
        push_cast
        ring
      · rw [if_neg h2, if_neg (by omega)]

theorem two_int (x y : ℤ) (gap : K) : two false x (y : K) gap = [(x, y, gap), (x, y + 1, 0)] := by
  simp [two, rfpart, fpart]

theorem sorted_column (x0 y0 x1 y1 x : ℤ) (h : x0 < x1) : column x (wuSorted (K := K) false x0 y0 x1 y1) =
    if x = x0 then [(x0, y0, 1 / 2), (x0, y0 + 1, 0)] else if x = x1 then [(x1, y1, 1 / 2), (x1, y1 + 1, 0)]
    else if x0 < x ∧ x < x1 then two false x (height x0 y0 x1 y1 x) 1 else [] := by
  have hd : ((x1 : K) - x0) ≠ 0 := by
    have : (x0 : K) < x1 := by exact_mod_cast h
    linarith
  unfold wuSorted
  simp only
  rw [if_neg (by omega), sub_self, sub_self, mul_zero, add_zero, add_zero, rfpart_half, fpart_half, two_int, two_int,
    column_append, column_append, column_main]
  have c1 : ∀ (u v : ℤ) (g : K), column x [(u, v, g), (u, v + 1, 0)] = if x = u then [(u, v, g), (u, v + 1, 0)] else [] := by
    intro u v g
    unfold column
    by_cases e : x = u
    · subst e
      simp
    · have e' : ¬ u = x := fun h => e h.symm
      simp [e, e']
  rw [c1, c1]
  by_cases e0 : x = x0
  · rw [if_pos e0, if_neg (by omega), if_neg (by omega), if_pos e0]
    simp
  · rw [if_neg e0, if_neg e0, List.nil_append]
    by_cases e1 : x = x1
    · rw [if_pos e1, if_pos e1, if_neg (by omega), List.append_nil]
    · rw [if_neg e1, if_neg e1, List.nil_append]
      by_cases e2 : x0 < x ∧ x < x1
      · rw [if_pos e2, if_pos (by omega)]
        congr 1
        unfold height
        push_cast
        field_simp
        ring
      · rw [if_neg e2, if_neg (by omega)]

theorem two_true (x : ℤ) (y gap : K) : two true x y gap = (two false x y gap).map fun o => (o.2.1, o.1, o.2.2) := by
  simp [two]

theorem main_true (grad : K) (left : ℕ) (x : ℤ) (y : K) :
    mainLoop true grad left x y = (mainLoop false grad left x y).map fun o => (o.2.1, o.1, o.2.2) := by
  induction left generalizing x y with
  | zero => rfl
  | succ left ih =>
    unfold mainLoop
    rw [List.map_append, ih, two_true]

theorem sorted_true (x0 y0 x1 y1 : ℤ) :
    wuSorted (K := K) true x0 y0 x1 y1 = (wuSorted false x0 y0 x1 y1).map fun o => (o.2.1, o.1, o.2.2) := by
  unfold wuSorted
  simp only [List.map_append]
  rw [two_true, two_true, main_true]

theorem height_swap (x0 y0 x1 y1 x : ℤ) (h : x0 ≠ x1) : height (K := K) x1 y1 x0 y0 x = height x0 y0 x1 y1 x := by
  have h1 : ((x1 : K) - x0) ≠ 0 := by
    intro e
    apply h
    have : (x1 : K) = x0 := by linarith
    exact (by exact_mod_cast this.symm)
  have h2 : ((x0 : K) - x1) ≠ 0 := by
    intro e
    apply h1
    linarith
  unfold height
  field_simp
  ring

/-! ## C135: lines -/

/-- C135 (partial): a line that is not steep colours two pixels in each column strictly between its ends, one just below and one just above (or at) the exact line, with factors
that add up to one and have the exact line as mean; no pixel outside of the columns of the ends is touched; at the ends it colours the end with factor one half. Missing: full
colour at the ends; that pixels beside the line are not touched, see `C135_negation_black`. -/
theorem C135_columns_partial (x0 y0 x1 y1 x : ℤ) (h : |y1 - y0| ≤ |x1 - x0|) (hne : x0 ≠ x1) :
    (min x0 x1 < x → x < max x0 x1 → column (K := K) x (wu x0 y0 x1 y1) =
      [(x, ⌊height (K := K) x0 y0 x1 y1 x⌋, 1 - Int.fract (height (K := K) x0 y0 x1 y1 x)), (x, ⌊height (K := K) x0 y0 x1 y1 x⌋ + 1, Int.fract (height (K := K) x0 y0 x1 y1 x))]) ∧
    (x < min x0 x1 ∨ max x0 x1 < x → column (K := K) x (wu x0 y0 x1 y1) = []) ∧
    column (K := K) x0 (wu x0 y0 x1 y1) = [(x0, y0, 1 / 2), (x0, y0 + 1, 0)] ∧
    column (K := K) x1 (wu x0 y0 x1 y1) = [(x1, y1, 1 / 2), (x1, y1 + 1, 0)] := by
  have tw : ∀ y : K, two false x y 1 = [(x, ⌊y⌋, 1 - Int.fract y), (x, ⌊y⌋ + 1, Int.fract y)] := by
    intro y
    unfold two rfpart fpart
    rw [if_neg (by simp), Int.fract, mul_one, mul_one]
    congr 4
    ring
  unfold wu
  rw [if_neg (by omega)]
  by_cases hx : x0 > x1
  · rw [if_pos hx, min_eq_right hx.le, max_eq_left hx.le]
    refine ⟨?_, ?_, ?_, ?_⟩
    · intro a b
      rw [sorted_column _ _ _ _ _ hx, if_neg (by omega), if_neg (by omega), if_pos ⟨a, b⟩, height_swap _ _ _ _ _ hne, tw]
    · intro a
      rw [sorted_column _ _ _ _ _ hx, if_neg (by omega), if_neg (by omega), if_neg (by omega)]
    · rw [sorted_column _ _ _ _ _ hx, if_neg (by omega), if_pos rfl]
    · rw [sorted_column _ _ _ _ _ hx, if_pos rfl]
  · have hx' : x0 < x1 := by omega
    rw [if_neg hx, min_eq_left hx'.le, max_eq_right hx'.le]
    refine ⟨?_, ?_, ?_, ?_⟩
    · intro a b
      rw [sorted_column _ _ _ _ _ hx', if_neg (by omega), if_neg (by omega), if_pos ⟨a, b⟩, tw]
    · intro a
      rw [sorted_column _ _ _ _ _ hx', if_neg (by omega), if_neg (by omega), if_neg (by omega)]
    · rw [sorted_column _ _ _ _ _ hx', if_pos rfl]
    · rw [sorted_column _ _ _ _ _ hx', if_neg (by omega), if_pos rfl]

/-- C135: a steep line is drawn as the line with columns and rows exchanged. -/
theorem C135_steep (x0 y0 x1 y1 : ℤ) (h : |x1 - x0| < |y1 - y0|) : wu (K := K) x0 y0 x1 y1 = (wu y0 x0 y1 x1).map fun o => (o.2.1, o.1, o.2.2) := by
  unfold wu
  rw [if_pos h, if_neg (not_lt.mpr h.le)]
  by_cases hy : y0 > y1
  · rw [if_pos hy, if_pos hy, sorted_true]
  · rw [if_neg hy, if_neg hy, sorted_true]

/-- C135: the factors of a column between the ends are not negative, add up to one, and their mean is the point of the line. -/
theorem C135_weights (x0 y0 x1 y1 x : ℤ) (h : |y1 - y0| ≤ |x1 - x0|) (hne : x0 ≠ x1) (h1 : min x0 x1 < x) (h2 : x < max x0 x1) :
    (∀ o ∈ column (K := K) x (wu x0 y0 x1 y1), 0 ≤ o.2.2 ∧ |(o.2.1 : K) - height x0 y0 x1 y1 x| ≤ 1) ∧
    ((column (K := K) x (wu x0 y0 x1 y1)).map fun o => o.2.2).sum = 1 ∧
    ((column (K := K) x (wu x0 y0 x1 y1)).map fun o => o.2.2 * (o.2.1 : K)).sum = height x0 y0 x1 y1 x := by
  rw [(C135_columns_partial x0 y0 x1 y1 x h hne).1 h1 h2]
  have f1 := Int.fract_nonneg (height (K := K) x0 y0 x1 y1 x)
  have f2 := Int.fract_lt_one (height (K := K) x0 y0 x1 y1 x)
  have f3 := Int.floor_add_fract (height (K := K) x0 y0 x1 y1 x)
  refine ⟨?_, ?_, ?_⟩
  · intro o ho
    simp only [List.mem_cons, List.not_mem_nil, or_false] at ho
    rcases ho with rfl | rfl
    · refine ⟨by linarith, ?_⟩
      simp only
      rw [abs_le]
      constructor <;> linarith
    · refine ⟨f1, ?_⟩
      simp only
      push_cast
      rw [abs_le]
      constructor <;> linarith
  · simp
  · simp only [List.map_cons, List.map_nil, List.sum_cons, List.sum_nil]
    push_cast
    linear_combination f3

/-- C135 is false at the pixels beside the line: a horizontal line touches all pixels above it with factor 0, so that they become black (if they are at least as far), and
a line to its own start colours that pixel with factor one half only. -/
theorem C135_negation_black : wu (K := ℚ) 0 0 3 0 = [(0, 0, 1/2), (0, 1, 0), (3, 0, 1/2), (3, 1, 0), (1, 0, 1), (1, 1, 0), (2, 0, 1), (2, 1, 0)] ∧
    wu (K := ℚ) 2 2 2 2 = [(2, 2, 1/2), (2, 3, 0), (2, 2, 1/2), (2, 3, 0)] := by
  decide +kernel

/-! ## C136: graphs -/

theorem extent_go (data : List (K × K)) (e : K × K × K × K) :
    let e' := data.foldl (fun e p => (if p.1 < e.1 then p.1 else e.1, if p.1 > e.2.1 then p.1 else e.2.1,
      if p.2 < e.2.2.1 then p.2 else e.2.2.1, if p.2 > e.2.2.2 then p.2 else e.2.2.2)) e
    (e'.1 ≤ e.1 ∧ e.2.1 ≤ e'.2.1 ∧ e'.2.2.1 ≤ e.2.2.1 ∧ e.2.2.2 ≤ e'.2.2.2) ∧
    (∀ p ∈ data, e'.1 ≤ p.1 ∧ p.1 ≤ e'.2.1 ∧ e'.2.2.1 ≤ p.2 ∧ p.2 ≤ e'.2.2.2) := by
  induction data generalizing e with
  | nil => simp
  | cons p l ih =>
    obtain ⟨⟨a1, a2, a3, a4⟩, b⟩ := ih (if p.1 < e.1 then p.1 else e.1, if p.1 > e.2.1 then p.1 else e.2.1,
      if p.2 < e.2.2.1 then p.2 else e.2.2.1, if p.2 > e.2.2.2 then p.2 else e.2.2.2)
    simp only [List.foldl_cons]
    have q1 : (if p.1 < e.1 then p.1 else e.1) ≤ e.1 ∧ (if p.1 < e.1 then p.1 else e.1) ≤ p.1 := by
      split <;> constructor <;> order
    have q2 : e.2.1 ≤ (if p.1 > e.2.1 then p.1 else e.2.1) ∧ p.1 ≤ (if p.1 > e.2.1 then p.1 else e.2.1) := by
      split <;> constructor <;> order
    have q3 : (if p.2 < e.2.2.1 then p.2 else e.2.2.1) ≤ e.2.2.1 ∧ (if p.2 < e.2.2.1 then p.2 else e.2.2.1) ≤ p.2 := by
      split <;> constructor <;> order
    have q4 : e.2.2.2 ≤ (if p.2 > e.2.2.2 then p.2 else e.2.2.2) ∧ p.2 ≤ (if p.2 > e.2.2.2 then p.2 else e.2.2.2) := by
      split <;> constructor <;> order
    refine ⟨⟨a1.trans q1.1, q2.1.trans a2, a3.trans q3.1, q4.1.trans a4⟩, ?_⟩
    intro q hq
    rcases List.mem_cons.mp hq with rfl | hq
    · exact ⟨a1.trans q1.2, q2.2.trans a2, a3.trans q3.2, q4.2.trans a4⟩
    · exact b q hq

/-- C136: the extent encloses all data. -/
theorem C136_extent (first : K × K) (data : List (K × K)) : ∀ p ∈ data, (extent first data).1 ≤ p.1 ∧ p.1 ≤ (extent first data).2.1 ∧
    (extent first data).2.2.1 ≤ p.2 ∧ p.2 ≤ (extent first data).2.2.2 := (extent_go data _).2

theorem trunc_range (x : K) (n : ℤ) (h0 : 0 ≤ x) (h1 : x ≤ 1) (hn : 0 ≤ n) : 0 ≤ trunc (x * n) ∧ trunc (x * n) ≤ n := by
  have cn : (0 : K) ≤ (n : K) := by exact_mod_cast hn
  have h : 0 ≤ x * n := mul_nonneg h0 cn
  rw [trunc_nonneg _ h]
  refine ⟨Int.floor_nonneg.mpr h, ?_⟩
  have : (⌊x * n⌋ : K) ≤ n := (Int.floor_le _).trans (by nlinarith)
  exact_mod_cast this

/-- C136 (partial): if no limits are asked for, the largest value is not negative, and the data are not all in one column or one row, the graph is a chain of lines, one for
each pair of consecutive points, each starting where the previous one ends, and all ends are in the palette, up to one pixel above or to the right. Missing: negative data, see
`C136_negation_negative`; data in one column, see `C136_negation_column`. -/
theorem C136_graph_partial (w h : ℤ) (hw : 0 ≤ w) (hh : 0 ≤ h) (first : K × K) (rest : List (K × K)) (o : Opts K) (hb : o.has = false)
    (hu : o.useMinX = false ∧ o.useMaxX = false ∧ o.useMinY = false ∧ o.useMaxY = false)
    (hpos : ∃ p ∈ first :: rest, 0 ≤ p.2) (hx : ∃ p ∈ first :: rest, ∃ q ∈ first :: rest, p.1 ≠ q.1) (hy : ∃ p ∈ first :: rest, ∃ q ∈ first :: rest, p.2 ≠ q.2) :
    ∃ l o', graph w h (first :: rest) o = some (l, o') ∧ l.length = rest.length ∧ o'.has = true ∧
      (∃ at' : K × K → ℤ × ℤ, l = ((first :: rest).zip rest).map (fun q => (at' q.1, at' q.2)) ∧
        (∀ p ∈ first :: rest, 0 ≤ (at' p).1 ∧ (at' p).1 ≤ w ∧ 0 ≤ (at' p).2 ∧ (at' p).2 ≤ h) ∧
        ∀ p ∈ first :: rest, ∀ q ∈ first :: rest, (p.1 ≤ q.1 → (at' p).1 ≤ (at' q).1) ∧ (p.2 ≤ q.2 → (at' p).2 ≤ (at' q).2)) := by
  have ext := C136_extent first (first :: rest)
  have lim : o.limits first (first :: rest) = ⟨true, false, false, false, false, (extent first (first :: rest)).1,
      (extent first (first :: rest)).2.1, (extent first (first :: rest)).2.2.1, (extent first (first :: rest)).2.2.2 * (11 / 10)⟩ := by
    unfold Opts.limits
    simp [hb, hu]
  have wx : 0 < (extent first (first :: rest)).2.1 - (extent first (first :: rest)).1 := by
    obtain ⟨p, hp, q, hq, hne⟩ := hx
    have e1 := ext p hp
    have e2 := ext q hq
    rcases lt_or_gt_of_ne hne with hlt | hlt <;> linarith
  have top : (extent first (first :: rest)).2.2.2 ≤ (extent first (first :: rest)).2.2.2 * (11 / 10) := by
    obtain ⟨p, hp, h0⟩ := hpos
    have e1 := ext p hp
    linarith
  have wy : 0 < (extent first (first :: rest)).2.2.2 * (11 / 10) - (extent first (first :: rest)).2.2.1 := by
    obtain ⟨p, hp, q, hq, hne⟩ := hy
    have e1 := ext p hp
    have e2 := ext q hq
    rcases lt_or_gt_of_ne hne with hlt | hlt <;> linarith
  have hr : rest ≠ [] := by
    rintro rfl
    obtain ⟨p, hp, q, hq, hne⟩ := hx
    simp only [List.mem_cons, List.not_mem_nil, or_false] at hp hq
    exact hne (by rw [hp, hq])
  refine ⟨_, _, by unfold graph; simp only; rw [if_neg hr, lim, if_neg (by simp only; push Not; exact ⟨wx.ne', wy.ne'⟩)], ?_, rfl, ?_⟩
  · rw [List.length_map, List.length_zip]
    simp
  · refine ⟨fun p => (trunc ((p.1 - (extent first (first :: rest)).1) / ((extent first (first :: rest)).2.1 - (extent first (first :: rest)).1) * w),
      trunc ((p.2 - (extent first (first :: rest)).2.2.1) / ((extent first (first :: rest)).2.2.2 * (11 / 10) - (extent first (first :: rest)).2.2.1) * h)), rfl, ?_, ?_⟩
    · intro p hp
      obtain ⟨a1, a2, a3, a4⟩ := ext p hp
      have u := trunc_range ((p.1 - (extent first (first :: rest)).1) / ((extent first (first :: rest)).2.1 - (extent first (first :: rest)).1)) w
        (div_nonneg (by linarith) wx.le) ((div_le_one wx).mpr (by linarith)) hw
      have v := trunc_range ((p.2 - (extent first (first :: rest)).2.2.1) / ((extent first (first :: rest)).2.2.2 * (11 / 10) - (extent first (first :: rest)).2.2.1)) h
        (div_nonneg (by linarith) wy.le) ((div_le_one wy).mpr (by linarith)) hh
      exact ⟨u.1, u.2, v.1, v.2⟩
    · intro p hp q hq
      obtain ⟨a1, a2, a3, a4⟩ := ext p hp
      obtain ⟨b1, b2, b3, b4⟩ := ext q hq
      have cw : (0 : K) ≤ (w : K) := by exact_mod_cast hw
      have ch : (0 : K) ≤ (h : K) := by exact_mod_cast hh
      have mono : ∀ (u v c n : K), 0 ≤ u → u ≤ v → 0 < c → 0 ≤ n → trunc (u / c * n) ≤ trunc (v / c * n) := by
        intro u v c n h1 h2 h3 h4
        rw [trunc_nonneg _ (by positivity), trunc_nonneg _ (mul_nonneg (div_nonneg (h1.trans h2) h3.le) h4)]
        exact Int.floor_le_floor (mul_le_mul_of_nonneg_right ((div_le_div_iff_of_pos_right h3).mpr h2) h4)
      exact ⟨fun hle => mono _ _ _ _ (by linarith) (by linarith) wx cw, fun hle => mono _ _ _ _ (by linarith) (by linarith) wy ch⟩

/-- **C136**, limits. The limits of the first graph are those asked for, and where none is asked for the smallest and largest coordinates of its points (the largest height with a tenth more). -/
theorem C136_limits (w h : ℤ) (first : K × K) (rest : List (K × K)) (o o' : Opts K) (l : List ((ℤ × ℤ) × (ℤ × ℤ))) (hb : o.has = false) (hg : graph w h (first :: rest) o = some (l, o')) :
    (if o.useMinX then o'.minX = o.minX else (∃ p ∈ first :: rest, o'.minX = p.1) ∧ ∀ p ∈ first :: rest, o'.minX ≤ p.1) ∧
    (if o.useMaxX then o'.maxX = o.maxX else (∃ p ∈ first :: rest, o'.maxX = p.1) ∧ ∀ p ∈ first :: rest, p.1 ≤ o'.maxX) ∧
    (if o.useMinY then o'.minY = o.minY else (∃ p ∈ first :: rest, o'.minY = p.2) ∧ ∀ p ∈ first :: rest, o'.minY ≤ p.2) ∧
    (if o.useMaxY then o'.maxY = o.maxY else (∃ p ∈ first :: rest, o'.maxY = p.2 * (11 / 10)) ∧ ∀ p ∈ first :: rest, p.2 * (11 / 10) ≤ o'.maxY) := by
  have att : ∀ (data : List (K × K)) (e : K × K × K × K) (S : K × K → Prop), (∀ p ∈ data, S p) → (∃ p, S p ∧ e.1 = p.1) → (∃ p, S p ∧ e.2.1 = p.1) → (∃ p, S p ∧ e.2.2.1 = p.2) →
      (∃ p, S p ∧ e.2.2.2 = p.2) → let e' := data.foldl (fun e p => (if p.1 < e.1 then p.1 else e.1, if p.1 > e.2.1 then p.1 else e.2.1,
        if p.2 < e.2.2.1 then p.2 else e.2.2.1, if p.2 > e.2.2.2 then p.2 else e.2.2.2)) e
      (∃ p, S p ∧ e'.1 = p.1) ∧ (∃ p, S p ∧ e'.2.1 = p.1) ∧ (∃ p, S p ∧ e'.2.2.1 = p.2) ∧ ∃ p, S p ∧ e'.2.2.2 = p.2 := by
    intro data
    induction data with
    | nil =>
      intro e S _ h1 h2 h3 h4
      exact ⟨h1, h2, h3, h4⟩
    | cons p data ih =>
      intro e S hS h1 h2 h3 h4
      rw [List.foldl_cons]
      have sp := hS p List.mem_cons_self
      apply ih _ S (fun q hq => hS q (List.mem_cons_of_mem _ hq))
      · simp only []
        split
        · exact ⟨p, sp, rfl⟩
        · exact h1
      · simp only []
        split
        · exact ⟨p, sp, rfl⟩
        · exact h2
      · simp only []
        split
        · exact ⟨p, sp, rfl⟩
        · exact h3
      · simp only []
        split
        · exact ⟨p, sp, rfl⟩
        · exact h4
  obtain ⟨a1, a2, a3, a4⟩ := att (first :: rest) (first.1, first.1, first.2, first.2) (· ∈ first :: rest) (fun _ h => h) ⟨first, List.mem_cons_self, rfl⟩ ⟨first, List.mem_cons_self, rfl⟩
    ⟨first, List.mem_cons_self, rfl⟩ ⟨first, List.mem_cons_self, rfl⟩
  have ext := C136_extent first (first :: rest)
  have lim : o' = o.limits first (first :: rest) := by
    unfold graph at hg
    simp only [] at hg
    split at hg
    · simp only [Option.some.injEq, Prod.mk.injEq] at hg
      exact hg.2.symm
    · split at hg
      · simp at hg
      · simp only [Option.some.injEq, Prod.mk.injEq] at hg
        exact hg.2.symm
  subst lim
  unfold Opts.limits
  rw [hb]
  simp only [Bool.false_eq_true, if_false]
  refine ⟨?_, ?_, ?_, ?_⟩
  · split
    · rfl
    · exact ⟨a1, fun p hp => (ext p hp).1⟩
  · split
    · rfl
    · exact ⟨a2, fun p hp => (ext p hp).2.1⟩
  · split
    · rfl
    · exact ⟨a3, fun p hp => (ext p hp).2.2.1⟩
  · split
    · rfl
    · obtain ⟨p, hp, e⟩ := a4
      refine ⟨⟨p, hp, ?_⟩, fun p hp => mul_le_mul_of_nonneg_right (ext p hp).2.2.2 (by norm_num)⟩
      rw [← e]
      rfl

/-- C136: a second graph drawn with the same options has the limits of the first. -/
theorem C136_second (w h : ℤ) (d d' : List (K × K)) (o o1 o2 : Opts K) (l l' : List ((ℤ × ℤ) × (ℤ × ℤ))) (hd : d ≠ [])
    (h1 : graph w h d o = some (l, o1)) (h2 : graph w h d' o1 = some (l', o2)) : o2 = o1 := by
  have has : o1.has = true := by
    cases d with
    | nil => exact absurd rfl hd
    | cons f r =>
      have e : ∀ g dd, (Opts.limits o g dd).has = true := by
        intro g dd
        unfold Opts.limits
        split
        · assumption
        · rfl
      unfold graph at h1
      simp only at h1
      split at h1
      · simp only [Option.some.injEq, Prod.mk.injEq] at h1
        rw [← h1.2]
        exact e _ _
      · split at h1
        · simp at h1
        · simp only [Option.some.injEq, Prod.mk.injEq] at h1
          rw [← h1.2]
          exact e _ _
  have e : ∀ g dd, Opts.limits o1 g dd = o1 := by
    intro g dd
    unfold Opts.limits
    rw [if_pos has]
  cases d' with
  | nil =>
    simp only [graph, Option.some.injEq, Prod.mk.injEq] at h2
    exact h2.2.symm
  | cons f r =>
    unfold graph at h2
    simp only [e] at h2
    split at h2
    · simp only [Option.some.injEq, Prod.mk.injEq] at h2
      exact h2.2.symm
    · split at h2
      · simp at h2
      · simp only [Option.some.injEq, Prod.mk.injEq] at h2
        exact h2.2.symm

/-- Options without limits. -/
def plain : Opts ℚ := ⟨false, false, false, false, false, 0, 0, 0, 0⟩

/-- C136 is false of negative data: ten per cent above a negative maximum is below it, so that points are outside of the palette; here 10 rows for values from -20 to -10 have the upper
limit -11, and the largest value is in row 11. -/
theorem C136_negation_negative : (graph 10 10 [((0 : ℚ), -20), (1, -10)] plain).map (fun r => (r.1, r.2.maxY)) = some ([((0, 0), (10, 11))], -11) := by
  decide +kernel

/-- C136 is false of data in one column: the width is 0 and the fractions are not numbers. -/
theorem C136_negation_column : (graph 10 10 [((1 : ℚ), 2), (1, 3)] plain).isNone = true := by
  decide +kernel

/-! ## Examples -/

/-- Hypotheses of `C135_columns_partial` and `C135_weights`: a line of slope 1/3, drawn from right to left. -/
example : |(0 : ℤ) - 1| ≤ |(0 : ℤ) - 3| ∧ column (K := ℚ) 1 (wu 3 1 0 0) = [(1, 0, 2/3), (1, 1, 1/3)] := by decide +kernel

/-- Hypotheses of `C135_steep`. -/
example : |(1 : ℤ) - 0| < |(3 : ℤ) - 0| ∧ (wu (K := ℚ) 0 0 1 3).length = 8 := by decide +kernel

/-- Hypotheses of `C136_graph_partial` and `C136_second`. -/
example : (graph 100 110 [((0 : ℚ), 0), (1, 10), (4, 5)] plain).map (fun r => r.1) = some [((0, 0), (25, 100)), ((25, 100), (100, 50))] := by decide +kernel

end Verif.Plot
