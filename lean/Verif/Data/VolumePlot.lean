import Mathlib.Algebra.Order.Floor.Ring
import Mathlib.Algebra.Order.Field.Basic
import Mathlib.Algebra.BigOperators.Group.List.Basic
import Mathlib.Data.Rat.Floor
import Mathlib.Data.Rat.Defs
import Mathlib.Algebra.Order.Ring.Rat
import Mathlib.Tactic.Linarith
import Mathlib.Tactic.Ring
import Mathlib.Tactic.FieldSimp
import Mathlib.Tactic.Positivity

/-!
# Volume plots

Models `dataobjects/dataobjecttypes/volumeplotobject2d.cpp` and its two objects in `dataobjects/volumeplotobjects`. Coordinates are elements of
an ordered field with floor; an access outside of a vector is `none`. The window of the plot is fixed (`gather_bounds`).
-/
namespace Verif.VolumePlot

variable {K : Type*} [Field K] [LinearOrder K] [IsStrictOrderedRing K] [FloorRing K]

/-- The state of a `VolumePlotObject2D`, `dataobjects/dataobjecttypes/volumeplotobject2d.hpp:48-84`. `rows`, `cols` are the sizes of the vectors
`binning` and `counts`. -/
structure VP (K : Type*) where
  width : ℕ
  binX : ℕ
  binY : ℕ
  rows : ℕ
  cols : ℕ
  counts : ℕ → ℕ → ℕ
  sums : ℕ → ℕ → ℕ → K
  invdx : K
  invdy : K
  frames : ℕ
  lo0 : K
  lo1 : K
  w0 : K
  w1 : K
  print : Bool

/-- Conversion to `int`. -/
def trunc (x : K) : ℤ := if 0 ≤ x then ⌊x⌋ else ⌈x⌉

/-- `VolumePlotObject2D::setBins`, `dataobjects/dataobjecttypes/volumeplotobject2d.cpp:86-110`. Note line 105. -/
def VP.setBins (v : VP K) (bx bY : ℕ) : VP K :=
  { v with
    rows := if v.binX ≠ bx ∨ v.binY ≠ bY then bx else v.rows
    cols := if v.binX ≠ bx ∨ v.binY ≠ bY then bY else v.cols
    counts := fun _ _ => 0
    sums := fun _ _ _ => 0
    binX := bY
    binY := bY
    invdx := (bY : K) / v.w0
    invdy := (bY : K) / v.w1 }

/-- The numbers of bins chosen in `VolumePlotObject2D::pre_integrate`, `dataobjects/dataobjecttypes/volumeplotobject2d.cpp:22-37`; `N` is
`default_max_bins`. -/
def VP.choose (N : ℕ) (v : VP K) : ℕ × ℕ :=
  if v.binX = 0 ∨ v.binY = 0 then
    if v.w0 < v.w1 then ((trunc (v.w0 / (v.w1 / (N : K)))).toNat, N) else (N, (trunc (v.w1 / (v.w0 / (N : K)))).toNat)
  else (v.binX, v.binY)

/-- `VolumePlotObject2D::pre_integrate`, `dataobjects/dataobjecttypes/volumeplotobject2d.cpp:17-44`, for a window with a volume. -/
def VP.pre (N : ℕ) (v : VP K) : VP K := { v.setBins (v.choose N).1 (v.choose N).2 with frames := 0 }

/-- A particle: two coordinates and the values to be recorded. -/
structure Pt (K : Type*) where
  px : K
  py : K
  val : ℕ → K

/-- `VolumePlotObject2D::addToBin` by position, `dataobjects/dataobjecttypes/volumeplotobject2d.cpp:121-147`: all values of a particle are added to one
bin, whose count grows by one. `none`: access outside of the vectors. -/
def VP.add (v : VP K) (p : Pt K) : Option (VP K) :=
  let x := trunc (v.invdx * (p.px - v.lo0))
  let y := trunc (v.invdy * (p.py - v.lo1))
  if 0 ≤ x ∧ x < v.binX ∧ 0 ≤ y ∧ y < v.binY then
    if x.toNat < v.rows ∧ y.toNat < v.cols then
      some { v with
        counts := fun a b => if a = x.toNat ∧ b = y.toNat then v.counts a b + 1 else v.counts a b
        sums := fun a b i => if a = x.toNat ∧ b = y.toNat ∧ i < v.width then v.sums a b i + p.val i else v.sums a b i }
    else none
  else some v

/-- `Bounds::contains` of the window, `utility/bounds.cpp:86-93`, in two dimensions. -/
def VP.contains (v : VP K) (p : Pt K) : Bool := v.lo0 ≤ p.px ∧ p.px < v.lo0 + v.w0 ∧ v.lo1 ≤ p.py ∧ p.py < v.lo1 + v.w1

/-- The loop over the particles. -/
def VP.adds (v : VP K) : List (Pt K) → Option (VP K)
  | [] => some v
  | p :: ps => if v.contains p then (v.add p).bind fun v' => v'.adds ps else v.adds ps

/-- `VelocityVolumePlot::post_step` (or `RadiusVolumePlot::post_step` for the particles with a radius in the range),
`dataobjects/volumeplotobjects/velocity-volumeplot.cpp:10-26`, `radius-volumeplot.cpp:9-18`. -/
def VP.step (v : VP K) (ps : List (Pt K)) : Option (VP K) := (v.adds ps).map fun v' => { v' with frames := v'.frames + 1 }

/-- A record of the output: centre of the bin, the values, the count per frame. -/
structure Rec (K : Type*) where
  cx : K
  cy : K
  vals : List K
  count : K

/-- The record of one bin in `VolumePlotObject2D::writeToFile`, `dataobjects/dataobjecttypes/volumeplotobject2d.cpp:59-67`. -/
def VP.record (v : VP K) (bx bY : ℕ) : Option (Rec K) :=
  if bx < v.rows ∧ bY < v.cols then
    some ⟨v.lo0 + ((bx : K) + 1 / 2) * (v.w0 / (v.binX : K)), v.lo1 + ((bY : K) + 1 / 2) * (v.w1 / (v.binY : K)),
      (List.range v.width).map fun i => if 0 < v.counts bx bY then v.sums bx bY i / (v.counts bx bY : K) else 0,
      if 0 < v.frames then (v.counts bx bY : K) / (v.frames : K) else (v.counts bx bY : K)⟩
  else none

/-- The loops of `VolumePlotObject2D::writeToFile`, `dataobjects/dataobjecttypes/volumeplotobject2d.cpp:56-68`. -/
def VP.write (v : VP K) : Option (List (Rec K)) :=
  ((List.range v.binX).flatMap fun bx => (List.range v.binY).map fun bY => (bx, bY)).mapM fun q => v.record q.1 q.2

/-- The number of line ends in the file, `dataobjects/dataobjecttypes/volumeplotobject2d.cpp:67`: one per record if the counts are printed. -/
def VP.lines (v : VP K) : Option ℕ := v.write.map fun rs => if v.print then rs.length else 0

/-! ## Specification -/

/-- The particle lies in the cell `(x, y)` of a grid of `nx` by `ny` cells over the window. -/
def InCell (v : VP K) (nx ny x y : ℕ) (p : Pt K) : Prop :=
  v.lo0 + (x : K) * (v.w0 / (nx : K)) ≤ p.px ∧ p.px < v.lo0 + ((x : K) + 1) * (v.w0 / (nx : K)) ∧
  v.lo1 + (y : K) * (v.w1 / (ny : K)) ≤ p.py ∧ p.py < v.lo1 + ((y : K) + 1) * (v.w1 / (ny : K))

instance (v : VP K) (nx ny x y : ℕ) (p : Pt K) : Decidable (InCell v nx ny x y p) := by unfold InCell; infer_instance

/-- The vectors have the size that the object believes. -/
def Consistent (v : VP K) : Prop := v.rows = v.binX ∧ v.cols = v.binY

theorem trunc_cell (n x : ℕ) (w lo p : K) (hn : 0 < n) (hw : 0 < w) (hlo : lo ≤ p) :
    trunc ((n : K) / w * (p - lo)) = (x : ℤ) ↔ lo + (x : K) * (w / (n : K)) ≤ p ∧ p < lo + ((x : K) + 1) * (w / (n : K)) := by
  have hnK : (0 : K) < (n : K) := by exact_mod_cast hn
  have h0 : 0 ≤ (n : K) / w * (p - lo) := mul_nonneg (by positivity) (by linarith)
  rw [trunc, if_pos h0, Int.floor_eq_iff]
  have e1 : (((x : ℕ) : ℤ) : K) = (x : K) := by simp
  rw [e1]
  have e2 : (n : K) / w * (p - lo) = (p - lo) * (n : K) / w := by ring
  have e3 : (x : K) * (w / (n : K)) = (x : K) * w / (n : K) := by ring
  have e4 : ((x : K) + 1) * (w / (n : K)) = ((x : K) + 1) * w / (n : K) := by ring
  rw [e2, e3, e4, le_div_iff₀ hw, div_lt_iff₀ hw]
  constructor
  · rintro ⟨a, b⟩
    constructor
    · have : (x : K) * w / (n : K) ≤ p - lo := by rw [div_le_iff₀ hnK]; linarith
      linarith
    · have : p - lo < ((x : K) + 1) * w / (n : K) := by rw [lt_div_iff₀ hnK]; linarith
      linarith
  · rintro ⟨a, b⟩
    constructor
    · have : (x : K) * w / (n : K) ≤ p - lo := by linarith
      rw [div_le_iff₀ hnK] at this; linarith
    · have : p - lo < ((x : K) + 1) * w / (n : K) := by linarith
      rw [lt_div_iff₀ hnK] at this; linarith

theorem trunc_range (n : ℕ) (w lo p : K) (hn : 0 < n) (hw : 0 < w) (hlo : lo ≤ p) (hup : p < lo + w) :
    0 ≤ trunc ((n : K) / w * (p - lo)) ∧ trunc ((n : K) / w * (p - lo)) < n := by
  have hnK : (0 : K) < (n : K) := by exact_mod_cast hn
  have h0 : 0 ≤ (n : K) / w * (p - lo) := mul_nonneg (by positivity) (by linarith)
  rw [trunc, if_pos h0]
  refine ⟨Int.floor_nonneg.2 h0, ?_⟩
  rw [Int.floor_lt]
  have : (n : K) / w * (p - lo) = (n : K) * ((p - lo) / w) := by ring
  rw [this]
  have h1 : (p - lo) / w < 1 := by rw [div_lt_one hw]; linarith
  have := mul_lt_mul_of_pos_left h1 hnK
  simpa using this

/-- The parts of the object that recording does not change. -/
def SameShape (v v' : VP K) : Prop := v'.width = v.width ∧ v'.binX = v.binX ∧ v'.binY = v.binY ∧ v'.rows = v.rows ∧ v'.cols = v.cols ∧
  v'.invdx = v.invdx ∧ v'.invdy = v.invdy ∧ v'.lo0 = v.lo0 ∧ v'.lo1 = v.lo1 ∧ v'.w0 = v.w0 ∧ v'.w1 = v.w1 ∧ v'.print = v.print ∧ v'.frames = v.frames

/-- The state after `setBins`, with all vectors large enough. -/
structure Ready (n m : ℕ) (v : VP K) : Prop where
  bx : v.binX = n
  bY : v.binY = m
  hn : 0 < n
  hm : 0 < m
  r : n ≤ v.rows
  c : m ≤ v.cols
  w0 : 0 < v.w0
  w1 : 0 < v.w1
  ix : v.invdx = (n : K) / v.w0
  iy : v.invdy = (m : K) / v.w1

theorem adds_spec (n m : ℕ) (v : VP K) (h : Ready n m v) (ps : List (Pt K)) (hps : ∀ p ∈ ps, v.contains p = true) :
    ∃ v', v.adds ps = some v' ∧ SameShape v v' ∧
      ∀ x < n, ∀ y < m, v'.counts x y = v.counts x y + (ps.filter fun p => InCell v n m x y p).length ∧
        ∀ i < v.width, v'.sums x y i = v.sums x y i + ((ps.filter fun p => InCell v n m x y p).map (·.val i)).sum := by
  induction ps generalizing v with
  | nil => exact ⟨v, rfl, by simp [SameShape], by simp⟩
  | cons p ps ih =>
    have hp := hps p (List.mem_cons_self ..)
    obtain ⟨c1, c2, c3, c4⟩ := of_decide_eq_true hp
    have rx := trunc_range n v.w0 v.lo0 p.px h.hn h.w0 c1 c2
    have ry := trunc_range m v.w1 v.lo1 p.py h.hm h.w1 c3 c4
    have tx := fun x => trunc_cell n x v.w0 v.lo0 p.px h.hn h.w0 c1
    have ty := fun y => trunc_cell m y v.w1 v.lo1 p.py h.hm h.w1 c3
    rw [← h.ix] at rx tx
    rw [← h.iy] at ry ty
    set X := trunc (v.invdx * (p.px - v.lo0)) with hX
    set Y := trunc (v.invdy * (p.py - v.lo1)) with hY
    have hadd : v.add p = some { v with
        counts := fun a b => if a = X.toNat ∧ b = Y.toNat then v.counts a b + 1 else v.counts a b
        sums := fun a b i => if a = X.toNat ∧ b = Y.toNat ∧ i < v.width then v.sums a b i + p.val i else v.sums a b i } := by
      have e1 := h.bx
      have e2 := h.bY
      have e3 := h.r
      have e4 := h.c
      unfold VP.add
      dsimp only
      rw [if_pos, if_pos]
      · constructor <;> omega
      · refine ⟨rx.1, ?_, ry.1, ?_⟩ <;> omega
    have hcell : ∀ x y : ℕ, InCell v n m x y p ↔ x = X.toNat ∧ y = Y.toNat := by
      intro x y
      unfold InCell
      have a := tx x
      have b := ty y
      constructor
      · rintro ⟨i1, i2, i3, i4⟩
        have := a.2 ⟨i1, i2⟩
        have := b.2 ⟨i3, i4⟩
        omega
      · rintro ⟨e1, e2⟩
        have hx : X = (x : ℤ) := by omega
        have hy : Y = (y : ℤ) := by omega
        exact ⟨(a.1 hx).1, (a.1 hx).2, (b.1 hy).1, (b.1 hy).2⟩
    obtain ⟨v', h1, h2, h3⟩ := ih { v with
        counts := fun a b => if a = X.toNat ∧ b = Y.toNat then v.counts a b + 1 else v.counts a b
        sums := fun a b i => if a = X.toNat ∧ b = Y.toNat ∧ i < v.width then v.sums a b i + p.val i else v.sums a b i }
      ⟨h.bx, h.bY, h.hn, h.hm, h.r, h.c, h.w0, h.w1, h.ix, h.iy⟩ (fun q hq => hps q (List.mem_cons_of_mem _ hq))
    refine ⟨v', ?_, h2, ?_⟩
    · rw [VP.adds, if_pos hp, hadd]; exact h1
    · intro x hx y hy
      obtain ⟨g1, g2⟩ := h3 x hx y hy
      dsimp only at g1 g2
      have hin : ∀ q, InCell { v with
        counts := fun a b => if a = X.toNat ∧ b = Y.toNat then v.counts a b + 1 else v.counts a b
        sums := fun a b i => if a = X.toNat ∧ b = Y.toNat ∧ i < v.width then v.sums a b i + p.val i else v.sums a b i } n m x y q ↔ InCell v n m x y q :=
        fun q => Iff.rfl
      simp only [hin] at g1 g2
      by_cases hc : InCell v n m x y p
      · have he := (hcell x y).1 hc
        refine ⟨?_, ?_⟩
        · rw [g1, if_pos he, List.filter_cons_of_pos (by simpa using hc), List.length_cons]; omega
        · intro i hi
          rw [g2 i hi, if_pos ⟨he.1, he.2, hi⟩, List.filter_cons_of_pos (by simpa using hc), List.map_cons, List.sum_cons]; ring
      · have he : ¬ (x = X.toNat ∧ y = Y.toNat) := fun e => hc ((hcell x y).2 e)
        refine ⟨?_, ?_⟩
        · rw [g1, if_neg he, List.filter_cons_of_neg (by simpa using hc)]
        · intro i hi
          rw [g2 i hi, if_neg (fun e => he ⟨e.1, e.2.1⟩), List.filter_cons_of_neg (by simpa using hc)]

theorem mapM_some {β γ : Type*} (f : β → Option γ) (g : β → γ) (l : List β) (h : ∀ x ∈ l, f x = some (g x)) : l.mapM f = some (l.map g) := by
  induction l with
  | nil => rfl
  | cons x xs ih =>
    rw [List.mapM_cons, h x (List.mem_cons_self ..), ih (fun y hy => h y (List.mem_cons_of_mem _ hy))]
    rfl

theorem mapM_none {β γ : Type*} (f : β → Option γ) (l : List β) (x : β) (hx : x ∈ l) (h : f x = none) : l.mapM f = none := by
  induction l with
  | nil => simp at hx
  | cons y ys ih =>
    rw [List.mapM_cons]
    rcases List.mem_cons.1 hx with rfl | hx
    · rw [h]; rfl
    · rw [ih hx]
      cases f y <;> rfl

/-- With as many bins in the second direction as in the first, recording particles inside of the window puts each of them into the one bin whose
cell contains it, and the output has for every bin the centre of the cell, the averages of the values over the particles that were in
the cell, and their number per frame. (One step with the particles `ps` after the bins were set to `n` by `n`; for several steps see
`C123_steps`.)
Missing: different numbers of bins in the two directions, also as chosen by default (see the negations). -/
theorem C123_square_partial (v : VP K) (n : ℕ) (hn : 0 < n) (hc : Consistent v) (h0 : 0 < v.w0) (h1 : 0 < v.w1) (ps : List (Pt K))
    (hps : ∀ p ∈ ps, v.contains p = true) :
    ∃ v', ({ v.setBins n n with frames := 0 } : VP K).step ps = some v' ∧ ∃ out, v'.write = some out ∧ out.length = n * n ∧
      ∀ x < n, ∀ y < n, ∃ r ∈ out, r.cx = v.lo0 + ((x : K) + 1 / 2) * (v.w0 / (n : K)) ∧ r.cy = v.lo1 + ((y : K) + 1 / 2) * (v.w1 / (n : K)) ∧
        r.count = ((ps.filter fun p => InCell v n n x y p).length : K) ∧
        r.vals = (List.range v.width).map fun i =>
          if ps.filter (fun p => InCell v n n x y p) = [] then 0 else
            ((ps.filter fun p => InCell v n n x y p).map (·.val i)).sum / ((ps.filter fun p => InCell v n n x y p).length : K) := by
  have hrc : (if v.binX ≠ n ∨ v.binY ≠ n then n else v.rows) = n ∧ (if v.binX ≠ n ∨ v.binY ≠ n then n else v.cols) = n := by
    by_cases e : v.binX ≠ n ∨ v.binY ≠ n
    · simp [e]
    · have hh := hc
      unfold Consistent at hh
      push Not at e
      obtain ⟨e1, e2⟩ := e
      simp [e1, e2, hh.1, hh.2]
  have hr : Ready n n ({ v.setBins n n with frames := 0 } : VP K) :=
    ⟨rfl, rfl, hn, hn, hrc.1.ge, hrc.2.ge, h0, h1, rfl, rfl⟩
  obtain ⟨v', a1, a2, a3⟩ := adds_spec n n ({ v.setBins n n with frames := 0 } : VP K) hr ps hps
  refine ⟨{ v' with frames := v'.frames + 1 }, by rw [VP.step, a1]; rfl, ?_⟩
  obtain ⟨s1, s2, s3, s4, s5, s6, s7, s8, s9, s10, s11, s12, s13⟩ := a2
  have t2 : v'.binX = n := s2
  have t3 : v'.binY = n := s3
  have t4 : v'.rows = n := s4.trans hrc.1
  have t5 : v'.cols = n := s5.trans hrc.2
  have t13 : v'.frames = 0 := s13
  set W : VP K := { v' with frames := v'.frames + 1 } with hW
  have hrec : ∀ x < n, ∀ y < n, W.record x y = some ⟨W.lo0 + ((x : K) + 1 / 2) * (W.w0 / (W.binX : K)), W.lo1 + ((y : K) + 1 / 2) * (W.w1 / (W.binY : K)),
      (List.range W.width).map fun i => if 0 < W.counts x y then W.sums x y i / (W.counts x y : K) else 0,
      if 0 < W.frames then (W.counts x y : K) / (W.frames : K) else (W.counts x y : K)⟩ := by
    intro x hx y hy
    unfold VP.record
    rw [if_pos]
    exact ⟨by show x < v'.rows; omega, by show y < v'.cols; omega⟩
  have hmem : ∀ q ∈ (List.range W.binX).flatMap (fun bx => (List.range W.binY).map fun bY => (bx, bY)), q.1 < n ∧ q.2 < n := by
    intro q hq
    obtain ⟨x, hx, hq⟩ := List.mem_flatMap.1 hq
    obtain ⟨y, hy, rfl⟩ := List.mem_map.1 hq
    have := List.mem_range.1 hx
    have := List.mem_range.1 hy
    have e1 : W.binX = n := t2
    have e2 : W.binY = n := t3
    dsimp only
    omega
  refine ⟨_, mapM_some _ _ _ (fun q hq => hrec q.1 (hmem q hq).1 q.2 (hmem q hq).2), ?_, ?_⟩
  · rw [List.length_map, List.length_flatMap]
    have e1 : W.binX = n := t2
    have e2 : W.binY = n := t3
    simp [e1, e2]
  · intro x hx y hy
    obtain ⟨g1, g2⟩ := a3 x hx y hy
    have hcnt : W.counts x y = (ps.filter fun p => InCell v n n x y p).length := by
      have : v'.counts x y = 0 + (ps.filter fun p => InCell v n n x y p).length := g1
      rw [zero_add] at this
      exact this
    refine ⟨_, List.mem_map.2 ⟨(x, y), ?_, rfl⟩, ?_, ?_, ?_, ?_⟩
    · refine List.mem_flatMap.2 ⟨x, List.mem_range.2 (by show x < v'.binX; omega), List.mem_map.2 ⟨y, List.mem_range.2 (by show y < v'.binY; omega), rfl⟩⟩
    · dsimp only
      have e1 : W.lo0 = v.lo0 := s8
      have e2 : W.w0 = v.w0 := s10
      have e3 : W.binX = n := t2
      rw [e1, e2, e3]
    · dsimp only
      have e1 : W.lo1 = v.lo1 := s9
      have e2 : W.w1 = v.w1 := s11
      have e3 : W.binY = n := t3
      rw [e1, e2, e3]
    · dsimp only
      have e1 : W.frames = 1 := by show v'.frames + 1 = 1; omega
      rw [e1, hcnt]
      simp
    · dsimp only
      have e1 : W.width = v.width := s1
      rw [e1]
      apply List.map_congr_left
      intro i hi
      have hi' := List.mem_range.1 hi
      have hs : W.sums x y i = ((ps.filter fun p => InCell v n n x y p).map (·.val i)).sum := by
        have : v'.sums x y i = 0 + ((ps.filter fun p => InCell v n n x y p).map (·.val i)).sum := g2 i hi'
        rw [zero_add] at this
        exact this
      rw [hcnt, hs]
      by_cases hne : ps.filter (fun p => InCell v n n x y p) = []
      · rw [if_neg (by rw [hne]; simp), if_pos hne]
      · rw [if_pos (List.length_pos_of_ne_nil hne), if_neg hne]

/-- A new object for the window `[0,4) × [0,2)`, `dataobjects/dataobjecttypes/volumeplotobject2d.cpp:9-15`. -/
def vp0 : VP ℚ where
  width := 1
  binX := 0
  binY := 0
  rows := 0
  cols := 0
  counts := fun _ _ => 0
  sums := fun _ _ _ => 0
  invdx := 0
  invdy := 0
  frames := 0
  lo0 := 0
  lo1 := 0
  w0 := 4
  w1 := 2
  print := true

example : Consistent vp0 ∧ 0 < vp0.w0 ∧ 0 < vp0.w1 ∧ vp0.contains ⟨1, 1, fun _ => 5⟩ = true := by
  refine ⟨⟨rfl, rfl⟩, ?_, ?_, ?_⟩ <;> decide +kernel

/-- Further steps go on in the same way: after any number of steps each bin counts the particles of all steps in its cell and the number of frames is
that of the steps. -/
theorem C123_steps (n : ℕ) (v : VP K) (h : Ready n n v) (steps : List (List (Pt K))) (hps : ∀ ps ∈ steps, ∀ p ∈ ps, v.contains p = true) :
    ∃ v', steps.foldlM VP.step v = some v' ∧ v'.frames = v.frames + steps.length ∧
      ∀ x < n, ∀ y < n, v'.counts x y = v.counts x y + (steps.flatten.filter fun p => InCell v n n x y p).length ∧
        ∀ i < v.width, v'.sums x y i = v.sums x y i + ((steps.flatten.filter fun p => InCell v n n x y p).map (·.val i)).sum := by
  induction steps generalizing v with
  | nil => exact ⟨v, rfl, by simp, by simp⟩
  | cons ps steps ih =>
    obtain ⟨v1, a1, a2, a3⟩ := adds_spec n n v h ps (hps ps (List.mem_cons_self ..))
    obtain ⟨s1, s2, s3, s4, s5, s6, s7, s8, s9, s10, s11, s12, s13⟩ := a2
    have hstep : v.step ps = some { v1 with frames := v1.frames + 1 } := by rw [VP.step, a1]; rfl
    have hr : Ready n n ({ v1 with frames := v1.frames + 1 } : VP K) := by
      refine ⟨s2.trans h.bx, s3.trans h.bY, h.hn, h.hm, ?_, ?_, ?_, ?_, ?_, ?_⟩
      · have := h.r; dsimp only; omega
      · have := h.c; dsimp only; omega
      · dsimp only; rw [s10]; exact h.w0
      · dsimp only; rw [s11]; exact h.w1
      · dsimp only; rw [s6, s10]; exact h.ix
      · dsimp only; rw [s7, s11]; exact h.iy
    have hcont : ∀ q, ({ v1 with frames := v1.frames + 1 } : VP K).contains q = v.contains q := by
      intro q; unfold VP.contains; dsimp only; rw [s8, s9, s10, s11]
    have hin : ∀ x y q, InCell ({ v1 with frames := v1.frames + 1 } : VP K) n n x y q ↔ InCell v n n x y q := by
      intro x y q; unfold InCell; dsimp only; rw [s8, s9, s10, s11]
    obtain ⟨v', b1, b2, b3⟩ := ih _ hr (fun qs hqs q hq => by rw [hcont]; exact hps qs (List.mem_cons_of_mem _ hqs) q hq)
    refine ⟨v', ?_, ?_, ?_⟩
    · rw [List.foldlM_cons, hstep]; exact b1
    · rw [b2]; dsimp only; rw [s13, List.length_cons]; omega
    · intro x hx y hy
      obtain ⟨g1, g2⟩ := b3 x hx y hy
      obtain ⟨k1, k2⟩ := a3 x hx y hy
      simp only [hin] at g1 g2
      refine ⟨?_, ?_⟩
      · rw [g1, k1, List.flatten_cons, List.filter_append, List.length_append]; omega
      · intro i hi
        rw [g2 i (by show i < v1.width; omega)]
        rw [k2 i hi, List.flatten_cons, List.filter_append, List.map_append, List.sum_append]
        ring

example : Ready 3 3 ({ vp0.setBins 3 3 with frames := 0 } : VP ℚ) := by
  refine ⟨rfl, rfl, ?_, ?_, ?_, ?_, ?_, ?_, rfl, rfl⟩ <;> decide +kernel

/-- A whole run: a window as wide as high with the default number of bins `N`, or an object that was set to `n` by `n` bins before. Whatever was recorded in
earlier runs, after the steps of this run each bin counts the particles that were in its cell in the steps of this run, holds the sums of
their values, and the number of frames is that of the steps of this run.
Missing: different numbers of bins in the two directions (see the negations). -/
theorem C123_run_partial (N n : ℕ) (hn : 0 < n) (v : VP K) (hc : Consistent v) (h0 : 0 < v.w0) (h1 : 0 < v.w1)
    (hch : v.binX = 0 ∧ v.binY = 0 ∧ v.w0 = v.w1 ∧ n = N ∨ v.binX = n ∧ v.binY = n) (steps : List (List (Pt K)))
    (hps : ∀ ps ∈ steps, ∀ p ∈ ps, v.contains p = true) :
    ∃ v', steps.foldlM VP.step (v.pre N) = some v' ∧ v'.frames = steps.length ∧
      ∀ x < n, ∀ y < n, v'.counts x y = (steps.flatten.filter fun p => InCell v n n x y p).length ∧
        ∀ i < v.width, v'.sums x y i = ((steps.flatten.filter fun p => InCell v n n x y p).map (·.val i)).sum := by
  have hcn : v.choose N = (n, n) := by
    unfold VP.choose
    rcases hch with ⟨a, b, e, rfl⟩ | ⟨a, b⟩
    · rw [if_pos (Or.inl a), if_neg (by rw [e]; exact lt_irrefl _), e]
      have hnk : (n : K) ≠ 0 := by exact_mod_cast hn.ne'
      have : v.w1 / (v.w1 / (n : K)) = (n : K) := by field_simp
      rw [this]
      unfold trunc
      rw [if_pos (Nat.cast_nonneg n)]
      simp
    · rw [if_neg (by omega), a, b]
  have hpre : v.pre N = { v.setBins n n with frames := 0 } := by unfold VP.pre; rw [hcn]
  have hrc : (if v.binX ≠ n ∨ v.binY ≠ n then n else v.rows) = n ∧ (if v.binX ≠ n ∨ v.binY ≠ n then n else v.cols) = n := by
    by_cases e : v.binX ≠ n ∨ v.binY ≠ n
    · simp [e]
    · have hh := hc
      unfold Consistent at hh
      push Not at e
      obtain ⟨e1, e2⟩ := e
      simp [e1, e2, hh.1, hh.2]
  have hr : Ready n n ({ v.setBins n n with frames := 0 } : VP K) :=
    ⟨rfl, rfl, hn, hn, hrc.1.ge, hrc.2.ge, h0, h1, rfl, rfl⟩
  rw [hpre]
  obtain ⟨v', a1, a2, a3⟩ := C123_steps n _ hr steps hps
  refine ⟨v', a1, by rw [a2]; exact Nat.zero_add _, fun x hx y hy => ?_⟩
  obtain ⟨b1, b2⟩ := a3 x hx y hy
  exact ⟨by rw [b1]; exact Nat.zero_add _, fun i hi => by rw [b2 i hi]; exact zero_add _⟩

example : Consistent ({ vp0 with w1 := 4 } : VP ℚ) ∧ ({ vp0 with w1 := 4 } : VP ℚ).binX = 0 ∧ ({ vp0 with w1 := 4 } : VP ℚ).w0 = 4 ∧
    ({ vp0 with w1 := 4 } : VP ℚ).contains ⟨1, 3, fun _ => 5⟩ = true := by
  refine ⟨⟨rfl, rfl⟩, rfl, rfl, ?_⟩ <;> decide +kernel

theorem setBins_shape (v : VP K) (bx bY : ℕ) : (v.setBins bx bY).binX = bY ∧ (v.setBins bx bY).binY = bY := ⟨rfl, rfl⟩

/-- If there are fewer rows than the object believes, writing the output reads outside of the vectors. -/
theorem write_none (v : VP K) (h : v.rows < v.binX) (hY : 0 < v.binY) : v.write = none := by
  refine mapM_none _ _ (v.rows, 0) ?_ ?_
  · exact List.mem_flatMap.2 ⟨v.rows, List.mem_range.2 h, List.mem_map.2 ⟨0, List.mem_range.2 hY, rfl⟩⟩
  · unfold VP.record
    rw [if_neg]
    omega

/-- By default, in every window that is narrower than high, the output reads outside of the vectors, after the first run and after all further runs: the
number of bins of the first direction is overwritten by that of the second. -/
theorem C123_negation_narrow (N : ℕ) (hN : 0 < N) (v : VP K) (hnew : v.binX = 0 ∧ v.binY = 0) (h0 : 0 < v.w0) (hw : v.w0 < v.w1) (runs : ℕ) :
    ((VP.pre N)^[runs + 1] v).write = none := by
  have hNK : (0 : K) < (N : K) := by exact_mod_cast hN
  have h1 : 0 < v.w1 := h0.trans hw
  have ht : (trunc (v.w0 / (v.w1 / (N : K)))).toNat < N := by
    have e : v.w0 / (v.w1 / (N : K)) = v.w0 / v.w1 * (N : K) := by field_simp
    have hlt : v.w0 / v.w1 < 1 := by rw [div_lt_one h1]; exact hw
    have hpos : 0 ≤ v.w0 / v.w1 * (N : K) := by positivity
    rw [e, trunc, if_pos hpos]
    have : ⌊v.w0 / v.w1 * (N : K)⌋ < (N : ℤ) := by
      rw [Int.floor_lt]
      have := mul_lt_mul_of_pos_right hlt hNK
      simpa using this
    have := Int.floor_nonneg.2 hpos
    omega
  have hch : v.choose N = ((trunc (v.w0 / (v.w1 / (N : K)))).toNat, N) := by
    unfold VP.choose; rw [if_pos (Or.inl hnew.1), if_pos hw]
  have key : ∀ k, ((VP.pre N)^[k + 1] v).rows < N ∧ ((VP.pre N)^[k + 1] v).binX = N ∧ ((VP.pre N)^[k + 1] v).binY = N := by
    intro k
    induction k with
    | zero =>
      show (VP.pre N v).rows < N ∧ (VP.pre N v).binX = N ∧ (VP.pre N v).binY = N
      unfold VP.pre
      rw [hch]
      refine ⟨?_, rfl, rfl⟩
      show (if v.binX ≠ _ ∨ v.binY ≠ N then _ else v.rows) < N
      rw [if_pos (Or.inr (by rw [hnew.2]; omega))]
      exact ht
    | succ k ih =>
      rw [Function.iterate_succ_apply']
      generalize (VP.pre N)^[k + 1] v = u at ih
      obtain ⟨i1, i2, i3⟩ := ih
      have hc : u.choose N = (N, N) := by
        unfold VP.choose; rw [if_neg (by omega), i2, i3]
      unfold VP.pre
      rw [hc]
      refine ⟨?_, rfl, rfl⟩
      show (if u.binX ≠ N ∨ u.binY ≠ N then N else u.rows) < N
      rw [if_neg (by omega)]
      exact i1
  obtain ⟨k1, k2, k3⟩ := key runs
  exact write_none _ (by omega) (by omega)

example : (({ vp0 with w0 := 1 } : VP ℚ).binX = 0 ∧ ({ vp0 with w0 := 1 } : VP ℚ).binY = 0) ∧
    ({ vp0 with w0 := 1 } : VP ℚ).w0 < ({ vp0 with w0 := 1 } : VP ℚ).w1 := by
  refine ⟨⟨rfl, rfl⟩, ?_⟩; decide +kernel

/-- In the same windows already the recording of a particle near the right edge of the window writes outside of the vectors. -/
theorem C123_negation_narrow_add (v : VP K) (bx bY : ℕ) (hx : bx < bY) (hne : v.binX ≠ bx ∨ v.binY ≠ bY) (h0 : 0 < v.w0) (h1 : 0 < v.w1) (p : Pt K)
    (hp : v.contains p = true) (hr : v.lo0 + (bx : K) * (v.w0 / (bY : K)) ≤ p.px) : (v.setBins bx bY).add p = none := by
  obtain ⟨c1, c2, c3, c4⟩ := of_decide_eq_true hp
  have hY : 0 < bY := by omega
  have hYK : (0 : K) < (bY : K) := by exact_mod_cast hY
  have rx := trunc_range bY v.w0 v.lo0 p.px hY h0 c1 c2
  have ry := trunc_range bY v.w1 v.lo1 p.py hY h1 c3 c4
  have hge : (bx : ℤ) ≤ trunc ((bY : K) / v.w0 * (p.px - v.lo0)) := by
    have hpos : 0 ≤ (bY : K) / v.w0 * (p.px - v.lo0) := mul_nonneg (by positivity) (by linarith)
    rw [trunc, if_pos hpos, Int.le_floor]
    have e : (bY : K) / v.w0 * (p.px - v.lo0) = (p.px - v.lo0) * (bY : K) / v.w0 := by ring
    rw [e, le_div_iff₀ h0]
    have : (bx : K) * (v.w0 / (bY : K)) ≤ p.px - v.lo0 := by linarith
    have e2 : (bx : K) * (v.w0 / (bY : K)) = (bx : K) * v.w0 / (bY : K) := by ring
    rw [e2, div_le_iff₀ hYK] at this
    simpa using this
  unfold VP.add
  have e1 : (v.setBins bx bY).invdx = (bY : K) / v.w0 := rfl
  have e2 : (v.setBins bx bY).invdy = (bY : K) / v.w1 := rfl
  have e3 : (v.setBins bx bY).lo0 = v.lo0 := rfl
  have e4 : (v.setBins bx bY).lo1 = v.lo1 := rfl
  have e5 : (v.setBins bx bY).binX = bY := rfl
  have e6 : (v.setBins bx bY).binY = bY := rfl
  have e7 : (v.setBins bx bY).rows = bx := by
    show (if _ then bx else v.rows) = bx
    rw [if_pos hne]
  dsimp only
  rw [e1, e2, e3, e4, e5, e6, e7, if_pos ⟨rx.1, rx.2, ry.1, ry.2⟩, if_neg]
  omega

example : (vp0.setBins 2 3).add ⟨3, 1, fun _ => 5⟩ = none := by decide +kernel

/-- With more bins requested in the first direction than in the second, the output has only as many records as if the smaller number had been requested
for both. -/
theorem C123_negation_wide (v : VP K) (bx bY : ℕ) (hx : bY < bx) (hne : v.binX ≠ bx ∨ v.binY ≠ bY) (hY : 0 < bY) :
    ∃ out, (v.setBins bx bY).write = some out ∧ out.length = bY * bY ∧ out.length ≠ bx * bY := by
  have e5 : (v.setBins bx bY).binX = bY := rfl
  have e6 : (v.setBins bx bY).binY = bY := rfl
  have e7 : (v.setBins bx bY).rows = bx := by
    show (if _ then bx else v.rows) = bx
    rw [if_pos hne]
  have e8 : (v.setBins bx bY).cols = bY := by
    show (if _ then bY else v.cols) = bY
    rw [if_pos hne]
  generalize v.setBins bx bY = W at e5 e6 e7 e8
  have hrec : ∀ q ∈ (List.range W.binX).flatMap (fun bx => (List.range W.binY).map fun bY => (bx, bY)), W.record q.1 q.2 =
      some ⟨W.lo0 + ((q.1 : K) + 1 / 2) * (W.w0 / (W.binX : K)), W.lo1 + ((q.2 : K) + 1 / 2) * (W.w1 / (W.binY : K)),
      (List.range W.width).map fun i => if 0 < W.counts q.1 q.2 then W.sums q.1 q.2 i / (W.counts q.1 q.2 : K) else 0,
      if 0 < W.frames then (W.counts q.1 q.2 : K) / (W.frames : K) else (W.counts q.1 q.2 : K)⟩ := by
    intro q hq
    obtain ⟨x, hx', hq⟩ := List.mem_flatMap.1 hq
    obtain ⟨y, hy, rfl⟩ := List.mem_map.1 hq
    have := List.mem_range.1 hx'
    have := List.mem_range.1 hy
    unfold VP.record
    rw [if_pos]
    constructor
    · dsimp only; omega
    · dsimp only; omega
  have hlen : (((List.range W.binX).flatMap fun bx => (List.range W.binY).map fun bY => (bx, bY)).map fun q => (⟨W.lo0 + ((q.1 : K) + 1 / 2) * (W.w0 / (W.binX : K)), W.lo1 + ((q.2 : K) + 1 / 2) * (W.w1 / (W.binY : K)),
      (List.range W.width).map fun i => if 0 < W.counts q.1 q.2 then W.sums q.1 q.2 i / (W.counts q.1 q.2 : K) else 0,
      if 0 < W.frames then (W.counts q.1 q.2 : K) / (W.frames : K) else (W.counts q.1 q.2 : K)⟩ : Rec K)).length = bY * bY := by
    rw [List.length_map, List.length_flatMap]
    simp [e5, e6]
  refine ⟨_, mapM_some _ _ _ hrec, hlen, ?_⟩
  rw [hlen]
  intro e
  have := Nat.eq_of_mul_eq_mul_right hY e
  omega

example : vp0.binX ≠ 3 ∨ vp0.binY ≠ 2 := by decide

/-- Without the counts the file has no line end: all records stand on one line. -/
theorem C123_negation_lines (v : VP K) (h : v.print = false) (n : ℕ) (hl : v.lines = some n) : n = 0 := by
  unfold VP.lines at hl
  cases hw : v.write with
  | none => rw [hw] at hl; simp at hl
  | some rs => rw [hw] at hl; simp [h] at hl; exact hl.symm

example : ({ vp0.setBins 2 2 with print := false } : VP ℚ).lines = some 0 := by decide +kernel

end Verif.VolumePlot
