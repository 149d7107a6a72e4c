import Mathlib.Analysis.Real.Sqrt
import Mathlib.Algebra.BigOperators.Fin
import Mathlib.Algebra.Order.BigOperators.Ring.Finset
import Mathlib.Tactic.Linarith
import Mathlib.Tactic.Ring
import Mathlib.Tactic.NormNum
import Mathlib.Tactic.FinCases

/-!
# Rectangular bounds (C49)

Models `utility/bounds.cpp`. Exact real arithmetic, any number of dimensions; the code throws for dimension 0.
-/

namespace Verif.Bounds
open Finset

/-- `Bounds`, `utility/bounds.hpp:75-82`. -/
structure Box (d : ℕ) where
  lo : Fin d → ℝ
  hi : Fin d → ℝ

variable {d : ℕ}

open Classical in
/-- `Bounds::contains`, `utility/bounds.cpp:86-93`. -/
noncomputable def Box.contains (b : Box d) (x : Fin d → ℝ) : Bool :=
  (List.finRange d).all fun k => !(decide (x k < b.lo k) || decide (b.hi k ≤ x k))

/-- `Bounds::wd`, `utility/bounds.cpp:95-97`. -/
def Box.wd (b : Box d) (k : Fin d) : ℝ := b.hi k - b.lo k

/-- `Bounds::vol`, `utility/bounds.cpp:99-104`. -/
noncomputable def Box.vol (b : Box d) : ℝ := (List.finRange d).foldl (fun v k => v * (b.hi k - b.lo k)) 1

open Classical in
/-- `Bounds::operator==`, `utility/bounds.cpp:64-70`, for boxes of the same dimension. -/
noncomputable def Box.eq (a b : Box d) : Bool :=
  (List.finRange d).all fun k => !(decide (a.lo k ≠ b.lo k) || decide (a.hi k ≠ b.hi k))

open Classical in
/-- `Bounds::distance`, `utility/bounds.cpp:126-135`. -/
noncomputable def Box.distance (b : Box d) (x : Fin d → ℝ) : ℝ :=
  Real.sqrt ((List.finRange d).foldl (fun s k =>
    if x k < b.lo k then s + (b.lo k - x k) * (b.lo k - x k)
    else if b.hi k < x k then s + (x k - b.hi k) * (x k - b.hi k) else s) 0)

/-- `Bounds::center`, `utility/bounds.cpp:141-145`. -/
noncomputable def Box.center (b : Box d) : Fin d → ℝ := fun k => 1/2 * (b.hi k + b.lo k)

/-- `Bounds::randomPoint`, `utility/bounds.cpp:147-152`, with the random numbers `u`. -/
def Box.randomPoint (b : Box d) (u : Fin d → ℝ) : Fin d → ℝ := fun k => u k * b.wd k + b.lo k

open Classical in
/-- `Bounds::intersection`, `utility/bounds.cpp:154-173`: if some dimension has no overlap (the loop stops there) all limits
are set to zero. -/
noncomputable def intersection (A B : Box d) : Box d :=
  if (List.finRange d).any fun k => decide (min (A.hi k) (B.hi k) ≤ max (A.lo k) (B.lo k)) then ⟨fun _ => 0, fun _ => 0⟩
  else ⟨fun k => max (A.lo k) (B.lo k), fun k => min (A.hi k) (B.hi k)⟩

open Classical in
/-- `Bounds::boundary`, `utility/bounds.cpp:116-124`; no width may be zero. -/
noncomputable def Box.boundary (b : Box d) : ℝ :=
  (List.finRange d).foldl (fun bd k => bd + 2 * b.vol / (b.hi k - b.lo k)) 0

/-! ## Lemmas -/

theorem contains_iff (b : Box d) (x : Fin d → ℝ) : b.contains x = true ↔ ∀ k, b.lo k ≤ x k ∧ x k < b.hi k := by
  unfold Box.contains
  rw [List.all_eq_true]
  constructor
  · intro h k
    have := h k (List.mem_finRange k)
    simpa using this
  · intro h k _
    have := h k
    simpa using this

theorem foldl_prod (l : List (Fin d)) (g : Fin d → ℝ) (c : ℝ) : l.foldl (fun v k => v * g k) c = c * (l.map g).prod := by
  induction l generalizing c with
  | nil => simp
  | cons a l ih => rw [List.foldl_cons, ih]; simp; ring

theorem vol_eq (b : Box d) : b.vol = ∏ k, (b.hi k - b.lo k) := by
  unfold Box.vol
  rw [foldl_prod, one_mul, ← List.ofFn_eq_map, List.prod_ofFn]

/-- Square of the distance in one dimension, spec: how far `y` is outside of `[lo, hi]`. -/
noncomputable def out (lo hi y : ℝ) : ℝ := max 0 (max (lo - y) (y - hi))

theorem distance_eq (b : Box d) (x : Fin d → ℝ) (hb : ∀ k, b.lo k ≤ b.hi k) :
    b.distance x = Real.sqrt (∑ k, out (b.lo k) (b.hi k) (x k) ^ 2) := by
  unfold Box.distance
  congr 1
  have step : ∀ (s : ℝ) (k : Fin d), (open Classical in (if x k < b.lo k then s + (b.lo k - x k) * (b.lo k - x k)
      else if b.hi k < x k then s + (x k - b.hi k) * (x k - b.hi k) else s)) = s + out (b.lo k) (b.hi k) (x k) ^ 2 := by
    intro s k
    unfold out
    by_cases h1 : x k < b.lo k
    · have := hb k
      rw [if_pos h1, max_eq_left (a := b.lo k - x k) (by linarith), max_eq_right (by linarith)]; ring
    · rw [if_neg h1]
      by_cases h2 : b.hi k < x k
      · rw [if_pos h2, max_eq_right (a := b.lo k - x k) (by linarith), max_eq_right (by linarith)]; ring
      · rw [if_neg h2, max_eq_left (a := (0:ℝ)) (by apply max_le <;> linarith)]; ring
  simp only [step]
  have : ∀ (l : List (Fin d)) (g : Fin d → ℝ) (c : ℝ), l.foldl (fun s k => s + g k) c = c + (l.map g).sum := by
    intro l g
    induction l with
    | nil => intro c; simp
    | cons a l ih => intro c; rw [List.foldl_cons, ih]; simp; ring
  rw [this, zero_add, ← List.ofFn_eq_map, List.sum_ofFn]

/-! ## C49 -/

/-- **C49, contains.** Half-open boxes: the lower limits belong to the box, the upper limits do not. -/
theorem C49_contains (b : Box d) (x : Fin d → ℝ) : b.contains x = true ↔ ∀ k, b.lo k ≤ x k ∧ x k < b.hi k := contains_iff b x

/-- **C49, intersection.** For every two boxes of the same dimension (at least 1), a point lies in the intersection exactly
when it lies in both. -/
theorem C49_intersection (hd : 0 < d) (A B : Box d) (x : Fin d → ℝ) :
    (intersection A B).contains x = true ↔ A.contains x = true ∧ B.contains x = true := by
  unfold intersection
  simp only [contains_iff]
  split_ifs with h
  · rw [List.any_eq_true] at h
    obtain ⟨k, _, hk⟩ := h
    have hk : min (A.hi k) (B.hi k) ≤ max (A.lo k) (B.lo k) := by simpa using hk
    constructor
    · intro h
      have := h ⟨0, hd⟩
      simp only at this
      linarith
    · rintro ⟨h1, h2⟩
      exfalso
      have g1 := h1 k
      have g2 := h2 k
      have : max (A.lo k) (B.lo k) ≤ x k := max_le g1.1 g2.1
      have : x k < min (A.hi k) (B.hi k) := lt_min g1.2 g2.2
      linarith
  · simp only [max_le_iff, lt_min_iff]
    constructor
    · intro h; exact ⟨fun k => ⟨(h k).1.1, (h k).2.1⟩, fun k => ⟨(h k).1.2, (h k).2.2⟩⟩
    · rintro ⟨h1, h2⟩ k; exact ⟨⟨(h1 k).1, (h2 k).1⟩, ⟨(h1 k).2, (h2 k).2⟩⟩

/-- **C49, disjoint boxes.** The intersection has no point exactly when its volume is zero; otherwise its volume is positive. In
both cases all its widths are non-negative. -/
theorem C49_intersection_volume (hd : 0 < d) (A B : Box d) :
    (∀ k, 0 ≤ (intersection A B).wd k) ∧ 0 ≤ (intersection A B).vol ∧
    ((intersection A B).vol = 0 ↔ ∀ x, ¬ (A.contains x = true ∧ B.contains x = true)) := by
  have key : ∀ x, (A.contains x = true ∧ B.contains x = true) ↔ (intersection A B).contains x = true :=
    fun x => (C49_intersection hd A B x).symm
  simp only [key]
  unfold intersection
  split_ifs with h
  · refine ⟨fun k => by simp [Box.wd], ?_, ?_⟩
    · rw [vol_eq]; simp
    · constructor
      · intro _ x hx
        have := (contains_iff _ x).mp hx ⟨0, hd⟩
        simp only at this
        linarith
      · intro _
        rw [vol_eq]
        exact prod_eq_zero (mem_univ ⟨0, hd⟩) (by simp)
  · have hk : ∀ k, max (A.lo k) (B.lo k) < min (A.hi k) (B.hi k) := by
      intro k
      by_contra hc
      exact h (List.any_eq_true.mpr ⟨k, List.mem_finRange k, decide_eq_true (not_lt.mp hc)⟩)
    have hp : 0 < (⟨fun k => max (A.lo k) (B.lo k), fun k => min (A.hi k) (B.hi k)⟩ : Box d).vol := by
      rw [vol_eq]
      exact prod_pos (fun k _ => sub_pos.mpr (hk k))
    refine ⟨fun k => sub_nonneg.mpr (hk k).le, hp.le, ?_⟩
    constructor
    · intro h0; rw [h0] at hp; exact absurd hp (lt_irrefl _)
    · intro hn
      exfalso
      refine hn (fun k => max (A.lo k) (B.lo k)) ?_
      rw [contains_iff]
      exact fun k => ⟨le_rfl, hk k⟩

/-- **C49, equality.** `==` says that all limits are equal; so it is an equivalence relation. -/
theorem C49_equality (a b : Box d) : a.eq b = true ↔ a = b := by
  unfold Box.eq
  rw [List.all_eq_true]
  constructor
  · intro h
    have h1 : ∀ k, a.lo k = b.lo k ∧ a.hi k = b.hi k := by
      intro k
      have := h k (List.mem_finRange k)
      simpa using this
    cases a; cases b
    simp only [Box.mk.injEq]
    exact ⟨funext fun k => (h1 k).1, funext fun k => (h1 k).2⟩
  · rintro rfl k _
    simp

/-- **C49, volume and widths.** The volume is the product of the widths. -/
theorem C49_volume (b : Box d) : b.vol = ∏ k, b.wd k := vol_eq b

/-- **C49, distance.** For a box with ordered limits, `distance` is the smallest Euclidean distance to a point of the closed
box; in particular it is zero exactly in the closed box. -/
theorem C49_distance (b : Box d) (hb : ∀ k, b.lo k ≤ b.hi k) (x : Fin d → ℝ) :
    (∀ y : Fin d → ℝ, (∀ k, b.lo k ≤ y k ∧ y k ≤ b.hi k) → b.distance x ≤ Real.sqrt (∑ k, (x k - y k) ^ 2)) ∧
    (∃ y : Fin d → ℝ, (∀ k, b.lo k ≤ y k ∧ y k ≤ b.hi k) ∧ b.distance x = Real.sqrt (∑ k, (x k - y k) ^ 2)) ∧
    (b.distance x = 0 ↔ ∀ k, b.lo k ≤ x k ∧ x k ≤ b.hi k) := by
  rw [distance_eq b x hb]
  have hout : ∀ k, 0 ≤ out (b.lo k) (b.hi k) (x k) := fun k => le_max_left _ _
  refine ⟨?_, ⟨fun k => max (b.lo k) (min (b.hi k) (x k)), ?_, ?_⟩, ?_⟩
  · intro y hy
    apply Real.sqrt_le_sqrt
    apply sum_le_sum
    intro k _
    have h : out (b.lo k) (b.hi k) (x k) ≤ |x k - y k| := by
      unfold out
      obtain ⟨h1, h2⟩ := hy k
      refine max_le (abs_nonneg _) (max_le ?_ ?_)
      · linarith [neg_abs_le (x k - y k)]
      · linarith [le_abs_self (x k - y k)]
    calc out (b.lo k) (b.hi k) (x k) ^ 2 ≤ |x k - y k| ^ 2 := by
          have := hout k; nlinarith
      _ = (x k - y k) ^ 2 := sq_abs _
  · intro k
    exact ⟨le_max_left _ _, max_le (hb k) (min_le_left _ _)⟩
  · congr 1
    apply sum_congr rfl
    intro k _
    have := hb k
    show _ = (x k - max (b.lo k) (min (b.hi k) (x k))) ^ 2
    unfold out
    by_cases h1 : x k < b.lo k
    · rw [max_eq_left (a := b.lo k - x k) (by linarith), max_eq_right (by linarith),
        min_eq_right (by linarith), max_eq_left h1.le]; ring
    · by_cases h2 : b.hi k < x k
      · rw [max_eq_right (a := b.lo k - x k) (by linarith), max_eq_right (by linarith),
          min_eq_left h2.le, max_eq_right this]
      · rw [max_eq_left (a := (0:ℝ)) (by apply max_le <;> linarith), min_eq_right (by linarith), max_eq_right (by linarith)]
        ring
  · rw [Real.sqrt_eq_zero (sum_nonneg fun k _ => sq_nonneg _), sum_eq_zero_iff_of_nonneg (fun k _ => sq_nonneg _)]
    constructor
    · intro h k
      have := pow_eq_zero_iff (two_ne_zero) |>.mp (h k (mem_univ k))
      unfold out at this
      have h1 := le_max_left (b.lo k - x k) (x k - b.hi k)
      have h2 := le_max_right (b.lo k - x k) (x k - b.hi k)
      have h3 := le_max_right 0 (max (b.lo k - x k) (x k - b.hi k))
      constructor <;> linarith
    · intro h k _
      obtain ⟨h1, h2⟩ := h k
      unfold out
      rw [max_eq_left (by apply max_le <;> linarith)]
      norm_num

/-- **C49, centre and random points.** In a box with positive widths the centre lies in the box, and so does `randomPoint` for
all random numbers in `[0,1)`; every point of the box is reached. -/
theorem C49_points (b : Box d) (hb : ∀ k, b.lo k < b.hi k) :
    b.contains b.center = true ∧ (∀ u, (∀ k, 0 ≤ u k ∧ u k < 1) → b.contains (b.randomPoint u) = true) ∧
    ∀ x, b.contains x = true → ∃ u, (∀ k, 0 ≤ u k ∧ u k < 1) ∧ b.randomPoint u = x := by
  simp only [contains_iff]
  refine ⟨fun k => ?_, fun u hu k => ?_, fun x hx => ⟨fun k => (x k - b.lo k) / (b.hi k - b.lo k), fun k => ?_, ?_⟩⟩
  · have := hb k
    simp only [Box.center]
    constructor <;> linarith
  · have h := hb k
    obtain ⟨h1, h2⟩ := hu k
    simp only [Box.randomPoint, Box.wd]
    constructor
    · nlinarith
    · nlinarith
  · obtain ⟨h1, h2⟩ := hx k
    have h := hb k
    constructor
    · exact div_nonneg (by linarith) (by linarith)
    · rw [div_lt_one (by linarith)]; linarith
  · funext k
    have h : b.hi k - b.lo k ≠ 0 := by have := hb k; linarith
    simp only [Box.randomPoint, Box.wd]
    rw [div_mul_cancel₀ _ h]; ring

/-- **C49, surface.** For a box without a zero width `boundary` is twice the sum over the axes of the product of the other
widths: the measure of its faces. -/
theorem C49_boundary (b : Box d) (hb : ∀ k, b.wd k ≠ 0) :
    b.boundary = ∑ k, 2 * ∏ j ∈ univ.erase k, b.wd j := by
  unfold Box.boundary
  have key : ∀ (l : List (Fin d)) (s : ℝ) (g : Fin d → ℝ), l.foldl (fun bd k => bd + g k) s = s + (l.map g).sum := by
    intro l
    induction l with
    | nil => intro s g; simp
    | cons a l ih => intro s g; rw [List.foldl_cons, ih, List.map_cons, List.sum_cons]; ring
  rw [key _ 0 fun k => 2 * b.vol / (b.hi k - b.lo k), zero_add, ← List.ofFn_eq_map, List.sum_ofFn]
  refine sum_congr rfl fun k _ => ?_
  rw [vol_eq, ← mul_prod_erase univ (fun j => b.hi j - b.lo j) (mem_univ k)]
  have := hb k
  unfold Box.wd at this
  rw [div_eq_iff this]
  unfold Box.wd
  ring

/-- The unit cube with one side doubled has surface 10. -/
example : (⟨fun _ => 0, ![1, 1, 2]⟩ : Box 3).boundary = 10 := by
  rw [C49_boundary _ (fun k => by fin_cases k <;> simp [Box.wd])]
  have e0 : (univ : Finset (Fin 3)).erase 0 = {1, 2} := by decide
  have e1 : (univ : Finset (Fin 3)).erase 1 = {0, 2} := by decide
  have e2 : (univ : Finset (Fin 3)).erase 2 = {0, 1} := by decide
  rw [Fin.sum_univ_three, e0, e1, e2]
  simp [Box.wd]
  norm_num

open Classical in
/-- `Bounds::aspect_ratio`, `utility/bounds.cpp:106-114`. -/
noncomputable def Box.aspectRatio (b : Box (d + 1)) : ℝ :=
  let r := (List.finRange (d + 1)).foldl (fun (r : ℝ × ℝ) k =>
    if b.wd k > r.2 then (r.1, b.wd k) else if b.wd k < r.1 then (b.wd k, r.2) else r) (b.wd 0, b.wd 0)
  r.2 / r.1

open Classical in
theorem aspect_fold (w : Fin (d + 1) → ℝ) (l : List (Fin (d + 1))) (r : ℝ × ℝ) (hr : r.1 ≤ r.2) :
    let q := l.foldl (fun (r : ℝ × ℝ) k => if w k > r.2 then (r.1, w k) else if w k < r.1 then (w k, r.2) else r) r
    q.1 ≤ r.1 ∧ r.2 ≤ q.2 ∧ (∀ k ∈ l, q.1 ≤ w k ∧ w k ≤ q.2) ∧ (q.1 = r.1 ∨ ∃ k ∈ l, q.1 = w k) ∧ (q.2 = r.2 ∨ ∃ k ∈ l, q.2 = w k) := by
  induction l generalizing r with
  | nil => simp
  | cons a l ih =>
    simp only [List.foldl_cons]
    by_cases h1 : w a > r.2
    · rw [if_pos h1]
      obtain ⟨a1, a2, a3, a4, a5⟩ := ih (r.1, w a) (by dsimp only; linarith)
      dsimp only at a1 a2 a3 a4 a5 ⊢
      refine ⟨a1, by linarith, ?_, ?_, ?_⟩
      · intro k hk
        rcases List.mem_cons.mp hk with rfl | hk
        · exact ⟨by linarith, a2⟩
        · exact a3 k hk
      · rcases a4 with h | ⟨k, hk, h⟩
        · exact Or.inl h
        · exact Or.inr ⟨k, by simp [hk], h⟩
      · rcases a5 with h | ⟨k, hk, h⟩
        · exact Or.inr ⟨a, by simp, h⟩
        · exact Or.inr ⟨k, by simp [hk], h⟩
    · rw [if_neg h1]
      by_cases h2 : w a < r.1
      · rw [if_pos h2]
        obtain ⟨a1, a2, a3, a4, a5⟩ := ih (w a, r.2) (by dsimp only; linarith)
        dsimp only at a1 a2 a3 a4 a5 ⊢
        refine ⟨by linarith, a2, ?_, ?_, ?_⟩
        · intro k hk
          rcases List.mem_cons.mp hk with rfl | hk
          · exact ⟨a1, by linarith⟩
          · exact a3 k hk
        · rcases a4 with h | ⟨k, hk, h⟩
          · exact Or.inr ⟨a, by simp, h⟩
          · exact Or.inr ⟨k, by simp [hk], h⟩
        · rcases a5 with h | ⟨k, hk, h⟩
          · exact Or.inl h
          · exact Or.inr ⟨k, by simp [hk], h⟩
      · rw [if_neg h2]
        obtain ⟨a1, a2, a3, a4, a5⟩ := ih r hr
        refine ⟨a1, a2, ?_, ?_, ?_⟩
        · intro k hk
          rcases List.mem_cons.mp hk with rfl | hk
          · exact ⟨by linarith, by linarith⟩
          · exact a3 k hk
        · rcases a4 with h | ⟨k, hk, h⟩
          · exact Or.inl h
          · exact Or.inr ⟨k, by simp [hk], h⟩
        · rcases a5 with h | ⟨k, hk, h⟩
          · exact Or.inl h
          · exact Or.inr ⟨k, by simp [hk], h⟩

/-- **C49, aspect ratio.** `aspect_ratio` is the largest width divided by the smallest one. -/
theorem C49_aspect_ratio (b : Box (d + 1)) :
    ∃ i j, (∀ k, b.wd i ≤ b.wd k ∧ b.wd k ≤ b.wd j) ∧ b.aspectRatio = b.wd j / b.wd i := by
  obtain ⟨-, -, h3, h4, h5⟩ := aspect_fold b.wd (List.finRange (d + 1)) (b.wd 0, b.wd 0) le_rfl
  have hi : ∃ i, (List.foldl (fun (r : ℝ × ℝ) k => if b.wd k > r.2 then (r.1, b.wd k) else if b.wd k < r.1 then (b.wd k, r.2) else r)
      (b.wd 0, b.wd 0) (List.finRange (d + 1))).1 = b.wd i := by
    rcases h4 with h | ⟨k, -, h⟩
    · exact ⟨0, h⟩
    · exact ⟨k, h⟩
  have hj : ∃ j, (List.foldl (fun (r : ℝ × ℝ) k => if b.wd k > r.2 then (r.1, b.wd k) else if b.wd k < r.1 then (b.wd k, r.2) else r)
      (b.wd 0, b.wd 0) (List.finRange (d + 1))).2 = b.wd j := by
    rcases h5 with h | ⟨k, -, h⟩
    · exact ⟨0, h⟩
    · exact ⟨k, h⟩
  obtain ⟨i, hi⟩ := hi
  obtain ⟨j, hj⟩ := hj
  refine ⟨i, j, fun k => ?_, ?_⟩
  · rw [← hi, ← hj]; exact h3 k (List.mem_finRange k)
  · unfold Box.aspectRatio
    dsimp only
    rw [hi, hj]

/-- The unit square and a shifted square: they have a common point. -/
example : ∃ x, (⟨fun _ => 0, fun _ => 1⟩ : Box 2).contains x = true ∧ (⟨fun _ => 1/2, fun _ => 2⟩ : Box 2).contains x = true := by
  refine ⟨fun _ => 3/4, ?_, ?_⟩ <;> rw [contains_iff] <;> intro k <;> norm_num

end Verif.Bounds
