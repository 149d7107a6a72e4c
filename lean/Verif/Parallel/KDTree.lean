import Verif.Other.Bounds
import Verif.Other.Group

/-!
# The decomposition of space onto processors (C47, C48, C76, C77)

Models `parallel/kdtreetopology.cpp`: the tree of bounds (`compute_decomp`), the owner of a position (`domain_ownership`), the
neighbouring processors (`find_neighbors`), the processors that get a ghost copy of a particle (`domain_overlaps`) and the
choice of the particles that move to another processor (`exchange_particles`). The messages themselves are not modelled here
(the contents of the buffers are modelled in `Verif.Parallel.Buffer`). Exact real arithmetic; the dimension is `n + 1`.
-/

namespace Verif.KDTree
open Finset Verif.Bounds Verif.PairForces

variable {n : ℕ}

/-- `KDTreeTopNode`, `parallel/kdtreetopology.hpp:10-44`. A node has a rank (is a `leaf`) or two children; the code marks
nodes which are not leaves with rank `-1`. -/
inductive Tree (n : ℕ) where
  | leaf (rank : ℕ) (b : Box (n + 1))
  | node (dim : Fin (n + 1)) (val : ℝ) (b : Box (n + 1)) (l r : Tree n)

open Classical in
/-- Choice of the split dimension, `parallel/kdtreetopology.cpp:305-313`: the first of the dimensions with the largest
width. -/
noncomputable def widest (b : Box (n + 1)) : Fin (n + 1) :=
  (List.finRange (n + 1)).foldl (fun dim k => if b.wd k > b.wd dim then k else dim) 0

/-- Bounds of the left child, `parallel/kdtreetopology.cpp:330-331`. -/
noncomputable def leftBox (b : Box (n + 1)) (dim : Fin (n + 1)) (width : ℝ) : Box (n + 1) :=
  ⟨b.lo, Function.update b.hi dim (b.lo dim + width)⟩

/-- Bounds of the right child, `parallel/kdtreetopology.cpp:338-339`. -/
noncomputable def rightBox (b : Box (n + 1)) (dim : Fin (n + 1)) (width : ℝ) : Box (n + 1) :=
  ⟨Function.update b.lo dim (b.lo dim + width), b.hi⟩

/-- Width of the left child, `parallel/kdtreetopology.cpp:324-325`. -/
noncomputable def splitWidth (b : Box (n + 1)) (p : ℕ) : ℝ := ((p / 2 : ℕ) : ℝ) / (p : ℝ) * b.wd (widest b)

/-- `compute_decomp`, `parallel/kdtreetopology.cpp:292-344`, for the `p` ranks from `start` on (`p = endP - startP`). -/
noncomputable def decomp (b : Box (n + 1)) (start p : ℕ) : Tree n :=
  .node (widest b) (b.lo (widest b) + splitWidth b p) b
    (if 1 < p / 2 then decomp (leftBox b (widest b) (splitWidth b p)) start (p / 2)
      else .leaf start (leftBox b (widest b) (splitWidth b p)))
    (if 1 < p - p / 2 then decomp (rightBox b (widest b) (splitWidth b p)) (start + p / 2) (p - p / 2)
      else .leaf (start + p - 1) (rightBox b (widest b) (splitWidth b p)))
termination_by p
decreasing_by all_goals omega

/-- The leaves in the order in which they are created, `parallel/kdtreetopology.cpp:335,343`. -/
def leaves : Tree n → List (ℕ × Box (n + 1))
  | .leaf r b => [(r, b)]
  | .node _ _ _ l r => leaves l ++ leaves r

/-- The rank of a node, if it is a leaf with the given rank the bounds of it. -/
def leafOf (own : ℕ) : Tree n → Option (Box (n + 1))
  | .leaf r b => if r = own then some b else none
  | .node .. => none

/-- `process_bounds` of processor `own`, `parallel/kdtreetopology.cpp:346-354`: at every node, after the recursion into the
children. `cur` is the value before. -/
def proc (own : ℕ) : Tree n → Box (n + 1) → Box (n + 1)
  | .leaf _ _, cur => cur
  | .node _ _ _ l r, cur =>
    match leafOf own r with
    | some b => b
    | none => match leafOf own l with
      | some b => b
      | none => proc own r (proc own l cur)

open Classical in
/-- The loop in `domain_ownership`, `parallel/kdtreetopology.cpp:64-72`. -/
noncomputable def walk (x : Fin (n + 1) → ℝ) : Tree n → ℕ
  | .leaf r _ => r
  | .node d v _ l r => if x d < v then walk x l else walk x r

/-- The tree made by `computeTopology` for bounds `b` and `P` processors, `parallel/kdtreetopology.cpp:16-24`. -/
noncomputable def topology (b : Box (n + 1)) (P : ℕ) : Tree n := decomp b 0 P

/-- The bounds of processor `own`; before, they are the zero bounds, `utility/bounds.cpp:11-17`. -/
noncomputable def processBounds (b : Box (n + 1)) (P own : ℕ) : Box (n + 1) :=
  proc own (topology b P) ⟨fun _ => 0, fun _ => 0⟩

/-- `domain_ownership` on processor `own`, `parallel/kdtreetopology.cpp:58-73`. -/
noncomputable def ownership (b : Box (n + 1)) (P own : ℕ) (x : Fin (n + 1) → ℝ) : ℕ :=
  if (processBounds b P own).contains x then own else walk x (topology b P)

/-- Widths of the wrapping dimensions; `wrap` are the boundary conditions of the simulation. -/
noncomputable def widths (b : Box (n + 1)) (wrap : Fin (n + 1) → Bool) : Fin (n + 1) → Option ℝ :=
  fun k => if wrap k then some (b.hi k - b.lo k) else none

open Classical in
/-- The test for adjacency in `find_neighbors`, `parallel/kdtreetopology.cpp:368-379`. `GFlow::getDisplacement`
(`gflow.cpp:418-426`) is `correct` of the difference. -/
noncomputable def adjacent (w : Fin (n + 1) → Option ℝ) (pb b : Box (n + 1)) : Bool :=
  (List.finRange (n + 1)).all fun k =>
    !(decide (|correct w (fun j => b.center j - pb.center j) k| > 1/2 * (pb.wd k + b.wd k) + 1/10))

/-- `find_neighbors`, `parallel/kdtreetopology.cpp:358-386`: the neighbouring processors with their bounds. -/
noncomputable def neighbors (b : Box (n + 1)) (wrap : Fin (n + 1) → Bool) (P own : ℕ) : List (ℕ × Box (n + 1)) :=
  ((leaves (topology b P)).filter fun q => q.1 ≠ own).filter fun q =>
    adjacent (widths b wrap) (processBounds b P own) q.2

open Classical in
/-- `domain_overlaps`, `parallel/kdtreetopology.cpp:35-51`: the neighbours that get a ghost copy of a particle at `x`. The
code collects the indices of these neighbours. -/
noncomputable def overlaps (b : Box (n + 1)) (wrap : Fin (n + 1) → Bool) (P own : ℕ) (x : Fin (n + 1) → ℝ) (cutoff : ℝ) :
    List (ℕ × Box (n + 1)) :=
  (neighbors b wrap P own).filter fun q =>
    decide (q.2.distance (fun k => correct (widths b wrap) (fun j => x j - q.2.center j) k + q.2.center k) < cutoff)

/-- The particles that `create_ghost_particles` sends to rank `r`, `parallel/kdtreetopology.cpp:161-169`: `x` and `rd` of the
particles, `maxCut` is `ForceMaster::getMaxCutoff` of their type. Only the indices of the particles are given. -/
noncomputable def ghostsFor (b : Box (n + 1)) (wrap : Fin (n + 1) → Bool) (P own r : ℕ) (ps : List ((Fin (n + 1) → ℝ) × ℝ × ℝ))
    (skin : ℝ) : List ℕ :=
  (List.range ps.length).filter fun i => match ps[i]? with
    | none => false
    | some (x, rd, maxCut) => (overlaps b wrap P own x (2 * rd * maxCut + skin)).any fun q => q.1 == r

/-- Destination of an owned, live particle at `x` in `exchange_particles`, `parallel/kdtreetopology.cpp:98-111`: `none` if it
stays where it is. -/
noncomputable def destination (b : Box (n + 1)) (wrap : Fin (n + 1) → Bool) (P own : ℕ) (x : Fin (n + 1) → ℝ) : Option ℕ :=
  if (processBounds b P own).contains x then none
  else if (neighbors b wrap P own).any (fun q => q.1 == ownership b P own x) then some (ownership b P own x) else none

/-! ## The decomposition -/

theorem decomp_eq (b : Box (n + 1)) (start p : ℕ) : decomp b start p = .node (widest b) (b.lo (widest b) + splitWidth b p) b
    (if 1 < p / 2 then decomp (leftBox b (widest b) (splitWidth b p)) start (p / 2)
      else .leaf start (leftBox b (widest b) (splitWidth b p)))
    (if 1 < p - p / 2 then decomp (rightBox b (widest b) (splitWidth b p)) (start + p / 2) (p - p / 2)
      else .leaf (start + p - 1) (rightBox b (widest b) (splitWidth b p))) := by
  rw [decomp]

/-- The subtree for `p ≥ 1` ranks: a leaf for one rank. -/
noncomputable def sub (b : Box (n + 1)) (start p : ℕ) : Tree n := if 1 < p then decomp b start p else .leaf start b

theorem decomp_sub (b : Box (n + 1)) (start p : ℕ) (hp : 2 ≤ p) : decomp b start p =
    .node (widest b) (b.lo (widest b) + splitWidth b p) b
      (sub (leftBox b (widest b) (splitWidth b p)) start (p / 2))
      (sub (rightBox b (widest b) (splitWidth b p)) (start + p / 2) (p - p / 2)) := by
  rw [decomp_eq]
  unfold sub
  congr 1
  by_cases h : 1 < p - p / 2
  · rw [if_pos h, if_pos h]
  · rw [if_neg h, if_neg h]
    congr 1
    omega

/-- Induction over the decomposition. -/
theorem sub_induction (Q : Box (n + 1) → ℕ → ℕ → Tree n → Prop)
    (leaf : ∀ b s, Q b s 1 (.leaf s b))
    (node : ∀ b s p l r, 2 ≤ p →
      Q (leftBox b (widest b) (splitWidth b p)) s (p / 2) l →
      Q (rightBox b (widest b) (splitWidth b p)) (s + p / 2) (p - p / 2) r →
      Q b s p (.node (widest b) (b.lo (widest b) + splitWidth b p) b l r)) :
    ∀ p, 1 ≤ p → ∀ b s, Q b s p (sub b s p) := by
  intro p
  induction p using Nat.strong_induction_on with
  | _ p ih =>
    intro hp b s
    by_cases h : 1 < p
    · unfold sub
      rw [if_pos h, decomp_sub b s p h]
      exact node b s p _ _ h (ih (p / 2) (by omega) (by omega) _ _) (ih (p - p / 2) (by omega) (by omega) _ _)
    · obtain rfl : p = 1 := by omega
      unfold sub
      rw [if_neg (by omega)]
      exact leaf b s

theorem ranks_sub (p : ℕ) (hp : 1 ≤ p) (b : Box (n + 1)) (s : ℕ) :
    (leaves (sub b s p)).map Prod.fst = List.range' s p := by
  refine sub_induction (fun _ s p t => (leaves t).map Prod.fst = List.range' s p) ?_ ?_ p hp b s
  · intro b s; simp [leaves]
  · intro b s p l r h hl hr
    rw [leaves, List.map_append, hl, hr, List.range'_append_1]
    congr 1; omega

/-- The fraction of the left side lies in `[0, 1]`. -/
theorem splitWidth_bounds (b : Box (n + 1)) (hb : ∀ k, b.lo k < b.hi k) (p : ℕ) (hp : 2 ≤ p) :
    0 < splitWidth b p ∧ splitWidth b p < b.wd (widest b) := by
  have hw : 0 < b.wd (widest b) := sub_pos.mpr (hb _)
  have hp' : (0 : ℝ) < p := by exact_mod_cast (by omega : 0 < p)
  have h1 : (0 : ℝ) < ((p / 2 : ℕ) : ℝ) := by exact_mod_cast (by omega : 0 < p / 2)
  have h2 : ((p / 2 : ℕ) : ℝ) < p := by exact_mod_cast (by omega : p / 2 < p)
  unfold splitWidth
  constructor
  · positivity
  · have : ((p / 2 : ℕ) : ℝ) / p < 1 := (div_lt_one hp').mpr h2
    nlinarith

theorem leftBox_ok (b : Box (n + 1)) (hb : ∀ k, b.lo k < b.hi k) (p : ℕ) (hp : 2 ≤ p) :
    ∀ k, (leftBox b (widest b) (splitWidth b p)).lo k < (leftBox b (widest b) (splitWidth b p)).hi k := by
  intro k
  unfold leftBox
  simp only
  by_cases hk : k = widest b
  · subst hk; rw [Function.update_self]; linarith [(splitWidth_bounds b hb p hp).1]
  · rw [Function.update_of_ne hk]; exact hb k

theorem rightBox_ok (b : Box (n + 1)) (hb : ∀ k, b.lo k < b.hi k) (p : ℕ) (hp : 2 ≤ p) :
    ∀ k, (rightBox b (widest b) (splitWidth b p)).lo k < (rightBox b (widest b) (splitWidth b p)).hi k := by
  intro k
  unfold rightBox
  simp only
  by_cases hk : k = widest b
  · subst hk
    rw [Function.update_self]
    have := (splitWidth_bounds b hb p hp).2
    unfold Box.wd at this
    linarith
  · rw [Function.update_of_ne hk]; exact hb k

/-- A point of the box lies in exactly one half, decided by the split value. -/
theorem split_contains (b : Box (n + 1)) (hb : ∀ k, b.lo k < b.hi k) (p : ℕ) (hp : 2 ≤ p) (x : Fin (n + 1) → ℝ) :
    ((leftBox b (widest b) (splitWidth b p)).contains x = true ↔
      b.contains x = true ∧ x (widest b) < b.lo (widest b) + splitWidth b p) ∧
    ((rightBox b (widest b) (splitWidth b p)).contains x = true ↔
      b.contains x = true ∧ ¬ x (widest b) < b.lo (widest b) + splitWidth b p) := by
  obtain ⟨h0, h1⟩ := splitWidth_bounds b hb p hp
  unfold Box.wd at h1
  simp only [contains_iff]
  constructor
  · constructor
    · intro h
      have hd := h (widest b)
      simp only [leftBox, Function.update_self] at hd
      refine ⟨fun k => ?_, hd.2⟩
      by_cases hk : k = widest b
      · subst hk; exact ⟨hd.1, by linarith [hd.2]⟩
      · have := h k
        simpa [leftBox, Function.update_of_ne hk] using this
    · rintro ⟨h, hx⟩ k
      simp only [leftBox]
      by_cases hk : k = widest b
      · subst hk; rw [Function.update_self]; exact ⟨(h _).1, hx⟩
      · rw [Function.update_of_ne hk]; exact h k
  · constructor
    · intro h
      have hd := h (widest b)
      simp only [rightBox, Function.update_self] at hd
      refine ⟨fun k => ?_, not_lt.mpr hd.1⟩
      by_cases hk : k = widest b
      · subst hk; exact ⟨by linarith [hd.1], hd.2⟩
      · have := h k
        simpa [rightBox, Function.update_of_ne hk] using this
    · rintro ⟨h, hx⟩ k
      simp only [rightBox]
      by_cases hk : k = widest b
      · subst hk; rw [Function.update_self]; exact ⟨not_lt.mp hx, (h _).2⟩
      · rw [Function.update_of_ne hk]; exact h k

/-- A point of the box lies in the box of the leaf found by the walk, and in no other. -/
theorem walk_sub (p : ℕ) (hp : 1 ≤ p) (b : Box (n + 1)) (s : ℕ) (hb : ∀ k, b.lo k < b.hi k) (x : Fin (n + 1) → ℝ) :
    (∀ q ∈ leaves (sub b s p), q.2.contains x = true → b.contains x = true ∧ q.1 = walk x (sub b s p)) ∧
    (b.contains x = true → ∃ B, (walk x (sub b s p), B) ∈ leaves (sub b s p) ∧ B.contains x = true) ∧
    (s ≤ walk x (sub b s p) ∧ walk x (sub b s p) < s + p) := by
  refine sub_induction (fun b s p t => (∀ k, b.lo k < b.hi k) →
    (∀ q ∈ leaves t, q.2.contains x = true → b.contains x = true ∧ q.1 = walk x t) ∧
    (b.contains x = true → ∃ B, (walk x t, B) ∈ leaves t ∧ B.contains x = true) ∧
    (s ≤ walk x t ∧ walk x t < s + p)) ?_ ?_ p hp b s hb
  · intro b s _
    refine ⟨?_, ?_, ?_⟩
    · intro q hq h
      simp only [leaves, List.mem_singleton] at hq
      subst hq
      exact ⟨h, rfl⟩
    · intro h
      exact ⟨b, by simp [leaves, walk], h⟩
    · simp [walk]
  · intro b s p l r hp hl hr hb
    obtain ⟨sl, sr⟩ := split_contains b hb p hp x
    obtain ⟨l1, l2, l3⟩ := hl (leftBox_ok b hb p hp)
    obtain ⟨r1, r2, r3⟩ := hr (rightBox_ok b hb p hp)
    by_cases hx : x (widest b) < b.lo (widest b) + splitWidth b p
    · have hw : walk x (.node (widest b) (b.lo (widest b) + splitWidth b p) b l r) = walk x l := by
        rw [walk, if_pos hx]
      rw [hw]
      refine ⟨?_, ?_, ?_⟩
      · intro q hq h
        rw [leaves, List.mem_append] at hq
        rcases hq with hq | hq
        · obtain ⟨h1, h2⟩ := l1 q hq h
          exact ⟨(sl.mp h1).1, h2⟩
        · exact absurd hx (sr.mp (r1 q hq h).1).2
      · intro h
        obtain ⟨B, h1, h2⟩ := l2 (sl.mpr ⟨h, hx⟩)
        exact ⟨B, by rw [leaves, List.mem_append]; exact Or.inl h1, h2⟩
      · omega
    · have hw : walk x (.node (widest b) (b.lo (widest b) + splitWidth b p) b l r) = walk x r := by
        rw [walk, if_neg hx]
      rw [hw]
      refine ⟨?_, ?_, ?_⟩
      · intro q hq h
        rw [leaves, List.mem_append] at hq
        rcases hq with hq | hq
        · exact absurd (sl.mp (l1 q hq h).1).2 hx
        · obtain ⟨h1, h2⟩ := r1 q hq h
          exact ⟨(sr.mp h1).1, h2⟩
      · intro h
        obtain ⟨B, h1, h2⟩ := r2 (sr.mpr ⟨h, hx⟩)
        exact ⟨B, by rw [leaves, List.mem_append]; exact Or.inr h1, h2⟩
      · omega

theorem vol_left (b : Box (n + 1)) (dim : Fin (n + 1)) (f : ℝ) :
    (leftBox b dim (f * b.wd dim)).vol = f * b.vol := by
  rw [vol_eq, vol_eq, ← mul_prod_erase univ _ (mem_univ dim), ← mul_prod_erase univ (fun k => b.hi k - b.lo k) (mem_univ dim)]
  have : ∀ k ∈ univ.erase dim, (leftBox b dim (f * b.wd dim)).hi k - (leftBox b dim (f * b.wd dim)).lo k = b.hi k - b.lo k := by
    intro k hk
    simp [leftBox, Function.update_of_ne (ne_of_mem_erase hk)]
  rw [prod_congr rfl this]
  simp only [leftBox, Function.update_self, Box.wd]
  ring

theorem vol_right (b : Box (n + 1)) (dim : Fin (n + 1)) (f : ℝ) :
    (rightBox b dim (f * b.wd dim)).vol = (1 - f) * b.vol := by
  rw [vol_eq, vol_eq, ← mul_prod_erase univ _ (mem_univ dim), ← mul_prod_erase univ (fun k => b.hi k - b.lo k) (mem_univ dim)]
  have : ∀ k ∈ univ.erase dim, (rightBox b dim (f * b.wd dim)).hi k - (rightBox b dim (f * b.wd dim)).lo k = b.hi k - b.lo k := by
    intro k hk
    simp [rightBox, Function.update_of_ne (ne_of_mem_erase hk)]
  rw [prod_congr rfl this]
  simp only [rightBox, Function.update_self, Box.wd]
  ring

theorem vol_sub (p : ℕ) (hp : 1 ≤ p) (b : Box (n + 1)) (s : ℕ) :
    ∀ q ∈ leaves (sub b s p), q.2.vol = b.vol / p := by
  refine sub_induction (fun b _ p t => ∀ q ∈ leaves t, q.2.vol = b.vol / p) ?_ ?_ p hp b s
  · intro b s q hq
    simp only [leaves, List.mem_singleton] at hq
    subst hq; simp
  · intro b s p l r hp hl hr q hq
    have hp' : (p : ℝ) ≠ 0 := by exact_mod_cast (by omega : p ≠ 0)
    rw [leaves, List.mem_append] at hq
    rcases hq with hq | hq
    · have h2 : ((p / 2 : ℕ) : ℝ) ≠ 0 := by exact_mod_cast (by omega : p / 2 ≠ 0)
      rw [hl q hq]
      unfold splitWidth
      rw [vol_left]
      field_simp
    · have h2 : ((p - p / 2 : ℕ) : ℝ) ≠ 0 := by exact_mod_cast (by omega : p - p / 2 ≠ 0)
      rw [hr q hq]
      unfold splitWidth
      rw [vol_right]
      have h3 : ((p - p / 2 : ℕ) : ℝ) = p - ((p / 2 : ℕ) : ℝ) := by
        rw [Nat.cast_sub (by omega)]
      rw [h3] at h2 ⊢
      field_simp

/-- The boxes of the leaves have ordered limits inside of the limits of the whole box. -/
theorem inside_sub (p : ℕ) (hp : 1 ≤ p) (b : Box (n + 1)) (s : ℕ) (hb : ∀ k, b.lo k < b.hi k) :
    ∀ q ∈ leaves (sub b s p), ∀ k, b.lo k ≤ q.2.lo k ∧ q.2.lo k < q.2.hi k ∧ q.2.hi k ≤ b.hi k := by
  refine sub_induction (fun b _ p t => (∀ k, b.lo k < b.hi k) →
    ∀ q ∈ leaves t, ∀ k, b.lo k ≤ q.2.lo k ∧ q.2.lo k < q.2.hi k ∧ q.2.hi k ≤ b.hi k) ?_ ?_ p hp b s hb
  · intro b s hb q hq k
    simp only [leaves, List.mem_singleton] at hq
    subst hq; exact ⟨le_refl _, hb k, le_refl _⟩
  · intro b s p l r hp hl hr hb q hq k
    obtain ⟨h0, h1⟩ := splitWidth_bounds b hb p hp
    unfold Box.wd at h1
    rw [leaves, List.mem_append] at hq
    rcases hq with hq | hq
    · have h := hl (leftBox_ok b hb p hp) q hq k
      simp only [leftBox] at h
      by_cases hk : k = widest b
      · subst hk; rw [Function.update_self] at h; exact ⟨h.1, h.2.1, by linarith [h.2.2]⟩
      · rw [Function.update_of_ne hk] at h; exact h
    · have h := hr (rightBox_ok b hb p hp) q hq k
      simp only [rightBox] at h
      by_cases hk : k = widest b
      · subst hk; rw [Function.update_self] at h; exact ⟨by linarith [h.1], h.2.1, h.2.2⟩
      · rw [Function.update_of_ne hk] at h; exact h

theorem proc_other (own : ℕ) (t : Tree n) (cur : Box (n + 1)) (h : own ∉ (leaves t).map Prod.fst) : proc own t cur = cur := by
  induction t generalizing cur with
  | leaf r b => rfl
  | node d v b l r ihl ihr =>
    rw [leaves, List.map_append, List.mem_append, not_or] at h
    have hr : leafOf own r = none := by
      cases r with
      | leaf q b => simp [leaves] at h; simp [leafOf, Ne.symm h.2]
      | node => rfl
    have hl : leafOf own l = none := by
      cases l with
      | leaf q b => simp [leaves] at h; simp [leafOf, Ne.symm h.1]
      | node => rfl
    rw [proc, hr, hl]
    simp only
    rw [ihr _ h.2, ihl _ h.1]

/-- A processor of a tree with at least two leaves finds its own leaf. -/
theorem proc_mem (own : ℕ) (t : Tree n) (cur : Box (n + 1)) (hn : ((leaves t).map Prod.fst).Nodup)
    (h : own ∈ (leaves t).map Prod.fst) (ht : ∀ r b, t ≠ .leaf r b) : (own, proc own t cur) ∈ leaves t := by
  induction t generalizing cur with
  | leaf r b => exact absurd rfl (ht r b)
  | node d v b l r ihl ihr =>
    rw [leaves, List.map_append] at hn h
    have hd := (List.nodup_append.mp hn).2.2
    rw [List.mem_append] at h
    rw [leaves, List.mem_append]
    rw [proc]
    cases hr : leafOf own r with
    | some B =>
      right
      cases r with
      | node => simp [leafOf] at hr
      | leaf q b =>
        simp only [leafOf] at hr
        split at hr
        · rename_i hq; subst hq; cases hr; simp [leaves]
        · simp at hr
    | none =>
      cases hl : leafOf own l with
      | some B =>
        left
        cases l with
        | node => simp [leafOf] at hl
        | leaf q b =>
          simp only [leafOf] at hl
          split at hl
          · rename_i hq; subst hq; cases hl; simp [leaves]
          · simp at hl
      | none =>
        simp only
        rcases h with h | h
        · left
          have hnr : own ∉ (leaves r).map Prod.fst := fun h' => hd _ h _ h' rfl
          rw [proc_other own r _ hnr]
          refine ihl _ (List.nodup_append.mp hn).1 h ?_
          rintro q b rfl
          simp [leaves] at h
          simp [leafOf, h] at hl
        · right
          refine ihr _ (List.nodup_append.mp hn).2.1 h ?_
          rintro q b rfl
          simp [leaves] at h
          simp [leafOf, h] at hr

theorem topology_sub (b : Box (n + 1)) (P : ℕ) (hP : 2 ≤ P) : topology b P = sub b 0 P := by
  unfold topology sub
  rw [if_pos (by omega)]

theorem processBounds_mem (b : Box (n + 1)) (P own : ℕ) (hP : 2 ≤ P) (ho : own < P) :
    (own, processBounds b P own) ∈ leaves (topology b P) := by
  unfold processBounds
  have hr : (leaves (topology b P)).map Prod.fst = List.range' 0 P := by
    rw [topology_sub b P hP]; exact ranks_sub P (by omega) b 0
  apply proc_mem
  · rw [hr]; exact List.nodup_range'
  · rw [hr]; simp [List.mem_range']; omega
  · intro r B
    rw [topology_sub b P hP]
    unfold sub
    rw [if_pos (by omega), decomp_eq]
    exact fun h => by cases h

theorem leaf_unique (b : Box (n + 1)) (P r : ℕ) (B B' : Box (n + 1)) (hP : 2 ≤ P) (h : (r, B) ∈ leaves (topology b P))
    (h' : (r, B') ∈ leaves (topology b P)) : B = B' := by
  have hr : (leaves (topology b P)).map Prod.fst = List.range' 0 P := by
    rw [topology_sub b P hP]; exact ranks_sub P (by omega) b 0
  have hn : ((leaves (topology b P)).map Prod.fst).Nodup := by rw [hr]; exact List.nodup_range'
  exact (Prod.ext_iff.mp (List.inj_on_of_nodup_map hn h h' rfl)).2

/-! ### C47 -/

/-- **C47, ranks.** With at least two processors the leaves of the tree carry the ranks `0, ..., P - 1`, each exactly once,
and the bounds of a processor are the bounds of the leaf with its rank. -/
theorem C47_ranks (b : Box (n + 1)) (P : ℕ) (hP : 2 ≤ P) :
    (leaves (topology b P)).map Prod.fst = List.range P ∧
    leaves (topology b P) = (List.range P).map fun own => (own, processBounds b P own) := by
  have hr : (leaves (topology b P)).map Prod.fst = List.range P := by
    rw [topology_sub b P hP, ranks_sub P (by omega) b 0, List.range_eq_range']
  refine ⟨hr, ?_⟩
  rw [← hr, List.map_map]
  conv_lhs => rw [← List.map_id (leaves (topology b P))]
  apply List.map_congr_left
  rintro ⟨r, B⟩ hq
  have hlt : r < P := by
    have : r ∈ (leaves (topology b P)).map Prod.fst := List.mem_map_of_mem (f := Prod.fst) hq
    rw [hr] at this; exact List.mem_range.mp this
  simp only [id, Function.comp]
  rw [leaf_unique b P r _ _ hP hq (processBounds_mem b P r hP hlt)]

/-- **C47, one processor.** The bounds are the whole bounds. -/
theorem C47_single (b : Box (n + 1)) : processBounds b 1 0 = b := by
  unfold processBounds topology
  rw [decomp_eq]
  simp only [show ¬ (1 < 1 / 2) by decide, show ¬ (1 < 1 - 1 / 2) by decide, if_false, proc, leafOf]
  simp [rightBox, splitWidth]

/-- **C47, partition.** For every number `P ≥ 1` of processors every point of the simulation bounds lies in the bounds of
exactly one processor, and a point outside lies in no processor's bounds. -/
theorem C47_partition (b : Box (n + 1)) (hb : ∀ k, b.lo k < b.hi k) (P : ℕ) (hP : 1 ≤ P) (x : Fin (n + 1) → ℝ) :
    (b.contains x = true → ∃! own, own < P ∧ (processBounds b P own).contains x = true) ∧
    (b.contains x = false → ∀ own < P, (processBounds b P own).contains x = false) := by
  by_cases h1 : P = 1
  · subst h1
    constructor
    · intro h
      refine ⟨0, ⟨by omega, by rw [C47_single]; exact h⟩, ?_⟩
      rintro y ⟨hy, _⟩; omega
    · intro h own ho
      obtain rfl : own = 0 := by omega
      rw [C47_single]; exact h
  · have hP2 : 2 ≤ P := by omega
    obtain ⟨w1, w2, w3⟩ := walk_sub P hP b 0 hb x
    rw [← topology_sub b P hP2] at w1 w2 w3
    constructor
    · intro h
      obtain ⟨B, m, c⟩ := w2 h
      refine ⟨walk x (topology b P), ⟨by omega, ?_⟩, ?_⟩
      · rw [leaf_unique b P _ _ _ hP2 (processBounds_mem b P _ hP2 (by omega)) m]; exact c
      · rintro y ⟨hy, hc⟩
        exact (w1 _ (processBounds_mem b P y hP2 hy) hc).2
    · intro h own ho
      by_contra hc
      rw [Bool.not_eq_false] at hc
      have := (w1 _ (processBounds_mem b P own hP2 ho) hc).1
      rw [h] at this
      exact absurd this (by simp)

/-- **C47, equal volumes.** Every processor gets the same volume. -/
theorem C47_volume (b : Box (n + 1)) (P : ℕ) (own : ℕ) (ho : own < P) :
    (processBounds b P own).vol = b.vol / P := by
  by_cases h1 : P = 1
  · subst h1
    obtain rfl : own = 0 := by omega
    rw [C47_single]; simp
  · have := processBounds_mem b P own (by omega) ho
    rw [topology_sub b P (by omega)] at this
    exact vol_sub P (by omega) b 0 _ this

/-- **C47, inside.** The bounds of a processor are not empty and lie inside of the simulation bounds. -/
theorem C47_inside (b : Box (n + 1)) (hb : ∀ k, b.lo k < b.hi k) (P own : ℕ) (ho : own < P) (k : Fin (n + 1)) :
    b.lo k ≤ (processBounds b P own).lo k ∧ (processBounds b P own).lo k < (processBounds b P own).hi k ∧
    (processBounds b P own).hi k ≤ b.hi k := by
  by_cases h1 : P = 1
  · subst h1
    obtain rfl : own = 0 := by omega
    rw [C47_single]
    exact ⟨le_refl _, hb k, le_refl _⟩
  · have := processBounds_mem b P own (by omega) ho
    rw [topology_sub b P (by omega)] at this
    exact inside_sub P (by omega) b 0 hb _ this k

/-- The unit square (widths 1 and 2) satisfies the hypotheses. -/
noncomputable def box12 : Box 2 := ⟨fun _ => 0, ![1, 2]⟩

example : (∀ k, box12.lo k < box12.hi k) ∧ ∃! own, own < 3 ∧ (processBounds box12 3 own).contains ![1/2, 1] = true := by
  have hb : ∀ k, box12.lo k < box12.hi k := by intro k; fin_cases k <;> simp [box12]
  refine ⟨hb, (C47_partition box12 hb 3 (by omega) _).1 ?_⟩
  rw [contains_iff]
  intro k; fin_cases k <;> norm_num [box12]

/-! ### C48 -/

/-- **C48, owner.** For a position in the simulation bounds, the owner computed by any processor is the processor whose bounds
contain the position. -/
theorem C48_owner (b : Box (n + 1)) (hb : ∀ k, b.lo k < b.hi k) (P own r : ℕ) (ho : own < P) (hr : r < P)
    (x : Fin (n + 1) → ℝ) (hx : b.contains x = true) :
    ownership b P own x = r ↔ (processBounds b P r).contains x = true := by
  obtain ⟨c, ⟨hc1, hc2⟩, hc3⟩ := (C47_partition b hb P (by omega) x).1 hx
  have key : ownership b P own x = c := by
    unfold ownership
    split
    · rename_i h; exact hc3 own ⟨ho, h⟩
    · by_cases h1 : P = 1
      · subst h1
        rename_i h
        obtain rfl : own = 0 := by omega
        rw [C47_single] at h; exact absurd hx h
      · obtain ⟨w1, -, -⟩ := walk_sub P (by omega) b 0 hb x
        rw [← topology_sub b P (by omega)] at w1
        exact (w1 _ (processBounds_mem b P c (by omega) hc1) hc2).2.symm
  rw [key]
  constructor
  · rintro rfl; exact hc2
  · intro h; exact (hc3 r ⟨hr, h⟩).symm

/-- **C48, agreement.** All processors compute the same owner, for every position, also outside of the simulation bounds. The
owner is the rank of a processor. -/
theorem C48_agree (b : Box (n + 1)) (hb : ∀ k, b.lo k < b.hi k) (P own own' : ℕ) (ho : own < P) (ho' : own' < P)
    (x : Fin (n + 1) → ℝ) : ownership b P own x = ownership b P own' x ∧ ownership b P own x < P := by
  have lt : ∀ o < P, ownership b P o x < P := by
    intro o h
    unfold ownership
    split
    · exact h
    · by_cases h1 : P = 1
      · subst h1
        unfold topology
        rw [decomp_eq]
        simp only [show ¬ (1 < 1 / 2) by decide, show ¬ (1 < 1 - 1 / 2) by decide, if_false, walk]
        split <;> omega
      · obtain ⟨-, -, w3⟩ := walk_sub P (by omega) b 0 hb x
        rw [← topology_sub b P (by omega)] at w3
        omega
  refine ⟨?_, lt own ho⟩
  by_cases hx : b.contains x = true
  · have := (C48_owner b hb P own' _ ho' (lt own' ho') x hx).mp rfl
    exact (C48_owner b hb P own _ ho (lt own' ho') x hx).mpr this
  · have h := (C47_partition b hb P (by omega) x).2 (by simpa using hx)
    unfold ownership
    rw [if_neg (by rw [h own ho]; simp), if_neg (by rw [h own' ho']; simp)]

example : (∀ k, box12.lo k < box12.hi k) ∧ box12.contains ![1/2, 1] = true ∧ (0 < 3 ∧ 2 < 3) := by
  refine ⟨by intro k; fin_cases k <;> simp [box12], ?_, by omega⟩
  rw [contains_iff]
  intro k; fin_cases k <;> norm_num [box12]


/-! ## Images -/

/-- Spec: `m` shifts a point by whole widths in the wrapping dimensions. -/
def IsShift (b : Box (n + 1)) (wrap : Fin (n + 1) → Bool) (s : Fin (n + 1) → ℝ) : Prop :=
  ∀ k, ∃ m : ℤ, s k = m * (b.hi k - b.lo k) ∧ (wrap k = false → m = 0)

theorem correct_shift (b : Box (n + 1)) (wrap : Fin (n + 1) → Bool) (X : Fin (n + 1) → ℝ) :
    IsShift b wrap (fun k => correct (widths b wrap) X k - X k) := by
  intro k
  obtain ⟨m, -, h2, h3⟩ := Verif.Groups.correct_image (widths b wrap) X k
  unfold widths at h2 h3
  refine ⟨m, ?_, fun h => h2 (by simp [h])⟩
  simp only
  cases hw : wrap k with
  | true => rw [show correct (widths b wrap) X k = _ from h3]; simp [hw]
  | false => rw [show correct (widths b wrap) X k = _ from h3]; rw [h2 (by simp [hw])]; simp

/-- The minimum image is the shortest image. -/
theorem correct_min (b : Box (n + 1)) (wrap : Fin (n + 1) → Bool) (X : Fin (n + 1) → ℝ) (k : Fin (n + 1))
    (hX : |X k| ≤ b.hi k - b.lo k) (s : Fin (n + 1) → ℝ) (hs : IsShift b wrap s) :
    |correct (widths b wrap) X k| ≤ |X k + s k| := by
  obtain ⟨m, hm, h0⟩ := hs k
  rw [hm]
  unfold correct widths
  cases hw : wrap k with
  | false => rw [h0 hw]; simp
  | true =>
    simp only [if_true]
    set W := b.hi k - b.lo k with hW
    have hWn : 0 ≤ W := le_trans (abs_nonneg _) hX
    -- distance of all images is at least `min |X| (W - |X|)`
    have key : |X k| ≤ |X k + m * W| ∨ W - |X k| ≤ |X k + m * W| := by
      rcases lt_trichotomy m 0 with h | h | h
      · right
        have : (m : ℝ) ≤ -1 := by exact_mod_cast (by omega : m ≤ -1)
        have h1 : |(m : ℝ) * W| = -(m * W) := abs_of_nonpos (by nlinarith)
        have h2 := abs_sub_abs_le_abs_sub ((m : ℝ) * W) (-(X k))
        rw [abs_neg, sub_neg_eq_add, add_comm (_ * W) (X k), h1] at h2
        nlinarith
      · left; simp [h]
      · right
        have : (1 : ℝ) ≤ m := by exact_mod_cast h
        have h1 : |(m : ℝ) * W| = m * W := abs_of_nonneg (by nlinarith)
        have h2 := abs_sub_abs_le_abs_sub ((m : ℝ) * W) (-(X k))
        rw [abs_neg, sub_neg_eq_add, add_comm (_ * W) (X k), h1] at h2
        nlinarith
    by_cases hc : W - |X k| < |X k|
    · rw [if_pos hc]
      have : abs (if X k > 0 then -(W - abs (X k)) else W - abs (X k)) = W - abs (X k) := by
        split
        · rw [abs_neg, abs_of_nonneg (by linarith)]
        · rw [abs_of_nonneg (by linarith)]
      rw [this]
      rcases key with h | h <;> linarith
    · rw [if_neg hc]
      rcases key with h | h <;> linarith

theorem out_center (B : Box (n + 1)) (k : Fin (n + 1)) (y : ℝ) :
    out (B.lo k) (B.hi k) y = max 0 (|y - B.center k| - B.wd k / 2) := by
  unfold out Box.center Box.wd
  rcases le_total 0 (y - 1/2 * (B.hi k + B.lo k)) with h | h
  · rw [abs_of_nonneg h]
    rcases le_total (B.lo k - y) (y - B.hi k) with h2 | h2
    · rw [max_eq_right (a := B.lo k - y) h2]; congr 1; ring
    · rw [max_eq_left (a := B.lo k - y) h2]
      have e : B.lo k - y = y - B.hi k ∨ B.lo k - y > y - B.hi k := by
        rcases eq_or_lt_of_le h2 with h3 | h3
        · left; exact h3.symm
        · right; exact h3
      rcases e with e | e
      · rw [e]; congr 1; ring
      · linarith
  · rw [abs_of_nonpos h]
    rcases le_total (y - B.hi k) (B.lo k - y) with h2 | h2
    · rw [max_eq_left (a := B.lo k - y) h2]; congr 1; ring
    · rw [max_eq_right (a := B.lo k - y) h2]
      rcases eq_or_lt_of_le h2 with h3 | h3
      · rw [← h3]; congr 1; ring
      · linarith

theorem distance_mono (B : Box (n + 1)) (hB : ∀ k, B.lo k ≤ B.hi k) (y z : Fin (n + 1) → ℝ)
    (h : ∀ k, |y k - B.center k| ≤ |z k - B.center k|) : B.distance y ≤ B.distance z := by
  rw [distance_eq B y hB, distance_eq B z hB]
  apply Real.sqrt_le_sqrt
  apply sum_le_sum
  intro k _
  rw [out_center, out_center]
  have h1 : max 0 (|y k - B.center k| - B.wd k / 2) ≤ max 0 (|z k - B.center k| - B.wd k / 2) :=
    max_le_max (le_refl _) (by linarith [h k])
  exact pow_le_pow_left₀ (le_max_left _ _) h1 2

theorem out_le_distance (B : Box (n + 1)) (hB : ∀ k, B.lo k ≤ B.hi k) (y : Fin (n + 1) → ℝ) (k : Fin (n + 1)) :
    |y k - B.center k| ≤ B.wd k / 2 + B.distance y := by
  have h1 : out (B.lo k) (B.hi k) (y k) ≤ B.distance y := by
    rw [distance_eq B y hB]
    apply Real.le_sqrt_of_sq_le
    exact single_le_sum (f := fun k => out (B.lo k) (B.hi k) (y k) ^ 2) (fun i _ => sq_nonneg _) (mem_univ k)
  rw [out_center] at h1
  linarith [le_max_right 0 (|y k - B.center k| - B.wd k / 2)]

theorem center_abs (B : Box (n + 1)) (k : Fin (n + 1)) (y : ℝ) (h1 : B.lo k ≤ y) (h2 : y ≤ B.hi k) :
    |y - B.center k| ≤ B.wd k / 2 := by
  unfold Box.center Box.wd
  rw [abs_le]; constructor <;> linarith

theorem adjacent_iff (w : Fin (n + 1) → Option ℝ) (pb b : Box (n + 1)) : adjacent w pb b = true ↔
    ∀ k, |correct w (fun j => b.center j - pb.center j) k| ≤ 1/2 * (pb.wd k + b.wd k) + 1/10 := by
  unfold adjacent
  rw [List.all_eq_true]
  simp

theorem mem_neighbors (b : Box (n + 1)) (wrap : Fin (n + 1) → Bool) (P own r : ℕ) (B : Box (n + 1)) :
    (r, B) ∈ neighbors b wrap P own ↔ (r, B) ∈ leaves (topology b P) ∧ r ≠ own ∧
      adjacent (widths b wrap) (processBounds b P own) B = true := by
  unfold neighbors
  rw [List.mem_filter, List.mem_filter]
  simp [and_assoc]

/-- A point which is close to an image of a point of another processor's bounds makes the two processors neighbours. -/
theorem neighbor_of_close (b : Box (n + 1)) (hb : ∀ k, b.lo k < b.hi k) (wrap : Fin (n + 1) → Bool) (P own r : ℕ)
    (hP : 2 ≤ P) (ho : own < P) (hr : r < P) (hne : r ≠ own) (x y s : Fin (n + 1) → ℝ) (hs : IsShift b wrap s)
    (hx : ∀ k, |x k - (processBounds b P own).center k| + |x k + s k - y k| + |y k - (processBounds b P r).center k| ≤
      1/2 * ((processBounds b P own).wd k + (processBounds b P r).wd k) + 1/10) :
    (r, processBounds b P r) ∈ neighbors b wrap P own := by
  rw [mem_neighbors, adjacent_iff]
  refine ⟨processBounds_mem b P r hP hr, hne, fun k => ?_⟩
  have i1 := C47_inside b hb P own ho k
  have i2 := C47_inside b hb P r hr k
  have hs' : IsShift b wrap (fun k => -(s k)) := by
    intro k
    obtain ⟨m, h1, h2⟩ := hs k
    exact ⟨-m, by simp only [h1]; push_cast; ring, fun h => by rw [h2 h]; rfl⟩
  have hm := correct_min b wrap (fun j => (processBounds b P r).center j - (processBounds b P own).center j) k
    (by unfold Box.center; rw [abs_le]; constructor <;> linarith) _ hs'
  refine le_trans hm ?_
  have h := hx k
  have e : (processBounds b P r).center k - (processBounds b P own).center k + -(s k) =
      (x k - (processBounds b P own).center k) + (-(x k + s k - y k)) + (-(y k - (processBounds b P r).center k)) := by ring
  rw [e]
  have t1 := abs_add_le ((x k - (processBounds b P own).center k) + (-(x k + s k - y k))) (-(y k - (processBounds b P r).center k))
  have t2 := abs_add_le (x k - (processBounds b P own).center k) (-(x k + s k - y k))
  rw [abs_neg] at t1 t2
  linarith

/-! ## C76: ghost particles -/

/-- **C76, chosen neighbours.** A neighbouring processor is chosen for a position in the simulation bounds exactly when the
position or one of its periodic images is closer than the cutoff to the bounds of that processor. -/
theorem C76_overlaps (b : Box (n + 1)) (hb : ∀ k, b.lo k < b.hi k) (wrap : Fin (n + 1) → Bool) (P own r : ℕ) (hr : r < P)
    (hP : 2 ≤ P) (x : Fin (n + 1) → ℝ) (hx : b.contains x = true) (cutoff : ℝ)
    (hn : (r, processBounds b P r) ∈ neighbors b wrap P own) :
    (r, processBounds b P r) ∈ overlaps b wrap P own x cutoff ↔
      ∃ s, IsShift b wrap s ∧ (processBounds b P r).distance (fun k => x k + s k) < cutoff := by
  unfold overlaps
  rw [List.mem_filter]
  simp only [hn, true_and, decide_eq_true_eq]
  set B := processBounds b P r with hB
  have hBok : ∀ k, B.lo k ≤ B.hi k := fun k => le_of_lt (C47_inside b hb P r hr k).2.1
  constructor
  · intro h
    refine ⟨_, correct_shift b wrap (fun j => x j - B.center j), ?_⟩
    convert h using 2
    funext k
    ring
  · rintro ⟨s, hs, h⟩
    refine lt_of_le_of_lt (distance_mono B hBok _ _ fun k => ?_) h
    have hxk := (contains_iff b x).mp hx k
    have i := C47_inside b hb P r hr k
    have hm := correct_min b wrap (fun j => x j - B.center j) k
      (by simp only [Box.center]; rw [abs_le]; constructor <;> linarith) s hs
    rw [add_sub_cancel_right]
    convert hm using 2
    ring

/-- **C76, partial.** If the cutoff is at most `0.1`, then a particle in the bounds of a processor is sent to every other
processor whose bounds are closer than the cutoff to the particle or to one of its images.
Missing: larger cutoffs (`C76_negation_large_cutoff`). -/
theorem C76_complete_partial (b : Box (n + 1)) (hb : ∀ k, b.lo k < b.hi k) (wrap : Fin (n + 1) → Bool) (P own r : ℕ)
    (ho : own < P) (hr : r < P) (hne : r ≠ own) (x : Fin (n + 1) → ℝ) (hx : (processBounds b P own).contains x = true)
    (cutoff : ℝ) (hc : cutoff ≤ 1/10) (s : Fin (n + 1) → ℝ) (hs : IsShift b wrap s)
    (hd : (processBounds b P r).distance (fun k => x k + s k) < cutoff) :
    (r, processBounds b P r) ∈ overlaps b wrap P own x cutoff := by
  have hP : 2 ≤ P := by omega
  have hxb : b.contains x = true := by
    by_contra h
    have := (C47_partition b hb P (by omega) x).2 (by simpa using h) own ho
    rw [this] at hx; exact absurd hx (by simp)
  have hBok : ∀ k, (processBounds b P r).lo k ≤ (processBounds b P r).hi k :=
    fun k => le_of_lt (C47_inside b hb P r hr k).2.1
  have hn : (r, processBounds b P r) ∈ neighbors b wrap P own := by
    refine neighbor_of_close b hb wrap P own r hP ho hr hne x (fun k => x k + s k) s hs fun k => ?_
    have h1 := (contains_iff _ x).mp hx k
    have h2 := center_abs (processBounds b P own) k (x k) h1.1 (le_of_lt h1.2)
    have h3 := out_le_distance (processBounds b P r) hBok (fun k => x k + s k) k
    rw [sub_self, abs_zero]
    linarith
  exact (C76_overlaps b hb wrap P own r hr hP x hxb cutoff hn).mpr ⟨s, hs, hd⟩

/-- **C76, nothing needless.** A ghost copy is only sent to other processors which are neighbours, within the cutoff. -/
theorem C76_only (b : Box (n + 1)) (wrap : Fin (n + 1) → Bool) (P own r : ℕ) (B : Box (n + 1)) (hP : 2 ≤ P)
    (x : Fin (n + 1) → ℝ) (cutoff : ℝ) (h : (r, B) ∈ overlaps b wrap P own x cutoff) :
    r ≠ own ∧ r < P ∧ B = processBounds b P r ∧
      ∃ s, IsShift b wrap s ∧ B.distance (fun k => x k + s k) < cutoff := by
  unfold overlaps at h
  rw [List.mem_filter] at h
  obtain ⟨h1, h2⟩ := h
  rw [mem_neighbors] at h1
  obtain ⟨h3, h4, -⟩ := h1
  have hlt : r < P := by
    have : r ∈ (leaves (topology b P)).map Prod.fst := List.mem_map_of_mem (f := Prod.fst) h3
    rw [(C47_ranks b P hP).1] at this; exact List.mem_range.mp this
  refine ⟨h4, hlt, leaf_unique b P r _ _ hP h3 (processBounds_mem b P r hP hlt), _,
    correct_shift b wrap (fun j => x j - B.center j), ?_⟩
  simp only [decide_eq_true_eq] at h2
  convert h2 using 2
  funext k
  ring

/-- **C76, symmetry.** Processors are neighbours of each other: if `own` may send to `r` then `r` expects messages of `own`. -/
theorem C76_symmetric (b : Box (n + 1)) (wrap : Fin (n + 1) → Bool) (P own r : ℕ) (hP : 2 ≤ P) (ho : own < P) (hr : r < P)
    (h : (r, processBounds b P r) ∈ neighbors b wrap P own) : (own, processBounds b P own) ∈ neighbors b wrap P r := by
  rw [mem_neighbors, adjacent_iff] at h ⊢
  refine ⟨processBounds_mem b P own hP ho, Ne.symm h.2.1, fun k => ?_⟩
  have := h.2.2 k
  have neg : ∀ (w : Fin (n + 1) → Option ℝ) (X : Fin (n + 1) → ℝ), |correct w (fun j => -(X j)) k| = |correct w X k| := by
    intro w X
    unfold correct
    cases w k with
    | none => simp
    | some W =>
      simp only [abs_neg]
      by_cases hc : W - |X k| < |X k|
      · rw [if_pos hc, if_pos hc]
        have : ∀ (p : Prop) [Decidable p], abs (if p then -(W - abs (X k)) else W - abs (X k)) = abs (W - abs (X k)) := by
          intro p _
          split
          · rw [abs_neg]
          · rfl
        rw [this, this]
      · rw [if_neg hc, if_neg hc, abs_neg]
  have e := neg (widths b wrap) (fun j => (processBounds b P r).center j - (processBounds b P own).center j)
  simp only [neg_sub] at e
  rw [e]; linarith

/-- The interval `[0, 3)`. -/
noncomputable def line3 : Box 1 := ⟨fun _ => 0, fun _ => 3⟩

theorem widest_zero (b : Box 1) : widest (n := 0) b = 0 := Fin.eq_zero _

theorem distance_one (B : Box 1) (h : B.lo 0 ≤ B.hi 0) (y : Fin 1 → ℝ) :
    B.distance y = max 0 (max (B.lo 0 - y 0) (y 0 - B.hi 0)) := by
  rw [distance_eq B y (by intro k; rw [Fin.eq_zero k]; exact h), Fin.sum_univ_one, out, Real.sqrt_sq (le_max_left _ _)]

theorem line3_leaves : leaves (topology line3 3) = [(0, ⟨fun _ => 0, fun _ => 1⟩), (1, ⟨fun _ => 1, fun _ => 2⟩),
    (2, ⟨fun _ => 2, fun _ => 3⟩)] := by
  have u : ∀ (f : Fin 1 → ℝ) (v : ℝ), Function.update f 0 v = fun _ => v := by
    intro f v; funext k; rw [Subsingleton.elim k 0, Function.update_self]
  unfold topology
  rw [decomp_eq]
  simp only [show ¬ (1 < 3 / 2) by decide, show (1 < 3 - 3 / 2) by decide, if_false, if_true, leaves]
  rw [decomp_eq]
  simp only [show ¬ (1 < (3 - 3 / 2) / 2) by decide, show ¬ (1 < (3 - 3 / 2) - (3 - 3 / 2) / 2) by decide, if_false, leaves,
    widest_zero, leftBox, rightBox, splitWidth, Box.wd, u, line3]
  norm_num

theorem line3_bounds : processBounds line3 3 0 = ⟨fun _ => 0, fun _ => 1⟩ ∧
    processBounds line3 3 1 = ⟨fun _ => 1, fun _ => 2⟩ ∧ processBounds line3 3 2 = ⟨fun _ => 2, fun _ => 3⟩ := by
  have h := (C47_ranks line3 3 (by omega)).2
  rw [line3_leaves] at h
  simp only [List.range_succ, List.range_zero, List.nil_append, List.cons_append, List.map_cons, List.map_nil,
    List.cons.injEq, Prod.mk.injEq, true_and, and_true] at h
  exact ⟨h.1.symm, h.2.1.symm, h.2.2.symm⟩

theorem line3_not_neighbors : ∀ B, (2, B) ∉ neighbors line3 (fun _ => false) 3 0 := by
  intro B h
  rw [mem_neighbors, adjacent_iff] at h
  obtain ⟨h1, -, h2⟩ := h
  have hB : B = ⟨fun _ => 2, fun _ => 3⟩ :=
    leaf_unique line3 3 2 _ _ (by omega) h1 (by rw [line3_leaves]; simp)
  have := h2 0
  rw [line3_bounds.1, hB] at this
  simp only [correct, widths, Bool.false_eq_true, if_false, Box.center, Box.wd] at this
  norm_num at this

/-- **C76, negation.** Larger particles are not sent: three processors on `[0, 3)`; a particle of radius `0.6` at `0.9` on
processor 0 overlaps a particle of radius `0.6` at `2.05`, but processor 2 is not a neighbour of processor 0, so that no
copy of it is sent to processor 2 (even though its cutoff reaches the bounds of processor 2). -/
theorem C76_negation_large_cutoff :
    (processBounds line3 3 0).contains (fun _ => 9/10) = true ∧ (processBounds line3 3 2).contains (fun _ => 205/100) = true ∧
    |(205/100 : ℝ) - 9/10| < 6/10 + 6/10 ∧ (processBounds line3 3 2).distance (fun _ => 9/10) < 2 * (6/10) * 1 ∧
    ghostsFor line3 (fun _ => false) 3 0 2 [(fun _ => 9/10, 6/10, 1)] 0 = [] := by
  rw [line3_bounds.1, line3_bounds.2.2]
  refine ⟨?_, ?_, ?_, ?_, ?_⟩
  · rw [contains_iff]; intro k; norm_num
  · rw [contains_iff]; intro k; norm_num
  · rw [abs_of_pos (by norm_num)]; norm_num
  · rw [distance_one _ (by norm_num)]
    norm_num
  · unfold ghostsFor
    rw [List.filter_eq_nil_iff]
    intro i hi
    simp only [List.length_singleton, List.mem_range, Nat.lt_one_iff] at hi
    subst hi
    simp only [List.getElem?_cons_zero, List.any_eq_true, beq_iff_eq]
    rintro ⟨⟨r, B⟩, hm, rfl⟩
    unfold overlaps at hm
    exact line3_not_neighbors B (List.mem_of_mem_filter hm)

/-- **C76, negation.** Even between neighbours and with a small cutoff, a particle that overlaps a larger particle of the other
processor need not be sent there, since the cutoff is computed from its own radius only: a particle of radius `0.01` at `0.95`
on processor 0 and one of radius `0.2` at `1.05` on processor 1 overlap; the small one is not sent to processor 1 with skin
depth `0.025`, while the large one is sent to processor 0. So only one of the two processors computes the force. -/
theorem C76_negation_small_particle :
    (processBounds line3 3 0).contains (fun _ => 95/100) = true ∧ (processBounds line3 3 1).contains (fun _ => 105/100) = true ∧
    |(105/100 : ℝ) - 95/100| < 1/100 + 2/10 ∧
    ghostsFor line3 (fun _ => false) 3 0 1 [(fun _ => 95/100, 1/100, 1)] (25/1000) = [] ∧
    ghostsFor line3 (fun _ => false) 3 1 0 [(fun _ => 105/100, 2/10, 1)] (25/1000) = [0] := by
  obtain ⟨b0, b1, b2⟩ := line3_bounds
  rw [b0, b1]
  have hb : ∀ k, line3.lo k < line3.hi k := by intro k; norm_num [line3]
  refine ⟨?_, ?_, ?_, ?_, ?_⟩
  · rw [contains_iff]; intro k; norm_num
  · rw [contains_iff]; intro k; norm_num
  · rw [abs_of_pos (by norm_num)]; norm_num
  · unfold ghostsFor
    rw [List.filter_eq_nil_iff]
    intro i hi
    simp only [List.length_singleton, List.mem_range, Nat.lt_one_iff] at hi
    subst hi
    simp only [List.getElem?_cons_zero, List.any_eq_true, beq_iff_eq]
    rintro ⟨⟨r, B⟩, hm, rfl⟩
    obtain ⟨-, -, hB, s, hs, hd⟩ := C76_only line3 (fun _ => false) 3 0 _ B (by omega) _ _ hm
    rw [b1] at hB
    subst hB
    have hs0 : s = fun _ => 0 := by
      funext k
      obtain ⟨m, h1, h2⟩ := hs k
      rw [h1, h2 rfl]; simp
    rw [hs0, distance_one _ (by norm_num)] at hd
    norm_num at hd
  · have hn : (0, processBounds line3 3 0) ∈ neighbors line3 (fun _ => false) 3 1 := by
      rw [mem_neighbors, adjacent_iff]
      refine ⟨processBounds_mem line3 3 0 (by omega) (by omega), by omega, fun k => ?_⟩
      rw [b0, b1]
      simp only [correct, widths, Bool.false_eq_true, if_false, Box.center, Box.wd]
      norm_num
    have hm : (0, processBounds line3 3 0) ∈ overlaps line3 (fun _ => false) 3 1 (fun _ => 105/100) (2 * (2/10) * 1 + 25/1000) := by
      refine (C76_overlaps line3 hb (fun _ => false) 3 1 0 (by omega) (by omega) _ ?_ _ hn).mpr
        ⟨fun _ => 0, fun k => ⟨0, by simp, fun _ => rfl⟩, ?_⟩
      · rw [contains_iff]; intro k; norm_num [line3]
      · rw [b0, distance_one _ (by norm_num)]
        norm_num
    unfold ghostsFor
    rw [List.filter_eq_self.mpr]
    · rfl
    · intro i hi
      simp only [List.length_singleton, List.mem_range, Nat.lt_one_iff] at hi
      subst hi
      simp only [List.getElem?_cons_zero, List.any_eq_true, beq_iff_eq]
      exact ⟨_, hm, rfl⟩

/-- The hypotheses of `C76_complete_partial` hold for a particle near the border of two processors. -/
example : (∀ k, line3.lo k < line3.hi k) ∧ (processBounds line3 3 0).contains (fun _ => 95/100) = true ∧
    (processBounds line3 3 1).distance (fun k => 95/100 + (fun _ => (0:ℝ)) k) < 8/100 := by
  obtain ⟨b0, b1, -⟩ := line3_bounds
  rw [b0, b1]
  refine ⟨by intro k; norm_num [line3], by rw [contains_iff]; intro k; norm_num, ?_⟩
  rw [distance_one _ (by norm_num)]
  norm_num

/-! ## C77: particles move to the processor that owns them -/

/-- **C77, only the owner.** A particle in the simulation bounds leaves its processor only if it is outside of the bounds of
the processor, and it is then sent to the processor whose bounds contain it. -/
theorem C77_owner (b : Box (n + 1)) (hb : ∀ k, b.lo k < b.hi k) (wrap : Fin (n + 1) → Bool) (P own r : ℕ) (ho : own < P)
    (x : Fin (n + 1) → ℝ) (hx : b.contains x = true) (h : destination b wrap P own x = some r) :
    r < P ∧ r ≠ own ∧ (processBounds b P r).contains x = true ∧ (processBounds b P own).contains x = false := by
  unfold destination at h
  split at h
  · exact absurd h (by simp)
  · rename_i hc
    split at h
    · cases h
      have hlt := (C48_agree b hb P own own ho ho x).2
      have hcr := (C48_owner b hb P own _ ho hlt x hx).mp rfl
      refine ⟨hlt, ?_, hcr, by simpa using hc⟩
      intro he
      rw [he] at hcr
      exact hc hcr
    · exact absurd h (by simp)

/-- **C77, stays.** A particle in the bounds of its processor is not sent anywhere. -/
theorem C77_stays (b : Box (n + 1)) (wrap : Fin (n + 1) → Bool) (P own : ℕ) (x : Fin (n + 1) → ℝ)
    (hx : (processBounds b P own).contains x = true) : destination b wrap P own x = none := by
  unfold destination
  rw [if_pos hx]

/-- **C77, partial.** A particle that has left the bounds of its processor by at most `0.1` (it is at `x`, in the simulation
bounds, and an image of it differs from a position `y` in the bounds of its processor by at most `0.1` in every dimension) is
sent to the processor that contains it. Missing: particles that move farther between two exchanges (`C77_negation`). -/
theorem C77_moves_partial (b : Box (n + 1)) (hb : ∀ k, b.lo k < b.hi k) (wrap : Fin (n + 1) → Bool) (P own r : ℕ)
    (ho : own < P) (hr : r < P) (hne : r ≠ own) (x : Fin (n + 1) → ℝ) (hx : (processBounds b P r).contains x = true)
    (y s : Fin (n + 1) → ℝ) (hs : IsShift b wrap s) (hy : (processBounds b P own).contains y = true)
    (hd : ∀ k, |y k + s k - x k| ≤ 1/10) : destination b wrap P own x = some r := by
  have hP : 2 ≤ P := by omega
  have hxb : b.contains x = true := by
    by_contra h
    have := (C47_partition b hb P (by omega) x).2 (by simpa using h) r hr
    rw [this] at hx; exact absurd hx (by simp)
  have how : ownership b P own x = r := (C48_owner b hb P own r ho hr x hxb).mpr hx
  have hnc : ¬ (processBounds b P own).contains x = true := by
    intro h
    have := (C48_owner b hb P own own ho ho x hxb).mpr h
    omega
  have hn : (r, processBounds b P r) ∈ neighbors b wrap P own := by
    refine neighbor_of_close b hb wrap P own r hP ho hr hne y x s hs fun k => ?_
    have h1 := (contains_iff _ y).mp hy k
    have h2 := center_abs (processBounds b P own) k (y k) h1.1 (le_of_lt h1.2)
    have h3 := (contains_iff _ x).mp hx k
    have h4 := center_abs (processBounds b P r) k (x k) h3.1 (le_of_lt h3.2)
    linarith [hd k]
  unfold destination
  rw [if_neg hnc, how, if_pos]
  rw [List.any_eq_true]
  exact ⟨_, hn, by simp⟩

/-- **C77, negation.** A particle that jumps over a whole processor stays on the old processor, although another processor
contains it. -/
theorem C77_negation :
    (processBounds line3 3 2).contains (fun _ => 205/100) = true ∧ ownership line3 3 0 (fun _ => 205/100) = 2 ∧
    destination line3 (fun _ => false) 3 0 (fun _ => 205/100) = none := by
  have hb : ∀ k, line3.lo k < line3.hi k := by intro k; norm_num [line3]
  have hc : (processBounds line3 3 2).contains (fun _ => 205/100) = true := by
    rw [line3_bounds.2.2, contains_iff]; intro k; norm_num
  have ho : ownership line3 3 0 (fun _ => 205/100) = 2 := by
    refine (C48_owner line3 hb 3 0 2 (by omega) (by omega) _ ?_).mpr hc
    rw [contains_iff]; intro k; norm_num [line3]
  refine ⟨hc, ho, ?_⟩
  unfold destination
  split
  · rfl
  · rw [if_neg]
    rw [ho, List.any_eq_true]
    rintro ⟨⟨r, B⟩, hm, hr⟩
    simp only [beq_iff_eq] at hr
    subst hr
    exact line3_not_neighbors B hm

/-- The hypotheses of `C77_moves_partial` hold: from `0.99` to `1.04`. -/
example : (processBounds line3 3 1).contains (fun _ => 104/100) = true ∧
    (processBounds line3 3 0).contains (fun _ => 99/100) = true ∧ |(99/100 : ℝ) + 0 - 104/100| ≤ 1/10 := by
  obtain ⟨b0, b1, -⟩ := line3_bounds
  rw [b0, b1]
  refine ⟨by rw [contains_iff]; intro k; norm_num, by rw [contains_iff]; intro k; norm_num, ?_⟩
  rw [abs_of_neg (by norm_num)]; norm_num

/-! ### Changing the simulation bounds -/

/-- The lists kept by the topology between two calls of `computeTopology`: the entries of `all_processor_nodes` with a mark
that tells whether the node still exists, `parallel/kdtreetopology.hpp`. -/
structure Kept (n : ℕ) where
  nodes : List (Bool × ℕ × Box (n + 1))

/-- `computeTopology`, `parallel/kdtreetopology.cpp:16-31` with `setSimulationBounds` of other bounds, `base/topology.cpp:62-75`:
deleting the old tree destroys the nodes in the list, the new leaves are appended to the list, and `find_neighbors` reads all
entries of it. `none`: a destroyed node is read. -/
noncomputable def recompute (S : Kept n) (b : Box (n + 1)) (wrap : Fin (n + 1) → Bool) (P own : ℕ) :
    Option (Kept n × List (ℕ × Box (n + 1))) :=
  let nodes := S.nodes.map (fun q => (false, q.2)) ++
    ((leaves (topology b P)).filter fun q => q.1 ≠ own).map (fun q => (true, q))
  if nodes.all (·.1) then
    some (⟨nodes⟩, (nodes.map (·.2)).filter fun q => adjacent (widths b wrap) (processBounds b P own) q.2)
  else none

/-- **C76, first topology.** With an empty list, `computeTopology` finds the neighbours described above. -/
theorem C76_first (b : Box (n + 1)) (wrap : Fin (n + 1) → Bool) (P own : ℕ) :
    (recompute ⟨[]⟩ b wrap P own).map (·.2) = some (neighbors b wrap P own) := by
  unfold recompute neighbors
  simp only [List.map_nil, List.nil_append]
  rw [if_pos (by simp)]
  simp [List.map_map, Function.comp_def]

/-- **C76, negation.** Changing the bounds of the simulation after the topology was computed is undefined as soon as there are
two processors: the list of nodes is not cleared. -/
theorem C76_negation_recompute (b b' : Box (n + 1)) (wrap : Fin (n + 1) → Bool) (P own : ℕ) (hP : 2 ≤ P)
    (S : Kept n) (hS : (recompute ⟨[]⟩ b wrap P own).map (·.1) = some S) : recompute S b' wrap P own = none := by
  unfold recompute at hS
  simp only [List.map_nil, List.nil_append] at hS
  rw [if_pos (by simp)] at hS
  simp only [Option.map_some, Option.some.injEq] at hS
  subst hS
  obtain ⟨r, hr, hne⟩ : ∃ r < P, r ≠ own := by
    by_cases h : own = 0
    · exact ⟨1, by omega, by omega⟩
    · exact ⟨0, by omega, by omega⟩
  unfold recompute
  simp only
  rw [if_neg]
  rw [List.all_eq_true]
  intro h
  have := h (false, (r, processBounds b P r)) (by
    simp only [List.map_map, List.mem_append, List.mem_map, List.mem_filter, Function.comp_def]
    left
    exact ⟨(r, processBounds b P r), ⟨processBounds_mem b P r hP hr, by simpa using hne⟩, rfl⟩)
  simp at this

end Verif.KDTree
