import Verif.Domain.Cells
import Mathlib.Algebra.Order.Field.Basic

/-!
# Pair traversal: no interacting pair is missed, none is visited twice (C28)
-/

set_option linter.unusedSectionVars false
set_option linter.unusedSimpArgs false

namespace Verif.Cells
open Verif.Grid Verif.Stencil

section field
variable {K : Type*} [Field K] [LinearOrder K] [IsStrictOrderedRing K] [FloorRing K]

/-! ## Specification -/

/-- Spec: the grid is one that the domain builds: in each dimension the cells tile the bounds. -/
structure DAx.Valid (a : DAx K) : Prop where
  lohi : a.lo < a.hi
  wpos : 0 < a.w
  npos : 0 < a.n
  tiles : (a.n : K) * a.w = a.hi - a.lo

/-- Spec: the position has one coordinate per dimension, and is inside the bounds in the wrapping ones
(`construct` wraps positions first). -/
def PosOK : List (DAx K) → List K → Prop
  | [], [] => True
  | a :: g, x :: xs => (a.per = true → a.lo ≤ x ∧ x < a.hi) ∧ PosOK g xs
  | _, _ => False

/-- Spec: squared distance of `x` and the image of `y` shifted by `m` box widths. -/
def imageSq : List (DAx K) → List ℤ → List K → List K → K
  | a :: g, m :: ms, x :: xs, y :: ys => (x - y + m * (a.hi - a.lo)) ^ 2 + imageSq g ms xs ys
  | _, _, _, _ => 0

/-- Spec: `m` shifts by whole box widths, in wrapping dimensions only. -/
def Shift (g : List (DAx K)) (m : List ℤ) : Prop :=
  List.Forall₂ (fun (k : ℤ) (a : DAx K) => a.per = false → k = 0) m g

/-- Spec: a call of the body concerns the pair `{i, j}`. -/
def IsPair (i j : ℕ) (v : Visit) : Bool := decide ((v.id1 = i ∧ v.id2 = j) ∨ (v.id1 = j ∧ v.id2 = i))

/-- Spec: the particle is owned, alive and of an interacting type. -/
def Sys.Live (S : Sys K) (i : ℕ) : Prop := i < S.number ∧ 0 ≤ S.type i ∧ S.interacts (S.type i) = true

/-- Spec: the distance below which the pair has to be in the neighbour list. -/
def Sys.range (S : Sys K) (i j : ℕ) : K := (S.rd i + S.rd j) * S.cut (S.type i) (S.type j) + S.skin

/-- The conditions under which the traversal is proved correct. -/
structure Sys.OK (S : Sys K) : Prop where
  /-- the domain was built -/
  valid : ∀ a ∈ S.g, a.Valid
  /-- wrapping dimensions have at least `2*sweep+1` cells -/
  wide : ∀ a ∈ S.g, a.per = true → 2 * sweepOf S.cutoff a.w + 1 ≤ a.n
  /-- the stencil test keeps the half stencil -/
  stencil : StencilComplete S.cutoff (S.g.map DAx.gax)
  cutoff_pos : 0 < S.cutoff
  skin_nonneg : 0 ≤ S.skin
  pos : ∀ i, S.Live i → PosOK S.g (S.x i)
  rd_nonneg : ∀ i, S.Live i → 0 ≤ S.rd i
  /-- there are no large particles -/
  small : ∀ i, S.Live i → S.rd i * S.maxCut (S.type i) ≤ S.mss
  cut_nonneg : ∀ i j, S.Live i → S.Live j → 0 ≤ S.cut (S.type i) (S.type j)
  cut_symm : ∀ i j, S.Live i → S.Live j → S.cut (S.type i) (S.type j) = S.cut (S.type j) (S.type i)
  cut_max : ∀ i j, S.Live i → S.Live j → S.cut (S.type i) (S.type j) ≤ S.maxCut (S.type i)

/-! ## Lists -/

theorem mem_cell {S : Sys K} {c : ℤ} {i : ℕ} : i ∈ S.cell c ↔ S.Live i ∧ S.cellOf i = c := by
  simp only [Sys.cell, List.mem_filter, List.mem_range, Bool.and_eq_true, decide_eq_true_eq, Sys.binned, Sys.Live]
  tauto

theorem cell_sorted (S : Sys K) (c : ℤ) : (S.cell c).Pairwise (· < ·) :=
  List.Pairwise.filter _ List.pairwise_lt_range

theorem inCell_mem {S : Sys K} {i j : ℕ} {v : Visit} (h : v ∈ S.inCell i j) : v.id1 = i ∧ v.id2 = j := by
  unfold Sys.inCell at h
  split_ifs at h <;> simp at h
  subst h; simp

theorem inAdjacent_mem {S : Sys K} {i j : ℕ} {v : Visit} (h : v ∈ S.inAdjacent i j) : v.id1 = i ∧ v.id2 = j := by
  unfold Sys.inAdjacent at h
  split_ifs at h <;> simp at h <;> subst h <;> simp

/-- Calls with first particle `i` and second particle `j`. -/
def isOrd (i j : ℕ) (v : Visit) : Bool := decide (v.id1 = i ∧ v.id2 = j)

theorem filter_flatMap_ids {f : ℕ → List Visit} {i : ℕ} (hf : ∀ k v, v ∈ f k → v.id1 = i ∧ v.id2 = k) (j : ℕ)
    (l : List ℕ) (hl : l.Nodup) : (l.flatMap f).filter (isOrd i j) = if j ∈ l then f j else [] := by
  induction l with
  | nil => simp
  | cons k l ih =>
    obtain ⟨h1, h2⟩ := List.nodup_cons.mp hl
    rw [List.flatMap_cons, List.filter_append, ih h2]
    by_cases hk : k = j
    · subst hk
      rw [if_neg h1, if_pos (by simp), List.append_nil, List.filter_eq_self]
      intro v hv
      simp [isOrd, hf k v hv]
    · have : (f k).filter (isOrd i j) = [] := by
        rw [List.filter_eq_nil_iff]
        intro v hv
        have := hf k v hv
        simp only [isOrd, decide_eq_true_eq]
        rintro ⟨_, h⟩
        exact hk (by rw [← this.2, h])
      rw [this, List.nil_append]
      simp [List.mem_cons, Ne.symm hk]

theorem filter_flatMap_other {f : ℕ → List Visit} {i i' : ℕ} (hi : i' ≠ i)
    (hf : ∀ k v, v ∈ f k → v.id1 = i' ∧ v.id2 = k) (j : ℕ) (l : List ℕ) :
    (l.flatMap f).filter (isOrd i j) = [] := by
  rw [List.filter_eq_nil_iff]
  intro v hv
  obtain ⟨k, _, hk⟩ := List.mem_flatMap.mp hv
  have := hf k v hk
  simp only [isOrd, decide_eq_true_eq]
  rintro ⟨h, _⟩
  exact hi (by rw [← this.1, h])

/-- The calls for the ordered pair made from the adjacent cells. -/
theorem filter_adj (S : Sys K) (i j : ℕ) (hj : S.Live j) (l : List ℤ) :
    (l.flatMap fun d => (S.cell d).flatMap (S.inAdjacent i)).filter (isOrd i j) =
      (List.replicate (l.count (S.cellOf j)) (S.inAdjacent i j)).flatten := by
  induction l with
  | nil => simp
  | cons d l ih =>
    rw [List.flatMap_cons, List.filter_append, ih,
      filter_flatMap_ids (fun k v => inAdjacent_mem) j _ ((cell_sorted S d).imp ne_of_lt)]
    by_cases h : S.cellOf j = d
    · rw [if_pos (mem_cell.mpr ⟨hj, h⟩), h, List.count_cons_self, List.replicate_succ, List.flatten_cons]
    · rw [if_neg (fun hm => h (mem_cell.mp hm).2), List.count_cons_of_ne (fun e => h e.symm), List.nil_append]

/-- What the loop over one particle produces, in the absence of large particles. -/
theorem cellLoop_cons {S : Sys K} (hS : S.OK) {c : ℕ} {i : ℕ} {rest : List ℕ} (hi : S.Live i) :
    S.cellLoop c (i :: rest) =
      rest.flatMap (S.inCell i) ++ ((S.adj c).flatMap fun d => (S.cell d).flatMap (S.inAdjacent i)) ++
      S.cellLoop c rest := by
  rw [Sys.cellLoop, if_neg (by have := hi.2.1; omega), if_pos (show S.sigma i ≤ S.mss from hS.small i hi)]

theorem filter_cellLoop {S : Sys K} (hS : S.OK) {i j : ℕ} (hj : S.Live j) (c : ℕ) :
    ∀ l : List ℕ, l.Pairwise (· < ·) → (∀ k ∈ l, S.Live k) →
      (S.cellLoop c l).filter (isOrd i j) =
        if i ∈ l then (if j ∈ l ∧ i < j then S.inCell i j else []) ++
          (List.replicate ((S.adj c).count (S.cellOf j)) (S.inAdjacent i j)).flatten
        else [] := by
  intro l
  induction l with
  | nil => intro _ _; simp [Sys.cellLoop]
  | cons k l ih =>
    intro hp hl
    obtain ⟨h1, h2⟩ := List.pairwise_cons.mp hp
    have ih' := ih h2 (fun m hm => hl m (List.mem_cons_of_mem _ hm))
    rw [cellLoop_cons hS (hl k (by simp)), List.filter_append, List.filter_append, ih']
    have hnd : l.Nodup := h2.imp ne_of_lt
    by_cases hk : k = i
    · subst hk
      have hkl : k ∉ l := fun h => lt_irrefl _ (h1 k h)
      rw [filter_flatMap_ids (fun m v => inCell_mem) j l hnd, filter_adj S k j hj, if_neg hkl,
        if_pos (show k ∈ k :: l from List.mem_cons_self), List.append_nil]
      congr 1
      by_cases hjl : j ∈ l
      · rw [if_pos hjl, if_pos ⟨by simp [hjl], h1 j hjl⟩]
      · rw [if_neg hjl, if_neg]
        rintro ⟨hm, hlt⟩
        rcases List.mem_cons.mp hm with rfl | hm
        · exact lt_irrefl _ hlt
        · exact hjl hm
    · rw [filter_flatMap_other hk (fun m v => inCell_mem) j l]
      have : ((S.adj c).flatMap fun d => (S.cell d).flatMap (S.inAdjacent k)).filter (isOrd i j) = [] := by
        rw [List.filter_eq_nil_iff]
        intro v hv
        obtain ⟨d, _, hv⟩ := List.mem_flatMap.mp hv
        obtain ⟨m, _, hv⟩ := List.mem_flatMap.mp hv
        have := inAdjacent_mem hv
        simp only [isOrd, decide_eq_true_eq]
        rintro ⟨h, _⟩
        exact hk (by rw [← this.1, h])
      rw [this, List.nil_append, List.nil_append]
      by_cases hil : i ∈ l
      · rw [if_pos hil, if_pos (List.mem_cons_of_mem _ hil)]
        congr 1
        by_cases hjl : j ∈ l ∧ i < j
        · rw [if_pos hjl, if_pos ⟨List.mem_cons_of_mem _ hjl.1, hjl.2⟩]
        · rw [if_neg hjl, if_neg]
          rintro ⟨hm, hlt⟩
          rcases List.mem_cons.mp hm with rfl | hm
          · have := h1 i hil; omega
          · exact hjl ⟨hm, hlt⟩
      · rw [if_neg hil, if_neg]
        intro hm
        rcases List.mem_cons.mp hm with h | hm
        · exact hk h.symm
        · exact hil hm

theorem flatMap_range_single {f : ℕ → List Visit} {p : Visit → Bool} {n c : ℕ} (hc : c < n)
    (h : ∀ d, d ≠ c → (f d).filter p = []) : ((List.range n).flatMap f).filter p = (f c).filter p := by
  induction n with
  | zero => omega
  | succ n ih =>
    rw [List.range_succ, List.flatMap_append, List.filter_append]
    simp only [List.flatMap_cons, List.flatMap_nil, List.append_nil]
    rcases Nat.lt_succ_iff_lt_or_eq.mp hc with h' | h'
    · rw [ih h', h n (by omega), List.append_nil]
    · subst h'
      have : ((List.range c).flatMap f).filter p = [] := by
        rw [List.filter_eq_nil_iff]
        intro v hv
        obtain ⟨d, hd, hv⟩ := List.mem_flatMap.mp hv
        have := h d (by have := List.mem_range.mp hd; omega)
        rw [List.filter_eq_nil_iff] at this
        exact this v hv
      rw [this, List.nil_append]

/-- The calls for an ordered pair in the whole traversal. -/
theorem filter_traverse {S : Sys K} (hS : S.OK) {i j : ℕ} (hi : S.Live i) (hj : S.Live j) {ci : ℕ}
    (hci : S.cellOf i = ci) (hlt : ci < S.dims.prod) :
    S.traverse.filter (isOrd i j) =
      (if S.cellOf j = ci ∧ i < j then S.inCell i j else []) ++
        (List.replicate ((S.adj ci).count (S.cellOf j)) (S.inAdjacent i j)).flatten := by
  unfold Sys.traverse
  rw [flatMap_range_single hlt, filter_cellLoop hS hj ci _ (cell_sorted S ci) (fun k hk => (mem_cell.mp hk).1),
    if_pos (mem_cell.mpr ⟨hi, hci⟩)]
  · congr 1
    have : (j ∈ S.cell (ci : ℤ) ∧ i < j) ↔ (S.cellOf j = ci ∧ i < j) := by
      rw [mem_cell]; tauto
    simp only [this]
  · intro d hd
    rw [filter_cellLoop hS hj d _ (cell_sorted S d) (fun k hk => (mem_cell.mp hk).1), if_neg]
    intro hm
    have := (mem_cell.mp hm).2
    rw [hci] at this
    exact hd (by exact_mod_cast this.symm)

/-! ## Geometry -/

theorem DAx.Valid.axis {a : DAx K} (h : a.Valid) : a.axis.Valid :=
  ⟨h.lohi, h.wpos, by simpa [DAx.axis] using h.npos, by simpa [DAx.axis] using h.tiles⟩

theorem sweep_ge {cutoff w : K} (hw : 0 < w) : cutoff ≤ (sweepOf cutoff w : K) * w := by
  have h1 : cutoff / w ≤ (⌈cutoff / w⌉ : K) := Int.le_ceil _
  have h2 : (⌈cutoff / w⌉ : ℤ) ≤ ((⌈cutoff / w⌉.toNat : ℕ) : ℤ) := Int.self_le_toNat _
  have h3 : ((⌈cutoff / w⌉ : ℤ) : K) ≤ ((⌈cutoff / w⌉.toNat : ℕ) : K) := by exact_mod_cast h2
  rw [sweepOf, ← div_le_iff₀ hw]
  linarith

theorem sweep_pos {cutoff w : K} (hw : 0 < w) (hc : 0 < cutoff) : 1 ≤ sweepOf cutoff w := by
  have : 0 < ⌈cutoff / w⌉ := Int.ceil_pos.mpr (div_pos hc hw)
  unfold sweepOf
  omega

theorem floor_close {u v : K} {s : ℕ} {k : ℤ} (h : |u - v + k| < s) : |⌊v⌋ - ⌊u⌋ - k| ≤ s := by
  rw [abs_lt] at h
  have h1 : ⌊u⌋ ≤ ⌊v⌋ + s - k := by
    rw [show ⌊v⌋ + (s : ℤ) - k = ⌊v⌋ + ((s : ℤ) - k) by ring, ← Int.floor_add_intCast]
    apply Int.floor_mono
    push_cast
    linarith [h.2]
  have h2 : ⌊v⌋ ≤ ⌊u⌋ + s + k := by
    rw [show ⌊u⌋ + (s : ℤ) + k = ⌊u⌋ + ((s : ℤ) + k) by ring, ← Int.floor_add_intCast]
    apply Int.floor_mono
    push_cast
    linarith [h.1]
  rw [abs_le]
  constructor <;> omega

/-- Positions closer than the cutoff (up to box widths) lie in cells within the sweep. -/
theorem near_of_close {a : DAx K} (ha : a.Valid) {cutoff : K} {x y : K} {m : ℤ}
    (hm : a.per = false → m = 0) (hx : a.per = true → a.lo ≤ x ∧ x < a.hi) (hy : a.per = true → a.lo ≤ y ∧ y < a.hi)
    (h : |x - y + m * (a.hi - a.lo)| < cutoff) :
    Near1 (a.gax.ax cutoff) (cellCoord a.axis x) (cellCoord a.axis y) := by
  have hw := ha.wpos
  have hn := ha.npos
  have hs := sweep_ge (cutoff := cutoff) hw
  have e : (x - a.lo) / a.w - (y - a.lo) / a.w + ((m * (a.n : ℤ) : ℤ) : K) =
      (x - y + m * (a.hi - a.lo)) / a.w := by
    rw [← ha.tiles]; push_cast; field_simp; ring
  have hlt : |(x - a.lo) / a.w - (y - a.lo) / a.w + ((m * (a.n : ℤ) : ℤ) : K)| < (sweepOf cutoff a.w : K) := by
    rw [e, abs_div, abs_of_pos hw, div_lt_iff₀ hw]; linarith
  have hf := floor_close hlt
  rw [cellCoord_eq ha.axis, cellCoord_eq ha.axis]
  simp only [DAx.axis, Nat.cast_zero, add_zero, sub_zero]
  by_cases hp : a.per = true
  · have fb : ∀ z : K, a.lo ≤ z → z < a.hi → 0 ≤ ⌊(z - a.lo) / a.w⌋ ∧ ⌊(z - a.lo) / a.w⌋ < a.n := by
      intro z h1 h2
      constructor
      · exact Int.floor_nonneg.mpr (div_nonneg (by linarith) hw.le)
      · rw [Int.floor_lt, div_lt_iff₀ hw]
        have := ha.tiles
        push_cast
        linarith
    have b1 := fb x (hx hp).1 (hx hp).2
    have b2 := fb y (hy hp).1 (hy hp).2
    right
    refine ⟨hp, -m, ?_⟩
    simp only [DAx.gax, GAx.ax]
    rw [max_eq_right (by omega), max_eq_right (by omega), min_eq_left (by omega), min_eq_left (by omega)]
    rw [show -m * (a.n : ℤ) = -(m * a.n) by ring, ← sub_eq_add_neg]
    exact hf
  · have hm0 := hm (by simpa using hp)
    subst hm0
    left
    simp only [DAx.gax, GAx.ax]
    simp only [zero_mul, sub_zero] at hf
    rw [abs_le] at hf ⊢
    constructor <;> omega

theorem imageSq_nonneg (g : List (DAx K)) (m : List ℤ) (x y : List K) : 0 ≤ imageSq g m x y := by
  induction g generalizing m x y with
  | nil => simp [imageSq]
  | cons a g ih =>
    match m, x, y with
    | [], _, _ => simp [imageSq]
    | _ :: _, [], _ => simp [imageSq]
    | _ :: _, _ :: _, [] => simp [imageSq]
    | k :: m, x :: xs, y :: ys =>
      simp only [imageSq]
      have := ih m xs ys
      positivity

theorem distSq_nonneg (x y : List K) : 0 ≤ distSq x y := by
  induction x generalizing y with
  | nil => simp [distSq]
  | cons a x ih =>
    cases y with
    | nil => simp [distSq]
    | cons b y =>
      simp only [distSq]
      have := ih y
      positivity

theorem abs_lt_of_sq_add_lt {u r c : K} (hc : 0 ≤ c) (hr : 0 ≤ r) (h : u ^ 2 + r < c ^ 2) : |u| < c :=
  abs_lt_of_sq_lt_sq (by linarith) hc

/-- The cells of two particles closer than the cutoff are in sweep range of each other. -/
theorem near_cells {g : List (DAx K)} (hv : ∀ a ∈ g, a.Valid) {cutoff c : K} (hcc : c ≤ cutoff)
    (h0 : 0 ≤ c) {m : List ℤ} (hm : Shift g m) {x y : List K} (hx : PosOK g x) (hy : PosOK g y)
    (h : imageSq g m x y < c ^ 2) {s t : List ℕ} (hs : cellTuple (g.map DAx.axis) x = s.map (↑))
    (ht : cellTuple (g.map DAx.axis) y = t.map (↑)) : Near (g.map fun a => a.gax.ax cutoff) s t := by
  induction g generalizing m x y s t with
  | nil => cases s <;> cases t <;> trivial
  | cons a g ih =>
    cases hm with
    | @cons k _ m _ hk hm =>
      match x, y with
      | [], _ => simp [PosOK] at hx
      | _ :: _, [] => simp [PosOK] at hy
      | x :: xs, y :: ys =>
        simp only [PosOK] at hx hy
        simp only [List.map_cons, cellTuple] at hs ht
        match s, t with
        | [], _ => simp at hs
        | _ :: _, [] => simp at ht
        | i :: s, j :: t =>
          simp only [List.map_cons, List.cons.injEq] at hs ht
          simp only [imageSq] at h
          simp only [List.map_cons, Near]
          have hn := imageSq_nonneg g m xs ys
          constructor
          · rw [← hs.1, ← ht.1]
            exact near_of_close (hv a (by simp)) hk hx.1 hy.1
              (lt_of_lt_of_le (abs_lt_of_sq_add_lt h0 hn h) hcc)
          · refine ih (fun b hb => hv b (List.mem_cons_of_mem _ hb)) hm hx.2 hy.2 ?_ hs.2 ht.2
            have : 0 ≤ (x - y + k * (a.hi - a.lo)) ^ 2 := sq_nonneg _
            linarith

theorem imageSq_zero {g : List (DAx K)} {m : List ℤ} (hm : ∀ k ∈ m, k = 0) {x y : List K} (hl : m.length = g.length)
    (hx : PosOK g x) (hy : PosOK g y) : imageSq g m x y = distSq x y := by
  induction g generalizing m x y with
  | nil =>
    cases x with
    | nil => simp [imageSq, distSq]
    | cons _ _ => simp [PosOK] at hx
  | cons a g ih =>
    match m, x, y with
    | [], _, _ => simp at hl
    | _ :: _, [], _ => simp [PosOK] at hx
    | _ :: _, _ :: _, [] => simp [PosOK] at hy
    | k :: m, x :: xs, y :: ys =>
      simp only [imageSq, distSq]
      simp only [PosOK] at hx hy
      rw [ih (fun b hb => hm b (List.mem_cons_of_mem _ hb)) (by simpa using hl) hx.2 hy.2, hm k (by simp)]
      simp

theorem foldl_min_le (g : List (DAx K)) (m0 : K) :
    let r := g.foldl (fun m b => if (1/2 * (b.hi - b.lo)) ^ 2 < m then (1/2 * (b.hi - b.lo)) ^ 2 else m) m0
    r ≤ m0 ∧ ∀ a ∈ g, r ≤ (1/2 * (a.hi - a.lo)) ^ 2 := by
  induction g generalizing m0 with
  | nil => simp
  | cons b g ih =>
    simp only [List.foldl_cons]
    obtain ⟨h1, h2⟩ := ih (if (1/2 * (b.hi - b.lo)) ^ 2 < m0 then (1/2 * (b.hi - b.lo)) ^ 2 else m0)
    refine ⟨le_trans h1 ?_, fun a ha => ?_⟩
    · split_ifs with h
      · exact h.le
      · exact le_rfl
    · rcases List.mem_cons.mp ha with rfl | ha
      · refine le_trans h1 ?_
        split_ifs with h
        · exact le_rfl
        · exact not_lt.mp h
      · exact h2 a ha

theorem maxReasonable_le {g : List (DAx K)} {a : DAx K} (ha : a ∈ g) :
    maxReasonable g ≤ (1/2 * (a.hi - a.lo)) ^ 2 := by
  cases g with
  | nil => simp at ha
  | cons b g =>
    obtain ⟨h1, h2⟩ := foldl_min_le g ((1/2 * (b.hi - b.lo)) ^ 2)
    rcases List.mem_cons.mp ha with rfl | ha
    · exact h1
    · exact h2 a ha

/-- A pair that is close only across the boundary is far apart without wrapping, and not in the same cell. -/
theorem far_of_shift {g : List (DAx K)} (hv : ∀ a ∈ g, a.Valid) {cutoff c : K} (hc : 0 < cutoff) (hcc : c ≤ cutoff)
    (h0 : 0 ≤ c) (hwide : ∀ a ∈ g, a.per = true → 2 * sweepOf cutoff a.w + 1 ≤ a.n)
    {m : List ℤ} (hm : Shift g m) {x y : List K} (hx : PosOK g x) (hy : PosOK g y)
    (h : imageSq g m x y < c ^ 2) (hne : ∃ k ∈ m, k ≠ 0) :
    ∃ a ∈ g, c ^ 2 ≤ (1/2 * (a.hi - a.lo)) ^ 2 ∧ (1/2 * (a.hi - a.lo)) ^ 2 < distSq x y ∧
      cellTuple (g.map DAx.axis) x ≠ cellTuple (g.map DAx.axis) y := by
  induction g generalizing m x y with
  | nil => cases hm; simp at hne
  | cons a g ih =>
    cases hm with
    | @cons k _ m _ hk hm =>
      match x, y with
      | [], _ => simp [PosOK] at hx
      | _ :: _, [] => simp [PosOK] at hy
      | x :: xs, y :: ys =>
        simp only [PosOK] at hx hy
        simp only [imageSq] at h
        have hn := imageSq_nonneg g m xs ys
        have hd := distSq_nonneg xs ys
        by_cases hk0 : k = 0
        · have hne' : ∃ k ∈ m, k ≠ 0 := by
            obtain ⟨l, hl, hl0⟩ := hne
            rcases List.mem_cons.mp hl with rfl | hl
            · exact absurd hk0 hl0
            · exact ⟨l, hl, hl0⟩
          have hsq : 0 ≤ (x - y + k * (a.hi - a.lo)) ^ 2 := sq_nonneg _
          obtain ⟨b, hb, e1, e2, e3⟩ := ih (fun b hb => hv b (List.mem_cons_of_mem _ hb))
            (fun b hb => hwide b (List.mem_cons_of_mem _ hb)) hm hx.2 hy.2 (by linarith) hne'
          refine ⟨b, List.mem_cons_of_mem _ hb, e1, ?_, ?_⟩
          · simp only [distSq]
            have : 0 ≤ (x - y) ^ 2 := sq_nonneg _
            linarith
          · simp only [List.map_cons, cellTuple]
            intro he
            exact e3 (List.cons.inj he).2
        · have hper : a.per = true := by
            by_contra hp
            exact hk0 (hk (by simpa using hp))
          have hva := hv a (by simp)
          have hw := hva.wpos
          have hab : |x - y + k * (a.hi - a.lo)| < c := abs_lt_of_sq_add_lt h0 hn h
          have hL : 0 < a.hi - a.lo := sub_pos.mpr hva.lohi
          have hsw := sweep_ge (cutoff := cutoff) hw
          have hs1 := sweep_pos hw hc
          have hwd := hwide a (by simp) hper
          have hnK : (2 : K) * (sweepOf cutoff a.w : K) + 1 ≤ a.n := by exact_mod_cast hwd
          have ht := hva.tiles
          have hhalf : cutoff + a.w / 2 ≤ 1/2 * (a.hi - a.lo) := by
            rw [← ht]; nlinarith
          have hbig : 1/2 * (a.hi - a.lo) + a.w / 2 ≤ |x - y| := by
            have hk1 : (1 : K) ≤ |(k : K)| := by
              have : (1 : ℤ) ≤ |k| := Int.one_le_abs hk0
              exact_mod_cast this
            have h1 : |(k : K) * (a.hi - a.lo)| ≤ |x - y| + |x - y + k * (a.hi - a.lo)| := by
              have := abs_sub_abs_le_abs_sub (x - y + k * (a.hi - a.lo)) (x - y)
              have h2 := abs_sub (x - y + k * (a.hi - a.lo)) (x - y)
              rw [show x - y + k * (a.hi - a.lo) - (x - y) = k * (a.hi - a.lo) by ring] at h2
              linarith
            rw [abs_mul, abs_of_pos hL] at h1
            nlinarith
          refine ⟨a, by simp, ?_, ?_, ?_⟩
          · apply pow_le_pow_left₀ h0; linarith
          · simp only [distSq]
            have : (1/2 * (a.hi - a.lo)) ^ 2 < (x - y) ^ 2 := by
              rw [← sq_abs (x - y)]
              apply pow_lt_pow_left₀ (by linarith) (by positivity) (by norm_num)
            linarith
          · simp only [List.map_cons, cellTuple]
            intro he
            have he1 := (List.cons.inj he).1
            obtain ⟨i, hi, hbi⟩ := cellCoord_belongs hva.axis x
            obtain ⟨j, hj, hbj⟩ := cellCoord_belongs hva.axis y
            rw [hi, hj] at he1
            have : i = j := by exact_mod_cast he1
            subst this
            have b1 := hbi.2.2.1 (hx.1 hper).1 (hx.1 hper).2
            have b2 := hbj.2.2.1 (hy.1 hper).1 (hy.1 hper).2
            simp only [DAx.axis] at b1 b2
            have hlt : |x - y| < a.w := by rw [abs_lt]; constructor <;> nlinarith
            have hsK : (1 : K) ≤ (sweepOf cutoff a.w : K) := by exact_mod_cast hs1
            nlinarith

theorem posOK_length {g : List (DAx K)} {x : List K} (h : PosOK g x) : x.length = g.length := by
  induction g generalizing x with
  | nil => cases x with
    | nil => rfl
    | cons _ _ => simp [PosOK] at h
  | cons a g ih => cases x with
    | nil => simp [PosOK] at h
    | cons x xs => simp [ih h.2]

/-- Every live particle sits in an existing cell. -/
theorem live_cell {S : Sys K} (hS : S.OK) {i : ℕ} (hi : S.Live i) :
    ∃ (l : ℕ) (t : List ℕ), S.cellOf i = l ∧ l < S.dims.prod ∧ getAddressCM S.dims l = t ∧
      cellTuple (S.g.map DAx.axis) (S.x i) = t.map (↑) ∧ InGrid S.dims t := by
  have hdims : (S.g.map DAx.axis).map Axis.dim = S.dims := by rw [List.map_map]; rfl
  have key : ∀ (g : List (DAx K)) (x : List K), (∀ a ∈ g, a.Valid) → PosOK g x →
      ∃ t : List ℕ, cellTuple (g.map DAx.axis) x = t.map (↑) ∧ InGrid (g.map DAx.n) t := by
    intro g
    induction g with
    | nil => intro x _ h; exact ⟨[], by cases x <;> rfl, List.Forall₂.nil⟩
    | cons a g ih =>
      intro x hv hx
      cases x with
      | nil => simp [PosOK] at hx
      | cons x xs =>
        obtain ⟨t, h1, h2⟩ := ih xs (fun b hb => hv b (List.mem_cons_of_mem _ hb)) hx.2
        obtain ⟨k, h3, h4⟩ := cellCoord_belongs (hv a (by simp)).axis x
        refine ⟨k :: t, by simp [cellTuple, h1, h3], List.Forall₂.cons ?_ h2⟩
        have := h4.2.1
        simp only [DAx.axis] at this
        omega
  obtain ⟨t, h1, h2⟩ := key S.g (S.x i) hS.valid (hS.pos i hi)
  obtain ⟨l, e1, e2, e3⟩ := (C24_addresses_inverse S.dims).2 t h2
  exact ⟨l, t, by rw [Sys.cellOf, cellIndex, hdims, h1, e1], e2, e3, h1, h2⟩

theorem distSq_comm (x y : List K) : distSq x y = distSq y x := by
  induction x generalizing y with
  | nil => cases y <;> rfl
  | cons a x ih => cases y with
    | nil => rfl
    | cons b y => simp only [distSq, ih y]; ring

theorem isPair_count {i j : ℕ} (h : i ≠ j) (l : List Visit) :
    l.countP (IsPair i j) = (l.filter (isOrd i j)).length + (l.filter (isOrd j i)).length := by
  induction l with
  | nil => rfl
  | cons v l ih =>
    rw [List.countP_cons, List.filter_cons, List.filter_cons, ih]
    by_cases h1 : v.id1 = i ∧ v.id2 = j
    · have h2 : ¬ (v.id1 = j ∧ v.id2 = i) := fun h2 => h (by rw [← h1.1, h2.1])
      simp only [IsPair, isOrd, h1, h2, true_or, decide_true, decide_false, if_true, List.length_cons]
      simp only [true_and, and_self, decide_true, if_true, true_or]
      have : ¬ (i = j ∧ j = i) := fun e => h e.1
      simp only [this, decide_false, Bool.false_eq_true, if_false, List.length_cons]
      omega
    · by_cases h2 : v.id1 = j ∧ v.id2 = i
      · have : ¬ (j = i ∧ i = j) := fun e => h e.2
        simp only [IsPair, isOrd, h2, and_self, or_true, decide_true, if_true, this, decide_false, Bool.false_eq_true,
          if_false, List.length_cons]
        omega
      · simp only [IsPair, isOrd, h1, h2, or_self, decide_false, Bool.false_eq_true, if_false]
        omega

theorem inCell_length (S : Sys K) (i j : ℕ) : (S.inCell i j).length ≤ 1 := by
  unfold Sys.inCell; split_ifs <;> simp

theorem inAdjacent_length (S : Sys K) (i j : ℕ) : (S.inAdjacent i j).length ≤ 1 := by
  unfold Sys.inAdjacent; split_ifs <;> simp

/-- Number of times that cells list one another. -/
theorem adj_count {S : Sys K} (hS : S.OK) {ci cj : ℕ} (hi : ci < S.dims.prod) (hj : cj < S.dims.prod) :
    (S.adj ci).count (cj : ℤ) + (S.adj cj).count (ci : ℤ) ≤ (if ci = cj then 0 else 1) ∧
    (ci ≠ cj → Near (S.g.map fun a => a.gax.ax S.cutoff) (getAddressCM S.dims ci) (getAddressCM S.dims cj) →
      (S.adj ci).count (cj : ℤ) + (S.adj cj).count (ci : ℤ) = 1) := by
  have hd : (S.g.map DAx.gax).map GAx.n = S.dims := by rw [List.map_map]; rfl
  have ha : (S.g.map DAx.gax).map (GAx.ax S.cutoff) = S.g.map fun a => a.gax.ax S.cutoff := by rw [List.map_map]; rfl
  classical
  obtain ⟨Ai, Aj, h1, h2, _, h4⟩ := C27_pairs_once_partial S.cutoff (S.g.map DAx.gax)
    (by
      intro a ha hp
      obtain ⟨b, hb, rfl⟩ := List.mem_map.mp ha
      exact hS.wide b hb hp) hS.stencil ci cj (by rw [hd]; exact hi) (by rw [hd]; exact hj)
  rw [hd, ha] at h4
  have e1 : S.adj ci = Ai := by simp [Sys.adj, h1]
  have e2 : S.adj cj = Aj := by simp [Sys.adj, h2]
  rw [e1, e2, h4]
  constructor
  · by_cases hc : ci = cj
    · rw [if_pos hc, if_neg (by tauto)]
    · rw [if_neg hc]; split_ifs <;> omega
  · intro hne hN
    rw [if_pos ⟨hne, hN⟩]

theorem range_le_cutoff {S : Sys K} (hS : S.OK) {i j : ℕ} (hi : S.Live i) (hj : S.Live j) :
    0 ≤ S.range i j ∧ S.range i j ≤ S.cutoff := by
  have a1 := hS.rd_nonneg i hi
  have a2 := hS.rd_nonneg j hj
  have a3 := hS.cut_nonneg i j hi hj
  have a4 := hS.skin_nonneg
  have b1 := mul_le_mul_of_nonneg_left (hS.cut_max i j hi hj) a1
  have b2 := mul_le_mul_of_nonneg_left (hS.cut_max j i hj hi) a2
  rw [hS.cut_symm j i hj hi] at b2
  have c1 := hS.small i hi
  have c2 := hS.small j hj
  unfold Sys.range Sys.cutoff
  constructor
  · positivity
  · linarith

theorem range_comm {S : Sys K} (hS : S.OK) {i j : ℕ} (hi : S.Live i) (hj : S.Live j) :
    S.range i j = S.range j i := by
  unfold Sys.range
  rw [hS.cut_symm i j hi hj]; ring

theorem flatten_replicate_length {α : Type*} (n : ℕ) (l : List α) :
    (List.replicate n l).flatten.length = n * l.length := by simp

/-- **C28 (partial), no pair twice.** In every configuration that meets `Sys.OK` the traversal calls the body at most
once for each pair of particles and never for a particle and itself. -/
theorem C28_no_pair_twice_partial (S : Sys K) (hS : S.OK) (i j : ℕ) (hi : S.Live i) (hj : S.Live j) :
    S.traverse.countP (IsPair i j) ≤ (if i = j then 0 else 1) := by
  obtain ⟨ci, ti, h1, h2, h3, h4, h5⟩ := live_cell hS hi
  obtain ⟨cj, tj, k1, k2, k3, k4, k5⟩ := live_cell hS hj
  have fij := filter_traverse hS hi hj h1 h2
  have fji := filter_traverse hS hj hi k1 k2
  rw [k1] at fij
  rw [h1] at fji
  obtain ⟨ac, _⟩ := adj_count hS h2 k2
  by_cases hij : i = j
  · subst hij
    have hc : ci = cj := by rw [h1] at k1; exact_mod_cast k1
    subst hc
    rw [if_pos rfl] at ac ⊢
    rw [if_neg (by omega), show (S.adj ci).count (ci : ℤ) = 0 by omega] at fij
    have : S.traverse.countP (IsPair i i) = S.traverse.countP (isOrd i i) := by
      congr 1; funext v; simp [IsPair, isOrd]
    rw [this, List.countP_eq_length_filter, fij]
    simp
  · rw [if_neg hij, isPair_count hij, fij, fji, List.length_append, List.length_append, flatten_replicate_length,
      flatten_replicate_length]
    have l1 := inCell_length S i j
    have l2 := inCell_length S j i
    have l3 := inAdjacent_length S i j
    have l4 := inAdjacent_length S j i
    by_cases hc : ci = cj
    · subst hc
      rw [if_pos rfl] at ac
      rw [show (S.adj ci).count (ci : ℤ) = 0 by omega]
      simp only [zero_mul, add_zero, true_and]
      rcases lt_or_gt_of_ne hij with h | h
      · rw [if_pos h, if_neg (by omega)]; simpa using l1
      · rw [if_neg (by omega), if_pos h]; simpa using l2
    · rw [if_neg hc] at ac
      rw [if_neg (fun e => hc (by exact_mod_cast e.1.symm)), if_neg (fun e => hc (by exact_mod_cast e.1))]
      have m1 := Nat.mul_le_mul_left ((S.adj ci).count (cj : ℤ)) l3
      have m2 := Nat.mul_le_mul_left ((S.adj cj).count (ci : ℤ)) l4
      simp only [List.length_nil]
      omega

theorem inAdjacent_zero {S : Sys K} (hS : S.OK) {i j : ℕ} (hj : S.Live j)
    (h : distSq (S.x i) (S.x j) < S.range i j ^ 2) : S.inAdjacent i j = [⟨i, j, 0⟩] := by
  unfold Sys.inAdjacent
  rw [if_neg, if_pos (by exact h)]
  push Not
  exact ⟨hj.2.1, hS.small j hj⟩

theorem inAdjacent_one {S : Sys K} (hS : S.OK) {i j : ℕ} (hj : S.Live j)
    (h : S.range i j ^ 2 ≤ distSq (S.x i) (S.x j)) (h' : maxReasonable S.g < distSq (S.x i) (S.x j)) :
    S.inAdjacent i j = [⟨i, j, 1⟩] := by
  unfold Sys.inAdjacent
  rw [if_neg, if_neg (by exact not_lt.mpr h), if_pos h']
  push Not
  exact ⟨hj.2.1, hS.small j hj⟩

/-- **C28 (partial), no interacting pair is missed.** In every configuration that meets `Sys.OK`, for all live
particles `i ≠ j`: if some image of `j` is closer to `i` than their interaction range plus skin, then the body is called
exactly once for the pair, as a plain pair if it is `j` itself and as a wrapped pair if it is an image across a wrapping
boundary; provided that the cutoff of the pair is at most 1 or the particles are in different cells.
Missing: same-cell pairs with cutoff above 1 (`C28_negation_same_cell`), large particles (`C28_negation_large`),
incomplete stencils and small grids (see C27). -/
theorem C28_no_pair_missed_partial (S : Sys K) (hS : S.OK) (i j : ℕ) (hi : S.Live i) (hj : S.Live j) (hij : i ≠ j)
    (m : List ℤ) (hm : Shift S.g m) (hr : imageSq S.g m (S.x i) (S.x j) < S.range i j ^ 2)
    (hcell : S.cut (S.type i) (S.type j) ≤ 1 ∨ S.cellOf i ≠ S.cellOf j) :
    S.traverse.countP (IsPair i j) = 1 ∧
    ∃ v ∈ S.traverse, IsPair i j v = true ∧ v.list = if (∀ k ∈ m, k = 0) then 0 else 1 := by
  obtain ⟨ci, ti, h1, h2, h3, h4, h5⟩ := live_cell hS hi
  obtain ⟨cj, tj, k1, k2, k3, k4, k5⟩ := live_cell hS hj
  have fij := filter_traverse hS hi hj h1 h2
  have fji := filter_traverse hS hj hi k1 k2
  rw [k1] at fij
  rw [h1] at fji
  obtain ⟨ac, ac'⟩ := adj_count hS h2 k2
  obtain ⟨r0, rc⟩ := range_le_cutoff hS hi hj
  have hmlen : m.length = S.g.length := List.Forall₂.length_eq hm
  have hsmall : ∀ k, S.Live k → ¬ (S.type k < 0 ∨ S.sigma k > S.mss) := by
    intro k hk
    push Not
    exact ⟨hk.2.1, hS.small k hk⟩
  have key : S.traverse.countP (IsPair i j) = 1 ∧
      (⟨i, j, if (∀ k ∈ m, k = 0) then 0 else 1⟩ ∈ S.traverse ∨
       ⟨j, i, if (∀ k ∈ m, k = 0) then 0 else 1⟩ ∈ S.traverse) := by
    by_cases hc : ci = cj
    · subst hc
      have hm0 : ∀ k ∈ m, k = 0 := by
        by_contra hne
        push Not at hne
        obtain ⟨a, _, _, _, e3⟩ := far_of_shift hS.valid hS.cutoff_pos rc r0 hS.wide hm (hS.pos i hi) (hS.pos j hj) hr hne
        rw [h4, k4, ← h3, ← k3] at e3
        exact e3 rfl
      rw [imageSq_zero hm0 hmlen (hS.pos i hi) (hS.pos j hj)] at hr
      have hcut : S.cut (S.type i) (S.type j) ≤ 1 := by
        rcases hcell with h | h
        · exact h
        · exact absurd (by rw [h1, k1]) h
      have ri := hS.rd_nonneg i hi
      have rj := hS.rd_nonneg j hj
      have icell : ∀ a b, S.Live a → S.Live b → S.cut (S.type a) (S.type b) ≤ 1 →
          distSq (S.x a) (S.x b) < S.range a b ^ 2 → S.inCell a b = [⟨a, b, 0⟩] := by
        intro a b ha hb hcab hd
        unfold Sys.inCell
        rw [if_neg, if_pos]
        · refine lt_of_lt_of_le hd (pow_le_pow_left₀ (range_le_cutoff hS ha hb).1 ?_ 2)
          have := mul_le_mul_of_nonneg_left hcab (hS.rd_nonneg a ha)
          unfold Sys.range
          linarith
        · push Not
          exact ⟨ha.2.1, hS.small b hb⟩
      rw [if_pos rfl] at ac
      have hz : (S.adj ci).count (ci : ℤ) = 0 := by omega
      rw [hz, List.replicate_zero, List.flatten_nil, List.append_nil] at fij fji
      simp only [true_and] at fij fji
      rw [if_pos hm0, isPair_count hij]
      rcases lt_or_gt_of_ne hij with h | h
      · rw [if_pos h, icell i j hi hj hcut hr] at fij
        rw [if_neg (by omega)] at fji
        rw [fij, fji]
        refine ⟨rfl, Or.inl ?_⟩
        have : (⟨i, j, 0⟩ : Visit) ∈ S.traverse.filter (isOrd i j) := by rw [fij]; simp
        exact (List.mem_filter.mp this).1
      · rw [if_pos h, icell j i hj hi (by rw [hS.cut_symm j i hj hi]; exact hcut)
          (by rw [distSq_comm, range_comm hS hj hi]; exact hr)] at fji
        rw [if_neg (by omega)] at fij
        rw [fij, fji]
        refine ⟨rfl, Or.inr ?_⟩
        have : (⟨j, i, 0⟩ : Visit) ∈ S.traverse.filter (isOrd j i) := by rw [fji]; simp
        exact (List.mem_filter.mp this).1
    · have hnear := near_cells hS.valid rc r0 hm (hS.pos i hi) (hS.pos j hj) hr h4 k4
      rw [← h3, ← k3] at hnear
      have hcount := ac' hc hnear
      rw [if_neg (fun e => hc (by exact_mod_cast e.1.symm)), List.nil_append] at fij
      rw [if_neg (fun e => hc (by exact_mod_cast e.1)), List.nil_append] at fji
      have kinds : S.inAdjacent i j = [⟨i, j, if (∀ k ∈ m, k = 0) then 0 else 1⟩] ∧
          S.inAdjacent j i = [⟨j, i, if (∀ k ∈ m, k = 0) then 0 else 1⟩] := by
        by_cases hm0 : ∀ k ∈ m, k = 0
        · rw [imageSq_zero hm0 hmlen (hS.pos i hi) (hS.pos j hj)] at hr
          rw [if_pos hm0]
          exact ⟨inAdjacent_zero hS hj hr, inAdjacent_zero hS hi (by rw [distSq_comm, range_comm hS hj hi]; exact hr)⟩
        · rw [if_neg hm0]
          push Not at hm0
          obtain ⟨a, ha, e1, e2, _⟩ := far_of_shift hS.valid hS.cutoff_pos rc r0 hS.wide hm (hS.pos i hi) (hS.pos j hj) hr hm0
          have e3 : maxReasonable S.g < distSq (S.x i) (S.x j) := lt_of_le_of_lt (maxReasonable_le ha) e2
          have e4 : S.range i j ^ 2 ≤ distSq (S.x i) (S.x j) := by linarith
          exact ⟨inAdjacent_one hS hj e4 e3,
            inAdjacent_one hS hi (by rw [distSq_comm, range_comm hS hj hi]; exact e4) (by rw [distSq_comm]; exact e3)⟩
      rw [kinds.1] at fij
      rw [kinds.2] at fji
      constructor
      · rw [isPair_count hij, fij, fji, flatten_replicate_length, flatten_replicate_length]
        simpa using hcount
      · rcases Nat.eq_zero_or_pos ((S.adj ci).count (cj : ℤ)) with h | h
        · right
          have h' : (S.adj cj).count (ci : ℤ) = 1 := by omega
          rw [h'] at fji
          have : (⟨j, i, if (∀ k ∈ m, k = 0) then 0 else 1⟩ : Visit) ∈ S.traverse.filter (isOrd j i) := by
            rw [fji]; simp
          exact (List.mem_filter.mp this).1
        · left
          have h' : (S.adj ci).count (cj : ℤ) = 1 := by omega
          rw [h'] at fij
          have : (⟨i, j, if (∀ k ∈ m, k = 0) then 0 else 1⟩ : Visit) ∈ S.traverse.filter (isOrd i j) := by
            rw [fij]; simp
          exact (List.mem_filter.mp this).1
  refine ⟨key.1, ?_⟩
  rcases key.2 with h | h
  · exact ⟨_, h, by simp [IsPair], rfl⟩
  · exact ⟨_, h, by simp [IsPair], rfl⟩

end field
end Verif.Cells
