import Verif.Domain.GhostPairs
import Mathlib.Data.Rat.Floor
import Mathlib.Tactic.NormNum
import Mathlib.Tactic.Linarith
import Mathlib.Tactic.FieldSimp

/-!
# Pairs of a processor's own particles (C180)

Models `Domain::traversePairs` (`domains/domain.cpp:98-199`) on the grid of any processor, with halo cells where the region
has neighbours (C28 treats the grid of a processor that is alone). The grid, its halo cells and the cells of particles are
those of C149. -/

set_option linter.unusedSectionVars false
set_option linter.unusedSimpArgs false

namespace Verif.OwnPairs
open Verif.Grid Verif.Stencil Verif.Cells Verif.GhostPairs

section field
variable {K : Type*} [Field K] [LinearOrder K] [IsStrictOrderedRing K] [FloorRing K]

/-! ## The model -/

/-- What the traversal reads: the state of C149 and `max_cutoffs` (`domains/domain.cpp:100`). -/
structure OSys (K : Type*) extends GSys K where
  maxCut : ℤ → K

/-- `sigma1`, `domains/domain.cpp:127`. -/
def OSys.sigma (S : OSys K) (i : ℕ) : K := S.rd i * S.maxCut (S.type i)

/-- `max_reasonable`, `domains/domain.cpp:106-110`: from the bounds of the simulation. -/
def OSys.far (S : OSys K) : K := maxReasonable (S.g.map HAx.dax)

/-- The test for a pair in the same cell, `domains/domain.cpp:132-140`. -/
def OSys.inCell (S : OSys K) (cut : ℤ → ℤ → K) (i j : ℕ) : List Visit :=
  if S.type i < 0 ∨ S.sigma j > S.mss then []
  else if distSq (S.x i) (S.x j) < (S.rd i + S.rd j * cut (S.type i) (S.type j) + S.skin) ^ 2 then [⟨i, j, 0⟩]
  else []

/-- The test for a pair in adjacent cells, `domains/domain.cpp:143-152`. -/
def OSys.inAdjacent (S : OSys K) (cut : ℤ → ℤ → K) (i j : ℕ) : List Visit :=
  if S.type j < 0 ∨ S.sigma j > S.mss then []
  else if distSq (S.x i) (S.x j) < ((S.rd i + S.rd j) * cut (S.type i) (S.type j) + S.skin) ^ 2 then [⟨i, j, 0⟩]
  else if distSq (S.x i) (S.x j) > S.far then [⟨i, j, 1⟩]
  else []

/-- `get_cell_index_tuple`, `base/domainbase.cpp:63-66` (no clamping). -/
def shiftTuple : List (Axis K) → List K → List ℤ
  | a :: g, x :: xs => (trunc ((x - a.lo) * (1 / a.w)) + a.down) :: shiftTuple g xs
  | _, _ => []

/-- `search_dims` for a large particle, `domains/domain.cpp:158-168`. -/
def OSys.largeSearch (S : OSys K) (i : ℕ) : List ℕ :=
  S.g.map fun a => min (2 * (⌈(2 * S.sigma i + S.skin) / a.ax.w⌉.toNat + 1)) a.ax.dim

/-- The search of a large particle, `domains/domain.cpp:155-196`. -/
def OSys.large (S : OSys K) (cut : ℤ → ℤ → K) (i : ℕ) : List Visit :=
  (window (S.g.map HAx.dax) (S.largeSearch i) (shiftTuple (S.g.map HAx.ax) (S.x i))).flatMap fun c =>
    (S.cell c).flatMap fun j =>
      if i = j ∨ S.rd j > S.sigma i then []
      else if distSq (S.x i) (S.x j) < ((S.sigma i + S.rd j) * cut (S.type i) (S.type j) + S.skin) ^ 2 then [⟨i, j, 0⟩]
      else if S.far < distSq (S.x i) (S.x j) then [⟨i, j, 1⟩]
      else []

/-- The loop over the particles of a cell, `domains/domain.cpp:122-197`; the argument is the rest of the particle list. -/
def OSys.cellLoop (S : OSys K) (cut : ℤ → ℤ → K) (c : ℕ) : List ℕ → List Visit
  | [] => []
  | i :: rest =>
    (if S.type i < 0 then []
     else if S.sigma i ≤ S.mss then
       rest.flatMap (S.inCell cut i) ++ (S.adj c).flatMap fun d => (S.cell d).flatMap (S.inAdjacent cut i)
     else S.large cut i) ++ S.cellLoop cut c rest

/-- `traversePairs`, `domains/domain.cpp:98-199`: the sequence of calls of the body. The loop goes over all cells, halo
cells included. -/
def OSys.own (S : OSys K) : List Visit :=
  match S.cut with
  | none => []
  | some cut => (List.range S.dims.prod).flatMap fun c => S.cellLoop cut c (S.cell c)

/-! ## Specification -/

/-- Spec: a coordinate is inside the region in dimensions which the processor takes up alone and which wrap. -/
def Inside (a : HAx K) (x : K) : Prop := a.per = true → a.bd.lo ≤ x ∧ x < a.bd.hi

/-- Spec: the distance below which a pair has to be listed. -/
def OSys.range (S : OSys K) (cut : ℤ → ℤ → K) (i j : ℕ) : K := (S.rd i + S.rd j) * cut (S.type i) (S.type j) + S.skin

/-- Spec: the conditions under which no pair is missed. -/
structure OSys.OK (S : OSys K) (cut : ℤ → ℤ → K) : Prop where
  cutoff_pos : 0 < S.cutoff
  valid : ∀ a ∈ S.g, a.Valid S.cutoff
  /-- wrapping dimensions that the processor takes up alone have at least `2*sweep+1` cells -/
  wide : ∀ a ∈ S.g, a.per = true → 2 * sweepOf S.cutoff a.ax.w + 1 ≤ a.ax.dim
  /-- the stencil test keeps the half stencil -/
  stencil : StencilComplete S.cutoff (S.g.map HAx.gax)
  skin_nonneg : 0 ≤ S.skin
  pos : ∀ i, S.Live i → List.Forall₂ Inside S.g (S.x i)
  rd_nonneg : ∀ i, S.Live i → 0 ≤ S.rd i
  /-- there are no large particles -/
  small : ∀ i, S.Live i → S.rd i * S.maxCut (S.type i) ≤ S.mss
  cut_nonneg : ∀ i j, S.Live i → S.Live j → 0 ≤ cut (S.type i) (S.type j)
  cut_symm : ∀ i j, S.Live i → S.Live j → cut (S.type i) (S.type j) = cut (S.type j) (S.type i)
  cut_max : ∀ i j, S.Live i → S.Live j → cut (S.type i) (S.type j) ≤ S.maxCut (S.type i)

/-! ## One dimension -/

theorem per_flags {c : K} (hc : 0 < c) {a : HAx K} (hv : a.Valid c) (hp : a.per = true) :
    a.ax.down = 0 ∧ a.ax.up = 0 ∧ a.ax.lo = a.bd.lo ∧ a.ax.hi = a.bd.hi ∧ a.bd.hi - a.bd.lo = a.bd.shi - a.bd.slo := by
  obtain ⟨hwr, hb2⟩ := per_iff.mp hp
  obtain ⟨z1, z2⟩ := borders_zero_iff hwr
  obtain ⟨_, elo, ehi, ed, eu⟩ := hv.facts hc
  rw [if_neg (by simpa using z1.mpr hb2)] at ed
  rw [if_neg (by simpa using hb2)] at eu
  exact ⟨ed, eu, elo, ehi, z2.mp hb2⟩

/-- Particles that are close sit in cells within the sweep. -/
theorem near_own {c : K} (hc : 0 < c) {a : HAx K} (hv : a.Valid c) {x y : K} {m : ℤ}
    (hm : a.per = false → m = 0) (hx : Inside a x) (hy : Inside a y)
    (h : |x - y + m * (a.bd.shi - a.bd.slo)| < c) :
    Near1 (a.gax.ax c) (cellCoord a.ax x) (cellCoord a.ax y) := by
  obtain ⟨hA, elo, ehi, _, _⟩ := hv.facts hc
  have hw := hA.wpos
  by_cases hp : a.per = true
  · obtain ⟨d0, u0, _, _, hwid⟩ := per_flags hc hv hp
    have hD : DAx.Valid (⟨a.ax.lo, a.ax.hi, a.ax.dim, a.ax.w, true⟩ : DAx K) := by
      refine ⟨hA.lohi, hw, ?_, ?_⟩
      · have := hA.interior; simp only; omega
      · have := hA.tiles; rw [d0, u0] at this; simpa using this
    have hax : (⟨a.ax.lo, a.ax.hi, a.ax.dim, a.ax.w, true⟩ : DAx K).axis = a.ax := by
      cases ha : a.ax
      rw [ha] at d0 u0
      simp only at d0 u0
      subst d0; subst u0; rfl
    have := near_of_close hD (cutoff := c) (x := x) (y := y) (m := m) (by simp)
      (fun _ => by simp only; rw [elo, ehi]; exact hx hp) (fun _ => by simp only; rw [elo, ehi]; exact hy hp)
      (by simp only; rw [elo, ehi, hwid]; exact h)
    rw [hax] at this
    have hg : (⟨a.ax.lo, a.ax.hi, a.ax.dim, a.ax.w, true⟩ : DAx K).gax = a.gax := by
      simp only [DAx.gax, HAx.gax, hp]
    rwa [hg] at this
  · have hm0 := hm (by simpa using hp)
    subst hm0
    left
    simp only [HAx.gax, GAx.ax]
    have hs := sweep_ge (cutoff := c) hw
    have hlt : |(x - a.ax.lo) / a.ax.w - (y - a.ax.lo) / a.ax.w + ((0 : ℤ) : K)| < (sweepOf c a.ax.w : K) := by
      have e : (x - a.ax.lo) / a.ax.w - (y - a.ax.lo) / a.ax.w + ((0 : ℤ) : K) = (x - y) / a.ax.w := by
        push_cast; field_simp; ring
      rw [e, abs_div, abs_of_pos hw, div_lt_iff₀ hw]
      have : |x - y| < c := by simpa using h
      linarith
    have hf := floor_close hlt
    rw [sub_zero, abs_le] at hf
    rw [cellCoord_eq hA, cellCoord_eq hA, abs_le]
    constructor <;> omega

theorem near_owns {c r : K} (hc : 0 < c) {g : List (HAx K)} (hv : ∀ a ∈ g, a.Valid c)
    (hr : r ≤ c) (h0 : 0 ≤ r) {m : List ℤ} (hm : Shifts g m) {x y : List K}
    (hx : List.Forall₂ Inside g x) (hy : List.Forall₂ Inside g y) (h : image g m x y < r ^ 2) {s t : List ℕ}
    (hs : cellTuple (g.map HAx.ax) x = s.map (↑)) (ht : cellTuple (g.map HAx.ax) y = t.map (↑)) :
    Near (g.map fun a => a.gax.ax c) s t := by
  induction g generalizing m x y s t with
  | nil => cases s <;> cases t <;> trivial
  | cons a g ih =>
    cases hm with
    | @cons k _ m _ hk hm =>
      cases hx with
      | @cons _ x _ xs hx0 hxl =>
        cases hy with
        | @cons _ y _ ys hy0 hyl =>
          simp only [List.map_cons, cellTuple] at hs ht
          match s, t with
          | [], _ => simp at hs
          | _ :: _, [] => simp at ht
          | i :: s, j :: t =>
            simp only [List.map_cons, List.cons.injEq] at hs ht
            simp only [image] at h
            simp only [List.map_cons, Near]
            have hn := image_nonneg g m xs ys
            constructor
            · rw [← hs.1, ← ht.1]
              exact near_own hc (hv a (by simp)) hk hx0 hy0 (lt_of_lt_of_le (abs_lt_of_sq_add_lt h0 hn h) hr)
            · refine ih (fun b hb => hv b (List.mem_cons_of_mem _ hb)) hm hxl hyl ?_ hs.2 ht.2
              have : 0 ≤ (x - y + k * (a.bd.shi - a.bd.slo)) ^ 2 := sq_nonneg _
              linarith

/-- Particles of the same cell whose images are close are close themselves. -/
theorem same_cell {c r : K} (hc : 0 < c) {g : List (HAx K)} (hv : ∀ a ∈ g, a.Valid c)
    (hr : r ≤ c) (h0 : 0 ≤ r) (hwide : ∀ a ∈ g, a.per = true → 2 * sweepOf c a.ax.w + 1 ≤ a.ax.dim)
    {m : List ℤ} (hm : Shifts g m) {x y : List K}
    (hx : List.Forall₂ Inside g x) (hy : List.Forall₂ Inside g y) (h : image g m x y < r ^ 2)
    (he : cellTuple (g.map HAx.ax) x = cellTuple (g.map HAx.ax) y) : image g m x y = distSq x y := by
  induction g generalizing m x y with
  | nil => cases hx; cases hy; simp [image, distSq]
  | cons a g ih =>
    cases hm with
    | @cons k _ m _ hk hm =>
      cases hx with
      | @cons _ x _ xs hx0 hxl =>
        cases hy with
        | @cons _ y _ ys hy0 hyl =>
          simp only [List.map_cons, cellTuple, List.cons.injEq] at he
          simp only [image] at h
          simp only [image, distSq]
          have hn := image_nonneg g m xs ys
          have hsq : 0 ≤ (x - y + k * (a.bd.shi - a.bd.slo)) ^ 2 := sq_nonneg _
          rw [ih (fun b hb => hv b (List.mem_cons_of_mem _ hb)) (fun b hb => hwide b (List.mem_cons_of_mem _ hb)) hm hxl
            hyl (by linarith) he.2]
          suffices hk0 : k = 0 by subst hk0; simp
          by_contra hk0
          have hper : a.per = true := by
            by_contra hp; exact hk0 (hk (by simpa using hp))
          have hva := hv a (by simp)
          obtain ⟨d0, u0, elo, ehi, hwid⟩ := per_flags hc hva hper
          have hA := (hva.facts hc).1
          have hw := hA.wpos
          have ht := hA.tiles
          rw [d0, u0, elo, ehi] at ht
          simp only [Nat.sub_zero] at ht
          have hL : 0 < a.bd.hi - a.bd.lo := sub_pos.mpr hva.lohi
          have hab : |x - y + k * (a.bd.shi - a.bd.slo)| < c :=
            lt_of_lt_of_le (abs_lt_of_sq_add_lt h0 hn h) hr
          have hsw := sweep_ge (cutoff := c) hw
          have hsp := sweep_pos hw hc
          have hnK : (2 : K) * (sweepOf c a.ax.w : K) + 1 ≤ a.ax.dim := by exact_mod_cast hwide a (by simp) hper
          obtain ⟨x1, x2⟩ := hx0 hper
          obtain ⟨y1, y2⟩ := hy0 hper
          have hint := hA.interior
          rw [d0, u0] at hint
          have hfl : ∀ z : K, a.bd.lo ≤ z → z < a.bd.hi → cellCoord a.ax z = ⌊(z - a.ax.lo) / a.ax.w⌋ := by
            intro z z1 z2
            have f0 : 0 ≤ ⌊(z - a.ax.lo) / a.ax.w⌋ :=
              Int.floor_nonneg.mpr (div_nonneg (by rw [elo]; linarith) hw.le)
            have f1 : ⌊(z - a.ax.lo) / a.ax.w⌋ < (a.ax.dim : ℤ) := by
              rw [Int.floor_lt, div_lt_iff₀ hw]
              push_cast
              rw [ht, elo]; linarith
            rw [cellCoord_eq hA, d0, u0]; push_cast; omega
          have hcl : |x - y| < a.ax.w := by
            have e := he.1
            rw [hfl x x1 x2, hfl y y1 y2] at e
            have a1 := Int.floor_le ((x - a.ax.lo) / a.ax.w)
            have a2 := Int.lt_floor_add_one ((x - a.ax.lo) / a.ax.w)
            have b1 := Int.floor_le ((y - a.ax.lo) / a.ax.w)
            have b2 := Int.lt_floor_add_one ((y - a.ax.lo) / a.ax.w)
            rw [e] at a1 a2
            have d1 : (x - a.ax.lo) / a.ax.w - (y - a.ax.lo) / a.ax.w < 1 := by linarith
            have d2 : -1 < (x - a.ax.lo) / a.ax.w - (y - a.ax.lo) / a.ax.w := by linarith
            rw [← sub_div, div_lt_iff₀ hw] at d1
            rw [← sub_div, lt_div_iff₀ hw] at d2
            rw [abs_lt]; constructor <;> linarith
          have hk1 : (1 : K) ≤ |(k : K)| := by
            have : (1 : ℤ) ≤ |k| := Int.one_le_abs hk0
            exact_mod_cast this
          have h2 := abs_sub (x - y + k * (a.bd.shi - a.bd.slo)) (x - y)
          rw [show x - y + k * (a.bd.shi - a.bd.slo) - (x - y) = k * (a.bd.shi - a.bd.slo) by ring, abs_mul, ← hwid,
            abs_of_pos hL] at h2
          rw [← hwid] at hab
          have hs1 : (1 : K) ≤ sweepOf c a.ax.w := by exact_mod_cast hsp
          have q1 : a.bd.hi - a.bd.lo ≤ |(k : K)| * (a.bd.hi - a.bd.lo) := by nlinarith
          have q2 : (2 * (sweepOf c a.ax.w : K) + 1) * a.ax.w ≤ a.bd.hi - a.bd.lo := by
            rw [← ht]; exact mul_le_mul_of_nonneg_right hnK hw.le
          nlinarith

/-! ## Lists of calls -/

theorem inCell_mem {S : OSys K} {cut : ℤ → ℤ → K} {i j : ℕ} {v : Visit} (h : v ∈ S.inCell cut i j) :
    v.id1 = i ∧ v.id2 = j := by
  unfold OSys.inCell at h
  split_ifs at h <;> simp at h
  subst h; simp

theorem inAdjacent_mem {S : OSys K} {cut : ℤ → ℤ → K} {i j : ℕ} {v : Visit} (h : v ∈ S.inAdjacent cut i j) :
    v.id1 = i ∧ v.id2 = j := by
  unfold OSys.inAdjacent at h
  split_ifs at h <;> simp at h <;> subst h <;> simp

theorem gcell_sorted (S : GSys K) (c : ℤ) : (S.cell c).Pairwise (· < ·) :=
  List.Pairwise.filter _ List.pairwise_lt_range

theorem filter_adj (S : OSys K) (cut : ℤ → ℤ → K) (i j : ℕ) (hj : S.Live j) (l : List ℤ) :
    (l.flatMap fun d => (S.cell d).flatMap (S.inAdjacent cut i)).filter (isOrd i j) =
      (List.replicate (l.count (S.cellOf j)) (S.inAdjacent cut i j)).flatten := by
  induction l with
  | nil => simp
  | cons d l ih =>
    rw [List.flatMap_cons, List.filter_append, ih,
      filter_flatMap_ids (fun k v => inAdjacent_mem) j _ (gcell_nodup S.toGSys d)]
    by_cases h : S.cellOf j = d
    · rw [if_pos (mem_gcell.mpr ⟨hj, h⟩), h, List.count_cons_self, List.replicate_succ, List.flatten_cons]
    · rw [if_neg (fun hm => h (mem_gcell.mp hm).2), List.count_cons_of_ne (fun e => h e.symm), List.nil_append]

theorem cellLoop_cons {S : OSys K} {cut : ℤ → ℤ → K}
    (hsm : ∀ i, S.Live i → S.rd i * S.maxCut (S.type i) ≤ S.mss) {c : ℕ} {i : ℕ} {rest : List ℕ} (hi : S.Live i) :
    S.cellLoop cut c (i :: rest) =
      rest.flatMap (S.inCell cut i) ++ ((S.adj c).flatMap fun d => (S.cell d).flatMap (S.inAdjacent cut i)) ++
      S.cellLoop cut c rest := by
  rw [OSys.cellLoop, if_neg (by have := hi.2.1; omega), if_pos (show S.sigma i ≤ S.mss from hsm i hi)]

theorem filter_cellLoop {S : OSys K} {cut : ℤ → ℤ → K}
    (hsm : ∀ i, S.Live i → S.rd i * S.maxCut (S.type i) ≤ S.mss) {i j : ℕ} (hj : S.Live j) (c : ℕ) :
    ∀ l : List ℕ, l.Pairwise (· < ·) → (∀ k ∈ l, S.Live k) →
      (S.cellLoop cut c l).filter (isOrd i j) =
        if i ∈ l then (if j ∈ l ∧ i < j then S.inCell cut i j else []) ++
          (List.replicate ((S.adj c).count (S.cellOf j)) (S.inAdjacent cut i j)).flatten
        else [] := by
  intro l
  induction l with
  | nil => intro _ _; simp [OSys.cellLoop]
  | cons k l ih =>
    intro hp hl
    obtain ⟨h1, h2⟩ := List.pairwise_cons.mp hp
    have ih' := ih h2 (fun m hm => hl m (List.mem_cons_of_mem _ hm))
    rw [cellLoop_cons hsm (hl k (by simp)), List.filter_append, List.filter_append, ih']
    have hnd : l.Nodup := h2.imp ne_of_lt
    by_cases hk : k = i
    · subst hk
      have hkl : k ∉ l := fun h => lt_irrefl _ (h1 k h)
      rw [filter_flatMap_ids (fun m v => inCell_mem) j l hnd, filter_adj S cut k j hj, if_neg hkl,
        if_pos (show k ∈ k :: l from List.mem_cons_self), List.append_nil]
      congr 1
      by_cases hjl : j ∈ l
      · rw [if_pos hjl, if_pos ⟨by simp [hjl], h1 j hjl⟩]
      · rw [if_neg hjl, if_neg]
        rintro ⟨hm, hlt⟩
        rcases List.mem_cons.mp hm with rfl | hm
        · exact lt_irrefl _ hlt
        · exact hjl hm
    · rw [filter_flatMap_other hk (fun m v => inCell_mem) j l]
      have : ((S.adj c).flatMap fun d => (S.cell d).flatMap (S.inAdjacent cut k)).filter (isOrd i j) = [] := by
        rw [List.filter_eq_nil_iff]
        intro v hv
        obtain ⟨d, _, hv⟩ := List.mem_flatMap.mp hv
        obtain ⟨m, _, hv⟩ := List.mem_flatMap.mp hv
        have := inAdjacent_mem hv
        simp only [isOrd, decide_eq_true_eq]
        rintro ⟨h, _⟩
        exact hk (by rw [← this.1, h])
      rw [this, List.nil_append, List.nil_append]
      by_cases hil : i ∈ l
      · rw [if_pos hil, if_pos (List.mem_cons_of_mem _ hil)]
        congr 1
        by_cases hjl : j ∈ l ∧ i < j
        · rw [if_pos hjl, if_pos ⟨List.mem_cons_of_mem _ hjl.1, hjl.2⟩]
        · rw [if_neg hjl, if_neg]
          rintro ⟨hm, hlt⟩
          rcases List.mem_cons.mp hm with rfl | hm
          · have := h1 i hil; omega
          · exact hjl ⟨hm, hlt⟩
      · rw [if_neg hil, if_neg]
        intro hm
        rcases List.mem_cons.mp hm with h | hm
        · exact hk h.symm
        · exact hil hm

/-- The calls for an ordered pair in the whole traversal. -/
theorem filter_own {S : OSys K} {cut : ℤ → ℤ → K} (hcut : S.cut = some cut)
    (hsm : ∀ i, S.Live i → S.rd i * S.maxCut (S.type i) ≤ S.mss) {i j : ℕ} (hi : S.Live i) (hj : S.Live j) {ci : ℕ}
    (hci : S.cellOf i = ci) (hlt : ci < S.dims.prod) :
    S.own.filter (isOrd i j) =
      (if S.cellOf j = ci ∧ i < j then S.inCell cut i j else []) ++
        (List.replicate ((S.adj ci).count (S.cellOf j)) (S.inAdjacent cut i j)).flatten := by
  unfold OSys.own
  rw [hcut]
  simp only
  rw [flatMap_range_single hlt, filter_cellLoop hsm hj ci _ (gcell_sorted S.toGSys ci) (fun k hk => (mem_gcell.mp hk).1),
    if_pos (mem_gcell.mpr ⟨hi, hci⟩)]
  · congr 1
    have : (j ∈ S.cell (ci : ℤ) ∧ i < j) ↔ (S.cellOf j = ci ∧ i < j) := by
      rw [mem_gcell]; tauto
    simp only [this]
  · intro d hd
    rw [filter_cellLoop hsm hj d _ (gcell_sorted S.toGSys d) (fun k hk => (mem_gcell.mp hk).1), if_neg]
    intro hm
    have := (mem_gcell.mp hm).2
    rw [hci] at this
    exact hd (by exact_mod_cast this.symm)

/-- The cell of an owned particle. -/
theorem own_cell {S : GSys K} (hc : 0 < S.cutoff) (hv : ∀ a ∈ S.g, a.Valid S.cutoff) {i : ℕ}
    (hx : (S.x i).length = S.g.length) :
    ∃ (l : ℕ) (t : List ℕ), S.cellOf i = l ∧ l < S.dims.prod ∧ getAddressCM S.dims l = t ∧
      cellTuple (S.g.map HAx.ax) (S.x i) = t.map (↑) ∧ InGrid S.dims t ∧
      isHalo (S.g.map HAx.ax) (t.map (↑)) = false := by
  obtain ⟨t, f1, f2, f3⟩ := cellTuple_grid hc hv hx
  obtain ⟨d, k1, k2, k3⟩ := (C24_addresses_inverse S.dims).2 t f2
  have hd : (S.g.map HAx.ax).map Axis.dim = S.dims := by simp [GSys.dims, Function.comp_def]
  exact ⟨d, t, by rw [GSys.cellOf, cellIndex, hd, f1, k1], k2, k3, f1, f2, f3⟩

/-- Number of times that cells of particles list one another. -/
theorem adj_count {S : GSys K} (hwide : ∀ a ∈ S.g, a.per = true → 2 * sweepOf S.cutoff a.ax.w + 1 ≤ a.ax.dim)
    (hst : StencilComplete S.cutoff (S.g.map HAx.gax)) {ci cj : ℕ} (hi : ci < S.dims.prod) (hj : cj < S.dims.prod)
    (ni : isHalo (S.g.map HAx.ax) ((getAddressCM S.dims ci).map (↑)) = false)
    (nj : isHalo (S.g.map HAx.ax) ((getAddressCM S.dims cj).map (↑)) = false) :
    (S.adj ci).count (cj : ℤ) + (S.adj cj).count (ci : ℤ) ≤ (if ci = cj then 0 else 1) ∧
    (ci ≠ cj → Near S.axs (getAddressCM S.dims ci) (getAddressCM S.dims cj) →
      (S.adj ci).count (cj : ℤ) + (S.adj cj).count (ci : ℤ) = 1) ∧
    (0 < (S.adj ci).count (cj : ℤ) + (S.adj cj).count (ci : ℤ) →
      Near S.axs (getAddressCM S.dims ci) (getAddressCM S.dims cj)) := by
  have hd : (S.g.map HAx.gax).map GAx.n = S.dims := by simp [GSys.dims, HAx.gax, Function.comp_def]
  have ha : (S.g.map HAx.gax).map (GAx.ax S.cutoff) = S.axs := by simp [GSys.axs, Function.comp_def]
  classical
  obtain ⟨Ai, Aj, h1, h2, _, h4⟩ := C27_pairs_once_partial S.cutoff (S.g.map HAx.gax)
    (by
      intro a ha hp
      obtain ⟨b, hb, rfl⟩ := List.mem_map.mp ha
      exact hwide b hb hp) hst ci cj (by rw [hd]; exact hi) (by rw [hd]; exact hj)
  rw [hd, ha] at h4
  have e1 : S.adj ci = Ai := by rw [GSys.adj, if_neg (by rw [ni]; simp), h1]; rfl
  have e2 : S.adj cj = Aj := by rw [GSys.adj, if_neg (by rw [nj]; simp), h2]; rfl
  rw [e1, e2, h4]
  refine ⟨?_, ?_, ?_⟩
  · by_cases hc : ci = cj
    · rw [if_pos hc, if_neg (by tauto)]
    · rw [if_neg hc]; split_ifs <;> omega
  · intro hne hN
    rw [if_pos ⟨hne, hN⟩]
  · intro h
    by_contra hN
    rw [if_neg (fun e => hN e.2)] at h
    omega

theorem range_le {S : OSys K} {cut : ℤ → ℤ → K} (hS : S.OK cut) {i j : ℕ} (hi : S.Live i) (hj : S.Live j) :
    0 ≤ S.range cut i j ∧ S.range cut i j ≤ S.cutoff := by
  have a1 := hS.rd_nonneg i hi
  have a2 := hS.rd_nonneg j hj
  have a3 := hS.cut_nonneg i j hi hj
  have a4 := hS.skin_nonneg
  have b1 := mul_le_mul_of_nonneg_left (hS.cut_max i j hi hj) a1
  have b2 := mul_le_mul_of_nonneg_left (hS.cut_max j i hj hi) a2
  rw [hS.cut_symm j i hj hi] at b2
  have c1 := hS.small i hi
  have c2 := hS.small j hj
  unfold OSys.range GSys.cutoff
  constructor
  · positivity
  · linarith

theorem range_comm {S : OSys K} {cut : ℤ → ℤ → K} (hS : S.OK cut) {i j : ℕ} (hi : S.Live i) (hj : S.Live j) :
    S.range cut i j = S.range cut j i := by
  unfold OSys.range
  rw [hS.cut_symm i j hi hj]; ring

theorem inCell_length (S : OSys K) (cut : ℤ → ℤ → K) (i j : ℕ) : (S.inCell cut i j).length ≤ 1 := by
  unfold OSys.inCell; split_ifs <;> simp

theorem inAdjacent_length (S : OSys K) (cut : ℤ → ℤ → K) (i j : ℕ) : (S.inAdjacent cut i j).length ≤ 1 := by
  unfold OSys.inAdjacent; split_ifs <;> simp

/-! ## The theorems -/

/-- **C180, no pair twice.** On the grid of every processor that meets `OK`, the traversal calls the body at most once for
each pair of the processor's live particles, and never for a particle and itself.

Missing: incomplete stencils and small grids (C27), large particles. -/
theorem C180_no_pair_twice_partial (S : OSys K) (cut : ℤ → ℤ → K) (hcut : S.cut = some cut) (hS : S.OK cut) (i j : ℕ)
    (hi : S.Live i) (hj : S.Live j) : S.own.countP (IsPair i j) ≤ (if i = j then 0 else 1) := by
  obtain ⟨ci, ti, h1, h2, h3, h4, h5, h6⟩ :=
    own_cell hS.cutoff_pos hS.valid (S := S.toGSys) (i := i) (hS.pos i hi).length_eq.symm
  obtain ⟨cj, tj, k1, k2, k3, k4, k5, k6⟩ :=
    own_cell hS.cutoff_pos hS.valid (S := S.toGSys) (i := j) (hS.pos j hj).length_eq.symm
  have fij := filter_own hcut hS.small hi hj h1 h2
  have fji := filter_own hcut hS.small hj hi k1 k2
  rw [k1] at fij
  rw [h1] at fji
  obtain ⟨ac, _⟩ := adj_count hS.wide hS.stencil h2 k2 (by rw [h3]; exact h6) (by rw [k3]; exact k6)
  by_cases hij : i = j
  · subst hij
    have hc : ci = cj := by rw [h1] at k1; exact_mod_cast k1
    subst hc
    rw [if_pos rfl] at ac ⊢
    rw [if_neg (by omega), show (S.adj ci).count (ci : ℤ) = 0 by omega] at fij
    have : S.own.countP (IsPair i i) = S.own.countP (isOrd i i) := by
      congr 1; funext v; simp [IsPair, isOrd]
    rw [this, List.countP_eq_length_filter, fij]
    simp
  · rw [if_neg hij, isPair_count hij, fij, fji, List.length_append, List.length_append, flatten_replicate_length,
      flatten_replicate_length]
    have l1 := inCell_length S cut i j
    have l2 := inCell_length S cut j i
    have l3 := inAdjacent_length S cut i j
    have l4 := inAdjacent_length S cut j i
    by_cases hc : ci = cj
    · subst hc
      rw [if_pos rfl] at ac
      rw [show (S.adj ci).count (ci : ℤ) = 0 by omega]
      simp only [zero_mul, add_zero, true_and]
      rcases lt_or_gt_of_ne hij with h | h
      · rw [if_pos h, if_neg (by omega)]; simpa using l1
      · rw [if_neg (by omega), if_pos h]; simpa using l2
    · rw [if_neg hc] at ac
      rw [if_neg (fun e => hc (by exact_mod_cast e.1.symm)), if_neg (fun e => hc (by exact_mod_cast e.1))]
      have m1 := Nat.mul_le_mul_left ((S.adj ci).count (cj : ℤ)) l3
      have m2 := Nat.mul_le_mul_left ((S.adj cj).count (ci : ℤ)) l4
      simp only [List.length_nil]
      omega

/-- The test on adjacent cells passes for particles with close images. -/
theorem inAdjacent_close {S : OSys K} {cut : ℤ → ℤ → K} (hS : S.OK cut) {i j : ℕ} (hi : S.Live i) (hj : S.Live j)
    {m : List ℤ} (hm : Shifts S.g m) (hr : image S.g m (S.x i) (S.x j) < S.range cut i j ^ 2) :
    S.inAdjacent cut i j = [⟨i, j, if distSq (S.x i) (S.x j) < S.range cut i j ^ 2 then 0 else 1⟩] := by
  obtain ⟨r0, rc⟩ := range_le hS hi hj
  have hsmall : ¬ (S.type j < 0 ∨ S.sigma j > S.mss) := by
    push Not
    exact ⟨hj.2.1, hS.small j hj⟩
  unfold OSys.inAdjacent
  rw [if_neg hsmall]
  by_cases hd : distSq (S.x i) (S.x j) < S.range cut i j ^ 2
  · rw [if_pos (by exact hd), if_pos hd]
  · rw [if_neg (by exact hd), if_neg hd, if_pos]
    rcases image_or_far hS.cutoff_pos hS.valid rc r0 hS.wide hm (hS.pos i hi).length_eq.symm
      (hS.pos j hj).length_eq.symm hr with h | ⟨a, ha, h⟩
    · exact absurd (lt_of_le_of_lt h hr) hd
    · exact lt_of_le_of_lt (maxReasonable_le (List.mem_map_of_mem (f := HAx.dax) ha)) h

/-- **C180, no pair missed.** On the grid of every processor that meets `OK`, whatever sides of its region it shares with
other processors: when one of its live particles, or an image of it in the wrapping dimensions which the processor takes up
alone, is closer to another than their interaction range plus skin, then the body is called exactly once for the pair, as a
plain pair if they are that close themselves and as a wrapped pair if only an image is; provided that the cutoff of the pair
is at most 1 or the particles are in different cells.

Missing: same-cell pairs with cutoff above 1 (`C28_negation_same_cell`), large particles (`C28_negation_large`), incomplete
stencils and small grids (C27). -/
theorem C180_no_pair_missed_partial (S : OSys K) (cut : ℤ → ℤ → K) (hcut : S.cut = some cut) (hS : S.OK cut) (i j : ℕ)
    (hi : S.Live i) (hj : S.Live j) (hij : i ≠ j) (m : List ℤ) (hm : Shifts S.g m)
    (hr : image S.g m (S.x i) (S.x j) < S.range cut i j ^ 2)
    (hcell : cut (S.type i) (S.type j) ≤ 1 ∨ S.cellOf i ≠ S.cellOf j) :
    S.own.countP (IsPair i j) = 1 ∧
    ∃ v ∈ S.own, IsPair i j v = true ∧ v.list = if distSq (S.x i) (S.x j) < S.range cut i j ^ 2 then 0 else 1 := by
  obtain ⟨ci, ti, h1, h2, h3, h4, h5, h6⟩ :=
    own_cell hS.cutoff_pos hS.valid (S := S.toGSys) (i := i) (hS.pos i hi).length_eq.symm
  obtain ⟨cj, tj, k1, k2, k3, k4, k5, k6⟩ :=
    own_cell hS.cutoff_pos hS.valid (S := S.toGSys) (i := j) (hS.pos j hj).length_eq.symm
  have fij := filter_own hcut hS.small hi hj h1 h2
  have fji := filter_own hcut hS.small hj hi k1 k2
  rw [k1] at fij
  rw [h1] at fji
  obtain ⟨ac, ac', _⟩ := adj_count hS.wide hS.stencil h2 k2 (by rw [h3]; exact h6) (by rw [k3]; exact k6)
  obtain ⟨r0, rc⟩ := range_le hS hi hj
  have key : S.own.countP (IsPair i j) = 1 ∧
      (⟨i, j, if distSq (S.x i) (S.x j) < S.range cut i j ^ 2 then 0 else 1⟩ ∈ S.own ∨
       ⟨j, i, if distSq (S.x i) (S.x j) < S.range cut i j ^ 2 then 0 else 1⟩ ∈ S.own) := by
    by_cases hc : ci = cj
    · subst hc
      have hd : distSq (S.x i) (S.x j) < S.range cut i j ^ 2 := by
        rw [← same_cell hS.cutoff_pos hS.valid rc r0 hS.wide hm (hS.pos i hi) (hS.pos j hj) hr
          (by rw [h4, k4, ← h3, ← k3])]
        exact hr
      have hcut1 : cut (S.type i) (S.type j) ≤ 1 := by
        rcases hcell with h | h
        · exact h
        · exact absurd (by rw [h1, k1]) h
      have icell : ∀ a b, S.Live a → S.Live b → cut (S.type a) (S.type b) ≤ 1 →
          distSq (S.x a) (S.x b) < S.range cut a b ^ 2 → S.inCell cut a b = [⟨a, b, 0⟩] := by
        intro a b ha hb hcab hd
        unfold OSys.inCell
        rw [if_neg, if_pos]
        · refine lt_of_lt_of_le hd (pow_le_pow_left₀ (range_le hS ha hb).1 ?_ 2)
          have := mul_le_mul_of_nonneg_left hcab (hS.rd_nonneg a ha)
          unfold OSys.range
          linarith
        · push Not
          exact ⟨ha.2.1, hS.small b hb⟩
      rw [if_pos rfl] at ac
      have hz : (S.adj ci).count (ci : ℤ) = 0 := by omega
      rw [hz, List.replicate_zero, List.flatten_nil, List.append_nil] at fij fji
      simp only [true_and] at fij fji
      rw [if_pos hd, isPair_count hij]
      rcases lt_or_gt_of_ne hij with h | h
      · rw [if_pos h, icell i j hi hj hcut1 hd] at fij
        rw [if_neg (by omega)] at fji
        rw [fij, fji]
        refine ⟨rfl, Or.inl ?_⟩
        have : (⟨i, j, 0⟩ : Visit) ∈ S.own.filter (isOrd i j) := by rw [fij]; simp
        exact (List.mem_filter.mp this).1
      · rw [if_pos h, icell j i hj hi (by rw [hS.cut_symm j i hj hi]; exact hcut1)
          (by rw [distSq_comm, range_comm hS hj hi]; exact hd)] at fji
        rw [if_neg (by omega)] at fij
        rw [fij, fji]
        refine ⟨rfl, Or.inr ?_⟩
        have : (⟨j, i, 0⟩ : Visit) ∈ S.own.filter (isOrd j i) := by rw [fji]; simp
        exact (List.mem_filter.mp this).1
    · have hnear := near_owns hS.cutoff_pos hS.valid rc r0 hm (hS.pos i hi) (hS.pos j hj) hr h4 k4
      have hcount := ac' hc (by rw [h3, k3]; exact hnear)
      rw [if_neg (fun e => hc (by exact_mod_cast e.1.symm)), List.nil_append] at fij
      rw [if_neg (fun e => hc (by exact_mod_cast e.1)), List.nil_append] at fji
      rw [inAdjacent_close hS hi hj hm hr] at fij
      have hm' : Shifts S.g (m.map (- ·)) := by
        unfold Shifts at hm ⊢
        rw [List.forall₂_map_left_iff]
        exact hm.imp (fun k a h hp => by rw [h hp]; rfl)
      have him : image S.g (m.map (- ·)) (S.x j) (S.x i) = image S.g m (S.x i) (S.x j) := by
        generalize S.x i = x, S.x j = y
        clear * -
        generalize S.g = g
        induction g generalizing m x y with
        | nil => simp [image]
        | cons a g ih =>
          match m, x, y with
          | [], _, _ => simp [image]
          | _ :: _, [], [] => simp [image]
          | _ :: _, [], _ :: _ => simp [image]
          | _ :: _, _ :: _, [] => simp [image]
          | k :: m, x :: xs, y :: ys =>
            simp only [List.map_cons, image, ih]
            push_cast; ring
      rw [inAdjacent_close hS hj hi hm' (by rw [him, range_comm hS hj hi]; exact hr), distSq_comm (S.x j),
        range_comm hS hj hi] at fji
      constructor
      · rw [isPair_count hij, fij, fji, flatten_replicate_length, flatten_replicate_length]
        simpa using hcount
      · rcases Nat.eq_zero_or_pos ((S.adj ci).count (cj : ℤ)) with h | h
        · right
          have h' : (S.adj cj).count (ci : ℤ) = 1 := by omega
          rw [h'] at fji
          have : (⟨j, i, if distSq (S.x i) (S.x j) < S.range cut i j ^ 2 then 0 else 1⟩ : Visit) ∈
              S.own.filter (isOrd j i) := by
            rw [fji]; simp
          exact (List.mem_filter.mp this).1
        · left
          have h' : (S.adj ci).count (cj : ℤ) = 1 := by omega
          rw [h'] at fij
          have : (⟨i, j, if distSq (S.x i) (S.x j) < S.range cut i j ^ 2 then 0 else 1⟩ : Visit) ∈
              S.own.filter (isOrd i j) := by
            rw [fij]; simp
          exact (List.mem_filter.mp this).1
  refine ⟨key.1, ?_⟩
  rcases key.2 with h | h
  · exact ⟨_, h, by simp [IsPair], rfl⟩
  · exact ⟨_, h, by simp [IsPair], rfl⟩

/-! ## A case -/

/-- Two particles on either side of a cell wall, in the lower half of a periodic box that two processors share: one halo cell
below and one above. -/
def half : OSys ℚ where
  g := [⟨⟨0, 1, 0, 2, true⟩, ⟨0, 1, 6, 1/4, 1, 1⟩⟩]
  number := 2
  ghosts := 0
  x i := [if i = 0 then 9/20 else 11/20]
  rd _ := 1/10
  type _ := 0
  xg _ := []
  rdg _ := 0
  typeg _ := 0
  interacts _ := true
  cut := some fun _ _ => 1
  mss := 1/10
  skin := 1/20
  maxCut _ := 1

/-- The case meets the conditions, and the two particles are close. -/
theorem half_ok : half.OK (fun _ _ => 1) ∧ half.cut = some (fun _ _ => 1) ∧ half.Live 0 ∧ half.Live 1 ∧
    image half.g [0] (half.x 0) (half.x 1) < half.range (fun _ _ => 1) 0 1 ^ 2 := by
  have hb : borders (⟨0, 1, 0, 2, true⟩ : Bd ℚ) = (2, 1) := by decide +kernel
  refine ⟨⟨?_, ?_, ?_, ?_, ?_, ?_, ?_, ?_, ?_, ?_, ?_⟩, rfl, ?_, ?_, ?_⟩
  · norm_num [half, GSys.cutoff]
  · intro a ha
    have : a = ⟨⟨0, 1, 0, 2, true⟩, ⟨0, 1, 6, 1/4, 1, 1⟩⟩ := by simpa [half] using ha
    subst this
    refine ⟨by norm_num, ?_⟩
    decide +kernel
  · intro a ha hp
    have : a = ⟨⟨0, 1, 0, 2, true⟩, ⟨0, 1, 6, 1/4, 1, 1⟩⟩ := by simpa [half] using ha
    subst this
    revert hp; decide +kernel
  · have : half.g.map HAx.gax = [⟨6, 1/4, false⟩] := by simp [half, HAx.gax, HAx.per, hb]
    rw [this]
    exact C27_complete_one_dimension (by norm_num [half, GSys.cutoff]) _ (by norm_num)
  · norm_num [half]
  · intro i _
    refine List.Forall₂.cons ?_ List.Forall₂.nil
    intro hp; simp [HAx.per, hb] at hp
  · intro i _; norm_num [half]
  · intro i _; norm_num [half]
  · intro i j _ _; norm_num
  · intro i j _ _; rfl
  · intro i j _ _; norm_num [half]
  · norm_num [half, GSys.Live]
  · norm_num [half, GSys.Live]
  · norm_num [half, image, OSys.range]

example : half.own = [⟨1, 0, 0⟩] := by decide +kernel

end field
end Verif.OwnPairs
