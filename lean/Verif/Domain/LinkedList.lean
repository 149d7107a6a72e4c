import Verif.Utility.ForLoop
import Verif.Domain.CellsProps
import Mathlib.Tactic.NormNum
import Mathlib.Tactic.FinCases
import Mathlib.Tactic.IntervalCases
import Mathlib.Data.Fin.VecNotation

/-!
# The linked list domain (C103)

Models `domains/domain-list.cpp`, which is written for two dimensions: the list structure, the traversal of the pairs, with the loops of
`utility/generic-dimension.hpp` (`Verif.Utility.ForLoop`) and the cells of `base/domainbase.cpp` (`Verif.Domain.Grid`). Numbers are exact.
The index -1 ("no particle") is `none`. The particle slots are those left by `simData->update()`: all of them are in use.
-/

set_option linter.unusedSectionVars false
set_option linter.unusedSimpArgs false

namespace Verif.LinkedList
open Verif.Grid Verif.Cells Verif.ForLoop

variable {K : Type*} [Field K] [LinearOrder K] [IsStrictOrderedRing K] [FloorRing K]

/-- The data that `traversePairs` reads. -/
structure Sys (K : Type*) where
  /-- the two dimensions of the grid -/
  ax : Axis K
  ay : Axis K
  /-- `simData->size_owned()` -/
  number : ℕ
  x : ℕ → K
  y : ℕ → K
  /-- `sg` -/
  sg : ℕ → K
  type : ℕ → ℕ
  /-- `cutoff_grid` -/
  cut : ℕ → ℕ → K
  /-- `max_cutoffs` -/
  maxCut : ℕ → K
  /-- `max_small_sigma` -/
  mss : K
  /-- `skin_depth` -/
  skin : K
  /-- the widths of `simulation_bounds` -/
  wx : K
  wy : K

/-- `tuple_to_linear`, `base/domainbase.cpp:108-113`, with the products of `base/domainbase.cpp:31-33`. -/
def Sys.linear (S : Sys K) (c : ℤ × ℤ) : ℤ := c.1 * S.ay.dim + c.2

/-- The cell coordinates found by `get_cell_index`, `base/domainbase.cpp:68-78`. -/
def Sys.cell (S : Sys K) (i : ℕ) : ℤ × ℤ := (cellCoord S.ax (S.x i), cellCoord S.ay (S.y i))

/-- `cell_list` and `particle_list`. -/
structure Lists where
  head : ℤ → Option ℕ
  next : ℕ → Option ℕ

/-- One pass of the filling loop, `domains/domain-list.cpp:154-159`. -/
def Sys.insert (S : Sys K) (l : Lists) (i : ℕ) : Lists :=
  { head := Function.update l.head (S.linear (S.cell i)) (some i), next := Function.update l.next i (l.head (S.linear (S.cell i))) }

/-- `structure_updates`, `domains/domain-list.cpp:142-160`; both arrays are cleared first. -/
def Sys.lists (S : Sys K) : Lists := (List.range S.number).foldl S.insert ⟨fun _ => none, fun _ => none⟩

/-- The loop `for (; id!=-1; id = particle_list[id])`: the ids it visits. `fuel` bounds the number of passes. -/
def follow (next : ℕ → Option ℕ) : ℕ → Option ℕ → List ℕ
  | 0, _ => []
  | _ + 1, none => []
  | f + 1, some i => i :: follow next f (next i)

/-- The particles from the given one to the end of its list. -/
def Sys.chain (S : Sys K) (p : Option ℕ) : List ℕ := follow S.lists.next S.number p

/-- `max_reasonable`, `domains/domain-list.cpp:30-34`. -/
def Sys.maxReasonable (S : Sys K) : K :=
  if (9 / 10 * S.wy) * (9 / 10 * S.wy) < (9 / 10 * S.wx) * (9 / 10 * S.wx) then (9 / 10 * S.wy) * (9 / 10 * S.wy) else (9 / 10 * S.wx) * (9 / 10 * S.wx)

/-- `r2`, `getDistanceSqrNoWrap`. -/
def Sys.r2 (S : Sys K) (i j : ℕ) : K := (S.x i - S.x j) ^ 2 + (S.y i - S.y j) ^ 2

/-- `sg(id)*max_cutoffs[type(id)]`. -/
def Sys.sigma (S : Sys K) (i : ℕ) : K := S.sg i * S.maxCut (S.type i)

/-- The distance in the tests of the traversal. -/
def Sys.reach (S : Sys K) (i j : ℕ) : K := (S.sg i + S.sg j) * S.cut (S.type i) (S.type j) + S.skin

/-- Pairs in the same cell, `domains/domain-list.cpp:75-84`. -/
def Sys.inCell (S : Sys K) (i j : ℕ) : List Visit :=
  if S.sigma j ≤ S.mss then (if S.r2 i j < S.reach i j ^ 2 then [⟨i, j, 0⟩] else []) else []

/-- Pairs in neighbouring cells, `domains/domain-list.cpp:109-116`. -/
def Sys.inNext (S : Sys K) (i j : ℕ) : List Visit :=
  if S.mss < S.sigma j then []
  else if S.r2 i j < S.reach i j ^ 2 then [⟨i, j, 0⟩]
  else if S.maxReasonable < S.r2 i j then [⟨i, j, 1⟩]
  else []

/-- The stencil, `domains/domain-list.cpp:39-55`: the first `3^2/2` offsets. -/
def stencil : List (ℤ × ℤ) := forLoopMax 1 (fun i _ s => s ++ [(i 0, i 1)]) (fun _ => -1) (fun _ => 2) (3 * 3 / 2) []

/-- The test `valid_cell`, `domains/domain-list.cpp:97-99`. -/
def Sys.validCell (S : Sys K) (c : ℤ × ℤ) : Bool := !(decide (c.1 < 0) || decide ((S.ax.dim : ℤ) ≤ c.1) || decide (c.2 < 0) || decide ((S.ay.dim : ℤ) ≤ c.2))

/-- The calls made for one first particle of the cell `c`, `domains/domain-list.cpp:67-126`. -/
def Sys.particle (S : Sys K) (c : ℤ × ℤ) (i : ℕ) : List Visit :=
  (S.chain (S.lists.next i)).flatMap (S.inCell i) ++
    if S.sigma i < S.mss then
      stencil.flatMap fun t =>
        if S.validCell (t.1 + c.1, t.2 + c.2) then (S.chain (S.lists.head (S.linear (t.1 + c.1, t.2 + c.2)))).flatMap (S.inNext i) else []
    else []

/-- `neighbor_function`, `domains/domain-list.cpp:58-127`. -/
def Sys.cellVisits (S : Sys K) (c : ℤ × ℤ) : List Visit := (S.chain (S.lists.head (S.linear c))).flatMap (S.particle c)

/-- The calls of the body made by `traversePairs`, `domains/domain-list.cpp:21-140`, in order. -/
def Sys.traverse (S : Sys K) : List Visit :=
  forLoop 1 (fun i s => s ++ S.cellVisits (i 0, i 1)) (fun _ => 0) (fun k => if k = 0 then (S.ax.dim : ℤ) else S.ay.dim) []

/-! ## Specification -/

/-- The grid was built, radii and cutoffs are sensible, and the largest cutoff of each type is at least each of its cutoffs. -/
structure Sys.OK (S : Sys K) : Prop where
  validx : S.ax.Valid
  validy : S.ay.Valid
  sg_nonneg : ∀ i, i < S.number → 0 ≤ S.sg i
  cut_le : ∀ i j, i < S.number → j < S.number → S.cut (S.type i) (S.type j) ≤ S.maxCut (S.type i) ∧ 0 ≤ S.cut (S.type i) (S.type j)
  cut_symm : ∀ i j, i < S.number → j < S.number → S.cut (S.type i) (S.type j) = S.cut (S.type j) (S.type i)
  skin_nonneg : 0 ≤ S.skin

/-! ## The lists -/

/-- The particles below `k` in a cell, the last one first. -/
def Sys.members (S : Sys K) (l : ℤ) : ℕ → List ℕ
  | 0 => []
  | k + 1 => if S.linear (S.cell k) = l then k :: S.members l k else S.members l k

theorem mem_members (S : Sys K) (l : ℤ) (k i : ℕ) : i ∈ S.members l k ↔ i < k ∧ S.linear (S.cell i) = l := by
  induction k with
  | zero => simp [Sys.members]
  | succ k ih =>
    simp only [Sys.members]
    split_ifs with h
    · rw [List.mem_cons, ih]
      constructor
      · rintro (rfl | h1)
        · exact ⟨by omega, h⟩
        · exact ⟨by omega, h1.2⟩
      · rintro ⟨h1, h2⟩
        by_cases hk : i = k
        · exact Or.inl hk
        · exact Or.inr ⟨by omega, h2⟩
    · rw [ih]
      constructor
      · rintro ⟨h1, h2⟩; exact ⟨by omega, h2⟩
      · rintro ⟨h1, h2⟩
        refine ⟨?_, h2⟩
        have : i ≠ k := by rintro rfl; exact h h2
        omega

theorem members_nodup (S : Sys K) (l : ℤ) (k : ℕ) : (S.members l k).Nodup := by
  induction k with
  | zero => simp [Sys.members]
  | succ k ih =>
    simp only [Sys.members]
    split_ifs
    · exact List.nodup_cons.mpr ⟨fun h => by have := ((mem_members S l k k).mp h).1; omega, ih⟩
    · exact ih

theorem lists_eq (S : Sys K) (n : ℕ) :
    (∀ l, ((List.range n).foldl S.insert ⟨fun _ => none, fun _ => none⟩).head l = (S.members l n).head?) ∧
      ∀ i, i < n → ((List.range n).foldl S.insert ⟨fun _ => none, fun _ => none⟩).next i = (S.members (S.linear (S.cell i)) i).head? := by
  induction n with
  | zero => exact ⟨fun _ => rfl, fun i hi => absurd hi (by omega)⟩
  | succ n ih =>
    rw [List.range_succ, List.foldl_append]
    simp only [List.foldl_cons, List.foldl_nil, Sys.insert, Sys.members]
    refine ⟨fun l => ?_, fun i hi' => ?_⟩
    · by_cases h : S.linear (S.cell n) = l
      · rw [if_pos h, h]; simp
      · rw [if_neg h, Function.update_of_ne (fun h' => h h'.symm)]; exact ih.1 l
    · by_cases h : i = n
      · subst h; rw [Function.update_self]; exact ih.1 _
      · rw [Function.update_of_ne h]; exact ih.2 i (by omega)

theorem follow_members (S : Sys K) (l : ℤ) (k f : ℕ) (hk : k ≤ S.number) (hf : k ≤ f) :
    follow S.lists.next f (S.members l k).head? = S.members l k := by
  induction k generalizing f with
  | zero => cases f <;> rfl
  | succ k ih =>
    simp only [Sys.members]
    split_ifs with h
    · obtain ⟨f, rfl⟩ : ∃ g, f = g + 1 := ⟨f - 1, by omega⟩
      simp only [List.head?_cons, follow]
      have : S.lists.next k = (S.members (S.linear (S.cell k)) k).head? := (lists_eq S S.number).2 k (by omega)
      rw [this, h, ih f (by omega) (by omega)]
    · exact ih f (by omega) (by omega)

theorem chain_head (S : Sys K) (l : ℤ) : S.chain (S.lists.head l) = S.members l S.number := by
  have : S.lists.head l = (S.members l S.number).head? := (lists_eq S S.number).1 l
  rw [Sys.chain, this]
  exact follow_members S l _ _ le_rfl le_rfl

theorem chain_next (S : Sys K) (i : ℕ) (h : i < S.number) : S.chain (S.lists.next i) = S.members (S.linear (S.cell i)) i := by
  have : S.lists.next i = (S.members (S.linear (S.cell i)) i).head? := (lists_eq S S.number).2 i h
  rw [Sys.chain, this]
  exact follow_members S _ _ _ h.le h.le

/-! ## The calls for a pair -/

theorem inCell_ids {S : Sys K} {i j : ℕ} {v : Visit} (h : v ∈ S.inCell i j) : v.id1 = i ∧ v.id2 = j := by
  unfold Sys.inCell at h
  split_ifs at h <;> simp at h
  subst h; simp

theorem inNext_ids {S : Sys K} {i j : ℕ} {v : Visit} (h : v ∈ S.inNext i j) : v.id1 = i ∧ v.id2 = j := by
  unfold Sys.inNext at h
  split_ifs at h <;> simp at h <;> subst h <;> simp

theorem particle_ids {S : Sys K} {c : ℤ × ℤ} {i : ℕ} {v : Visit} (h : v ∈ S.particle c i) : v.id1 = i := by
  unfold Sys.particle at h
  rw [List.mem_append] at h
  rcases h with h | h
  · obtain ⟨j, _, h⟩ := List.mem_flatMap.mp h; exact (inCell_ids h).1
  · split_ifs at h
    · obtain ⟨t, _, h⟩ := List.mem_flatMap.mp h
      split_ifs at h
      · obtain ⟨j, _, h⟩ := List.mem_flatMap.mp h; exact (inNext_ids h).1
      · simp at h
    · simp at h

theorem filter_flatMap_first {f : ℕ → List Visit} (hf : ∀ k v, v ∈ f k → v.id1 = k) (i j : ℕ) (l : List ℕ) (hl : l.Nodup) :
    (l.flatMap f).filter (isOrd i j) = if i ∈ l then (f i).filter (isOrd i j) else [] := by
  induction l with
  | nil => simp
  | cons k l ih =>
    obtain ⟨h1, h2⟩ := List.nodup_cons.mp hl
    rw [List.flatMap_cons, List.filter_append, ih h2]
    by_cases hk : k = i
    · subst hk; rw [if_neg h1, if_pos (by simp), List.append_nil]
    · have : (f k).filter (isOrd i j) = [] := by
        rw [List.filter_eq_nil_iff]
        intro v hv
        simp only [isOrd, decide_eq_true_eq]
        rintro ⟨h, _⟩
        exact hk (by rw [← hf k v hv, h])
      rw [this, List.nil_append]
      simp [List.mem_cons, Ne.symm hk]

theorem filter_flatMap_single {α : Type} {f : α → List Visit} {p : Visit → Bool} {c : α} (l : List α) (hl : l.Nodup) (hc : c ∈ l)
    (h : ∀ d ∈ l, d ≠ c → (f d).filter p = []) : (l.flatMap f).filter p = (f c).filter p := by
  induction l with
  | nil => simp at hc
  | cons k l ih =>
    obtain ⟨h1, h2⟩ := List.nodup_cons.mp hl
    rw [List.flatMap_cons, List.filter_append]
    by_cases hk : k = c
    · subst hk
      have : (l.flatMap f).filter p = [] := by
        rw [List.filter_eq_nil_iff]
        intro v hv
        obtain ⟨d, hd, hv⟩ := List.mem_flatMap.mp hv
        have := h d (List.mem_cons_of_mem _ hd) (fun e => h1 (e ▸ hd))
        rw [List.filter_eq_nil_iff] at this
        exact this v hv
      rw [this, List.append_nil]
    · rw [h k (by simp) hk, List.nil_append]
      exact ih h2 (by simpa [Ne.symm hk] using hc) fun d hd => h d (List.mem_cons_of_mem _ hd)

theorem foldl_append_flatMap {α : Type} (f : α → List Visit) (l : List α) (s : List Visit) :
    l.foldl (fun s i => s ++ f i) s = s ++ l.flatMap f := by
  induction l generalizing s with
  | nil => simp
  | cons a l ih => simp [ih]

theorem stencil_eq : stencil = [(-1, -1), (0, -1), (1, -1), (-1, 0)] := by decide

theorem cell_bounds {S : Sys K} (hS : S.OK) (i : ℕ) :
    0 ≤ (S.cell i).1 ∧ (S.cell i).1 < S.ax.dim ∧ 0 ≤ (S.cell i).2 ∧ (S.cell i).2 < S.ay.dim := by
  have h1 := cellCoord_eq hS.validx (S.x i)
  have h2 := cellCoord_eq hS.validy (S.y i)
  have i1 := hS.validx.interior
  have i2 := hS.validy.interior
  simp only [Sys.cell]
  refine ⟨?_, ?_, ?_, ?_⟩ <;> omega

theorem linear_inj {S : Sys K} {c d : ℤ × ℤ} (hc : 0 ≤ c.2 ∧ c.2 < S.ay.dim) (hd : 0 ≤ d.2 ∧ d.2 < S.ay.dim) (h : S.linear c = S.linear d) : c = d := by
  simp only [Sys.linear] at h
  have h1 : c.1 = d.1 := by
    have e1 : (c.1 * (S.ay.dim : ℤ) + c.2) / S.ay.dim = c.1 := by
      rw [add_comm, Int.add_mul_ediv_right _ _ (by omega), Int.ediv_eq_zero_of_lt hc.1 hc.2, zero_add]
    have e2 : (d.1 * (S.ay.dim : ℤ) + d.2) / S.ay.dim = d.1 := by
      rw [add_comm, Int.add_mul_ediv_right _ _ (by omega), Int.ediv_eq_zero_of_lt hd.1 hd.2, zero_add]
    rw [← e1, ← e2, h]
  refine Prod.ext h1 ?_
  rw [h1] at h
  omega

theorem filter_particle {S : Sys K} (hS : S.OK) {i j : ℕ} (hi' : i < S.number) (hj : j < S.number) :
    (S.particle (S.cell i) i).filter (isOrd i j) =
      (if j < i ∧ S.cell j = S.cell i then S.inCell i j else []) ++
        if S.sigma i < S.mss ∧ ((S.cell j).1 - (S.cell i).1, (S.cell j).2 - (S.cell i).2) ∈ stencil then S.inNext i j else [] := by
  have hb := cell_bounds hS i
  have hbj := cell_bounds hS j
  unfold Sys.particle
  rw [List.filter_append]
  congr 1
  · rw [chain_next S i hi', filter_flatMap_ids (fun k v => inCell_ids) j _ (members_nodup S _ _)]
    have : (j ∈ S.members (S.linear (S.cell i)) i) ↔ (j < i ∧ S.cell j = S.cell i) := by
      rw [mem_members]
      constructor
      · rintro ⟨h1, h2⟩; exact ⟨h1, linear_inj ⟨hbj.2.2.1, hbj.2.2.2⟩ ⟨hb.2.2.1, hb.2.2.2⟩ h2⟩
      · rintro ⟨h1, h2⟩; exact ⟨h1, by rw [h2]⟩
    by_cases h : j ∈ S.members (S.linear (S.cell i)) i
    · rw [if_pos h, if_pos (this.mp h)]
    · rw [if_neg h, if_neg (fun h' => h (this.mpr h'))]
  · by_cases hs : S.sigma i < S.mss
    · rw [if_pos hs]
      have key : ∀ t : ℤ × ℤ,
          (if S.validCell (t.1 + (S.cell i).1, t.2 + (S.cell i).2) then
            (S.chain (S.lists.head (S.linear (t.1 + (S.cell i).1, t.2 + (S.cell i).2)))).flatMap (S.inNext i) else []).filter (isOrd i j) =
          if ((S.cell j).1 - (S.cell i).1, (S.cell j).2 - (S.cell i).2) = t then S.inNext i j else [] := by
        intro t
        by_cases hv : S.validCell (t.1 + (S.cell i).1, t.2 + (S.cell i).2) = true
        · rw [if_pos hv, chain_head, filter_flatMap_ids (fun k v => inNext_ids) j _ (members_nodup S _ _)]
          simp only [Sys.validCell, Bool.not_eq_true', Bool.or_eq_false_iff, decide_eq_false_iff_not, not_lt, not_le] at hv
          have : (j ∈ S.members (S.linear (t.1 + (S.cell i).1, t.2 + (S.cell i).2)) S.number) ↔
              ((S.cell j).1 - (S.cell i).1, (S.cell j).2 - (S.cell i).2) = t := by
            rw [mem_members]
            constructor
            · rintro ⟨_, h2⟩
              have := linear_inj (S := S) ⟨hbj.2.2.1, hbj.2.2.2⟩ ⟨hv.1.2, hv.2⟩ h2
              rw [this]
              simp
            · intro h
              refine ⟨hj, ?_⟩
              rw [← h]
              simp
          by_cases h : j ∈ S.members (S.linear (t.1 + (S.cell i).1, t.2 + (S.cell i).2)) S.number
          · rw [if_pos h, if_pos (this.mp h)]
          · rw [if_neg h, if_neg (fun h' => h (this.mpr h'))]
        · rw [if_neg hv, if_neg]
          · rfl
          · intro h
            apply hv
            rw [← h]
            simp only [Sys.validCell, sub_add_cancel, Bool.not_eq_true', Bool.or_eq_false_iff, decide_eq_false_iff_not, not_lt, not_le]
            exact ⟨⟨⟨hbj.1, hbj.2.1⟩, hbj.2.2.1⟩, hbj.2.2.2⟩
      have hnd : stencil.Nodup := by rw [stencil_eq]; decide
      by_cases hm : ((S.cell j).1 - (S.cell i).1, (S.cell j).2 - (S.cell i).2) ∈ stencil
      · rw [if_pos ⟨hs, hm⟩, filter_flatMap_single _ hnd hm, key, if_pos rfl]
        intro d _ hd
        rw [key, if_neg (fun h => hd h.symm)]
      · rw [if_neg (fun h => hm h.2), List.filter_eq_nil_iff]
        intro v hv
        obtain ⟨t, ht, hv⟩ := List.mem_flatMap.mp hv
        have := key t
        rw [if_neg (show ¬ ((S.cell j).1 - (S.cell i).1, (S.cell j).2 - (S.cell i).2) = t from fun h => hm (by rw [h]; exact ht)), List.filter_eq_nil_iff] at this
        exact this v hv
    · rw [if_neg hs, if_neg (fun h => hs h.1)]; rfl

theorem filter_traverse {S : Sys K} (hS : S.OK) {i j : ℕ} (hi' : i < S.number) (hj : j < S.number) :
    S.traverse.filter (isOrd i j) =
      (if j < i ∧ S.cell j = S.cell i then S.inCell i j else []) ++
        if S.sigma i < S.mss ∧ ((S.cell j).1 - (S.cell i).1, (S.cell j).2 - (S.cell i).2) ∈ stencil then S.inNext i j else [] := by
  obtain ⟨L, h1, h2, -, -, h3, -⟩ := C101_for_loop 1 (fun _ => 0) (fun k => if k = 0 then (S.ax.dim : ℤ) else S.ay.dim)
  have hb := cell_bounds hS i
  unfold Sys.traverse
  rw [h3, foldl_append_flatMap, List.nil_append]
  have hc : ∀ c : Fin 2 → ℤ, (S.cellVisits (c 0, c 1)).filter (isOrd i j) =
      if i ∈ S.members (S.linear (c 0, c 1)) S.number then (S.particle (c 0, c 1) i).filter (isOrd i j) else [] := by
    intro c
    unfold Sys.cellVisits
    rw [chain_head, filter_flatMap_first (fun k v => particle_ids) i j _ (members_nodup S _ _)]
  have hin : (![(S.cell i).1, (S.cell i).2] : Fin 2 → ℤ) ∈ L := by
    rw [h2]
    intro k
    fin_cases k
    · exact ⟨hb.1, by simpa using hb.2.1⟩
    · exact ⟨hb.2.2.1, by simpa using hb.2.2.2⟩
  rw [filter_flatMap_single L h1 hin]
  · rw [hc, if_pos (show i ∈ S.members (S.linear (![(S.cell i).1, (S.cell i).2] 0, ![(S.cell i).1, (S.cell i).2] 1)) S.number from
      (mem_members S _ _ _).mpr ⟨hi', rfl⟩)]
    exact filter_particle hS hi' hj
  · intro d hd hne
    rw [hc, if_neg]
    intro hm
    have := ((mem_members S _ _ _).mp hm).2
    have hd' := (h2 d).mp hd
    have e := linear_inj (S := S) (c := S.cell i) (d := (d 0, d 1)) ⟨hb.2.2.1, hb.2.2.2⟩ (by simpa using hd' 1) this
    apply hne
    funext k
    fin_cases k
    · simp [e]
    · simp [e]

theorem r2_comm (S : Sys K) (i j : ℕ) : S.r2 i j = S.r2 j i := by simp only [Sys.r2]; ring

theorem reach_comm {S : Sys K} (hS : S.OK) {i j : ℕ} (hi' : i < S.number) (hj : j < S.number) : S.reach i j = S.reach j i := by
  simp only [Sys.reach, hS.cut_symm i j hi' hj, add_comm]

/-- The offset between the cells of two particles. -/
def Sys.offset (S : Sys K) (i j : ℕ) : ℤ × ℤ := ((S.cell j).1 - (S.cell i).1, (S.cell j).2 - (S.cell i).2)

theorem stencil_half (t : ℤ × ℤ) (h1 : |t.1| ≤ 1) (h2 : |t.2| ≤ 1) (h0 : t ≠ 0) : (t ∈ stencil ∧ -t ∉ stencil) ∨ (t ∉ stencil ∧ -t ∈ stencil) := by
  obtain ⟨a, b⟩ := t
  rw [abs_le] at h1 h2
  simp only at h1 h2
  obtain ⟨h1, h1'⟩ := h1
  obtain ⟨h2, h2'⟩ := h2
  rw [stencil_eq]
  interval_cases a <;> interval_cases b <;> simp_all

theorem stencil_near {t : ℤ × ℤ} (h : t ∈ stencil) : |t.1| ≤ 1 ∧ |t.2| ≤ 1 ∧ t ≠ 0 ∧ -t ∉ stencil := by
  rw [stencil_eq] at h ⊢
  simp only [List.mem_cons, List.not_mem_nil, or_false] at h
  rcases h with rfl | rfl | rfl | rfl <;> decide

theorem zero_stencil : (0 : ℤ × ℤ) ∉ stencil := by rw [stencil_eq]; decide

theorem offset_neg (S : Sys K) (i j : ℕ) : S.offset j i = - S.offset i j := by
  simp only [Sys.offset]
  refine Prod.ext ?_ ?_ <;> simp

theorem offset_zero (S : Sys K) (i j : ℕ) : S.offset i j = 0 ↔ S.cell j = S.cell i := by
  simp only [Sys.offset, Prod.ext_iff, Prod.fst_zero, Prod.snd_zero]
  omega

theorem coord_near {a : Axis K} (ha : a.Valid) {x y : K} (h : |x - y| < a.w) : |cellCoord a y - cellCoord a x| ≤ 1 := by
  have hw := ha.wpos
  have hlt : |(x - a.lo) / a.w - (y - a.lo) / a.w + ((0 : ℤ) : K)| < ((1 : ℕ) : K) := by
    rw [show (x - a.lo) / a.w - (y - a.lo) / a.w + ((0 : ℤ) : K) = (x - y) / a.w by push_cast; field_simp; ring, abs_div, abs_of_pos hw,
      div_lt_iff₀ hw]
    simpa using h
  have hf := floor_close hlt
  rw [cellCoord_eq ha, cellCoord_eq ha]
  rw [abs_le] at hf ⊢
  push_cast at hf
  have := ha.interior
  constructor <;> omega

theorem inCell_zero {S : Sys K} {i j : ℕ} (h : S.sigma j ≤ S.mss) (hr : S.r2 i j < S.reach i j ^ 2) : S.inCell i j = [⟨i, j, 0⟩] := by
  simp [Sys.inCell, h, hr]

theorem inNext_zero {S : Sys K} {i j : ℕ} (h : S.sigma j ≤ S.mss) (hr : S.r2 i j < S.reach i j ^ 2) : S.inNext i j = [⟨i, j, 0⟩] := by
  simp [Sys.inNext, not_lt.mpr h, hr]

/-- Close particles are in the same cell or in neighbouring ones. -/
theorem close_offset {S : Sys K} (hS : S.OK) {i j : ℕ} (hi' : i < S.number) (hj : j < S.number)
    (hs : S.sigma i ≤ S.mss) (hs' : S.sigma j ≤ S.mss) (hwx : 2 * S.mss + S.skin ≤ S.ax.w) (hwy : 2 * S.mss + S.skin ≤ S.ay.w)
    (hr : S.r2 i j < S.reach i j ^ 2) : |(S.offset i j).1| ≤ 1 ∧ |(S.offset i j).2| ≤ 1 := by
  have c1 := hS.cut_le i j hi' hj
  have c2 := hS.cut_le j i hj hi'
  have hsym := hS.cut_symm i j hi' hj
  have hR : S.reach i j ≤ 2 * S.mss + S.skin := by
    have e1 : S.sg i * S.cut (S.type i) (S.type j) ≤ S.sigma i := mul_le_mul_of_nonneg_left c1.1 (hS.sg_nonneg i hi')
    have e2 : S.sg j * S.cut (S.type i) (S.type j) ≤ S.sigma j := by
      rw [hsym]; exact mul_le_mul_of_nonneg_left c2.1 (hS.sg_nonneg j hj)
    simp only [Sys.reach, add_mul]
    linarith
  have hR0 : 0 ≤ S.reach i j := add_nonneg (mul_nonneg (add_nonneg (hS.sg_nonneg i hi') (hS.sg_nonneg j hj)) c1.2) hS.skin_nonneg
  simp only [Sys.r2] at hr
  have hx : |S.x i - S.x j| < S.ax.w := by
    have : |S.x i - S.x j| < S.reach i j := abs_lt_of_sq_add_lt hR0 (sq_nonneg (S.y i - S.y j)) hr
    linarith
  have hy : |S.y i - S.y j| < S.ay.w := by
    have : |S.y i - S.y j| < S.reach i j := abs_lt_of_sq_add_lt hR0 (sq_nonneg (S.x i - S.x j)) (by rw [add_comm]; exact hr)
    linarith
  exact ⟨coord_near hS.validx hx, coord_near hS.validy hy⟩

/-! ## Theorems -/

/-- C103. In the linked list domain, with no particle as large as the limit of the small ones and cells at least as wide as the cutoff: a pair of
particles closer than its interaction distance plus the skin is reported exactly once, as an ordinary pair; no other pair is reported as an
ordinary pair; no pair is reported twice.
Missing: periodic boundaries, large particles, particles exactly at the limit and boxes narrower than four cutoffs
(`C103_negation_periodic`, `C103_negation_large`, `C103_negation_limit`, `C103_negation_narrow`). -/
theorem C103_pairs_partial (S : Sys K) (hS : S.OK) (i j : ℕ) (hi' : i < S.number) (hj : j < S.number) (hij : i ≠ j)
    (hsmall : ∀ k, k < S.number → S.sigma k < S.mss) (hwx : 2 * S.mss + S.skin ≤ S.ax.w) (hwy : 2 * S.mss + S.skin ≤ S.ay.w) :
    (S.r2 i j < S.reach i j ^ 2 → S.traverse.countP (IsPair i j) = 1 ∧ ∀ v ∈ S.traverse, IsPair i j v → v.list = 0) ∧
    (¬ S.r2 i j < S.reach i j ^ 2 → ∀ v ∈ S.traverse, IsPair i j v → v.list = 1) ∧
    S.traverse.countP (IsPair i j) ≤ 1 := by
  have f1 := filter_traverse hS hi' hj
  have f2 := filter_traverse hS hj hi'
  have hsi := hsmall i hi'
  have hsj := hsmall j hj
  change _ = _ ++ if S.sigma i < S.mss ∧ S.offset i j ∈ stencil then S.inNext i j else [] at f1
  change _ = _ ++ if S.sigma j < S.mss ∧ S.offset j i ∈ stencil then S.inNext j i else [] at f2
  rw [offset_neg] at f2
  have hcnt := isPair_count hij S.traverse
  have hkind : ∀ v ∈ S.traverse, IsPair i j v → v ∈ S.inCell i j ∨ v ∈ S.inCell j i ∨ v ∈ S.inNext i j ∨ v ∈ S.inNext j i := by
    intro v hv hp
    simp only [IsPair, decide_eq_true_eq] at hp
    rcases hp with hp | hp
    · have : v ∈ S.traverse.filter (isOrd i j) := List.mem_filter.mpr ⟨hv, by simp [isOrd, hp]⟩
      rw [f1, List.mem_append] at this
      rcases this with h | h <;> split_ifs at h <;> simp_all
    · have : v ∈ S.traverse.filter (isOrd j i) := List.mem_filter.mpr ⟨hv, by simp [isOrd, hp]⟩
      rw [f2, List.mem_append] at this
      rcases this with h | h <;> split_ifs at h <;> simp_all
  have lc : ∀ a b, (S.inCell a b).length ≤ 1 := fun a b => by unfold Sys.inCell; split_ifs <;> simp
  have ln : ∀ a b, (S.inNext a b).length ≤ 1 := fun a b => by unfold Sys.inNext; split_ifs <;> simp
  refine ⟨fun hr => ?_, fun hr v hv hp => ?_, ?_⟩
  · have hr' : S.r2 j i < S.reach j i ^ 2 := by rw [r2_comm, ← reach_comm hS hi' hj]; exact hr
    constructor
    · rw [hcnt, f1, f2]
      rw [inCell_zero hsj.le hr, inCell_zero hsi.le hr', inNext_zero hsj.le hr, inNext_zero hsi.le hr']
      obtain ⟨o1, o2⟩ := close_offset hS hi' hj hsi.le hsj.le hwx hwy hr
      by_cases h0 : S.offset i j = 0
      · have hc := (offset_zero S i j).mp h0
        have z1 : ¬ (S.sigma i < S.mss ∧ S.offset i j ∈ stencil) := fun h => zero_stencil (h0 ▸ h.2)
        have z2 : ¬ (S.sigma j < S.mss ∧ -S.offset i j ∈ stencil) := fun h => zero_stencil (by have := h.2; rwa [h0, neg_zero] at this)
        rw [if_neg z1, if_neg z2]
        rcases lt_or_gt_of_ne hij with h | h
        · simp [h, not_lt.mpr h.le, hc]
        · simp [h, not_lt.mpr h.le, hc]
      · have hc : ¬ (j < i ∧ S.cell j = S.cell i) := fun h => h0 ((offset_zero S i j).mpr h.2)
        have hc' : ¬ (i < j ∧ S.cell i = S.cell j) := fun h => h0 ((offset_zero S i j).mpr h.2.symm)
        rw [if_neg hc, if_neg hc']
        rcases stencil_half _ o1 o2 h0 with ⟨h1, h2⟩ | ⟨h1, h2⟩
        · rw [if_pos ⟨hsi, h1⟩, if_neg (fun h => h2 h.2)]; rfl
        · rw [if_neg (show ¬ (S.sigma i < S.mss ∧ S.offset i j ∈ stencil) from fun h => h1 h.2), if_pos ⟨hsj, h2⟩]; rfl
    · intro v hv hp
      rcases hkind v hv hp with h | h | h | h
      · rw [inCell_zero hsj.le hr] at h; simp at h; rw [h]
      · rw [inCell_zero hsi.le hr'] at h; simp at h; rw [h]
      · rw [inNext_zero hsj.le hr] at h; simp at h; rw [h]
      · rw [inNext_zero hsi.le hr'] at h; simp at h; rw [h]
  · have hr' : ¬ S.r2 j i < S.reach j i ^ 2 := by rw [r2_comm, ← reach_comm hS hi' hj]; exact hr
    rcases hkind v hv hp with h | h | h | h
    · simp [Sys.inCell, hr] at h
    · simp [Sys.inCell, hr'] at h
    · simp only [Sys.inNext, if_neg hr] at h
      split_ifs at h <;> simp at h
      rw [h]
    · simp only [Sys.inNext, if_neg hr'] at h
      split_ifs at h <;> simp at h
      rw [h]
  · rw [hcnt, f1, f2]
    by_cases h0 : S.offset i j = 0
    · have hc := (offset_zero S i j).mp h0
      have z1 : ¬ (S.sigma i < S.mss ∧ S.offset i j ∈ stencil) := fun h => zero_stencil (h0 ▸ h.2)
      have z2 : ¬ (S.sigma j < S.mss ∧ -S.offset i j ∈ stencil) := fun h => zero_stencil (by have := h.2; rwa [h0, neg_zero] at this)
      rw [if_neg z1, if_neg z2]
      rcases lt_or_gt_of_ne hij with h | h
      · simpa [h, not_lt.mpr h.le, hc] using lc j i
      · simpa [h, not_lt.mpr h.le, hc] using lc i j
    · have hc : ¬ (j < i ∧ S.cell j = S.cell i) := fun h => h0 ((offset_zero S i j).mpr h.2)
      have hc' : ¬ (i < j ∧ S.cell i = S.cell j) := fun h => h0 ((offset_zero S i j).mpr h.2.symm)
      rw [if_neg hc, if_neg hc']
      by_cases h1 : S.offset i j ∈ stencil
      · have h2 := (stencil_near h1).2.2.2
        rw [if_neg (show ¬ (S.sigma j < S.mss ∧ -S.offset i j ∈ stencil) from fun h => h2 h.2)]
        have := ln i j
        split_ifs <;> simp [this]
      · rw [if_neg (show ¬ (S.sigma i < S.mss ∧ S.offset i j ∈ stencil) from fun h => h1 h.2)]
        have := ln j i
        split_ifs <;> simp [this]

/-- Particles that are not in the same or in neighbouring cells are never reported, whatever the boundaries are. -/
theorem far_cells (S : Sys K) (hS : S.OK) (i j : ℕ) (hi' : i < S.number) (hj : j < S.number) (hij : i ≠ j)
    (h : 1 < |(S.offset i j).1| ∨ 1 < |(S.offset i j).2|) : S.traverse.countP (IsPair i j) = 0 := by
  have f1 := filter_traverse hS hi' hj
  have f2 := filter_traverse hS hj hi'
  change _ = _ ++ if S.sigma i < S.mss ∧ S.offset i j ∈ stencil then S.inNext i j else [] at f1
  change _ = _ ++ if S.sigma j < S.mss ∧ S.offset j i ∈ stencil then S.inNext j i else [] at f2
  rw [offset_neg] at f2
  have h0 : S.offset i j ≠ 0 := by
    intro h0; rw [h0] at h; simp at h
  have hc : ¬ S.cell j = S.cell i := fun h => h0 ((offset_zero S i j).mpr h)
  have hc' : ¬ S.cell i = S.cell j := fun h => hc h.symm
  have n1 : S.offset i j ∉ stencil := by
    intro hm; have := stencil_near hm; rcases h with h | h <;> omega
  have n2 : -S.offset i j ∉ stencil := by
    intro hm
    have := stencil_near hm
    simp only [Prod.fst_neg, Prod.snd_neg, abs_neg] at this
    rcases h with h | h <;> omega
  rw [isPair_count hij, f1, f2]
  simp [hc, hc', n1, n2]

/-- C103, negation. Pairs across a periodic boundary are never reported: the first particle of a row and the last one, in a grid of at least
three cells, are not reported however close the images are. -/
theorem C103_negation_periodic (S : Sys K) (hS : S.OK) (i j : ℕ) (hi' : i < S.number) (hj : j < S.number)
    (hdim : 3 ≤ S.ax.dim - S.ax.up - S.ax.down) (hfirst : S.x i < S.ax.lo + S.ax.w) (hlast : S.ax.hi - S.ax.w ≤ S.x j) :
    S.traverse.countP (IsPair i j) = 0 := by
  have hw := hS.validx.wpos
  have hint := hS.validx.interior
  have htile := hS.validx.tiles
  have h1 : ⌊(S.x i - S.ax.lo) / S.ax.w⌋ < 1 := by
    rw [Int.floor_lt, div_lt_iff₀ hw]; push_cast; linarith
  have h2 : ((S.ax.dim - S.ax.down - S.ax.up : ℕ) : ℤ) - 1 ≤ ⌊(S.x j - S.ax.lo) / S.ax.w⌋ := by
    rw [Int.le_floor, le_div_iff₀ hw]
    push_cast
    have : (((S.ax.dim - S.ax.down - S.ax.up : ℕ) : K) - 1) * S.ax.w = S.ax.hi - S.ax.lo - S.ax.w := by rw [sub_mul, htile]; ring
    rw [this]
    linarith
  have c1 := cellCoord_eq hS.validx (S.x i)
  have c2 := cellCoord_eq hS.validx (S.x j)
  have hoff : 1 < (S.offset i j).1 := by
    simp only [Sys.offset, Sys.cell]
    omega
  refine far_cells S hS i j hi' hj ?_ (Or.inl (lt_of_lt_of_le hoff (le_abs_self _)))
  rintro rfl
  simp [Sys.offset] at hoff

/-- C103, negation. A particle larger than the limit is never reported with a particle of another cell, however close. -/
theorem C103_negation_large (S : Sys K) (hS : S.OK) (i j : ℕ) (hi' : i < S.number) (hj : j < S.number) (hij : i ≠ j)
    (hl : S.mss < S.sigma i) (hc : S.cell j ≠ S.cell i) : S.traverse.countP (IsPair i j) = 0 := by
  have hc' : ¬ S.cell i = S.cell j := fun h => hc h.symm
  rw [isPair_count hij, filter_traverse hS hi' hj, filter_traverse hS hj hi']
  simp [hc, hc', not_lt.mpr hl.le, Sys.inNext, hl]

/-- C103, negation. Particles exactly at the limit count as small when they are the second particle of a pair and as large when they are the
first one: two of them in different cells are never reported. -/
theorem C103_negation_limit (S : Sys K) (hS : S.OK) (i j : ℕ) (hi' : i < S.number) (hj : j < S.number) (hij : i ≠ j)
    (hl : S.sigma i = S.mss) (hl' : S.sigma j = S.mss) (hc : S.cell j ≠ S.cell i) : S.traverse.countP (IsPair i j) = 0 := by
  have hc' : ¬ S.cell i = S.cell j := fun h => hc h.symm
  rw [isPair_count hij, filter_traverse hS hi' hj, filter_traverse hS hj hi']
  simp [hc, hc', hl, hl']

/-- A row of particles of radius 1/2 in a box of the size 10 with 8 cells in each direction. -/
def row (n : ℕ) (x : ℕ → ℚ) (m : ℚ) : Sys ℚ :=
  { ax := ⟨0, 10, 8, 5/4, 0, 0⟩, ay := ⟨0, 10, 8, 5/4, 0, 0⟩, number := n, x := x, y := fun _ => 5, sg := fun _ => 1/2, type := fun _ => 0
    cut := fun _ _ => 1, maxCut := fun _ => 1, mss := m, skin := 1/10, wx := 10, wy := 10 }

theorem row_ok (n : ℕ) (x : ℕ → ℚ) (m : ℚ) : (row n x m).OK :=
  ⟨⟨by norm_num [row], by norm_num [row], by norm_num [row], by norm_num [row]⟩, ⟨by norm_num [row], by norm_num [row], by norm_num [row], by norm_num [row]⟩,
    fun _ _ => by norm_num [row], fun _ _ _ _ => by norm_num [row], fun _ _ _ _ => rfl, by norm_num [row]⟩

/-- The hypotheses of `C103_pairs_partial` hold for a row of three particles of which two touch. -/
example : (∀ k, k < (row 3 (fun k => k * (9/10)) (11/20)).number → (row 3 (fun k => k * (9/10)) (11/20)).sigma k < (row 3 (fun k => k * (9/10)) (11/20)).mss) ∧
    2 * (row 3 (fun k => k * (9/10)) (11/20)).mss + (row 3 (fun k => k * (9/10)) (11/20)).skin ≤ (row 3 (fun k => k * (9/10)) (11/20)).ax.w ∧
    (row 3 (fun k => k * (9/10)) (11/20)).traverse = [⟨1, 0, 0⟩, ⟨2, 1, 0⟩] := by
  refine ⟨fun k _ => by norm_num [row, Sys.sigma], by norm_num [row], by decide +kernel⟩

/-- Particles at both ends of the row: their images overlap, no pair is reported. -/
example : (row 2 (fun k => if k = 0 then 1/10 else 99/10) (11/20)).traverse = [] ∧ 3 ≤ (row 2 (fun k => if k = 0 then 1/10 else 99/10) (11/20)).ax.dim := by
  exact ⟨by decide +kernel, by norm_num [row]⟩

/-- Particles that overlap but are in different cells, at the limit (`1/2`) and above it (`2/5`): no pair is reported. -/
example : (row 2 (fun k => if k = 0 then 1 else 3/2) (1/2)).traverse = [] ∧ (row 2 (fun k => if k = 0 then 1 else 3/2) (2/5)).traverse = [] ∧
    (row 2 (fun k => if k = 0 then 1 else 3/2) (1/2)).r2 0 1 = 1/4 := by
  refine ⟨by decide +kernel, by decide +kernel, by norm_num [row, Sys.r2]⟩

/-- C103, negation. A box of fewer than four target cells is divided into four cells, narrower than the cutoff: overlapping particles two
cells apart are not reported, although everything else is as in `C103_pairs_partial`. The grid is the one that
`calculate_domain_cell_dimensions`, `domains/domain-list.cpp:162-184` (the same code as for `Domain`), computes. -/
theorem C103_negation_narrow : ∃ (S : Sys ℚ) (a : Axis ℚ), S.OK ∧ calcAxis (2 * S.mss + S.skin) 0 (13/5) false false = some a ∧ S.ax = a ∧ S.ay = a ∧
    (∀ k, S.sigma k < S.mss) ∧ S.number = 2 ∧ S.r2 0 1 < S.reach 0 1 ^ 2 ∧ S.traverse = [] := by
  refine ⟨{ ax := ⟨0, 13/5, 4, 13/20, 0, 0⟩, ay := ⟨0, 13/5, 4, 13/20, 0, 0⟩, number := 2, x := fun k => if k = 0 then 3/5 else 7/5, y := fun _ => 1
            sg := fun _ => 1/2, type := fun _ => 0, cut := fun _ _ => 1, maxCut := fun _ => 1, mss := 11/20, skin := 1/10, wx := 13/5, wy := 13/5 },
    ⟨0, 13/5, 4, 13/20, 0, 0⟩, ?_, ?_, rfl, rfl, ?_, rfl, ?_, ?_⟩
  · exact ⟨⟨by norm_num, by norm_num, by norm_num, by norm_num⟩, ⟨by norm_num, by norm_num, by norm_num, by norm_num⟩,
      fun _ _ => by norm_num, fun _ _ _ _ => by norm_num, fun _ _ _ _ => rfl, by norm_num⟩
  · have e : trunc (((13 : ℚ)/5 - 0) / (2 * (11/20) + 1/10)) = 2 := by decide +kernel
    simp only [calcAxis, e]
    norm_num
    rfl
  · intro k; norm_num [Sys.sigma]
  · norm_num [Sys.r2, Sys.reach]
  · decide +kernel

end Verif.LinkedList
